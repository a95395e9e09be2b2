{"claims": [
 {"property": "C01", "status": "proved", "theorems": ["Einsum.C01_invalid_iff", "Einsum.C01_pieces", "Einsum.C01_regex", "Einsum.C01_unambiguous"], "note": "for all strings and hash orders; both against the concrete grammar and against the regular expression in the source"},
 {"property": "C02", "status": "proved", "theorems": ["Einsum.C02_accepted_iff", "Einsum.C02_errors"], "note": "for all strings with an explicit output"},
 {"property": "C03", "status": "proved", "theorems": ["Einsum.C03_implicit"], "note": "for all strings without an arrow"},
 {"property": "C04", "status": "proved", "theorems": ["Einsum.C04_summation"], "note": "for every accepted string"},
 {"property": "C05", "status": "proved", "theorems": ["Einsum.C05_success_independent", "Einsum.C05_invalid_independent", "Einsum.C05_messages"], "note": "the exact set of messages possible over all hash orders is characterised"},
 {"property": "C06", "status": "proved", "theorems": ["Einsum.C06_sizing_iff", "Einsum.C06_sized_iff_consistent", "Einsum.C06_errors"], "note": "exact success condition and exact error reported"},
 {"property": "C07", "status": "proved", "theorems": ["Einsum.C07_output_size"], "note": "for every successful sizing"},
 {"property": "C08", "status": "proved", "theorems": ["Einsum.C08_roundtrip"], "note": "for every successful sizing and any two hash orders"},
 {"property": "C09", "status": "proved", "theorems": ["Einsum.C09_subset_iff", "Einsum.C09_subset_result"], "note": "exact success condition and result; the messages are classified by C97_subset"},
 {"property": "C10", "status": "proved", "theorems": ["Einsum.C10_singleton", "Einsum.C10_steps", "Einsum.C10_each_once"], "note": ""},
 {"property": "C11", "status": "proved", "theorems": ["Einsum.C11_compiles", "Einsum.C11_unsupported"], "note": ""},
 {"property": "C12", "status": "proved", "theorems": ["Einsum.C12_labels"], "note": ""},
 {"property": "C13", "status": "proved", "theorems": ["Einsum.C13_einsum", "Einsum.C13_sound", "Einsum.C13_err_iff"], "note": ""},
 {"property": "C14", "status": "proved", "theorems": ["Einsum.C14_lawless", "Einsum.C14_iff", "Einsum.C14_otherwise", "Einsum.C14_fresh"], "note": "exact: C14_iff and C14_otherwise split all valid calls; C14_fresh is the simple form for freshly created operands; C14_lawless for element types without laws"},
 {"property": "C15", "status": "proved", "theorems": ["Einsum.C15_lawless", "Einsum.C15_shape"], "note": ""},
 {"property": "C16", "status": "proved", "theorems": ["Einsum.C16_layout_and_order", "Einsum.C16_returned"], "note": ""},
 {"property": "C17", "status": "proved", "theorems": ["Einsum.C17_lawless", "Einsum.C17_entry_points", "Einsum.C17_all_or_none"], "note": "C17_all_or_none covers every valid call, including the panics; C17_lawless for element types without laws"},
 {"property": "C18", "status": "proved", "theorems": ["Einsum.C18_reuse", "Einsum.C18_each"], "note": "C18_each covers every run, including the panics"},
 {"property": "C19", "status": "proved", "theorems": ["Einsum.C19_fewer", "Einsum.C19_extra"], "note": "for every string, hash order and both methods; the operands at run time may have another element type"},
 {"property": "C20", "status": "proved", "theorems": ["Einsum.C20_shapes_unchecked", "Einsum.C20_rank"], "note": "witness for the whole path; the rank statement is per pair step, for operands with at least one label (a scalar-position operand of any rank is accepted)"},
 {"property": "C21", "status": "proved", "theorems": ["Einsum.C21_tensordot", "Einsum.C21_einsum"], "note": ""},
 {"property": "C22", "status": "proved", "theorems": ["Einsum.C22_lawless", "Einsum.C22_args"], "note": ""},
 {"property": "C23", "status": "proved", "theorems": ["Einsum.C23_products_only", "Einsum.C23_counterexample"], "note": ""},
 {"property": "C24", "status": "proved", "theorems": ["Einsum.C24_singleton"], "note": ""},
 {"property": "C25", "status": "proved", "theorems": ["Einsum.C25_pair"], "note": ""},
 {"property": "C26", "status": "proved", "theorems": ["Einsum.C26_returned", "Einsum.C26_empty_sum"], "note": ""},
 {"property": "C27", "status": "proved", "theorems": ["Einsum.C27_all", "Einsum.C27_operand_order"], "note": ""},
 {"property": "C28", "status": "proved", "theorems": ["Einsum.C28_all", "Einsum.C28_rename"], "note": ""},
 {"property": "C29", "status": "proved", "theorems": ["Einsum.C29_returned", "Einsum.C29_additive"], "note": ""},
 {"property": "C30", "status": "proved", "theorems": ["Einsum.C30_returned", "Einsum.C30_homogeneous"], "note": ""},
 {"property": "C31", "status": "proved", "theorems": ["Einsum.C31_all", "Einsum.C31_output_order"], "note": ""},
 {"property": "C32", "status": "proved", "theorems": ["Einsum.C32_returned", "Einsum.C32_staged"], "note": ""},
 {"property": "C33", "status": "proved", "theorems": ["Einsum.C33_returned", "Einsum.C33_hom", "Einsum.C33_wrapping"], "note": ""},
 {"property": "C34", "status": "proved", "theorems": ["Einsum.C34_reversed", "Einsum.C34_not_operand_order"], "note": "the result is computed for every semiring; a matrix ring shows the two orders differ"},
 {"property": "C35", "status": "proved", "theorems": ["Einsum.C35_all", "Einsum.C35_printed"], "note": ""},
 {"property": "C36", "status": "proved", "theorems": ["Einsum.C36_diagonal_view"], "note": ""},
 {"property": "C37", "status": "proved", "theorems": ["Einsum.C37_stacked"], "note": ""},
 {"property": "C38", "status": "proved", "theorems": ["Einsum.C38_broadcast"], "note": ""},
 {"property": "C39", "status": "proved", "theorems": ["Einsum.C39_panics_iff", "Einsum.C39_right"], "note": ""},
 {"property": "C40", "status": "proved", "theorems": ["Einsum.C40_copy", "Einsum.C40_transpose", "Einsum.C40_trace", "Einsum.C40_diagonal", "Einsum.C40_row_sums", "Einsum.C40_total", "Einsum.C40_matrix_product", "Einsum.C40_matrix_vector", "Einsum.C40_dot_product", "Einsum.C40_outer_product", "Einsum.C40_elementwise_product", "Einsum.C40_batch_product", "Einsum.C40_bilinear", "Einsum.C40_transpose_twice"], "note": ""},
 {"property": "C41", "status": "proved", "theorems": ["Einsum.C41_path", "Einsum.C41_singleton", "Einsum.C41_pair", "Einsum.C41_diagonal_view", "Einsum.C41_slice", "Einsum.C41_einsum", "Einsum.C41_tensordot"], "note": ""},
 {"property": "C42", "status": "proved", "theorems": ["Einsum.C42_pair", "Einsum.C42_path", "Einsum.C42_einsum", "Einsum.C42_operands", "Einsum.C42_tensordot", "Einsum.C42_checked", "Einsum.C42_tensordot_checked", "Einsum.C42_overflow", "Einsum.C42_wraps"], "note": "The copy of the constructors with bounded words is Model/Overflow.lean; only the multiplications of axis lengths in pair_contractors.rs are bounded (usize addition of axis counts is not modelled as overflowing). C42_overflow and C42_wraps are the finding that intermediates can overflow."},
 {"property": "C43", "status": "proved", "theorems": ["Einsum.C43_order_observable", "Einsum.C43_laws"], "note": "witness over a commutative, non-associative element type"},
 {"property": "C44", "status": "proved", "theorems": ["Einsum.C44_hadamard", "Einsum.C44_hadamard_general", "Einsum.C44_scalar_matrix", "Einsum.C44_scalar_matrix_general", "Einsum.C44_matrix_scalar", "Einsum.C44_matrix_scalar_general", "Einsum.C44_tensordot_general", "Einsum.C44_tensordot_fixed"], "note": "labels, lengths, layouts and element types all universally quantified"},
 {"property": "C45", "status": "proved", "theorems": ["Einsum.C45_positions_unchecked"], "note": "witness"},
 {"property": "C46", "status": "proved", "theorems": ["Einsum.C46_identity", "Einsum.C46_permutation", "Einsum.C46_summation", "Einsum.C46_permutation_summation", "Einsum.C46_diagonalization"], "note": "labels, lengths, layouts and element types all universally quantified"},
 {"property": "C47", "status": "proved", "theorems": ["Einsum.C47_singleton", "Einsum.C47_pair", "Einsum.C47_method_det", "Einsum.C47_unused"], "note": "exact selection tables over label sets, independent of hash order and lengths"},
 {"property": "C48", "status": "proved", "theorems": ["Einsum.C48_einsum", "Einsum.C48_reverse", "Einsum.C48_operand_order", "Einsum.C48_two"], "note": "IsEinsumOrdered/orderedTerm in Spec; any semiring"},
 {"property": "C49", "status": "proved", "theorems": ["Einsum.C49_strings", "Einsum.C49_denotes", "Einsum.C49_not_accepted", "Einsum.C49_same_result"], "note": "text/Denotes in Spec; strings accepted iff both operands keep a label (given letters)"},
 {"property": "C50", "status": "proved", "theorems": ["Einsum.C50_any", "Einsum.C50_einsum", "Einsum.C50_same_shape", "Einsum.C50_stacking", "Einsum.C50_inside"], "note": "destination views are arbitrary valid views with distinct addresses (what a &mut view guarantees)"},
 {"property": "C51", "status": "proved", "theorems": ["Einsum.C51_constructors", "Einsum.C51_path", "Einsum.C51_einsum_sc", "Einsum.C51_summation_unused", "Einsum.C51_compiles_iff", "Einsum.C51_sum"], "note": "labels are arbitrary characters; sizes and summation labels arbitrary"},
 {"property": "C52", "status": "proved", "theorems": ["Einsum.C52_natural", "Einsum.C52_uniform", "Einsum.C52_expression", "Einsum.C52_ordered", "Einsum.C52_path"], "note": "the array library is assumed not to look at the elements when choosing layouts and summation orders (UniformAlloc); commutation needs no valid call"},
 {"property": "C53", "status": "proved", "theorems": ["Einsum.C53_error", "Einsum.C53_path", "Einsum.C53_reproducible", "Einsum.C53_fused"], "note": "ordered fields K for the exact values; overflow, underflow and NaN are excluded by the hypothesis Rounded (see C64); fused multiply-add is included; 53-bit rationals are an instance"},
 {"property": "C54", "status": "proved", "theorems": ["Einsum.C54_returned", "Einsum.C54_adjoint"], "note": "both strings are arbitrary strings denoting the two label lists; any commutative semiring"},
 {"property": "C55", "status": "proved", "theorems": ["Einsum.C55_output_returned", "Einsum.C55_output", "Einsum.C55_summed_returned", "Einsum.C55_summed"], "note": "Spec.slice cuts a view without copying; the parts must again have no empty diagonal (C14)"},
 {"property": "C56", "status": "proved", "theorems": ["Einsum.C56_debug", "Einsum.C56_single", "Einsum.C56_steps", "Einsum.C56_two"], "note": "the derived and standard Debug output is modelled without escapes (none occur in compiled paths)"},
 {"property": "C57", "status": "proved", "theorems": ["Einsum.C57_exact", "Einsum.C57_path", "Einsum.C57_overflow"], "note": "ExactWithin in SpecExpr; instances: 53-bit floating point, wrapping and checked 32-bit integers; C57_overflow shows that the weights are needed"},
 {"property": "C58", "status": "proved", "theorems": ["Einsum.C58_closed"], "note": "Closed in SpecExpr; elements of the operands' memory outside the views do not matter"},
 {"property": "C59", "status": "proved", "theorems": ["Einsum.C59_natural", "Einsum.C59_uniform", "Einsum.C59_error", "Einsum.C59_exact"], "note": "Paired and pairedSum are the specification of C21; same assumptions on the array library and number types as C52, C53, C57"},
 {"property": "C60", "status": "proved", "theorems": ["Einsum.C60_contractors", "Einsum.C60_order", "Einsum.C60_fields", "Einsum.C60_structs", "Einsum.C60_enums", "Einsum.C60_atoms", "Einsum.C60_path", "Einsum.C60_steps", "Einsum.C60_steps_lossy", "Einsum.C60_safe"], "note": "JSON trees as serde_json presents them to derived code; numbers that are no usize are a case of their own. C60_safe covers any JSON input."},
 {"property": "C61", "status": "proved", "theorems": ["Einsum.C61_order", "Einsum.C61_einsum", "Einsum.C61_lawless", "Einsum.C61_path", "Einsum.C61_path_lawless", "Einsum.C61_correct", "Einsum.C61_tensordot", "Einsum.C61_tensordot_needs_args", "Einsum.C61_tensordot_lawless"], "note": "mul is any multiplication of lengths whose results are at most the product; C61_tensordot_needs_args shows why tensordot needs arguments it accepts; element counts inside ndarray are exact, as its checked size computation makes them"},
 {"property": "C62", "status": "proved", "theorems": ["Einsum.C62_einsum", "Einsum.C62_path", "Einsum.C62_sized", "Einsum.C62_tensordot", "Einsum.C62_singleton", "Einsum.C62_pair", "Einsum.C62_assign"], "note": "results are literally equal, for every array library and also for calls that fail"},
 {"property": "C63", "status": "proved", "theorems": ["Einsum.C63_einsum", "Einsum.C63_path", "Einsum.C63_tensordot", "Einsum.C63_closed", "Einsum.C63_closed_path", "Einsum.C63_closed_tensordot", "Einsum.C63_monotone", "Einsum.C63_enclosure"], "note": "relational parametricity; monotonicity, interval enclosure and closed sets are instances"},
 {"property": "C64", "status": "proved", "theorems": ["Einsum.C64_einsum", "Einsum.C64_path", "Einsum.C64_tensordot", "Einsum.C64_binary64", "Einsum.C64_order_matters"], "note": "condition and bound with the weights max(1,|t|); the sign of zero is left out of this binary64 type and added in C67; calls with an empty axis are excluded (see C68_empty_sum)"},
 {"property": "C65", "status": "proved", "theorems": ["Einsum.C65_validate", "Einsum.C65_invalid", "Einsum.C65_short", "Einsum.C65_singleton", "Einsum.C65_checked", "Einsum.C65_wrapping", "Einsum.C65_wrapping_implicit", "Einsum.C65_duplicate_accepted", "Einsum.C65_implicit_kept", "Einsum.C65_einsum", "Einsum.C65_path", "Einsum.C65_whole", "Einsum.C65_panics", "Einsum.C65_singleton_checked", "Einsum.C65_singleton_wrapping", "Einsum.C65_wrong_rank"], "note": "B is any counter range (2^31 in Rust); counters and lengths are bounded through the whole of validation and compilation (Model/Machine)"},
 {"property": "C66", "status": "proved", "theorems": ["Einsum.C66_bilinear", "Einsum.C66_frobenius", "Einsum.C66_batch", "Einsum.C66_kronecker", "Einsum.C66_product", "Einsum.C66_mulVec", "Einsum.C66_vecMul", "Einsum.C66_dot", "Einsum.C66_outer", "Einsum.C66_transpose", "Einsum.C66_hadamard", "Einsum.C66_diagonal", "Einsum.C66_trace", "Einsum.C66_tensordot", "Einsum.C66_chain", "Einsum.C66_chain_trace"], "note": "the specification is Mathlib's Matrix; the chain theorems are bounded only by the number of letters (26)"},
 {"property": "C67", "status": "proved", "theorems": ["Einsum.C67_einsum", "Einsum.C67_path", "Einsum.C67_tensordot", "Einsum.C67_same", "Einsum.C67_binary64", "Einsum.C67_unsigned", "Einsum.C67_unsigned_path", "Einsum.C67_unsigned_tensordot", "Einsum.C67_order_matters"], "note": "binary64 with signed zeros as a concrete type; only the payload of NaN is left out"},
 {"property": "C68", "status": "proved", "theorems": ["Einsum.C68_einsum", "Einsum.C68_path", "Einsum.C68_sets", "Einsum.C68_sets_path", "Einsum.C68_tensordot", "Einsum.C68_sets_tensordot", "Einsum.C68_elsewhere", "Einsum.C68_nan", "Einsum.C68_empty_sum"], "note": "calls without empty axes; (a) is C68_elsewhere and, for paths and tensordot, the exact sets of C68_path and C68_tensordot; C68_empty_sum is the finding"},
 {"property": "C69", "status": "proved", "theorems": ["Einsum.C69_plain", "Einsum.C69_readable", "Einsum.C69_same_runs", "Einsum.C69_order_not_shown"], "note": "the texts are those of Model/Debug; the order of operands is not printed, C69_order_not_shown"},
 {"property": "C70", "status": "proved", "theorems": ["Einsum.C70_einsum", "Einsum.C70_path", "Einsum.C70_release", "Einsum.C70_tensordot", "Einsum.C70_tensordot_underflow", "Einsum.C70_safe", "Einsum.C70_constructors", "Einsum.C70_checked", "Einsum.C70_fixed", "Einsum.C70_hand_built"], "note": "maxLen is the largest length of a Vec<usize> (isize::MAX / 8); builds are any with subtraction right when it does not underflow"},
 {"property": "C71", "status": "proved", "theorems": ["Einsum.C71_singleton", "Einsum.C71_path", "Einsum.C71_einsum", "Einsum.C71_bound", "Einsum.C71_tensordot"], "note": "counted are the products of elements; multiplications by alpha = 1 and of padding inside matrixmultiply are not"},
 {"property": "C72", "status": "proved", "theorems": ["Einsum.C72_order", "Einsum.C72_sound", "Einsum.C72_same", "Einsum.C72_generated", "Einsum.C72_count", "Einsum.C72_chain"], "note": "commutative element types, as in C01; the count (C72_count) is for any operations; C72_chain is the finding about einsum's fixed order"},
 {"property": "C73", "status": "proved", "theorems": ["Einsum.C73_built", "Einsum.C73_pair", "Einsum.C73_sound", "Einsum.C73_permutation", "Einsum.C73_unchecked", "Einsum.C73_count_pair", "Einsum.C73_count_singleton"], "note": "commutative element types; TensordotFixedPosition is excluded because its constructor does not check positions (C45)"},
 {"property": "C74", "status": "proved", "theorems": ["Einsum.C74_uniform", "Einsum.C74_error", "Einsum.C74_reproducible", "Einsum.C74_exact", "Einsum.C74_floating"], "note": "C74_exact and C74_floating assume that no axis is empty and that no length recorded in a step is zero; the values of elements are taken as in C52, C53, C57 and C64"},
 {"property": "C75", "status": "proved", "theorems": ["Einsum.C75_any_tree", "Einsum.C75_any_path", "Einsum.C75_last", "Einsum.C75_tree", "Einsum.C75_path", "Einsum.C75_einsum", "Einsum.C75_blowup"], "note": "counts elements of the arrays in the vector; copies made inside a step (permuted, broadcast or simplified operands) are not counted; C75_blowup is the finding"},
 {"property": "C76", "status": "proved", "theorems": ["Einsum.C76_einsum", "Einsum.C76_path", "Einsum.C76_tree", "Einsum.C76_units"], "note": "SpecSum.textbook is a second specification (one Finset sum over assignments); C76_einsum/path/tree: every returned element is its value. C76_units: unit arrays give ones exactly where an assignment fits."},
 {"property": "C77", "status": "proved", "theorems": ["Einsum.C77_release", "Einsum.C77_debug", "Einsum.C77_fits", "Einsum.C77_diagonalization", "Einsum.C77_summation", "Einsum.C77_contraction", "Einsum.C77_overflow", "Einsum.C77_words"], "note": "Strides of the diagonal as machine words: same elements without overflow checks, panic or same elements with them; C77_overflow is a finding. Contractors for one operand, not whole paths."},
 {"property": "C78", "status": "proved", "theorems": ["Einsum.C78_sound", "Einsum.C78_live", "Einsum.C78_builds", "Einsum.C78_refused", "Einsum.C78_order", "Einsum.C78_path"], "note": "Everything that machine arithmetic can change in one definition; builds are any mixture of checked and wrapping. Liveness of checked builds needs strides and counts within half the word (Roomy)."},
 {"property": "C79", "status": "proved", "theorems": ["Einsum.C79_misfit", "Einsum.C79_layout", "Einsum.C79_same", "Einsum.C79_free", "Einsum.C79_single", "Einsum.C79_two", "Einsum.C79_longer", "Einsum.C79_shorter", "Einsum.C79_tensordot", "Einsum.C79_mixed", "Einsum.C79_stacked"], "note": "Same hash order in both compilations. C79_misfit classifies compiled diagonals on arrays of any shape without empty axes; C79_layout is the finding that the memory order decides."},
 {"property": "C80", "status": "proved", "theorems": ["Einsum.C80_ones", "Einsum.C80_ones_unit", "Einsum.C80_identity", "Einsum.C80_identity_kept", "Einsum.C80_pick"], "note": ""},
 {"property": "C81", "status": "proved", "theorems": ["Einsum.C81_returned", "Einsum.C81_nested"], "note": "three calls, each with its own hash order and layouts; the renaming may identify letters of the inner result"},
 {"property": "C82", "status": "proved", "theorems": ["Einsum.C82_element", "Einsum.C82_whole", "Einsum.C82_path", "Einsum.C82_product", "Einsum.C82_tree"], "note": "relative error per operation as in C53 (no underflow)"},
 {"property": "C83", "status": "proved", "theorems": ["Einsum.C83_call", "Einsum.C83_string", "Einsum.C83_no_string", "Einsum.C83_path", "Einsum.C83_einsum", "Einsum.C83_steps", "Einsum.C83_any"], "note": "The calls use the hash order of the step (a suitable one exists); C83_any covers every order of pairs that is compiled"},
 {"property": "C84", "status": "proved", "theorems": ["Einsum.C84_pair", "Einsum.C84_product", "Einsum.C84_scalar_left", "Einsum.C84_scalar_right", "Einsum.C84_contraction", "Einsum.C84_tensordot", "Einsum.C84_axes", "Einsum.C84_as_tensordot", "Einsum.C84_stack", "Einsum.C84_slice", "Einsum.C84_einsum", "Einsum.C84_batch_differs"], "note": "Literal equalities of computations, also when they panic or the elements are not numbers (`C84_pair`); the element formulas hold for every element type and operations without laws. Reads the orders of additions from the allocator oracle."},
 {"property": "C85", "status": "proved", "theorems": ["Einsum.C85_sums", "Einsum.C85_copies", "Einsum.C85_order", "Einsum.C85_hash", "Einsum.C85_hash_einsum", "Einsum.C85_permuted", "Einsum.C85_in_turn", "Einsum.C85_transpose_differs"], "note": "Without laws for the elements; orders of additions are read from the allocator oracle. A repeated letter on an empty axis is excluded (C14 says what happens there)."},
 {"property": "C86", "status": "proved", "theorems": ["Einsum.C86_einsum", "Einsum.C86_path", "Einsum.C86_reduced", "Einsum.C86_network", "Einsum.C86_single", "Einsum.C86_intermediate"], "note": "Assumes that the order of an addition depends on the number of its terms only; ndarray's also depends on memory layout, which this does not cover. `C86_reduced` needs no such assumption."},
 {"property": "C87", "status": "proved", "theorems": ["Einsum.C87_error", "Einsum.C87_path", "Einsum.C87_tensordot", "Einsum.C87_any", "Einsum.C87_backward", "Einsum.C87_sharper", "Einsum.C87_chain", "Einsum.C87_pairwise", "Einsum.C87_tree", "Einsum.C87_tree_backward", "Einsum.C87_tree_sharper"], "note": "Number of roundings on the way to an element, step by step along the path; sharper than C53 where sums are nested or pairwise."},
 {"property": "C88", "status": "proved", "theorems": ["Einsum.C88_path", "Einsum.C88_einsum", "Einsum.C88_tensordot", "Einsum.C88_any", "Einsum.C88_sequential", "Einsum.C88_pairwise", "Einsum.C88_least", "Einsum.C88_sums", "Einsum.C88_bound", "Einsum.C88_tree"], "note": "the count is defined by running the model on elements that carry a tally, reset at each step; pairAdds/addCount are the closed formulas"},
 {"property": "C89", "status": "proved", "theorems": ["Einsum.C89_returned", "Einsum.C89_selection"], "note": "positions are given by a function per letter (f c i is the i-th position taken); of an operand with a repeated letter only its diagonals are constrained"},
 {"property": "C90", "status": "proved", "theorems": ["Einsum.C90_transposed_returned", "Einsum.C90_transposed", "Einsum.C90_merged_returned", "Einsum.C90_merged", "Einsum.C90_reshaped"], "note": "split puts xy for every z; C90_reshaped states it with the elements in row-major order (toVec); that x and y differ from z is not needed"},
 {"property": "C91", "status": "proved", "theorems": ["Einsum.C91_groups"], "note": "the groups may be interleaved: the operands with their letters are any rearrangement of the two groups"},
 {"property": "C92", "status": "proved", "theorems": ["Einsum.C92_symmetric", "Einsum.C92_gram"], "note": "C92_gram is the instance \"ij,ik->jk\" of an array with itself"},
 {"property": "C93", "status": "proved", "theorems": ["Einsum.C93_einsum", "Einsum.C93_path"], "note": "the hypothesis that the order of n additions depends on n only is about the array library (kernels chosen by shape are excluded); Settled as in C86, e.g. calls that sum over one letter (C86_single) and tensor networks"},
 {"property": "C94", "status": "proved", "theorems": ["Einsum.C94_dual_returned", "Einsum.C94_dual", "Einsum.C94_deriv_returned", "Einsum.C94_deriv"], "note": "Dual numbers are Mathlib's TrivSqZeroExt; the calls with one operand replaced are listed by replacedOnce (SpecOnce)."},
 {"property": "C95", "status": "proved", "theorems": ["Einsum.C95_einsum", "Einsum.C95_path", "Einsum.C95_tensordot", "Einsum.C95_needs_order", "Einsum.C95_live_order", "Einsum.C95_exact_order", "Einsum.C95_needs_einsum", "Einsum.C95_live_einsum", "Einsum.C95_exact", "Einsum.C95_needs_tensordot", "Einsum.C95_live_tensordot", "Einsum.C95_sum", "Einsum.C95_sum_order", "Einsum.C95_ndarray", "Einsum.C95_order", "Einsum.C95_empty"], "note": "for all limits, strings, operands, orders of contraction, hash orders and allocators; laws of arithmetic only where the result is compared with the Einstein sum"},
 {"property": "C96", "status": "proved", "theorems": ["Einsum.C96_einsum", "Einsum.C96_order", "Einsum.C96_attained", "Einsum.C96_count", "Einsum.C96_join", "Einsum.C96_least"], "note": "for every commutative semiring whose addition chooses one of its arguments; min-plus is Mathlib's Tropical, truth values are Spec.Truth; returned arrays are assumed only where an empty diagonal could make the call panic"},
 {"property": "C97", "status": "proved", "theorems": ["Einsum.C97_sizing", "Einsum.C97_unique", "Einsum.C97_rejected", "Einsum.C97_entry", "Einsum.C97_subset"], "note": "the messages are the literal texts; possible means returned under some hash order, so the two messages about the output can both be possible"},
 {"property": "C98", "status": "proved", "theorems": ["Einsum.C98_string_iff", "Einsum.C98_string", "Einsum.C98_hand", "Einsum.C98_number"], "note": "labels of any type; the string or sized contraction is chosen before the scalar type, the operands, the hash order and (for the string) the sizes; an operand with a repeated label must have no zero length, as in C13"},
 {"property": "C99", "status": "proved", "theorems": ["Einsum.C99_pair_iff", "Einsum.C99_pairs_iff", "Einsum.C99_single_iff", "Einsum.C99_program", "Einsum.C99_missing", "Einsum.C99_power", "Einsum.C99_singleton_iff"], "note": "C99_program assumes that each step finds arrays of the shapes it records and, as in C13, that no step has an operand with a repeated label and a zero length; the exactness theorems are about compilation"},
 {"property": "C100", "status": "proved", "theorems": ["Einsum.C100_literal", "Einsum.C100_compiles", "Einsum.C100_singleton", "Einsum.C100_elements", "Einsum.C100_generated_literal", "Einsum.C100_generated", "Einsum.C100_exception"], "note": "C100_elements and C100_generated assume, like C86, that the order of additions depends on the number of terms only; C100_literal and C100_generated_literal need no such assumption"},
 {"property": "C101", "status": "proved", "theorems": ["Einsum.C101_einsum", "Einsum.C101_path", "Einsum.C101_swap", "Einsum.C101_output", "Einsum.C101_rename", "Einsum.C101_letters_matter", "Einsum.C101_swap_differs"], "note": "the order of additions depends on the number of terms only and the steps are settled, as in C86; C101_swap also covers more than two operands, and there the third condition refers to the letters of the later operands and the output"},
 {"property": "C102", "status": "proved", "theorems": ["Einsum.C102_identity", "Einsum.C102_summation", "Einsum.C102_summation_fewer", "Einsum.C102_others", "Einsum.C102_repeated_more", "Einsum.C102_repeated_fewer", "Einsum.C102_repeated_accepts", "Einsum.C102_extra", "Einsum.C102_extra_second"], "note": "labels in C102_summation are axis positions; two operands are compiled in the given order (naive); of a repeated letter with fewer axes, the remaining cases (a letter of missing axes only with length one, other lengths) are not stated"},
 {"property": "C103", "status": "proved", "theorems": ["Einsum.C103_elementwise", "Einsum.C103_refused"], "note": "two operands, naive order; C104 transfers it to the reverse order"},
 {"property": "C104", "status": "proved", "theorems": ["Einsum.C104_path", "Einsum.C104_runs", "Einsum.C104_elementwise"], "note": ""},
 {"property": "C105", "status": "proved", "theorems": ["Einsum.C105_common", "Einsum.C105_elementwise"], "note": ""},
 {"property": "C106", "status": "proved", "theorems": ["Einsum.C106_contraction", "Einsum.C106_sized", "Einsum.C106_order", "Einsum.C106_runs", "Einsum.C106_path", "Einsum.C106_compiled", "Einsum.C106_others", "Einsum.C106_methods", "Einsum.C106_contractors", "Einsum.C106_inside", "Einsum.C106_steps", "Einsum.C106_variants"], "note": "which characters are printed as they are is a parameter; orders compare the printed texts of the same form; C106_runs without the hash order needs that no step simplifies an operand, as C100_literal; C106_variants compares the names of variants with those written by serde"},
 {"property": "C107", "status": "proved", "theorems": ["Einsum.C107_repeated", "Einsum.C107_empty", "Einsum.C107_all", "Einsum.C107_rank", "Einsum.C107_distinct", "Einsum.C107_distinct_panics"], "note": ""},
 {"property": "C108", "status": "proved", "theorems": ["Einsum.C108_abs", "Einsum.C108_squares", "Einsum.C108_max", "Einsum.C108_needed"], "note": ""},
 {"property": "C109", "status": "proved", "theorems": ["Einsum.C109_distinguished", "Einsum.C109_same", "Einsum.C109_iff"], "note": ""},
 {"property": "C110", "status": "proved", "theorems": ["Einsum.C110_returned", "Einsum.C110_kronecker"], "note": ""},
 {"property": "C111", "status": "proved", "theorems": ["Einsum.C111_contractors", "Einsum.C111_order", "Einsum.C111_path", "Einsum.C111_layout", "Einsum.C111_unknown", "Einsum.C111_sizes", "Einsum.C111_steps", "Einsum.C111_bincode", "Einsum.C111_bytes", "Einsum.C111_bincode_steps"], "note": "errors are not distinguished; that bincode writes a whole path needs its lengths and sizes to be below 2^64"},
 {"property": "C112", "status": "proved", "theorems": ["Einsum.C112_returned", "Einsum.C112_reshape"], "note": ""},
 {"property": "C113", "status": "proved", "theorems": ["Einsum.C113_output_returned", "Einsum.C113_gauge_returned", "Einsum.C113_trace_returned", "Einsum.C113_output", "Einsum.C113_gauge", "Einsum.C113_trace"], "note": "A matrix applied along an axis of an operand: moves to the result for a letter of the output, cancels against its dual for a summed letter shared by two operands or twice in one."},
 {"property": "C114", "status": "proved", "theorems": ["Einsum.C114_returned", "Einsum.C114_network", "Einsum.C114_barren"], "note": "Conditional distributions in topological order; no signs are used. Operands in another order: C27."},
 {"property": "C115", "status": "proved", "theorems": ["Einsum.C115_error", "Einsum.C115_relative", "Einsum.C115_reached"], "note": "Error bound with inaccurate data on top of C53; reached for nonnegative data with exact operations."},
 {"property": "C116", "status": "proved", "theorems": ["Einsum.C116_loops", "Einsum.C116_assigned", "Einsum.C116_error", "Einsum.C116_path", "Einsum.C116_close", "Einsum.C116_denotes", "Einsum.C116_tests"], "note": "The loops are a third specification, as folds over an array updated in place; the comparison with tolerances assumes relative rounding errors of 2^-53 without underflow, as C53."},
 {"property": "C117", "status": "proved", "theorems": ["Einsum.C117_returned", "Einsum.C117_panics", "Einsum.C117_apart"], "note": "The panics are those of the permutations and sums inside the contractors; no check of the crate compares numbers of axes."},
 {"property": "C118", "status": "proved", "theorems": ["Einsum.C118_tensordot", "Einsum.C118_stacked", "Einsum.C118_differs"], "note": "The two hash orders of the example are insertion order and its reverse; Rust draws the order of each hash set at random."},
 {"property": "C119", "status": "proved", "theorems": ["Einsum.C119_semiring", "Einsum.C119_lengths", "Einsum.C119_contracting"], "note": "Operands with repeated letters: C120. The numbers of axes: C117."},
 {"property": "C120", "status": "proved", "theorems": ["Einsum.C120_lengths", "Einsum.C120_all", "Einsum.C120_one", "Einsum.C120_refused", "Einsum.C120_empty"], "note": "C120_lengths, C120_refused for two or more operands, C120_one for one; C120_all: every array with the compiled number of axes is covered, empty ones included; C120_empty is the finding."},
 {"property": "C121", "status": "proved", "theorems": ["Einsum.C121_exact", "Einsum.C121_exact_path", "Einsum.C121_einsum", "Einsum.C121_path", "Einsum.C121_reaches", "Einsum.C121_hash", "Einsum.C121_order"], "note": "C121_exact, C121_exact_path, C121_einsum, C121_path, C121_reaches; findings C121_hash, C121_order. Marks stand for panics: a marked element is one for which an operation would have panicked."},
 {"property": "C122", "status": "proved", "theorems": ["Einsum.C122_einsum", "Einsum.C122_naive", "Einsum.C122_reverse", "Einsum.C122_same", "Einsum.C122_agrees", "Einsum.C122_unsigned", "Einsum.C122_panics", "Einsum.C122_lawless"], "note": "C122_einsum, C122_naive, C122_reverse (formula einsumSteps), C122_same, C122_agrees; C122_unsigned, C122_panics for integers; C122_lawless shows that C01 does not apply there."},
 {"property": "C123", "status": "proved", "theorems": ["Einsum.C123_swap", "Einsum.C123_methods", "Einsum.C123_unsigned", "Einsum.C123_third", "Einsum.C123_commutative"], "note": "C123_swap, C123_methods, C123_unsigned; C123_third and C123_commutative show that the hypotheses are needed."},
 {"property": "C124", "status": "proved", "theorems": ["Einsum.C124_program", "Einsum.C124_same", "Einsum.C124_swap"], "note": "C124_program (formula), C124_same (two hash orders, layouts, orders of additions), C124_swap. Unlike C100_elements no assumption on the order of additions, but addition has laws."},
 {"property": "C125", "status": "proved", "theorems": ["Einsum.C125_einsum", "Einsum.C125_order", "Einsum.C125_tensordot", "Einsum.C125_operations"], "note": "C125_einsum, C125_order, C125_tensordot; C125_operations states the operations. Signed saturating integers: C43."},
 {"property": "C126", "status": "proved", "theorems": ["Einsum.C126_einsum", "Einsum.C126_order", "Einsum.C126_tensordot"], "note": "C126_einsum, C126_order, C126_tensordot. Floating-point operations are not continuous; C52 and C59 bound their errors."},
 {"property": "C127", "status": "proved", "theorems": ["Einsum.C127_returned", "Einsum.C127_mean", "Einsum.C127_tensordot", "Einsum.C127_dependent"], "note": "C127_returned (whenever the calls return), C127_mean (no empty axis under a repeated letter), C127_tensordot; C127_dependent shows that independence is needed. Finitely many outcomes; the weights may be any elements of a commutative semiring."},
 {"property": "C128", "status": "proved", "theorems": ["Einsum.C128_zeros", "Einsum.C128_exact", "Einsum.C128_tensordot", "Einsum.C128_integers"], "note": "C128_zeros (every commutative semiring), C128_exact (no zero divisors, sums vanish only if all terms do), C128_tensordot, C128_integers (the converse fails over the integers). Stated for calls that return; C13_einsum says which do."},
 {"property": "C129", "status": "proved", "theorems": ["Einsum.C129_factors", "Einsum.C129_vanish"], "note": "C129_factors; C129_vanish for a symmetric and an antisymmetric matrix. C92_symmetric is the case of factors one. Stated for calls that return; C13_einsum says which do."},
 {"property": "C130", "status": "proved", "theorems": ["Einsum.C130_squares", "Einsum.C130_nonneg"], "note": "C130_squares (every commutative semiring), C130_nonneg (linearly ordered commutative rings, exact arithmetic). Stated for calls that return; C13_einsum says which do."},
 {"property": "C131", "status": "proved", "theorems": ["Einsum.C131_cauchy"], "note": "C131_cauchy. Linearly ordered commutative rings, exact arithmetic; stated for calls that return, C13_einsum says which do."}
]}
