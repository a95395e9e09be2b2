{"id": "C01", "title": "Accepted einsum grammar", "statement": "validate(s) fails with \"Invalid string\" exactly when s is not a comma-separated, non-empty list of non-empty runs of ASCII letters a-z, optionally followed by \"->\" and a (possibly empty) run of letters a-z; when s has that form the operand label lists are exactly the comma-separated pieces, in order.", "quantifier": "every Unicode string", "why_tests_cant": "the set of strings is infinite; tests try a handful of good and bad strings", "anchors": ["src/validation.rs::parse_einsum_string", "src/validation.rs::Contraction::new", "src/validation.rs::validate"]}
{"id": "C02", "title": "Explicit output list is validated exactly", "statement": "For a well-formed string with \"->out\", validate succeeds iff out has no repeated letter and every letter of out occurs in some operand; on success output_indices is out verbatim and operand_indices the pieces verbatim; on failure the message is \"Requested output has duplicate index\" only if there is a duplicate and \"Requested output contains an index not found in inputs\" only if there is an unknown letter.", "quantifier": "every well-formed explicit string and every hash iteration order", "why_tests_cant": "accept/reject must be right for every combination of operand and output letters", "anchors": ["src/validation.rs::Contraction::from_indices", "src/validation.rs::Contraction::from_parse"]}
{"id": "C03", "title": "Implicit output", "statement": "For a well-formed string without \"->\", validate always succeeds and output_indices is the strictly ascending list of exactly the letters that occur once in total over all operands.", "quantifier": "every well-formed string without an arrow and every hash iteration order", "why_tests_cant": "unbounded number of letters, operands and repetition patterns; the code walks a randomly ordered map", "anchors": ["src/validation.rs::Contraction::from_parse"]}
{"id": "C04", "title": "Summation indices", "statement": "On success summation_indices is strictly ascending and contains exactly the letters occurring in some operand and not in output_indices; so output and summation indices partition the letters used.", "quantifier": "every accepted string", "why_tests_cant": "partition must hold for every string", "anchors": ["src/validation.rs::Contraction::from_indices"]}
{"id": "C05", "title": "Validation outcome does not depend on hash order", "statement": "Whether validate succeeds, and the Contraction returned on success, is the same for every iteration order of the internal hash maps; the error message too unless the output has a repeated letter and a letter, not repeated, that occurs in no operand, in which case either message can be returned.", "quantifier": "every string and every pair of hash iteration orders", "why_tests_cant": "hash order is random per process; a test sees one order", "anchors": ["src/validation.rs::Contraction::from_indices", "src/validation.rs::validate"]}
{"id": "C06", "title": "Sizing accepts exactly the consistent shapes", "statement": "validate_and_size on an accepted string succeeds iff the number of operands equals the number of pieces, each operand's rank equals its piece's length, and every letter has one length everywhere; otherwise it reports the first failing condition in operand order with the documented message, and never panics.", "quantifier": "every accepted string and every list of shapes", "why_tests_cant": "shapes and ranks are unbounded", "anchors": ["src/validation.rs::SizedContraction::from_contraction_and_shapes", "src/validation.rs::OutputSize::from_contraction_and_shapes", "src/validation.rs::validate_and_size"]}
{"id": "C07", "title": "output_size is the label-to-length map", "statement": "After successful sizing, output_size maps each letter used in an operand to the length of every axis carrying it, and has no other key.", "quantifier": "every accepted string and consistent list of shapes", "why_tests_cant": "must hold for all letters and axes", "anchors": ["src/validation.rs::OutputSize::from_contraction_and_shapes"]}
{"id": "C08", "title": "as_einsum_string round trip", "statement": "For a SizedContraction obtained from a string, validate(sc.as_einsum_string()) succeeds and returns the same contraction; re-sizing it with the same shapes returns the same SizedContraction.", "quantifier": "every accepted string and consistent shapes", "why_tests_cant": "printer and parser must be inverse on every value", "anchors": ["src/validation.rs::SizedContraction::as_einsum_string", "src/validation.rs::validate"]}
{"id": "C09", "title": "subset", "statement": "sc.subset(ops, out) succeeds iff every letter of ops is sized in sc, out has no repeated letter and every letter of out occurs in ops; on success the result has those operands and that output, ascending summation indices, and the sizes of sc restricted to the letters of ops.", "quantifier": "every SizedContraction, every ops and out", "why_tests_cant": "unbounded inputs", "anchors": ["src/validation.rs::SizedContraction::subset"]}
{"id": "C10", "title": "Contraction order uses every operand exactly once", "statement": "generate_optimized_order(sc, Naive|Reverse) on n>=2 operands returns n-1 steps; every input is used exactly once over all steps, every intermediate result except the last is used exactly once and only after it was produced, Naive uses inputs in order 0..n-1 and Reverse in order n-1..0; for n=1 it returns Singleton of the same contraction.", "quantifier": "every sized contraction produced by validation, with any number of operands and every hash iteration order", "why_tests_cant": "number of operands unbounded", "anchors": ["src/optimizers.rs::generate_path", "src/optimizers.rs::generate_optimized_order", "src/optimizers.rs::naive_order", "src/optimizers.rs::reverse_order"]}
{"id": "C11", "title": "Compiling never panics for supported strategies, always for others", "statement": "For every sized contraction produced by validation, generate_optimized_order with Naive or Reverse and EinsumPath::from_path of its result do not panic; with Greedy, Optimal or Branch generate_optimized_order always panics.", "quantifier": "every valid sized contraction, every hash iteration order", "why_tests_cant": "the unwraps and asserts in the compiler must be unreachable on every input", "anchors": ["src/optimizers.rs::generate_path", "src/contractors/mod.rs::EinsumPath::from_path", "src/contractors/mod.rs::PairContraction::new", "src/contractors/mod.rs::SingletonContraction::new"]}
{"id": "C12", "title": "Intermediate results keep exactly the labels still needed", "statement": "In the contraction order, the output labels of each non-final step are, without repetition, exactly the labels of the operands consumed so far that occur in a later operand or in the final output; the last step's output is the requested output; each step's operand labels are those of the tensors it refers to.", "quantifier": "every sized contraction produced by validation, any number of operands, every hash order", "why_tests_cant": "dropping or keeping a label wrongly only shows on particular operand patterns", "anchors": ["src/optimizers.rs::generate_path", "src/optimizers.rs::get_remaining_indices", "src/optimizers.rs::get_existing_indices"]}
{"id": "C13", "title": "einsum computes the Einstein sum", "statement": "If einsum(s, operands) is called with an accepted string and consistent shapes, and no operand both has a zero-length axis and a repeated letter, it returns Ok(r) and every element of r equals the sum, over all values of the summation letters, of the product of the operands' elements selected by the letters.", "quantifier": "every accepted string, every number and rank of operands, all shapes, all element values in any commutative semiring, all memory layouts of the operands and of temporaries, all hash orders", "why_tests_cant": "infinitely many strings, shapes, values and layouts; many code paths chosen at run time", "anchors": ["src/lib.rs::einsum", "src/contractors/mod.rs::EinsumPath::contract_operands", "src/contractors/mod.rs::PairContraction::contract_pair", "src/contractors/mod.rs::SingletonContraction::contract_singleton"]}
{"id": "C14", "title": "Repeated letter on an empty operand panics (finding)", "statement": "An accepted, consistently sized call panics exactly if some operand's label list repeats a letter and the operand has a zero-length axis, with one exception: the operand has only positive strides, exactly one axis of length zero (with stride one), all other axes of length one, and some letter of it occurs neither in the output nor in another operand. In every other case the Einstein sum is returned. (A freshly created empty array has zero strides, so the exception arises only for slices.) Which calls panic does not depend on any law of the element type.", "quantifier": "every accepted, consistently sized call; elements of any type with +, * and 0, without laws", "why_tests_cant": "requires reasoning over all shapes and strategies; no test has an empty operand", "anchors": ["src/contractors/singleton_contractors.rs::Diagonalization::view_singleton", "src/contractors/singleton_contractors.rs::DiagonalizationAndSummation::contract_singleton"]}
{"id": "C15", "title": "Shape of the result", "statement": "The array returned by einsum has one axis per output letter, in output order, with the length of that letter; its rank is 0 when the output is empty.", "quantifier": "every successful call, every element type with or without laws", "why_tests_cant": "unbounded shapes", "anchors": ["src/lib.rs::einsum", "src/validation.rs::SizedContraction::contract_operands"]}
{"id": "C16", "title": "Result independent of hash order and memory layout", "statement": "Two runs of einsum on the same string and on operands with equal shapes and elements return arrays with equal shape and elements, whatever the strides of the operands (transposed, reversed, sliced, broadcast views), the layout chosen for temporaries, and the iteration order of the hash sets.", "quantifier": "every valid call outside the panics of C14, every pair of layouts, every pair of hash orders; also, in the cases of C14, whenever both runs return", "why_tests_cant": "layouts and hash seeds cannot be enumerated", "anchors": ["src/contractors/mod.rs::SimplificationMethodAndOutput::from_indices_and_sizes", "src/contractors/pair_contractors.rs::TensordotFixedPosition::contract_pair", "src/contractors/singleton_contractors.rs::DiagonalizationAndSummation::contract_singleton"]}
{"id": "C17", "title": "All entry points and orders agree", "statement": "einsum(s, ops), einsum_sc(validate_and_size(s, ops), ops), sc.contract_operands(ops), and einsum_path(s, ops, Naive).contract_operands(ops) and einsum_path(s, ops, Reverse).contract_operands(ops) return arrays with equal shape and elements, and they panic in exactly the same cases (those of C14).", "quantifier": "every valid call, commutative semiring elements", "why_tests_cant": "order independence must hold for all operand counts", "anchors": ["src/lib.rs::einsum_path", "src/lib.rs::einsum_sc", "src/optimizers.rs::reverse_order"]}
{"id": "C18", "title": "A compiled path can be reused", "statement": "A path compiled from one list of operands, when run any number of times on any operands of the same shapes, returns each time the Einstein sum of the operands it is run on; a run panics exactly if its operands are as in C14, whatever the other runs were.", "quantifier": "every path, every sequence of operand lists with the compiled shapes", "why_tests_cant": "the history of runs is unbounded", "anchors": ["src/contractors/mod.rs::EinsumPath::contract_operands"]}
{"id": "C19", "title": "Operand count at execution", "statement": "path.contract_operands panics if given fewer operands than the path was compiled for, and ignores operands beyond that number.", "quantifier": "every compiled path and every operand list", "why_tests_cant": "all counts", "anchors": ["src/contractors/mod.rs::EinsumPath::contract_operands"]}
{"id": "C20", "title": "contract_operands does not check shapes (finding)", "statement": "It is not true that contract_operands rejects operands whose shapes differ from the compiled shapes: there are compiled paths and operands of other shapes for which it returns an array; a pair step panics when an operand that has labels and is not simplified differs in rank from the compiled one.", "quantifier": "compiled paths and operand lists", "why_tests_cant": "needs a witness plus a general statement", "anchors": ["src/contractors/mod.rs::EinsumPath::contract_operands", "src/contractors/pair_contractors.rs::TensordotFixedPosition::contract_pair"]}
{"id": "C21", "title": "tensordot", "statement": "If lhs_axes and rhs_axes list distinct valid axes, equally many, and paired axes have equal length, tensordot returns the array with the remaining lhs axes followed by the remaining rhs axes (in original order) whose elements are the sums over the contracted axes of products; it equals the documented einsum.", "quantifier": "all ranks, shapes, axis lists, all layouts; elements with a commutative and associative addition that has a zero, any multiplication (a commutative semiring for the comparison with einsum)", "why_tests_cant": "unbounded ranks and axis selections", "anchors": ["src/lib.rs::tensordot", "src/contractors/pair_contractors.rs::TensordotGeneral::from_shapes_and_axis_numbers"]}
{"id": "C22", "title": "tensordot argument checks", "statement": "tensordot panics when the axis lists differ in length, when an axis is repeated, when an axis is out of range, or when the products of contracted lengths differ; otherwise it does not panic.", "quantifier": "all argument combinations, every element type with or without laws", "why_tests_cant": "exact panic set over unbounded inputs", "anchors": ["src/lib.rs::tensordot", "src/contractors/pair_contractors.rs::TensordotGeneral::from_shapes_and_axis_numbers", "src/contractors/pair_contractors.rs::TensordotFixedPosition::from_shapes_and_number_of_contracted_axes"]}
{"id": "C23", "title": "tensordot only compares products of lengths (finding)", "statement": "It is not true that tensordot rejects paired axes of different lengths: whenever only the products agree it returns an array.", "quantifier": "all argument combinations with equal products", "why_tests_cant": "needs a general argument", "anchors": ["src/contractors/pair_contractors.rs::TensordotFixedPosition::from_shapes_and_number_of_contracted_axes"]}
{"id": "C24", "title": "Single-operand contraction", "statement": "For one operand, whichever of the six singleton strategies is selected, the result is the operand permuted, diagonalised and summed as the letters say; the selected strategy's construction does not panic.", "quantifier": "all label lists (with repeats), all output lists, shapes without the C14 case, layouts", "why_tests_cant": "the choice depends on counts of summed, repeated and reordered axes", "anchors": ["src/contractors/mod.rs::SingletonContraction", "src/contractors/strategies.rs::SingletonSummary::get_strategy", "src/contractors/singleton_contractors.rs"]}
{"id": "C25", "title": "Two-operand contraction", "statement": "For two operands, whichever simplifications and pair strategy are selected, the result is the two-operand Einstein sum; the constructor assertions of the selected strategy hold.", "quantifier": "all label lists, output lists, shapes without the C14 case, layouts, hash orders", "why_tests_cant": "the five live strategies are selected by counts", "anchors": ["src/contractors/mod.rs::PairContraction", "src/contractors/strategies.rs::PairSummary::get_strategy", "src/contractors/pair_contractors.rs"]}
{"id": "C26", "title": "Zero-length contracted axes give zero", "statement": "If some summation letter has length 0 every element of the result is zero, and the result has the requested shape. This holds whenever the calls return, also with operands as in C14.", "quantifier": "all valid calls with an empty summation axis", "why_tests_cant": "boundary case in every strategy", "anchors": ["src/lib.rs::einsum", "src/contractors/pair_contractors.rs::StackedTensordotGeneral::contract_pair"]}
{"id": "C27", "title": "Operand order is irrelevant", "statement": "Permuting the operands together with their comma-separated label lists leaves the result unchanged (explicit output). This holds for every valid call: where one of the two calls panics (C14), so does the other.", "quantifier": "every valid call and every permutation of its operands", "why_tests_cant": "n! permutations for every n", "anchors": ["src/lib.rs::einsum"]}
{"id": "C28", "title": "Label names are irrelevant", "statement": "Consistently renaming the letters by an injective map to letters leaves the result of an explicit call unchanged. This holds for every valid call: where one of the two calls panics (C14), so does the other.", "quantifier": "every valid call, every injective renaming", "why_tests_cant": "the code sorts by letter and hashes letters", "anchors": ["src/lib.rs::einsum"]}
{"id": "C29", "title": "Additivity in each operand", "statement": "einsum is additive in each operand: replacing operand k by the elementwise sum of two arrays gives the elementwise sum of the two results. This holds whenever the calls return, also with operands as in C14.", "quantifier": "every valid call, every operand position", "why_tests_cant": "quantifies over all values", "anchors": ["src/lib.rs::einsum"]}
{"id": "C30", "title": "Homogeneity in each operand", "statement": "Multiplying operand k by a scalar multiplies the result by that scalar. This holds whenever the calls return, also with operands as in C14.", "quantifier": "every valid call, every position and scalar", "why_tests_cant": "quantifies over all values", "anchors": ["src/lib.rs::einsum"]}
{"id": "C31", "title": "Permuting the output letters permutes the axes", "statement": "If out' is a rearrangement of out, the result for out' is the result for out with its axes rearranged accordingly. This holds for every valid call: where one of the two calls panics (C14), so does the other.", "quantifier": "every valid call and every rearrangement", "why_tests_cant": "all permutations", "anchors": ["src/lib.rs::einsum"]}
{"id": "C32", "title": "Staged contraction", "statement": "Contracting the first k operands to an intermediate that keeps every letter still needed, then contracting it with the remaining operands, gives the same result as one call. This holds whenever the calls return, also with operands as in C14.", "quantifier": "every valid call with at least two operands, every split point, every order of the kept letters", "why_tests_cant": "all splits of all calls", "anchors": ["src/lib.rs::einsum"]}
{"id": "C33", "title": "Element homomorphisms and wrapping integers", "statement": "Mapping all operand elements through a semiring homomorphism f maps the result through f; in particular two's-complement (wrapping) w-bit arithmetic returns the exact integer result modulo 2^w. This holds whenever the calls return, also with operands as in C14.", "quantifier": "every valid call, every homomorphism, every width w", "why_tests_cant": "all values", "anchors": ["src/lib.rs::einsum"]}
{"id": "C34", "title": "Non-commutative elements (finding)", "statement": "It is not true that for elements with non-commutative multiplication the products are formed in operand order: there is a call where the product is formed in the opposite order.", "quantifier": "all element types with a multiplication", "why_tests_cant": "needs an element type and call exhibiting it", "anchors": ["src/contractors/pair_contractors.rs::ScalarMatrixProduct::contract_pair"]}
{"id": "C35", "title": "Implicit form equals printed explicit form", "statement": "einsum(s, ops) and einsum(sc.as_einsum_string(), ops) return equal results, where sc = validate_and_size(s, ops). This holds for every valid call: where one of the two calls panics (C14), so does the other.", "quantifier": "every valid call", "why_tests_cant": "all strings", "anchors": ["src/validation.rs::SizedContraction::as_einsum_string", "src/lib.rs::einsum"]}
{"id": "C36", "title": "Diagonal views stay inside the operand and are the diagonal", "statement": "For a non-empty contiguous operand with positive strides, the strided view taken for repeated letters is accepted by ndarray's bounds and overlap checks, and its elements are exactly the operand elements with equal indices on equal letters.", "quantifier": "all shapes, all axis orders in memory, all repetition patterns", "why_tests_cant": "stride arithmetic over unbounded ranks", "anchors": ["src/contractors/singleton_contractors.rs::Diagonalization::view_singleton"]}
{"id": "C37", "title": "Stacked tensordot handles every simplified pair", "statement": "The batch (stacked) contractor computes the Einstein sum for every simplified pair, including those with no stack letters, as the module documentation claims.", "quantifier": "all simplified pairs, shapes, layouts", "why_tests_cant": "the code's TODO suspects a bug in general use", "anchors": ["src/contractors/pair_contractors.rs::StackedTensordotGeneral"]}
{"id": "C38", "title": "Broadcast contractor works", "statement": "The unused broadcast contractor computes the right product for every simplified pair without contracted letters, as claimed in the strategy module.", "quantifier": "all simplified pairs without contraction", "why_tests_cant": "never executed by the library", "anchors": ["src/contractors/pair_contractors.rs::BroadcastProductGeneral"]}
{"id": "C39", "title": "Diagonalise-and-sum is not universal (finding)", "statement": "The claim that DiagonalizationAndSummation accommodates all singleton contractions is false: constructing it panics whenever no letter is summed; for non-empty operands it is right whenever at least one letter is summed.", "quantifier": "all singleton contractions", "why_tests_cant": "all label lists", "anchors": ["src/contractors/singleton_contractors.rs::DiagonalizationAndSummation::new", "src/contractors/singleton_contractors.rs::Summation::from_sizes"]}
{"id": "C40", "title": "Documented special cases", "statement": "\"ij->ij\" copies, \"ij->ji\" transposes, \"ii\" is the trace, \"ii->i\" the diagonal, \"ij->i\" row sums, \"ij,jk->ik\" the matrix product, \"i,i->\" the dot product, \"i,j->ij\" the outer product, \"ij,ij->ij\" the elementwise product, \"nij,njk->nik\" the batch matrix product; transposing twice is the identity.", "quantifier": "all shapes (for the trace and the diagonal: non-empty matrices, see C14), values and layouts", "why_tests_cant": "the documentation tests fix one shape each", "anchors": ["src/lib.rs::einsum"]}
{"id": "C41", "title": "Memory safety of view arithmetic", "statement": "Running any compiled path on any operands (any number, shapes and valid layouts, also wrong ones) either panics or returns an array all of whose elements can be read; no step reads outside the memory of its operand.", "quantifier": "every compiled path and arbitrary valid views", "why_tests_cant": "wrong shapes and layouts are unbounded", "anchors": ["src/contractors/mod.rs::EinsumPath::contract_operands", "src/contractors/singleton_contractors.rs", "src/contractors/pair_contractors.rs"]}
{"id": "C42", "title": "No size arithmetic underflow or overflow in compilation", "statement": "Compiling a validated contraction never underflows an unsigned subtraction, and with axis lengths multiplied in a word of largest value W, with overflow checks or wrapping, it gives the same contractor as unbounded arithmetic whenever, in each pairwise step, the non-zero lengths of each of the step's two operands have a product of at most W; so einsum of one or two operands, and tensordot, agree with unbounded arithmetic whenever each operand by itself fits, and einsum of any number of operands whenever each operand and each intermediate result fits. With overflow checks compilation of any order either stops with an overflow or is the one of unbounded arithmetic with every recorded length at most W. An intermediate result can overflow usize although every operand and the result are small; without overflow checks the recorded length is then wrong.", "quantifier": "every validated sized contraction, order, hash order and bound W; every string and any number of operands; every tensordot call", "why_tests_cant": "all shapes", "anchors": ["src/contractors/strategies.rs::SingletonSummary::from_indices", "src/contractors/strategies.rs::PairSummary::from_indices", "src/contractors/pair_contractors.rs::TensordotFixedPosition::from_shapes_and_number_of_contracted_axes", "src/contractors/pair_contractors.rs::StackedTensordotGeneral::new"]}
{"id": "C43", "title": "Floating-point style non-associativity is observable (finding)", "statement": "It is not true that einsum is bit-for-bit reproducible for element types whose addition is not associative: the order of additions depends on hash iteration order.", "quantifier": "all element types with an addition", "why_tests_cant": "needs two hash orders and a non-associative addition", "anchors": ["src/contractors/mod.rs::SimplificationMethodAndOutput::from_indices_and_sizes", "src/contractors/pair_contractors.rs::StackedTensordotGeneral::new"]}
{"id": "C44", "title": "Each pair contractor is right on its documented domain", "statement": "Each pair contractor (Hadamard, scalar-matrix, matrix-scalar, tensordot, in fixed and general form) constructed directly from a sized contraction of the form its documentation describes returns an array whose elements are the Einstein sum.", "quantifier": "every sized contraction of the documented form, all element types, layouts, hash orders", "why_tests_cant": "the path compiler never selects some of these contractors, and shapes and labels are unbounded", "anchors": ["src/contractors/pair_contractors.rs::HadamardProduct", "src/contractors/pair_contractors.rs::ScalarMatrixProduct", "src/contractors/pair_contractors.rs::MatrixScalarProduct", "src/contractors/pair_contractors.rs::TensordotFixedPosition", "src/contractors/pair_contractors.rs::TensordotGeneral"]}
{"id": "C45", "title": "TensordotFixedPosition::new does not check positions (finding)", "statement": "It is not true that TensordotFixedPosition::new rejects contractions whose contracted axes are not in the documented positions: it accepts \"ij,kj->ik\" and the result is not the Einstein sum.", "quantifier": "sized contractions not of the documented form", "why_tests_cant": "needs a witness outside the documented domain", "anchors": ["src/contractors/pair_contractors.rs::TensordotFixedPosition::new"]}
{"id": "C46", "title": "Each singleton contractor is right on its documented domain", "statement": "Identity, Permutation, Summation, PermutationAndSummation and Diagonalization constructed directly from a sized contraction of the form their documentation describes return an array whose elements are the Einstein sum.", "quantifier": "every sized contraction of the documented form (for Diagonalization: with no empty axis, see C14), all element types, layouts, hash orders", "why_tests_cant": "shapes, labels and layouts are unbounded", "anchors": ["src/contractors/singleton_contractors.rs::Identity", "src/contractors/singleton_contractors.rs::Permutation", "src/contractors/singleton_contractors.rs::Summation", "src/contractors/singleton_contractors.rs::PermutationAndSummation", "src/contractors/singleton_contractors.rs::Diagonalization"]}
{"id": "C47", "title": "Which contractor is selected", "statement": "For every valid sized contraction of two operands PairContraction::new selects, in terms of sets of labels: an operand is simplified exactly when it has a repeated label or a label that is in neither the other operand nor the output; the pair method is HadamardProductGeneral when the kept label sets of both operands agree and all are output labels, ScalarMatrixProductGeneral / MatrixScalarProductGeneral when one operand keeps no label and the other some, TensordotGeneral when no label is in both operands and the output (and none of the above), StackedTensordotGeneral otherwise; the five other pair methods are never selected. For one operand the singleton method is determined by whether labels repeat, are summed, or are moved.", "quantifier": "every valid sized contraction with one or two operands, every hash order", "why_tests_cant": "the selection depends on label sets of unbounded size and on hash order", "anchors": ["src/contractors/strategies.rs::PairSummary::get_strategy", "src/contractors/strategies.rs::SingletonSummary::get_strategy", "src/contractors/mod.rs::PairContraction::new", "src/contractors/mod.rs::SimplificationMethodAndOutput::from_indices_and_sizes"]}
{"id": "C48", "title": "Order of multiplication for non-commutative elements", "statement": "Over any semiring, commutative or not, an accepted einsum call returns the sum over the summed letters of a product of one element per operand, formed from left to right in operand order, except that the next factor is put on the left exactly when no letter of the operands multiplied so far occurs in the next operand, a later operand or the output, while some letter of the next operand occurs in a later operand or the output. If that never happens the products are in operand order; the reverse path does the same with the operands reversed.", "quantifier": "every accepted call without an operand that both repeats a letter and has an axis of length zero (C14), every semiring, layouts, hash orders", "why_tests_cant": "number of operands, letters and element type are unbounded", "anchors": ["src/lib.rs::einsum", "src/contractors/mod.rs::EinsumPath::contract_operands", "src/contractors/pair_contractors.rs::ScalarMatrixProduct"]}
{"id": "C49", "title": "Strings recorded in a compiled pair contraction", "statement": "The simplified einsum string recorded by PairContraction::new and the einsum strings recorded for simplifications denote, for contractions whose labels are letters, the contractions that are actually run: evaluating einsum on the simplification strings and then on the simplified string gives the same array as running the compiled contraction.", "quantifier": "every valid sized contraction of two operands in which each operand keeps a label after simplification (the recorded strings are not accepted otherwise), every hash order", "why_tests_cant": "strings range over an unbounded set and depend on hash order", "anchors": ["src/contractors/mod.rs::PairContraction::new", "src/contractors/mod.rs::SimplificationMethodAndOutput::from_indices_and_sizes", "src/validation.rs::SizedContraction::as_einsum_string"]}
{"id": "C50", "title": "Contracting into a given array", "statement": "contract_and_assign_pair of a compiled two-operand contraction writes the Einstein sum into the given mutable view and changes no element of the underlying buffer outside the view. It succeeds exactly when the result's shape can be broadcast to the view's shape (aligned on the right, each axis equal or of length 1), repeating elements along broadcast axes, and panics without writing anything otherwise. For any contraction and any operands: if it returns, every element of the destination lies in its buffer.", "quantifier": "every valid two-operand contraction, every mutable view (any strides, offsets), every contractor", "why_tests_cant": "layouts of the destination and shapes are unbounded", "anchors": ["src/contractors/mod.rs::PairContractor::contract_and_assign_pair", "src/contractors/pair_contractors.rs::StackedTensordotGeneral::contract_pair"]}
{"id": "C51", "title": "Hand-built contractions are memory safe and mean what their labels say", "statement": "Contraction, SizedContraction and the order types have public fields, so a user can build (or, for the steps of an order, edit or deserialise) inconsistent ones. Compiling and running any such value, consistent or not, on any valid arrays panics or returns a valid array; it never reads outside an array. A sized contraction can be compiled exactly when it has an operand, its output labels are distinct labels of the operands, and every operand label has a recorded length; the recorded summation labels are ignored; and the compiled contraction then computes the Einstein sum of operands with the recorded lengths, also for labels that are not letters and operands without labels, which no string can express.", "quantifier": "every value of the public structs, every list of valid arrays, every hash order", "why_tests_cant": "the space of inconsistent values is unbounded", "anchors": ["src/validation.rs::SizedContraction", "src/contractors/mod.rs::EinsumPath::new", "src/contractors/mod.rs::EinsumPath::from_path", "src/lib.rs::einsum_sc"]}
{"id": "C52", "title": "Element types without algebraic laws", "statement": "For an element type whose 0, +, * and fused multiply-add obey no laws at all (such as machine floats), einsum on a valid call still succeeds, and each element of the result is the value of an expression built from elements of the operands with 0, +, * and fused multiply-add only, which in every commutative semiring has the value of the Einstein sum. Applying any map that respects these operations to the operands' elements before the call or to the result's elements after it is the same; in particular control flow, shapes, panics and errors never depend on the elements.", "quantifier": "every element type with 0, +, * and fused multiply-add, every valid call without empty diagonals, every hash order, layout and summation order", "why_tests_cant": "element types are unbounded, and a test compares floats with a tolerance", "anchors": ["src/lib.rs::einsum", "src/contractors/mod.rs::EinsumPath::contract_operands"]}
{"id": "C53", "title": "Rounding error bound", "statement": "If +, * and fused multiply-add (which the kernels may use for any of the products they add) are correctly rounded up to a relative error u (and adding zero is exact), each element of einsum's result differs from the exact Einstein sum by at most ((1+u)^(N+k-2) - 1) times the Einstein sum of the absolute values, where N is the number of summed terms and k the number of operands. This holds whatever contraction order, hash order, layout and order of additions is used, so two runs differ by at most twice that.", "quantifier": "every valid call without empty diagonals, every rounding of +, * and fused multiply-add with relative error u, every hash order, layout and summation order", "why_tests_cant": "a test checks one input with one rounding and one order of additions", "anchors": ["src/lib.rs::einsum", "src/contractors/mod.rs::EinsumPath::contract_operands", "src/contractors/pair_contractors.rs::TensordotFixedPosition::contract_pair"]}
{"id": "C54", "title": "Adjoint: swapping an operand with the output", "statement": "Let operand k have distinct letters, each of which also occurs in the output or another operand, and let G be an array with the output's letters. Exchange the letters of operand k and of the output in the string and pass G in the place of operand k: the second einsum is the adjoint of the first, that is, the sum over all output indices of G times the first result equals the sum over operand k's indices of operand k times the second result. So the second einsum is the gradient of a contraction with respect to one of its operands. This holds whenever the calls return, also with operands as in C14.", "quantifier": "every valid call and position k, every G, all layouts and hash orders of both calls", "why_tests_cant": "two unbounded families of contractions are compared for all values", "anchors": ["src/lib.rs::einsum"]}
{"id": "C55", "title": "Blocks", "statement": "Cutting all axes of one letter at the same position: if the letter is summed over, the einsum of the whole is the sum of the einsums of the two parts; if it is an output letter, the einsums of the two parts are the two parts of the einsum of the whole along that axis. This includes letters repeated on one operand (of which the diagonal blocks are taken) and empty parts. This holds whenever the calls return, also with operands as in C14.", "quantifier": "every valid call, every letter and cutting position, all layouts and hash orders of the three calls", "why_tests_cant": "all shapes, positions and contractions", "anchors": ["src/lib.rs::einsum"]}
{"id": "C56", "title": "Debug output of paths", "statement": "The Debug output of a path compiled from an accepted string with one operand has balanced braces; that of a path of pair contractions lacks one closing brace per step. For any number of operands the text is given, step by step in the order of contraction, up to the fields of the contractors: the selected method, the contractor of the same name, \"None\" exactly for an operand that is not simplified, and otherwise the method, the kept labels and the string of its simplification.", "quantifier": "every accepted string with consistent shapes, both optimization methods, every hash order", "why_tests_cant": "no test formats a path", "anchors": ["src/contractors/mod.rs::PairContraction::fmt", "src/contractors/mod.rs::SimplificationMethodAndOutput::fmt", "src/contractors/mod.rs::SingletonContraction::fmt", "src/contractors/mod.rs::EinsumPath::fmt"]}
{"id": "C57", "title": "Integers are computed exactly and without overflow", "statement": "Let the element type represent integers, with +, * and fused multiply-add exact whenever the exact sums and products have magnitude at most B (floating-point numbers with B = 2^53, machine integers that panic on overflow or wrap around, with B = the largest one). If no axis is empty, all elements represent integers, and the Einstein sum of max(1, |element|) for an output index is at most B, then that output element represents the exact Einstein sum; nothing computed on the way to it exceeds B.", "quantifier": "every valid call without empty axes, every such element type (no laws assumed), every layout, hash order and order of additions; compiled paths in either order too", "why_tests_cant": "the tests compare small integer-valued f64 arrays with ==; that this is legitimate, and when an i32 contraction cannot overflow, depends on every intermediate value of every strategy", "anchors": ["src/lib.rs::einsum", "src/contractors/mod.rs::EinsumPath::contract_operands"]}
{"id": "C58", "title": "Closed sets of elements are not left", "statement": "If a set of elements is closed under +, * and fused multiply-add (and under adding 0), then a valid call on operands with elements in the set and no empty axis returns only elements of the set, even if 0 is not in it. Positive, nonnegative, integral elements stay so, for element types without laws. (Sets that contain 0 are in C63, for all calls.)", "quantifier": "every valid call without empty axes, every such set, every element type (no laws assumed), every layout, hash order and order of additions", "why_tests_cant": "all sets and all strategies", "anchors": ["src/lib.rs::einsum", "src/contractors/mod.rs::PairContraction::contract_pair"]}
{"id": "C59", "title": "tensordot for element types without laws", "statement": "For element types with no laws, tensordot evaluates, for each output index, an expression that does not depend on the elements and has the value of the sum of products in every commutative semiring; maps that respect 0, +, * and fused multiply-add commute with it. With +, * and fused multiply-add correct up to relative error u the result differs from the exact sum by at most ((1+u)^N - 1) times the sum of the absolute values, N the number of products. With them exact on integers up to B, results for which the sum of products of max(1, |element|) is at most B are exact (no axis empty).", "quantifier": "all arrays, paired axes of equal lengths, layouts and orders of additions; every element type", "why_tests_cant": "error bounds and overflow concern all data; the tests use small integer-valued floats", "anchors": ["src/lib.rs::tensordot", "src/contractors/pair_contractors.rs::TensordotGeneral::contract_pair"]}
{"id": "C60", "title": "Serialised forms", "statement": "With the serde feature, every contractor, method, summary, contraction, sized contraction and contraction order is read back from each of its JSON forms as itself, also with fields reordered and unknown fields added. A struct is also read from an array of its fields; a missing or repeated field, an unknown variant or a value of the wrong kind is refused. Exactly which JSON values are accepted for characters, numbers, lists, size maps, operand numbers and methods is stated. A compiled path can only be written, without its contractors: which object stands for each step, its simplifications and its method is stated. Yet the contraction_order in what is written is read back as the order it was compiled from, and recompiling that order gives a path that returns the same arrays. A contractor or contraction order read from any JSON whatsoever panics or returns a valid array when run on valid arrays.", "quantifier": "all values of the types, all iteration orders of the written hash maps, all JSON values", "why_tests_cant": "no test enables the feature; hash iteration order and hostile inputs cannot be enumerated", "anchors": ["src/optimizers.rs::ContractionOrder", "src/validation.rs::SizedContraction", "src/contractors/mod.rs::EinsumPath", "src/contractors/pair_contractors.rs::StackedTensordotGeneral", "src/contractors/singleton_contractors.rs::Diagonalization"]}
{"id": "C61", "title": "Wrapped size arithmetic never changes a returned array", "statement": "In a build without overflow checks, where products of axis lengths wrap (or are otherwise computed as something no larger than the true product), a call of einsum, of a compiled einsum_path, or of tensordot with pairwise equal contracted lengths, that returns an array returns exactly the array that unbounded arithmetic returns: a wrong length can only lead to a panic. The same holds for every contraction order whose steps agree with the labels of the arrays they use, not only for the generated ones.", "quantifier": "all strings, arrays of any size, layouts and hash orders; every word size; semirings with any allocator, and element types without laws with an allocator that ignores the elements", "why_tests_cant": "the arrays for which lengths overflow cannot be allocated in a test", "anchors": ["src/contractors/pair_contractors.rs::TensordotFixedPosition::from_shapes_and_number_of_contracted_axes", "src/contractors/pair_contractors.rs::TensordotFixedPosition::contract_pair", "src/contractors/pair_contractors.rs::StackedTensordotGeneral::new", "src/contractors/pair_contractors.rs::StackedTensordotGeneral::contract_pair"]}
{"id": "C62", "title": "Only the elements of the views matter", "statement": "The outcome of einsum, of running any compiled or hand-built path, and of tensordot depends only on the shapes, strides and elements of the operands: not on where in its buffer an operand begins, nor on what the rest of the buffer contains. Two such calls return exactly the same array, the same error, or the same panic.", "quantifier": "every string, every path, all axis lists, all valid arrays (also those for which the call fails), all element types without laws, given the same choices by the array library", "why_tests_cant": "the contents of memory outside the views cannot be enumerated; as_slice_memory_order hands out raw memory", "anchors": ["src/lib.rs::einsum", "src/lib.rs::tensordot", "src/contractors/mod.rs::EinsumPath::contract_operands", "src/contractors/singleton_contractors.rs::Diagonalization::view_singleton"]}
{"id": "C63", "title": "Relations preserved by the operations are preserved by the crate", "statement": "Let R be a relation between two element types that holds between the zeros and is preserved by +, * and fused multiply-add. If the operands of two calls have equal shapes and strides and R-related elements, then both calls fail in the same way, or both return, with equal shapes and strides and R-related elements. So einsum is monotone in its operands wherever + and * are, interval evaluation encloses the result, and sets containing 0 that are closed under the operations are not left.", "quantifier": "every string, every path, all axis lists, all valid arrays, every pair of element types without laws, every such relation, every layout, hash order and order of additions", "why_tests_cant": "quantifies over all element types and relations", "anchors": ["src/lib.rs::einsum", "src/lib.rs::tensordot", "src/contractors/mod.rs::EinsumPath::contract_operands"]}
{"id": "C64", "title": "Floats that overflow and underflow", "statement": "Let + be correct up to the relative error u, and * and fused multiply-add up to the relative error u and the absolute error e, as long as the exact value is at most the largest float W. Let k be the number of operands, N the number of terms summed for an output element, d = N + k - 2, and S the Einstein sum of max(1,|t|). If (1+u+e)^d S <= W then the element is computed without overflow (no infinity, no NaN appears on the way) and differs from the exact value by at most ((1+u)^d - 1) times the Einstein sum of |t| plus ((1+u+e)^d - (1+u)^d) S. IEEE binary64 satisfies this with u = 2^-53, e = 2^-1075, W = (2^53-1) 2^971.", "quantifier": "every valid call without empty axes, both compiled orders and tensordot, every layout, hash order, order of additions and use of fused multiply-add", "why_tests_cant": "tests compare with a tolerance on a few small arrays; overflow and underflow on the way depend on orders that vary", "anchors": ["src/lib.rs::einsum", "src/lib.rs::tensordot", "src/contractors/mod.rs::EinsumPath::contract_operands"]}
{"id": "C65", "title": "Letters are counted with i32", "statement": "With B = 2^31: if no letter occurs B times among the operands or in the written output (in particular for strings of fewer than B characters), einsum and einsum_path with 32-bit counters give the same outcome as with unbounded ones, in both kinds of builds and whatever the lengths do (C42). If a letter does occur that often, a build with overflow checks panics. Validation in a build without never panics: it accepts exactly the written outputs whose letters are used and whose counts are 1 or at least B modulo 2B (or 0), so outputs with a repeated letter are accepted that should be refused, and for an omitted output it keeps exactly the letters whose count is 1 modulo 2B; when choosing the strategy for one operand it takes exactly the letters with a count between 2 and B - 1 modulo 2B for repeated, so that einsum on a valid call can return an array of the wrong number of axes.", "quantifier": "every subscript string, both kinds of builds, every hash order, every counter width", "why_tests_cant": "the shortest strings showing a difference have 2^31 letters", "anchors": ["src/validation.rs::Contraction::from_indices", "src/validation.rs::Contraction::from_parse", "src/contractors/strategies.rs::SingletonSummary::from_indices", "src/lib.rs::einsum", "src/lib.rs::einsum_path"]}
{"id": "C66", "title": "Agreement with linear algebra", "statement": "On arrays that hold matrices and vectors, einsum computes the operations of linear algebra: \"ij,jk->ik\" the matrix product, \"ij,j->i\" and \"i,ij->j\" the products with a column and a row vector, \"i,i->\" the dot product, \"i,j->ij\" the outer product, \"ij->ji\" the transpose, \"ii->i\" the diagonal, \"ii\" the trace, \"ij,ij->ij\" the elementwise product, \"ij,ij->\" the Frobenius product, \"i,ij,j->\" a bilinear form, \"bij,bjk->bik\" the products of two stacks of matrices, \"ij,kl->ikjl\" the Kronecker product; tensordot over the inner axes is the matrix product. A call \"ab,bc,..,yz->az\" on a chain of any number of rectangular matrices (as many as there are letters) returns their product, and with the last letter equal to the first and no output, \"ab,bc,..,ya->\", the trace of their product.", "quantifier": "all matrices and vectors of all sizes (for \"ii\", \"ii->i\": non-empty, see C14) over all commutative semirings, all chains and choices of distinct letters, all layouts, hash orders and summation orders", "why_tests_cant": "tests use a few fixed matrices; no test has more than three operands in a chain", "anchors": ["src/lib.rs::einsum", "src/lib.rs::tensordot", "README.md"]}
{"id": "C67", "title": "The sign of zero", "statement": "In IEEE binary64 with signed zeros, infinities and NaN (round to nearest even; x + (-x) = +0, the sign of a product is the product of the signs), einsum, every path and tensordot compute the same as in binary64 with a single zero, up to the sign of zeros: forgetting the sign before or after a call is the same, for all arguments including rejected ones. Hence arguments equal up to the sign of zeros give results equal up to the sign of zeros, and the error bound of C64 holds. Operands without a sign bit (no -0, no negative number) never give -0. The sign of a zero result itself depends on the order of contraction: \"i,i,j->\" on [1,-1], [1,1], [-1] gives -0 in naive and +0 in reverse order.", "quantifier": "all strings, operands, paths, hash orders, layouts, orders of additions, with and without fused multiply-add", "why_tests_cant": "approximate comparison in the tests treats 0 and -0 alike", "anchors": ["src/lib.rs::einsum", "src/lib.rs::tensordot", "src/contractors/mod.rs::EinsumPath::contract_operands"]}
{"id": "C68", "title": "Which elements an output element is computed from", "statement": "The expression computed for an output element contains exactly those operand elements that occur in its Einstein sum. So (a) elements that do not occur in the sum may be anything, also infinite or NaN, without changing the output element; (b) if an element that occurs is in a set that no operation leaves once an argument is in it (NaN; infinite or NaN; overflowed) then so is the output element, even if it is multiplied by 0; (c) if all elements that occur are in a set closed under the operations then so is the output element. With f64: the output element is NaN whenever an element in its sum is NaN, and not finite whenever one of them is not finite. Without the assumption that no axis is empty this fails (finding): with an empty axis an element can be NaN although its sum has no terms.", "quantifier": "every valid call without empty axes, both compiled orders and tensordot, all element types without any law, all layouts, hash orders and orders of additions", "why_tests_cant": "no test has a NaN or an infinite element, and shortcuts like skipping zeros, or kernels reading padding, would show up only with these", "anchors": ["src/lib.rs::einsum", "src/lib.rs::tensordot", "src/contractors/mod.rs::EinsumPath::contract_operands"]}
{"id": "C69", "title": "What the Debug output tells about a path", "statement": "Two compiled paths print the same text exactly if their compiled steps are the same: methods, contractors with all their fields, kept labels and strings can all be read off. Two paths compiled with the same optimization method that print the same text return the same on all operands, whatever strings and shapes they were compiled for. Without knowing the method they need not: the order of the operands is not printed, and the naive and the reverse path for \"i,i,i->i\" print the same text but multiply in opposite orders.", "quantifier": "all pairs of accepted strings with consistent shapes, both methods, every hash order; all operands, element types and array libraries", "why_tests_cant": "no test formats a path", "anchors": ["src/contractors/mod.rs::PairContraction::fmt", "src/contractors/mod.rs::SimplificationMethodAndOutput::fmt", "src/contractors/mod.rs::SingletonContraction::fmt", "src/contractors/mod.rs::EinsumPath::fmt"]}
{"id": "C70", "title": "Builds without overflow checks", "statement": "In a build without overflow checks no unsigned subtraction of the crate wraps in a call of einsum or einsum_path (for strings of fewer than 2^31 characters, whatever the operands): both behave as if subtraction were exact. tensordot does wrap when there are more axes to contract than axes, and then panics while collecting the order of the output axes, so it panics for the same arguments as a build with checks and otherwise returns the same array. Contraction orders built by hand can be compiled and run in such a build although a build with checks panics, but never with undefined behaviour.", "quantifier": "all strings shorter than the counter range, all operands, strategies, hash orders and allocation choices; all tensordot arguments that fit in memory; all sized contractions, orders and valid arrays", "why_tests_cant": "Tests run in debug builds, where a wrapped subtraction would be a panic; whether a release build can get past one silently depends on all label patterns, and the boundary cases need vectors of 2^60 elements.", "anchors": ["src/lib.rs::tensordot", "src/contractors/strategies.rs::SingletonSummary::from_indices", "src/contractors/strategies.rs::PairSummary::from_indices", "src/contractors/pair_contractors.rs::TensordotFixedPosition::from_shapes_and_number_of_contracted_axes", "src/contractors/singleton_contractors.rs::Summation::new"]}
{"id": "C71", "title": "The number of multiplications", "statement": "A contraction of one operand multiplies no elements. A path over n operands performs exactly, in the step that takes in operand k+1, the product of the lengths of these letters: the ones seen so far that occur in a later operand or in the output, and the ones shared by operand k+1 and the operands before it. Letters that are in one operand only and not in the output are summed away before anything is multiplied, and repeated letters are reduced to the diagonal first. So without empty axes n operands never need more than n-1 times the product of all lengths.", "quantifier": "all strings, operands of the right shapes with elements of any type, both strategies, all hash orders, all layouts and summation orders", "why_tests_cant": "Tests compare results, which are the same whether or not an operand is reduced before it is multiplied; the amount of work is visible only as time.", "anchors": ["src/contractors/mod.rs::SimplificationMethodAndOutput::from_indices_and_sizes", "src/contractors/mod.rs::PairContraction::contract_pair", "src/contractors/pair_contractors.rs::StackedTensordotGeneral::contract_pair", "src/contractors/pair_contractors.rs::TensordotFixedPosition::contract_pair", "src/optimizers.rs::generate_path"]}
{"id": "C72", "title": "Any contraction tree computes the Einstein sum", "statement": "A contraction order need not come from generate_optimized_order: the fields of one are public, so its steps can be rearranged and edited, and it can be deserialised (the step types themselves are not re-exported), and Pair is documented to contract two inputs, an input and an intermediate result, or two intermediate results. Take any list of steps that contracts two pending arrays at a time (each input operand and each intermediate result being used exactly once and not before it exists), where each step records the labels of its two arrays and their lengths, its output labels are distinct labels of the two, they include every label that the requested output or another pending array still has, and the last step's are the requested output. EinsumPath::from_path compiles it, and contract_operands returns the Einstein sum of the operands, the same array for all such orders; with an operand as in C14 it panics or returns the Einstein sum. The orders of generate_optimized_order are of this kind. The number of multiplications is the sum, over the steps, of the product of the lengths of the labels that the step keeps or that both of its arrays have, so it differs between orders: a product of n by n matrices with a vector takes n^3 multiplications per matrix product from the left and n^2 from the right, and einsum takes the left.", "quantifier": "all lists of steps of the described form (all binary contraction trees in all evaluation orders, with any superset of the needed labels kept), all operands, hash orders, layouts and commutative element types", "why_tests_cant": "the number of trees grows faster than exponentially with the number of operands, and the crate itself only ever generates two of them, so its tests never contract two intermediate results", "anchors": ["src/optimizers.rs::Pair", "src/optimizers.rs::ContractionOrder", "src/contractors/mod.rs::EinsumPath::from_path", "src/contractors/mod.rs::EinsumPath::contract_operands", "src/contractors/mod.rs::PairContraction::new"]}
{"id": "C73", "title": "Contractors that check their own labels", "statement": "For a validated and sized contraction of two operands, whose letters may repeat or be in one operand only, and every pair contraction method except TensordotFixedPosition, whether or not the crate would choose that method: the contractor can be built exactly for the label lists its constructor's assertions describe, building it and running it on arrays of these sizes succeeds exactly on its documented domain, the result is then the Einstein sum, and outside the domain it panics. The same holds for Permutation with one operand. A contraction with another number of operands is refused by every pair contractor, by Permutation and by the contractors that take diagonals. Identity, Summation, Diagonalization, PermutationAndSummation and TensordotFixedPosition make no checks of labels: each can be built for a contraction that it does not compute.", "quantifier": "all label lists, sizes, arrays of these sizes in any layout, allocation choices and commutative semirings", "why_tests_cant": "Tests build contractors on matching labels. Which of the constructors protect themselves against the remaining label lists, and whether what they let through is always right, needs all lists.", "anchors": ["src/contractors/mod.rs::PairContraction::new", "src/contractors/mod.rs::SingletonContraction::new", "src/contractors/pair_contractors.rs::maybe_find_outputs_in_inputs_unique", "src/contractors/pair_contractors.rs::TensordotGeneral::new", "src/contractors/pair_contractors.rs::HadamardProduct::new", "src/contractors/pair_contractors.rs::BroadcastProductGeneral::new", "src/contractors/pair_contractors.rs::StackedTensordotGeneral::new", "src/contractors/singleton_contractors.rs::Permutation::new"]}
{"id": "C74", "title": "Any contraction tree, for element types without laws", "statement": "C72 is about commutative semirings. Take a contraction order as in C72, with operands as in C13, over an element type whose operations obey no laws at all. There is one array of expressions in the elements of the operands (built from +, *, fused multiply-add and 0) that has the value of the Einstein sum in every commutative semiring, and running the compiled order gives the value of this array, whatever the element type and the values. It follows for every order: with operations of relative error u each element is within ((1+u)^(N+k-2)-1) times the Einstein sum of the absolute values of the exact one, N being the number of terms and k that of the operands, so two orders differ by at most twice this; and, if no axis is empty, integers that fit as in C57 are computed exactly and floating-point numbers as in C64 do not overflow and have the error of C64. Which order is chosen changes the number of operations but not these bounds.", "quantifier": "all contraction orders as in C72, all operands, element types with 0, +, * and fused multiply-add, uniform layouts and hash orders; for the last two no axis may be empty and no length recorded in a step may be zero", "why_tests_cant": "Which order has which rounding errors cannot be seen from a finite number of runs, and the crate generates two of the orders only.", "anchors": ["src/optimizers.rs::ContractionOrder", "src/contractors/mod.rs::EinsumPath::from_path", "src/contractors/mod.rs::EinsumPath::contract_operands"]}
{"id": "C75", "title": "Sizes of the intermediate results", "statement": "contract_operands keeps the result of every step in a vector until it returns. When it returns an array, the vector holds, for step k of the order that the crate generates, an array whose axes are the labels of the first k+2 operands (in the order of the strategy) that a later operand or the output has, each once; for any other order as in C72 its axes are the output labels of the step. So the number of elements held is the sum over the steps of the products of these lengths. The crate does not choose the order by size: for a product of 2m+1 matrices of size n by n that are listed as first, third, fifth, ..., second, fourth, ..., einsum and the naive strategy make an array of n^(2m+2) elements and the reverse strategy one of n^(2m), while listed in the order of the product all intermediate results have n^2 elements, like the operands and the result.", "quantifier": "all valid calls with at least two operands, both strategies, all orders as in C72, all element types, layouts and hash orders; all m, n and letters", "why_tests_cant": "Tests compare results; which arrays are made on the way, and how large they become, is not visible in them.", "anchors": ["src/contractors/mod.rs::EinsumPath::contract_operands", "src/optimizers.rs::generate_path", "src/optimizers.rs::generate_optimized_order"]}
{"id": "C76", "title": "The textbook formula", "statement": "A second, independent form of the specification. At every index idx of the result, einsum returns the sum, over all assignments of positions to all letters of the operands, of the product of the operands' elements at the assigned positions, restricted to the assignments that give the output letters the index idx; here the sum is Mathlib's sum over the finite type of assignments. In particular, for operands that are unit arrays (a single one, otherwise zeros) the result has a one at idx if some assignment of positions to letters sends the letters of each operand to the position of its one and the output letters to idx, and a zero otherwise.", "quantifier": "all strings, operands, layouts, hash orders and commutative semirings, and all indices, with operands as in C13; compiled paths and contraction trees likewise", "why_tests_cant": "The definition used in the other properties sums label by label and only over the labels that are not in the output; that it means the same as the formula in textbooks is a statement about all inputs.", "anchors": ["src/lib.rs::einsum", "src/contractors/mod.rs::EinsumPath::contract_operands"]}
{"id": "C77", "title": "Sums of strides", "statement": "Taking a diagonal adds up the strides of the axes with the same letter in usize. Whatever these sums are, a build without overflow checks shows the same elements as exact arithmetic: the sum of a letter of length at least two always fits, and the stride of an axis of length one has no influence. A build with overflow checks returns the same view whenever each sum fits in isize, and otherwise panics or returns the same elements. It can panic: the trace of a 1 by 1 view whose two strides are 2^62 panics in a build with checks and is computed by a build without.", "quantifier": "all diagonalisations and views of at most isize::MAX elements for which exact arithmetic returns; single-operand contractions that diagonalise and sum, for all valid labels and non-empty operands", "why_tests_cant": "Views of one element with huge strides are legal but nobody tests them, and the effect depends on the build profile.", "anchors": ["src/contractors/singleton_contractors.rs::Diagonalization::view_singleton", "src/contractors/singleton_contractors.rs::DiagonalizationAndSummation::contract_singleton"]}
{"id": "C78", "title": "The crate as built", "statement": "einsum in which letter counters wrap at 32 bits or are checked, products and differences of lengths wrap at 64 bits or are checked, and the sums of strides wrap at 64 bits or are checked, all at once: a valid call whose operands have no more than isize::MAX elements panics or returns the Einstein sum. Without overflow checks, with no operand that has both a repeated label and an empty axis and with intermediate results that fit, it returns. The same for any order of contraction, and any two builds that return return the same array. A call that is refused is refused with the same message.", "quantifier": "all einsum strings shorter than the counters reach, all operands with any strides, both kinds of build and every mixture of them, all word sizes, all hash orders, all allocators", "why_tests_cant": "the tests run in one build, on 64 bits, with small operands", "anchors": ["src/lib.rs::einsum", "src/contractors/mod.rs::EinsumPath", "src/contractors/mod.rs::PairContraction", "src/contractors/singleton_contractors.rs::Diagonalization"]}
{"id": "C79", "title": "Compiled paths and arrays of other sizes", "statement": "A compiled path remembers of the sizes it was compiled for only what its contractors store. For other sizes of the same letters the path compiled with the same hash order has the same methods, order and kept labels. If none of its steps is a tensordot or takes a diagonal, the steps are the same, and the path computes the Einstein sum of arrays of any consistent sizes. For one operand this is the case exactly if no letter is repeated; for two operands, exactly if no letter is repeated in an operand and the operands are multiplied elementwise or one of them is summed completely. Findings: a path for one operand with a repeated letter that is run on an array with axes at least as long returns the Einstein sum of the leading block of the compiled sizes, without a panic; on an array with a shorter axis and no longer one it panics. On an array of any shape with the compiled number of axes, none of them empty, it checks only that the addresses of the compiled diagonal, computed with the strides of that array, stay below the number of its elements and pass ndarray's test for overlaps; if so, it returns the Einstein sum of the elements found at these addresses, on the diagonal or not, and otherwise it panics. The strides are the row-major ones, except when letters are summed and the array is contiguous in memory with positive strides: then they are its own, so that the result depends on the memory layout (example). A path of two operands contracted by a plain tensordot checks the number of elements of each operand and nothing else: if they are the compiled ones, it returns the contraction of the operands reshaped, in row-major order of the uncontracted and contracted axes, to the compiled sizes, and otherwise it panics. The same for a path of two operands contracted by a stacked tensordot, with the operands reshaped in row-major order of the stacked, uncontracted and contracted axes.", "quantifier": "all einsum strings, all pairs of consistent sizes, all strategies, hash orders, layouts, allocators and commutative semirings", "why_tests_cant": "tests run a path on the arrays it was compiled for; which of the other shapes give the right result, a wrong one or a panic depends on the labels and on all sizes", "anchors": ["src/contractors/mod.rs::EinsumPath::contract_operands", "src/contractors/singleton_contractors.rs::Diagonalization", "src/contractors/pair_contractors.rs::TensordotFixedPosition", "src/lib.rs::einsum_path"]}
{"id": "C80", "title": "Arrays of ones, identity matrices and unit vectors", "statement": "An operand of ones whose letters occur in the other operands can be left out; letters of it that are only in the output make the result constant along those axes, and letters that are nowhere else multiply the result by their lengths. An operand that is an identity matrix with letters x and y identifies the two: if y is not in the output, it can be left out when y is replaced by x in the other operands; so \"ij,jk->ik\" with an identity matrix returns the first operand, and \"ij,ij->\" with an identity matrix is the trace \"ii->\". If both are in the output, the result is that of the call without y on the diagonal of the two axes and zero elsewhere. An operand that is the k-th unit vector with letter x, which is in another operand but not in the output, picks position k: the result is the part at position k of the axis x of the call that keeps x. All this whenever the calls return.", "quantifier": "every valid call with one more operand, all letters, sizes and commutative semirings, all layouts and hash orders of both calls", "why_tests_cant": "the two calls run different contractors on different strings; all strings, shapes and elements", "anchors": ["src/lib.rs::einsum"]}
{"id": "C81", "title": "Calls inside calls", "statement": "If one operand of a call is itself the result of a call, the two can be written as a single call: its operand list has the inner operands in place of the inner result, with the inner output letters replaced by the letters the outer call uses for them (which may repeat: the outer call may take diagonals of the inner result, and then the inner operands are used with the repeated letter) and the letters the inner call sums over replaced by different letters used nowhere else. The single call gives the same array, whenever the calls return; they do return if no operand has both a repeated letter and an empty axis.", "quantifier": "every position of the inner result among the outer operands, all numbers of inner and outer operands, every renaming of the letters, all sizes, commutative semirings, layouts and hash orders", "why_tests_cant": "three calls run unrelated sequences of contractors; all pairs of strings, renamings, shapes and elements", "anchors": ["src/lib.rs::einsum"]}
{"id": "C82", "title": "Backward error", "statement": "With operations of relative error u (as in C53), each element of the result is the exact Einstein sum for operands of which one has been changed, each of its elements by at most the relative amount (1+u)^(N+k-2) - 1; any operand that has all summed letters can be the changed one. If an operand has all the letters, the whole result is the exact Einstein sum after one such change of that operand: matrix-vector products, scalar products, sums, traces, elementwise products and all contractions of a single operand are backward stable. For a matrix product the change depends on the element of the result: an example shows that the computed product need not be the exact product of any two matrices of these shapes.", "quantifier": "every valid call without empty diagonals, both compiled orders and every contraction tree, every rounding with relative error u, every choice of the changed operand, all hash orders, layouts and summation orders", "why_tests_cant": "existence of perturbations for all inputs and all roundings", "anchors": ["src/lib.rs::einsum"]}
{"id": "C83", "title": "A path is a sequence of two-operand calls", "statement": "The algorithm sketched in the README is the one that is run: a path compiled for two or more operands contracts the first two operands of its order by a call for two operands, then contracts the result with the next operand by another call for two operands, and so on. Each of these calls is SizedContraction::contract_operands (einsum_sc) of two operands for the step's labels, and also einsum with the step's string if both lists of labels are nonempty and the shapes fit; a step that has an operand without letters cannot be written as a string. The equality is literal: the same array in memory, the same order of operations, the same panics, for element types without laws, all allocators, and any operands whatever, of wrong shapes or too few. In the same way every step of a hand-edited order of pairs is a call for two operands.", "quantifier": "all einsum strings and sizes with two or more operands, both orders, all element types and operations, allocators, hash orders, all lists of arrays", "why_tests_cant": "literal equality of runs for all element types, hash orders and operands", "anchors": ["README.md", "src/contractors/mod.rs::EinsumPath::contract_operands", "src/optimizers.rs::generate_path", "src/lib.rs::einsum_sc"]}
{"id": "C84", "title": "Inside a two-operand call", "statement": "A call for two operands does what the README says of einsum_pair, literally (same operations in the same order, same panics, any element type): it first replaces each operand that has a repeated letter, or a letter that is neither in the other operand nor in the output, by the result of a one-operand call that keeps exactly the letters still needed, once each (other operands are used as they are), and then makes the two-operand call for the remaining letters, in which no operand needs to be replaced. The elements of such a call are: if all letters are in both operands and in the output, the products left times right; if an operand has no letters, the other one's elements times its element, on the right whichever operand it was; if no letter is in both operands and in the output, the products for all values of the contracted letters, listed in row-major order of these letters in alphabetical order and added in the order of one matrix product, which makes the elements, up to the order of the axes, literally those of the public function tensordot, which for any paired axes lists the products in row-major order of the paired axes as they are given; otherwise the same for the contracted letters in the order of the left operand, which makes them, if the order of additions depends on their number only, literally those of tensordot of the subarrays for each value of the shared letters of the output. Hence a batch of contractions need not be bit for bit equal to the contractions made one by one.", "quantifier": "all two-operand contractions and sizes, all element types and operations, allocators, hash orders, all views whose shapes fit", "why_tests_cant": "equality of the sequence of operations for all element types, label patterns and layouts; floats in tests only sample it", "anchors": ["README.md", "src/contractors/mod.rs::PairContraction::new", "src/contractors/mod.rs::PairContraction::contract_pair", "src/contractors/pair_contractors.rs::TensordotGeneral", "src/contractors/pair_contractors.rs::StackedTensordotGeneral", "src/lib.rs::tensordot"]}
{"id": "C85", "title": "Inside a one-operand call", "statement": "For every element type and operations, a call for one operand (in which a repeated letter does not meet an empty axis) computes the following and nothing else. If every letter is in the output, each element of the result is a copy of an element of the operand: no addition is made. Otherwise the letters that are not in the output are summed one after the other in the order in which they first appear in the operand, whatever the order of the output; each of these sums adds, for every value of the remaining letters, the elements for all values of the letter in increasing order along the tree of the summation. Hence the result does not depend on the hash order bit for bit. If the order of an addition depends on the number of terms only, permuting the letters of the output permutes the elements and changes none, and summing a first part of these letters by one call and the rest by another is the same computation. Permuting the axes of the operand together with its letters can change bits.", "quantifier": "all label lists and sizes, all element types and operations, allocators, hash orders, all views", "why_tests_cant": "literal equality of computations for all element types, label patterns, layouts and orders of summation", "anchors": ["src/contractors/singleton_contractors.rs::Summation", "src/contractors/singleton_contractors.rs::PermutationAndSummation", "src/contractors/singleton_contractors.rs::DiagonalizationAndSummation", "src/contractors/singleton_contractors.rs::Diagonalization"]}
{"id": "C86", "title": "When the result does not depend on the hash order", "statement": "Suppose that the order in which numbers are added depends on how many there are only. A call of einsum for any number of operands, without a repeated letter on an empty axis, gives the same elements bit for bit for all hash orders, for every element type and operations, unless one of its steps contracts two or more letters, has a letter in both operands and its output, and takes for its left operand either an intermediate result or an operand that has to be simplified. For two operands that need no simplification even the runs are the same, for every order of additions. Tensor networks, in which each letter is in at most two of the operands and the output, and calls that sum over one letter at most are never affected. Both exceptions are real: for an operand that is simplified (C43) and for an intermediate result.", "quantifier": "all einsum strings and sizes, all element types and operations, allocators, pairs of hash orders, all lists of arrays of fitting shapes", "why_tests_cant": "compares runs for all pairs of hash orders and all element types; the hash order is not under the control of a test", "anchors": ["src/optimizers.rs::generate_path", "src/contractors/mod.rs::SimplificationMethodAndOutput::from_indices_and_sizes", "src/contractors/pair_contractors.rs::StackedTensordotGeneral", "src/contractors/pair_contractors.rs::TensordotGeneral"]}
{"id": "C87", "title": "Rounding errors add up along the path", "statement": "Let d(n) bound the depth of the tree in which n numbers are added. With operations correct up to the relative error u, each element of the result of einsum, and of a compiled path for both orders, differs from the exact Einstein sum by at most (1+u)^k - 1 times the Einstein sum of the absolute values. Here k adds up over the two-operand steps: 1 for the multiplication, d(length) for each letter that is summed inside one operand, and d(product of the lengths) for the letters contracted in the step. For any order of additions d(n) = n - 1 will do, and then k is at most the exponent of C53; for a product of m matrices of size n it is (m-1)n where C53 has n^(m-1)+m-2. The bounds for the backward error (C82) hold with this exponent too. For tensordot the exponent is 1 + d(product of the paired lengths). For any contraction tree as in C72 the exponent is the sum over its steps of the same numbers, and with d(n) = n - 1 it is at most that of C74; the backward bounds hold for trees too.", "quantifier": "all strings, operands, sizes, hash orders, layouts, orders of additions, and all element types with rounded operations; also all contraction trees", "why_tests_cant": "a bound for all sizes, all numbers and all orders of additions", "anchors": ["src/lib.rs::einsum", "src/contractors/mod.rs::EinsumPath::contract_operands", "src/contractors/pair_contractors.rs::TensordotFixedPosition", "src/contractors/singleton_contractors.rs::Summation", "src/lib.rs::tensordot"]}
{"id": "C88", "title": "The number of additions", "statement": "Let adding n numbers take a(n) additions. The path that einsum runs, and a compiled path for both orders, then makes a number of additions that depends on the letters and lengths only. It adds up over the two-operand steps. Letters that only one operand has are summed one after the other: summing a letter of length n costs a(n) for each element that remains. Then each element of the intermediate result costs a(product of the lengths of the contracted letters). Nothing is added when all letters are in both operands and the result, or when an operand has no letters left. One operand costs its sums only. A tensordot costs a(product of the paired lengths) for each element. Every way to add n numbers takes at least n-1 additions, so a(n) = n-1 gives the least number; pairwise sums reach it, a sum that starts at zero takes n. With n-1 and no empty axes, summing letters costs as many additions as the array loses elements, and the whole call costs at most the number of elements of all operands plus the number of multiplications (C71) minus the number of elements of the result. For any contraction tree as in C72 the additions are the sum over its steps of the same numbers.", "quantifier": "all strings, operands, sizes, hash orders, layouts, and all orders of additions in which adding n numbers takes a(n) additions; also all contraction trees", "why_tests_cant": "an exact count for all sizes and all contractions, over all orders of additions; tests see values, not operations", "anchors": ["src/lib.rs::einsum", "src/contractors/mod.rs::EinsumPath::contract_operands", "src/contractors/mod.rs::PairContraction::contract_pair", "src/contractors/singleton_contractors.rs::Summation", "src/lib.rs::tensordot"]}
{"id": "C89", "title": "Selecting positions along the letters", "statement": "Take from every operand, along each axis, the positions that a list for the axis' letter names (a slice, a step, a reversal, a gather with repetitions, a reordering; the same list on all axes of a letter). If the lists for the letters that are summed over name every position exactly once, then the result is the original result with the positions of the lists of its letters taken along its axes. So slicing, reversing or gathering along an output letter commutes with einsum, and reordering the positions of a summed letter changes nothing.", "quantifier": "all explicit and implicit strings, operands, sizes, index lists, layouts, hash orders and orders of additions; commutative semirings; whenever the calls return, which they do without a repeated letter on an empty operand", "why_tests_cant": "index lists are unbounded; tests use a few slices", "anchors": ["src/lib.rs::einsum", "src/contractors/mod.rs::EinsumPath::contract_operands"]}
{"id": "C90", "title": "Transposed operands and merged letters", "statement": "Transposing the axes of an operand together with its letters changes nothing. If two letters x and y occur only next to each other as xy, in all operands and the output, then they can be replaced by one letter z whose length is the product of theirs, with the operands reshaped (row-major) accordingly: the result is the original result reshaped in the same way.", "quantifier": "all strings, operands, sizes, layouts, hash orders and orders of additions; commutative semirings; whenever the calls return", "why_tests_cant": "an equality for all strings with such letters and all sizes", "anchors": ["src/lib.rs::einsum"]}
{"id": "C91", "title": "Groups of operands that share no summed letter", "statement": "If the operands of a call are split into two groups and every letter that both groups have is in the output, then the result is the product of the results of the two groups, each with the output letters it has: elementwise along shared letters, as an outer product along others. So operands without common letters give the outer product of their results.", "quantifier": "all strings, operands, sizes, splits, layouts, hash orders and orders of additions; commutative semirings; whenever the calls return", "why_tests_cant": "an equality between three calls for all strings and sizes", "anchors": ["src/lib.rs::einsum"]}
{"id": "C92", "title": "Symmetric calls give symmetric results", "statement": "Let a permutation of the letters carry the operands into each other (each operand, with its letters permuted, is an operand of the call, the same or another one, possibly with its axes in another order) and the output letters into output letters. Then the result is unchanged when its axes are permuted accordingly: \"ij,ik->jk\" of an array with itself is a symmetric matrix.", "quantifier": "all strings, operands, sizes, permutations of letters, layouts, hash orders and orders of additions; commutative semirings", "why_tests_cant": "an invariance for all strings with a symmetry and all sizes", "anchors": ["src/lib.rs::einsum"]}
{"id": "C93", "title": "Parts of a batch are computed bit for bit as in the whole", "statement": "Let the order in which the array library adds n numbers depend on n only, and let every step of the call be settled as in C86. Take positions along output letters from all operands (some, in any order, possibly repeated). Then the call on these returns exactly the elements that the call on the whole operands has at these positions, without any law for the elements: with floats the same bits. So a row of a matrix product, or one member of a batch whose letter is kept, does not depend on what else is in the batch. (Leaving the letter out instead of keeping it with length 1 can change bits, C84_batch_differs.)", "quantifier": "every valid settled call without empty diagonals, every selection of positions of output letters, all element types with 0, +, * and fused multiply-add, all layouts, hash orders of both calls, and orders of additions given by the number of terms", "why_tests_cant": "an equality of bits between two calls for all strings, sizes, selections and element types", "anchors": ["src/lib.rs::einsum", "src/contractors/mod.rs::EinsumPath::contract_operands"]}
{"id": "C94", "title": "The product rule", "statement": "Let the elements of the operands be dual numbers x + y e with e*e = 0. Then the x-part of the result is the result of the call on the x-parts, and the y-part is the sum, over the operands, of the results of the calls in which this one operand is replaced by its y-parts and the others by their x-parts. Likewise, if the elements of the operands are differentiable functions of a parameter, then so are the elements of the result, and their derivatives are the sum, over the operands, of the results with this one operand replaced by its derivative. So the crate can be differentiated forwards, by itself on dual numbers or by one call per operand (and backwards by C54).", "quantifier": "all strings, operands, sizes, layouts, hash orders and orders of additions; dual numbers over every commutative semiring; parameters in every nontrivially normed field; whenever the calls return", "why_tests_cant": "an identity between n + 2 calls for all strings, sizes and elements; derivatives are limits", "anchors": ["src/lib.rs::einsum"]}
{"id": "C95", "title": "Arrays that cannot be created", "statement": "einsum, einsum_path with any order of contraction, and tensordot in which ndarray refuses some shapes and some allocations fail with a panic (too many elements, too many bytes), whichever they are: a call panics or does exactly what it does without these limits, so it never returns another array. If it returns, the result of every step could be allocated. Conversely, if all arrays with at most N elements (counting lengths of zero as one) can be created, the operands have at most N elements and so has the result of every step, a call that returns without limits returns the same array. So with the limit N the call returns exactly if the result of every step is within it. An operand and a result within the limits are not enough: an intermediate result in the order of the operands may be too large where another order has none, and the sum over all axes of an array with no elements may be.", "quantifier": "all einsum strings, all operands with any strides, all sets of shapes that ndarray refuses or that cannot be allocated, all orders of contraction, all hash orders, all allocators, elements of any type", "why_tests_cant": "the tests never come near the size limits, and an allocation that fails cannot be observed for small arrays", "anchors": ["src/lib.rs::einsum", "src/lib.rs::tensordot", "src/contractors/mod.rs::EinsumPath", "src/contractors/pair_contractors.rs::TensordotFixedPosition", "src/contractors/pair_contractors.rs::StackedTensordotGeneral", "src/contractors/singleton_contractors.rs::Summation"]}
{"id": "C96", "title": "Best choices, joins and counts", "statement": "Element types whose addition chooses one of its arguments (the maximum or minimum of two numbers, 'or' of truth values), with a commutative multiplication that distributes over it. Every element of the array that einsum returns is the best of the products over all assignments of positions to letters that give this element: no assignment has a better product, and if no axis is empty some assignment has this product. With costs that are added and minimised (min-plus), the element is the least total cost of an assignment, infinite if there is none. With truth values it is true exactly if some assignment makes all operands true: the natural join of relations, projected to the output letters. With zeros and ones as numbers it is the number of such assignments.", "quantifier": "all einsum strings, all operands, all semirings with an addition that chooses, all hash orders, layouts and orders of additions; also for einsum_path with any order of contraction", "why_tests_cant": "the tests use real numbers only; that nothing but the laws of a commutative semiring is used cannot be seen from results for numbers", "anchors": ["src/lib.rs::einsum", "src/lib.rs::einsum_path", "src/contractors/mod.rs::EinsumPath::contract_operands"]}
{"id": "C97", "title": "The message of a rejected call", "statement": "A list of six cases says which message a string with a list of shapes can be rejected with: \"Invalid string\" if the string has no reading; the duplicate message if a letter of the explicit output is repeated; the unknown-letter message if a letter that occurs once in the explicit output is in no operand; the message about the number of operands if the string is accepted and the numbers differ; otherwise, at the first operand that does not fit together with the ones before, the message about the number of indices if the rank is wrong and the one about different sizes if not. einsum, einsum_path with any strategy (unsupported ones included), validate_and_size, validate_and_optimize_order and the entry points of SizedContraction return a message under some hash order exactly if it is one of these. A call has at most one possible message, except that the duplicate and the unknown-letter message may both be possible. A call with no possible message is accepted, whatever the hash order, and one with a possible message is rejected. The messages of subset are classified in the same way: a letter without a size comes first, then the two messages about the output.", "quantifier": "all strings, lists of operands of any shapes and elements, strategies, allocators and hash orders", "why_tests_cant": "the tests check that a few invalid calls fail, not with which message, and a test sees one hash order", "anchors": ["src/lib.rs::einsum", "src/lib.rs::einsum_path", "src/validation.rs::validate_and_size", "src/validation.rs::SizedContraction::subset", "src/validation.rs::OutputSize::from_contraction_and_shapes"]}
{"id": "C98", "title": "Which contractions can be written", "statement": "A contraction is given by lists of labels of any type for the operands and the output. It can be written as an einsum string, with letters in place of the labels, exactly if there is at least one operand, every operand has a label, there are at most 26 different labels, no output label is repeated and every output label occurs in an operand. The string then returns the Einstein sum of the original contraction, for all sizes and operands without an empty diagonal. A SizedContraction built by hand does it without the limit of 26 letters, up to 1112064 labels (the number of Unicode scalar values), and also for operands without labels, which no string can express (finding): a number cannot be an operand of an einsum string.", "quantifier": "all label types, label lists, sizes, operands, hash orders, allocators and commutative semirings", "why_tests_cant": "it is a statement about all contractions, including those that no string expresses", "anchors": ["src/validation.rs::parse_einsum_string", "src/lib.rs::einsum", "src/lib.rs::einsum_sc", "src/validation.rs::SizedContraction"]}
{"id": "C99", "title": "A contraction order is a straight-line program", "statement": "Any list of steps whatever can stand in a ContractionOrder (C72 assumes that each array is used exactly once). EinsumPath::from_path compiles an order of pairs exactly if each of its steps has two operands, output labels that are distinct labels of the operands, and a recorded length for each label of the operands; the order Singleton it compiles exactly for the contractions stated, among which are those of C51 but also some for which lengths are missing. If contract_operands of a compiled order of pairs returns an array, there is a step, and every step names operands that were given or results of earlier steps. Conversely, if every step finds two arrays with the shapes it records (operands or earlier results; an array may be used by any number of steps, by one step twice, or not at all, and the same label may have different lengths in different steps), the order is compiled and contract_operands returns the result of the last step, where each step gives the Einstein sum of its two arrays. In particular k steps on one operand return the 2^k-th power of a matrix, for which a string needs 2^k operands.", "quantifier": "all lists of steps, operands, hash orders, allocators and commutative semirings", "why_tests_cant": "the tests only run orders made by the crate, in which every array is used once", "anchors": ["src/contractors/mod.rs::EinsumPath::from_path", "src/contractors/mod.rs::EinsumPath::contract_operands", "src/contractors/mod.rs::PairContraction::new", "src/contractors/mod.rs::SingletonContraction::new", "src/optimizers.rs::ContractionOrder"]}
{"id": "C100", "title": "A stored contraction order gives reproducible results", "statement": "The hash order enters a call twice: when the contraction order is generated (the order of the labels of the intermediate results) and when it is compiled. A contraction order that is kept (ContractionOrder can be cloned and, with serde, stored) fixes the first. Compiled twice under any two hash orders, an order of pairs in which no step has to simplify an operand gives runs that are literally the same, with the same panics, for all element types, allocators and arrays whatever. If steps do simplify operands and the shapes fit, and the order in which numbers are added depends on how many there are only, the elements of the results are the same bit for bit, unless some step contracts two or more labels, has a label in both operands and its output, and simplifies its left operand. In an order generated by the crate only the first step can be such an exception, since intermediate results never have to be simplified when they are the left operand. So a call whose result depends on the hash order through an intermediate result (C86) is made reproducible by keeping its order. The order Singleton is compiled without a hash order.", "quantifier": "all orders of pairs, in particular all orders generated for any contraction; all pairs of hash orders; all element types and operations, allocators and operands", "why_tests_cant": "compares runs for all pairs of hash orders and all element types; the hash order is not under the control of a test", "anchors": ["src/optimizers.rs::ContractionOrder", "src/optimizers.rs::generate_path", "src/contractors/mod.rs::EinsumPath::from_path", "src/contractors/mod.rs::SimplificationMethodAndOutput::from_indices_and_sizes"]}
{"id": "C101", "title": "Rewritings of a call that keep the result bit for bit", "statement": "Let the order in which the array library adds n numbers depend on n only, and let every step of the call be settled as in C86. No law is assumed for the elements. The letters of the output may be permuted, the letters may be renamed, and the axes of operands may be permuted together with their letters: the rewritten call returns the same elements, at the permuted places, with the same bits, if the renaming keeps the alphabetical order of the letters that are summed, if each operand whose axes are permuted has at most one letter that is in no other operand and not in the output, and if the first operand is permuted only when the steps are settled without referring to it. If multiplication commutes, the first two operands may be exchanged when the letters they share are contracted or one letter at most is contracted in the first step; for two operands, also when the contracted letters are in the same order in both operands and neither needs to be simplified. Findings: letters matter beyond their pattern. Contracted letters are added in alphabetical order, so that 'ij,ij->' and 'ji,ji->' of the same two arrays can give different results; exchanging the operands of 'xij,xji->x' can change the result, too.", "quantifier": "every valid settled call without empty diagonals, all renamings, permutations of axes and output letters as described, all element types with 0, +, * and fused multiply-add, all layouts, hash orders of both calls, and orders of additions given by the number of terms", "why_tests_cant": "an equality of bits between two calls for all strings, renamings, sizes, arrays and element types; the failures need elements for which addition is not associative and two or more contracted letters", "anchors": ["src/lib.rs::einsum", "src/validation.rs::Contraction::new", "src/contractors/pair_contractors.rs::TensordotGeneral", "src/contractors/pair_contractors.rs::StackedTensordotGeneral", "src/contractors/singleton_contractors.rs::Summation"]}
{"id": "C102", "title": "Arrays with another number of axes", "statement": "A compiled path is run on arrays that do not have as many axes as the letters it was compiled for (C79 is about other lengths). One operand, no letter repeated: if the output repeats the operand's letters in order, any array whatever is returned unchanged. If the output letters are a proper prefix of the operand's letters, an array with more axes than letters is accepted, and further axes are kept: the result has the axes of the output letters followed by the further axes, and each element is the sum over the axes in between; with fewer axes than letters the run panics. In all other cases it panics unless the number of axes is the number of letters. One operand with a repeated letter: with more axes than letters the run panics; with fewer it panics if a letter that only labels missing axes was compiled with a length greater than one and none was compiled with length zero; if every letter of a missing axis also labels an axis that is there, and these are at least as long as compiled and not empty, the result is the Einstein sum for the letters of the axes that are there. Two operands, where one has distinct letters that are all summed away before the multiplication and the other has a letter of the output: the first may have further axes, the run is the same as with the array at position zero of the further axes, and it panics if one of them is empty.", "quantifier": "all such strings, all compiled sizes, all arrays of any number of axes and any strides, all hash orders, strategies and allocators; commutative addition where sums are stated", "why_tests_cant": "outcomes for all arrays of all ranks, including that nothing is returned; the accepted arrays are those for which a caller would expect an error", "anchors": ["src/lib.rs::EinsumPath::contract_operands", "src/contractors/singleton_contractors.rs::Identity", "src/contractors/singleton_contractors.rs::Summation", "src/contractors/singleton_contractors.rs::Diagonalization", "src/contractors/pair_contractors.rs::ScalarMatrixProductGeneral"]}
{"id": "C103", "title": "Elementwise products repeat axes at run time", "statement": "A path of two operands without repeated letters whose operands are multiplied elementwise (each letter of both operands or of the output is in both operands and in the output; letters of one operand alone are summed first) is run on arrays with the compiled number of axes and any lengths. The compiled lengths do not matter, and the lengths of the two arrays need not agree: if for every output letter they are equal or one of them is one, the run returns the Einstein sum of the two arrays with the axes of length one repeated as often as the other array needs, so the product of a column and a row is a matrix; otherwise the run panics. The checked call einsum returns an error for all arrays that give one letter two lengths.", "quantifier": "all such strings, all compiled sizes, all lengths of the arrays including zero, any strides, all hash orders and allocators; commutative semirings", "why_tests_cant": "outcomes for all pairs of lengths, including that nothing is returned; the accepted arrays are those for which a caller would expect an error", "anchors": ["src/lib.rs::EinsumPath::contract_operands", "src/contractors/pair_contractors.rs::HadamardProductGeneral", "src/contractors/pair_contractors.rs::HadamardProduct"]}
{"id": "C104", "title": "The reverse order is the naive order of the reversed operands", "statement": "A path of n operands compiled with OptimizationMethod::Reverse is the path compiled with Naive for the operands in reverse order: under the same hash order the steps (methods, contractors, recorded strings) are literally the same, and the contraction orders differ only in that operand k is called n-1-k. So contract_operands of the one on any n arrays, whatever their shapes, does literally what the other does on the arrays in reverse order: the same result or the same panic, for all element types, without laws. In particular what C79, C102 and C103 say about paths of two operands holds for Reverse with the operands exchanged, and an elementwise product of two operands repeats axes of length one in both orders.", "quantifier": "all strings with the same output, all compiled sizes, all hash orders, all element types and operations, allocators and arrays of any shapes", "why_tests_cant": "the repository tests compare the two orders on a few fixed operands with sizes that fit; that they do the same, panics included, for every string and all arrays is not a finite set of cases", "anchors": ["src/optimizers.rs::generate_path", "src/optimizers.rs::reverse_order", "src/contractors/mod.rs::EinsumPath::from_path", "src/contractors/mod.rs::EinsumPath::contract_operands"]}
{"id": "C105", "title": "Elementwise products of any number of arrays are broadcast", "statement": "A path of two or more operands without repeated letters in which every output letter is in every operand and every other letter is in one operand only (an elementwise product of n arrays, each summed over letters of its own first) is run, in the naive or the reverse order, on n arrays with the compiled numbers of axes and any lengths. If for every output letter the lengths other than one agree (the rule of NumPy for broadcasting), the run returns the array with these lengths whose elements are the products of the elements of the operands, summed over their own letters, read at position zero along axes of length one. Otherwise the run panics. The compiled sizes do not matter.", "quantifier": "all such strings with two or more operands, both orders, all compiled sizes, all lengths including zero, any strides, all hash orders and allocators; commutative semirings", "why_tests_cant": "all numbers of operands and all combinations of lengths, including that no other combination returns an array", "anchors": ["src/contractors/mod.rs::EinsumPath::contract_operands", "src/contractors/pair_contractors.rs::HadamardProductGeneral", "src/optimizers.rs::generate_path"]}
{"id": "C106", "title": "Debug output in both forms, with escapes", "statement": "The Debug output of Contraction, SizedContraction, OperandNumPair, ContractionOrder, OptimizationMethod, the two summaries, EinsumPathSteps and every contractor printed on its own determines the value, in the form {:?} as well as in the indented form {:#?}, for all labels including those that are escaped (quotes, backslashes, control and non-printing characters), and although hash maps are printed in any order. With the escapes, two paths of any origin print the same text exactly if their compiled steps are the same (C69 assumes that the recorded strings contain no quotes); in a path compiled from a string nothing is escaped, so that C56 and C69 describe its output. The order of a compiled path always has a text; paths whose orders may print the same text have the same order, are the same path if compiled under the same hash order, and return literally the same on all arrays if no step simplifies an operand: the order shows what the output of the path does not show (C69).", "quantifier": "all values, all labels, all iteration orders of the maps, all tables saying which characters are printed as they are, both forms; all pairs of compiled paths", "why_tests_cant": "injectivity over all values and characters; the printed order of the map varies from run to run", "anchors": ["src/validation.rs::Contraction", "src/validation.rs::SizedContraction", "src/optimizers.rs::ContractionOrder", "src/optimizers.rs::OperandNumPair", "src/contractors/mod.rs::EinsumPath", "src/contractors/strategies.rs::PairSummary", "src/contractors/mod.rs::EinsumPathSteps", "src/contractors/pair_contractors.rs::StackedTensordotGeneral"]}
{"id": "C107", "title": "Any output labels for one operand", "statement": "An order Singleton built by hand may have output labels that are repeated or are not labels of the operand, and C99 says which of these are compiled. Run on an array with the recorded lengths, such an order behaves as follows. If the operand's labels are distinct, it returns the Einstein sum if the output labels are distinct too (then the recorded lengths do not matter, and need not be recorded), and panics on every array otherwise. If an operand label is repeated and no axis of the operand is empty, it returns an array exactly if every output label that is repeated or not in the operand has length at most one, or some output label has length zero; otherwise it panics. The array is the Einstein sum over the labels that are not in the output if there are fewer output labels than distinct operand labels. Finding: if there are as many, nothing is summed, and the result has axes for the output labels followed by those of the operand labels that are missing in the output, hence more axes than output labels unless these are exactly the labels of the operand. If a repeated label meets an empty axis, it panics, except for the slices described in C14 when labels are summed; then all elements of the result are zero.", "quantifier": "all hand-built contractions of one operand that are compiled, all labels and lengths, all strides, all hash orders and allocators; commutative semirings (the panics for distinct operand labels: no laws)", "why_tests_cant": "all lists of labels and all lengths, and that no other combination returns an array", "anchors": ["src/contractors/singleton_contractors.rs::Diagonalization", "src/contractors/singleton_contractors.rs::DiagonalizationAndSummation", "src/contractors/singleton_contractors.rs::PermutationAndSummation", "src/contractors/mod.rs::SingletonContraction::new", "src/contractors/mod.rs::EinsumPath::from_path"]}
{"id": "C108", "title": "Norms of the result", "statement": "For every absolute value on a commutative ring, the result of an Einstein sum is bounded by its operands. An element is at most the number of its terms times the product of bounds of the elements of the operands. The sum of the absolute values of all elements of the result is at most the product of those of the operands, for every string. The sum of the squares of the absolute values (the square of the Frobenius norm) is at most the product of those of the operands, provided every letter that is summed is in at least two operands (matrix products, scalar products, tensor products, Hadamard products, chains of these). The condition is necessary: for every other string there are integer operands for which the call returns an array with a larger sum of squares than that product.", "quantifier": "all strings, any number of operands, all arrays and strides, all hash orders and allocators; commutative rings with an absolute value in a linearly ordered ring (integers, rationals, reals, complex numbers)", "why_tests_cant": "inequalities over all arrays and all strings, and the exact set of strings for which one of them holds", "anchors": ["src/lib.rs::einsum"]}
{"id": "C109", "title": "When two strings mean the same", "statement": "Two accepted strings give the same outcome in every call (the same array, the same error message, or a panic both times) exactly if one is obtained from the other by renaming letters, equal letters to equal and different letters to different letters; an implicit output counts as the explicit one that it stands for. So the names of the letters and the form of the output are all that a string can be changed in without changing its meaning, and no two other strings are ever confused. For strings with the same numbers of axes a difference already shows for some operands in which all axes have length two and that have a single one and otherwise zeros, whatever the hash orders and allocators of the two calls.", "quantifier": "all pairs of accepted strings, all operands and sizes, all hash orders and allocators; commutative semirings with 0 different from 1", "why_tests_cant": "the converse says that for every pair of strings that are not renamings of each other there is a call that tells them apart", "anchors": ["src/lib.rs::einsum", "src/validation.rs::Contraction", "src/validation.rs::parse_einsum_string"]}
{"id": "C110", "title": "Kronecker products", "statement": "If every operand of a call is the Kronecker product of two arrays (each element of the first replaced by a copy of the second, multiplied by that element, along all axes), the result is the Kronecker product of the results of the two calls with the same string on the first and on the second arrays. This holds for every string and any number of operands and axes, whatever the hash orders, memory layouts and allocators of the three calls; for matrix products it is the mixed-product rule.", "quantifier": "all strings, all operands and sizes (including empty axes when the calls return), all hash orders, layouts and allocators; commutative semirings", "why_tests_cant": "an identity between three calls for all strings, sizes and elements", "anchors": ["src/lib.rs::einsum"]}
{"id": "C111", "title": "Positional serialised forms", "statement": "With the serde feature and any format that stores values one after the other without names (bincode for instance, which is shown to be one), every method, summary, contractor, contraction, sized contraction, operand number, pair and contraction order is read back as itself from whatever is written of it, leaving what follows untouched; a form that is cut off is refused, as is an unknown variant; of several entries of a map with one key the last counts; and no form is the beginning of the form of another value. This needs of the format only that it reads back the numbers, characters, lengths and variant indices it writes and looks at nothing behind them. What is written of a contraction, summary or contractor is its JSON form without the names; a method is written as the number of methods declared before it. A compiled path can be written, and what is written of its steps tells as much as their JSON form; what is written begins with a contraction order that is read back and compiled to the same path again, or with another hash order to a path that returns the same arrays.", "quantifier": "all values, all formats with these laws, all iteration orders of the written hash maps, all inputs that follow or are cut off", "why_tests_cant": "no test enables the feature; formats, values and truncations cannot be enumerated", "anchors": ["src/optimizers.rs::ContractionOrder", "src/validation.rs::SizedContraction", "src/contractors/mod.rs::EinsumPath", "src/contractors/strategies.rs::PairMethod", "src/contractors/pair_contractors.rs::StackedTensordotGeneral"]}
{"id": "C112", "title": "Several axes as one", "statement": "Axes that stand next to each other in the same order wherever they occur can be treated as one axis: if every letter of one string stands for a word of letters in another (no letter in two words or twice in one), and the operands of the first call are those of the second reshaped in row-major order so that the axes of each word become one, then the result of the first call is the result of the second, reshaped in the same way. An empty word is allowed: axes of length one may be left out or inserted. The calls may have different hash orders, memory layouts and allocators.", "quantifier": "all strings, words, operands and sizes (empty axes included when the calls return), all hash orders, layouts and allocators; commutative semirings", "why_tests_cant": "a relation between two calls with different strings, for all strings, words and elements", "anchors": ["src/lib.rs::einsum"]}
{"id": "C113", "title": "Change of basis along a letter", "statement": "A matrix (square or not) is applied along an axis of an operand. If the letter of the axis occurs in no other place of the operands and is in the output, the result is the result of the untransformed call with the matrix applied along the axis of that letter. If the letter is summed and occurs in exactly one other place, in another operand or, as in a trace, in the same one, and a second matrix is applied there such that the transpose of one times the other is the identity (an orthogonal matrix twice, or a matrix and the transposed inverse, possibly with another inner dimension), the result is unchanged. The calls may have different hash orders, memory layouts and allocators.", "quantifier": "all strings, operands, matrices and sizes (empty axes included when the calls return), all hash orders, layouts and allocators; commutative semirings", "why_tests_cant": "a relation between calls with different arrays and different sizes, for all strings, matrices and elements", "anchors": ["src/lib.rs::einsum"]}
{"id": "C114", "title": "Networks of conditional distributions", "statement": "Each operand is a conditional distribution: summed over a letter of its own it gives one, for all values of its other letters, and these are own letters of operands before it or letters that are given. If the output contains the given letters, the result is a conditional distribution too: summed over the other output letters it is one, for all values of the given letters (for example, the product of stochastic matrices is stochastic, and the marginal distribution of a Bayesian network adds up to one). An operand whose own letter is in no other operand and not in the output can be left out.", "quantifier": "all such strings with any number of operands, all operands and sizes, all hash orders, layouts and allocators; commutative semirings, no sign assumptions", "why_tests_cant": "holds for all networks and all elements", "anchors": ["src/lib.rs::einsum"]}
{"id": "C115", "title": "Inaccurate data", "statement": "The elements of operand k differ from exact data by relative errors of at most e_k, and +, * and fused multiply-add have relative errors of at most u (as in C53). Then each element of the computed result differs from the exact Einstein sum of the exact data by at most (1+e_1)...(1+e_n)(1+u)^(N+n-2) - 1 times the Einstein sum of the absolute values of the exact data; for exact data without negative elements this is a bound on the relative error of the result. With exact operations the bound is reached: if the exact data are not negative and all elements of operand k are too large by the factor 1+e_k, the error is equal to it.", "quantifier": "all strings, operands, exact data and error bounds, all hash orders, layouts, allocators and orders of additions", "why_tests_cant": "a bound for all data and all roundings", "anchors": ["src/lib.rs::einsum"]}
{"id": "C116", "title": "Nested loops", "statement": "Nested for loops over all letters of the operands, in any order of the letters, around want[[output letters]] += x[[letters]] * y[[letters]] * ... leave in an array of zeros exactly the result of the call, over any commutative semiring; if no letter is summed, = in place of += does so too, whatever the array held before. With rounded operations (as in C53) the loops and a run of einsum or of a compiled path differ in each element by at most twice the bound of C53. In particular, for each test of tests/einsum_test.rs whose expected values are computed by loops, whatever numbers between -5 and 5 the arrays hold, the result of the compiled path differs from the expected values by at most the tolerance 1e-10 of the tests; for the four largest tests, whose tolerance the worst-case bound does not justify, by at most 1e-8 (two) or 1e-9 (two).", "quantifier": "all strings, operands, orders of loops, hash orders, layouts and orders of additions; for the tests all arrays with elements of absolute value at most 5", "why_tests_cant": "the tests compare with such loops for one random draw of elements per run and one shape each", "anchors": ["src/lib.rs::einsum", "src/lib.rs::einsum_path", "src/contractors/mod.rs::EinsumPath::contract_operands"]}
{"id": "C117", "title": "Paths of several operands and arrays with another number of axes", "statement": "A path compiled for two or more operands is run on arrays with any numbers of axes (C102 is about one operand). If the run returns, every array whose letters are distinct has at least as many axes as letters, and every array that has a repeated letter, or a letter that is in the output or in another operand, has at most as many axes as letters. So an array for distinct letters, one of them in the output or another operand, must have exactly as many axes as letters, and with any other number the run panics. If the operands share no letters and the output is empty (a product of sums), every array for distinct letters must have exactly as many axes as letters. The cases left are those of C102: an array for distinct letters that are all summed in this operand alone may have further axes when another factor has letters left, and an array for repeated letters may have fewer axes.", "quantifier": "all strings with two or more operands, both strategies, all compiled sizes, all arrays of any numbers of axes, lengths and strides, any operand in question, all hash orders and allocators; element operations without any laws", "why_tests_cant": "that nothing is returned, for every combination of numbers of axes, orders and hash orders; the crate never compares numbers of axes, so the panics come from the permutations inside the contractors", "anchors": ["src/contractors/mod.rs::EinsumPath::contract_operands", "src/contractors/mod.rs::PairContraction", "src/contractors/pair_contractors.rs::TensordotGeneral", "src/contractors/pair_contractors.rs::StackedTensordotGeneral", "src/contractors/pair_contractors.rs::HadamardProductGeneral"]}
{"id": "C118", "title": "Arrays of other sizes and operands that are summed first", "statement": "A path of two operands with distinct letters, contracted by a plain or stacked tensordot, is run on arrays with the compiled numbers of axes and any lengths; letters that are in one operand only and not in the output are summed first (C79 is about operands without such letters). The run checks only, for each operand, that the product of the actual lengths of the kept letters is the product of the compiled ones; otherwise it panics. If so, it returns the contraction of the operands, each summed over its own letters with its own lengths, and then reshaped, in row-major order of the axes in the order the contractor permutes them to, from the actual lengths to the compiled ones. This order depends on the order NL, NR of the kept letters, which is that of the iteration of a hash set: for plain tensordots that of the uncontracted letters, for stacked ones that of the contracted letters. Finding: with arrays that do not fit, the same path on the same arrays returns different elements for two hash orders (example `ikz,j->ikj`, compiled for lengths 2, 3, 1 and run with 3, 2, 1), so the result is not a function of the program's input, and nothing panics. With C79 (one operand summed completely) and C103 (elementwise products) this describes the runs of every path of two operands with distinct letters on arrays of all lengths.", "quantifier": "all such strings, all compiled sizes, all arrays of the compiled numbers of axes with any lengths and strides, all hash orders and allocators, commutative semirings", "why_tests_cant": "outcomes for all lengths and all hash orders, including the panics; a test of one run sees one order of one hash set", "anchors": ["src/contractors/mod.rs::SimplificationMethodAndOutput::from_indices_and_sizes", "src/contractors/mod.rs::PairContraction::contract_pair", "src/contractors/pair_contractors.rs::TensordotGeneral::contract_pair", "src/contractors/pair_contractors.rs::TensordotFixedPosition::contract_pair", "src/contractors/pair_contractors.rs::StackedTensordotGeneral::contract_pair"]}
{"id": "C119", "title": "The lengths a path of several operands accepts", "statement": "A path of two or more operands, each with distinct letters, compiled for the lengths `dims`, is run on arrays with the compiled numbers of axes and any lengths. Whether the run returns or panics, and the lengths of the returned array, are computed from the lengths alone, by going through the operands in the order in which the path takes them: a pair with no letter to contract between them and all kept letters in common is multiplied elementwise, and its lengths must agree letter by letter or be 1, as in broadcasting; in a product with an operand that is summed completely the other operand keeps its lengths; in all other calls the product of the actual lengths of the kept letters of each operand must be the product of the compiled ones, and the result has the compiled lengths. Neither the hash orders, the allocators nor the elements matter for this. Finding: if every operand after the first has a letter to contract with an earlier one (chains of matrix products), the path accepts exactly the arrays with the right product of lengths per operand and always returns an array of the compiled lengths; a path for `ij,jk,kl->il` with matrices of 2 by 2 takes arrays of shapes (4, 1), (1, 4), (2, 2) without a panic.", "quantifier": "all strings of two or more operands with distinct letters, all compiled sizes, all operand orders, all arrays of the compiled numbers of axes with any lengths and strides, all hash orders and allocators, element types without any laws", "why_tests_cant": "which of infinitely many lists of lengths panic, for paths of any number of operands", "anchors": ["src/contractors/mod.rs::EinsumPath::contract_operands", "src/contractors/mod.rs::PairContraction::contract_pair", "src/contractors/pair_contractors.rs::TensordotGeneral::contract_pair", "src/contractors/pair_contractors.rs::HadamardProduct::contract_pair", "src/contractors/pair_contractors.rs::ScalarMatrixProduct::contract_pair"]}
{"id": "C120", "title": "The lengths a path accepts for operands with repeated letters", "statement": "C119 for operands in which letters may be repeated. Every array with the compiled number of axes is either taken, for distinct letters with its own lengths and for repeated letters with the compiled lengths, or refused. It is refused exactly if a letter is repeated and the diagonals of the compiled lengths do not fit into the array: the last of them lies beyond the last element, or two letters would overlap; if a letter was compiled with length zero, it is enough that the address of the last indices (taken as zero for such letters) is at most the number of elements. The strides that count are those of the array if some letter of the operand is in no other operand and not in the output and the elements lie side by side, and those of a row-major copy otherwise. An empty array is refused unless some letter is in no other operand and not in the output, its strides are positive, it has one empty axis, and with length one for this axis its elements would lie side by side and their number is the stride of the axis. If an array is refused the path panics; if all are taken, the path returns or panics as C119 says for the lengths they are taken with. So equal arrays in different memory layouts can have different outcomes, but the elements, the hash orders and the allocators never matter. Finding: a path compiled for the diagonal of a matrix without elements panics on this matrix but accepts a 2 by 2 matrix.", "quantifier": "all strings, all compiled sizes, all arrays of the compiled numbers of axes with any lengths and strides, all hash orders and allocators, element types without any laws (one operand: commutative semirings)", "why_tests_cant": "the outcome for all lengths, strides and numbers of operands, including all panics", "anchors": ["src/contractors/singleton_contractors.rs::Diagonalization::view_singleton", "src/contractors/mod.rs::SimplificationMethodAndOutput::from_indices_and_sizes", "src/contractors/mod.rs::PairContraction::contract_pair", "src/contractors/mod.rs::EinsumPath::contract_operands"]}
{"id": "C121", "title": "Integers with overflow checks", "statement": "For integers of any range (i8 to u64) in a build with overflow checks, an element of the result for which no operation left the range is the exact Einstein sum, for all elements, with empty axes too. If all elements are positive and no axis is empty, an operation for an element of the result leaves the range if and only if the exact Einstein sum of that element is too large; so neither the hash order nor the order of the operands, the memory layout or the order of summation decides whether the call panics. An overflow marked in any intermediate array of a path is marked in the result. With negative elements the hash order can decide whether there is an overflow, with a zero the order of the operands can.", "quantifier": "all ranges that contain zero, all valid calls and paths in either order, all elements (all positive elements for the second part), all hash orders and allocators", "why_tests_cant": "all ranges, values, shapes and orders; a test sees one hash order at a time, so it can pass in one run and panic in the next", "anchors": ["src/lib.rs::einsum", "src/contractors/mod.rs::EinsumPath::contract_operands", "src/contractors/pair_contractors.rs::StackedTensordotGeneral::contract_pair", "src/contractors/singleton_contractors.rs::Summation::contract_singleton"]}
{"id": "C122", "title": "A commutative and associative addition is enough for the hash order not to matter", "statement": "For element types whose addition is commutative and associative with a zero, and whose multiplication is arbitrary (no associativity, no distributivity), every element of the result is given by a formula without hash order, memory layout and order of additions: operand after operand, the letters needed nowhere else are summed in each operand, then the products over the shared letters not needed later. For unsigned integers with overflow checks, whether an operation for an element of the result overflows therefore depends neither on the hash order nor on the order of additions; the same for panics of whole paths. With all laws of arithmetic the formula is the Einstein sum.", "quantifier": "all valid calls without an empty axis under a repeated letter and all compiled paths of two or more operands in either order, all element types with a commutative monoid as addition and any multiplication, all hash orders, allocators and orders of additions", "why_tests_cant": "all element types, shapes, layouts and hash orders; a test runs with one random hash order and cannot show that another would not overflow", "anchors": ["src/lib.rs::einsum", "src/contractors/mod.rs::EinsumPath::contract_operands", "src/contractors/pair_contractors.rs::StackedTensordotGeneral::contract_pair", "src/contractors/singleton_contractors.rs::Summation::contract_singleton"]}
{"id": "C123", "title": "Exchanging the first two operands needs no distributive law", "statement": "If addition is commutative and associative with a zero and multiplication is commutative (neither associative nor distributive), a call returns the same elements when its first two operands are exchanged together with their letters, and for two operands the paths of all optimization methods return the same elements. So for two operands of unsigned integers with overflow checks the order of the operands does not decide whether an element overflows. The second and third operand may not be exchanged (100*100*0 and 100*0*100 in a byte), and without a commutative multiplication the result changes.", "quantifier": "all valid calls with at least two operands without an empty axis under a repeated letter, all element types with a commutative monoid as addition and a commutative multiplication, all hash orders, allocators and orders of additions; the two calls may use different ones", "why_tests_cant": "all element types, strings, shapes, layouts and hash orders", "anchors": ["src/lib.rs::einsum", "src/contractors/mod.rs::EinsumPath::contract_operands", "src/contractors/pair_contractors.rs::ScalarMatrixProduct::contract_pair", "src/contractors/strategies.rs::PairSummary::get_strategy"]}
{"id": "C124", "title": "Contraction orders as programs with only the laws of addition", "statement": "An order of pairs whose steps find arrays of the recorded shapes (each step names operands or earlier results, any of them several times) is compiled and returns the array whose elements are computed step by step by the formula of C122, for every element type whose addition is commutative and associative with a zero, without any law for the multiplication. The same order compiled under two hash orders and run on equal operands in other layouts, with other orders of additions, gives the same elements. If the multiplication is commutative, the operands of a step may be exchanged.", "quantifier": "all orders of pairs, all operands of the recorded shapes without an empty axis under a repeated label, all element types with a commutative monoid as addition and any multiplication, all hash orders, allocators and orders of additions", "why_tests_cant": "all programs, element types, shapes, layouts and hash orders", "anchors": ["src/contractors/mod.rs::EinsumPath::from_path", "src/contractors/mod.rs::EinsumPath::contract_operands", "src/contractors/mod.rs::PairContraction::new"]}
{"id": "C125", "title": "Saturating unsigned integers", "statement": "For natural numbers up to B whose addition and multiplication replace a result above B by B (saturating arithmetic of any width), einsum, every compiled order of pairs and tensordot return the exact Einstein sum of the values, cut at B: saturated intermediate results never make the result wrong in another way, and neither the order of operations nor the hash order matters.", "quantifier": "all B, all valid calls without an empty axis under a repeated letter, all orders of pairs that contract the operands, all paired axes of tensordot, all hash orders and allocators", "why_tests_cant": "all widths, strings, shapes, elements, orders and layouts", "anchors": ["src/lib.rs::einsum", "src/lib.rs::tensordot", "src/contractors/mod.rs::EinsumPath::contract_operands"]}
{"id": "C126", "title": "Limits of operands", "statement": "Let the element type carry a topology in which addition, multiplication and fused multiply-add are continuous; no law is assumed. If the elements of operands of fixed layouts converge (along a sequence or any filter), then every element of the result of einsum, of every compiled order of pairs and of tensordot converges to the element of the result for the limits. So results over the real, complex or p-adic numbers depend continuously on the elements, and no comparison or branch on values makes them jump.", "quantifier": "all topological element types, all filters and converging families of elements, all valid calls without an empty axis under a repeated letter, all orders of pairs that contract the operands, all paired axes of tensordot, all hash orders and all allocators that do not look at elements", "why_tests_cant": "limits; all strings, shapes, element types, orders and layouts", "anchors": ["src/lib.rs::einsum", "src/lib.rs::tensordot", "src/contractors/mod.rs::EinsumPath::contract_operands"]}
{"id": "C127", "title": "Independent random operands", "statement": "Let each operand be chosen at random, independently of the others, from finitely many arrays of one shape. Then the mean of the results of einsum is the result for the means of the operands: if w i o are the weights of the outcomes of operand i, and m i is the array of the weighted sums over its outcomes, then every element of the result for the m i is the sum over all outcomes of all operands of the product of their weights times the element of the result for these outcomes. The weights may be any elements; so this is linearity in all operands at once. The same holds for tensordot. Independence is needed: if both operands are the same random array, the mean of the results is in general another one.", "quantifier": "all commutative semirings, all finite sets of outcomes, all weights, all valid calls that return, among them all without an empty axis under a repeated letter, all paired axes of tensordot with equal lengths, all hash orders and allocators, which may differ between the calls, all layouts", "why_tests_cant": "all numbers of operands, strings, shapes, outcomes and weights", "anchors": ["src/lib.rs::einsum", "src/lib.rs::tensordot", "src/contractors/mod.rs::EinsumPath::contract_operands"]}
{"id": "C128", "title": "Which elements of the result are zero", "statement": "An element of the result that is not zero has a contribution in which no factor is zero: there are values of all letters, those of the output being given by the position of the element, such that the elements of all operands at these values are not zero. So the zeros of sparse operands determine zeros of the result. Where sums vanish only if all terms do and there are no zero divisors (natural numbers, non-negative rationals, truth values), the converse holds: an element of the result is zero exactly if there is no such contribution. Over the integers the converse fails. The same holds for tensordot, also if the multiplication is neither commutative nor associative.", "quantifier": "all commutative semirings, all valid calls that return, among them all without an empty axis under a repeated letter, all paired axes of tensordot with equal lengths, all hash orders, allocators and layouts", "why_tests_cant": "all strings, shapes, positions of zeros, element types, hash orders and layouts", "anchors": ["src/lib.rs::einsum", "src/lib.rs::tensordot"]}
{"id": "C129", "title": "Operands that are symmetric up to a factor", "statement": "Let a permutation of the letters carry each operand into an operand of the call multiplied by a factor (-1 for an antisymmetric array), and the output letters into output letters. Then the result with its axes permuted accordingly is the result multiplied by the product of the factors. In particular the full contraction \"ij,ij->\" of a symmetric with an antisymmetric matrix is an element x with x + x = 0, so zero over the integers and the rationals.", "quantifier": "all strings, operands, sizes, permutations of letters, factors, layouts, hash orders and orders of additions; commutative semirings; all valid calls that return", "why_tests_cant": "an invariance for all strings with a symmetry, all sizes and all factors", "anchors": ["src/lib.rs::einsum"]}
{"id": "C130", "title": "Calls made of two mirrored halves are sums of squares", "statement": "Let the operands of a call be a list of arrays followed by the same arrays again, the letters of the second half being those of the first with some of them renamed to fresh letters, and let the output consist of letters that are not renamed. Then every element of the result is the sum, over the letters that are neither renamed nor in the output, of the squares of the elements of the result of the call with the first half alone that keeps all letters that are not renamed. Over an ordered ring no element is negative. Examples: squared lengths \"i,i->\", row norms \"ij,ij->i\", and quadratic forms of Gram matrices \"ij,j,ik,k->\", which are therefore positive semidefinite.", "quantifier": "all commutative semirings, for the inequality all linearly ordered commutative rings, all strings of this form, all operands, sizes, renamings, layouts, hash orders and orders of additions; all valid calls that return", "why_tests_cant": "an inequality for all strings of this form, all sizes and elements", "anchors": ["src/lib.rs::einsum"]}
{"id": "C131", "title": "The Cauchy-Schwarz inequality for calls", "statement": "Let a call be made of two mirrored halves as in C130, and let P and Q be two lists of operands of the same shapes for one half. Then, element by element, the square of the result for P and Q is at most the product of the results for P and P and for Q and Q. Examples: \"i,i->\", \"ij,ij->i\", \"ij,j,ik,k->\" with different matrices and vectors in the two halves.", "quantifier": "all linearly ordered commutative rings, all strings of this form, all operands, sizes, renamings, layouts, hash orders and orders of additions, which may differ between the calls; all valid calls that return", "why_tests_cant": "an inequality for all strings of this form, all sizes and elements", "anchors": ["src/lib.rs::einsum"]}
