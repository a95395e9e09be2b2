# Formal model of oracleofnj/einsum (crate `ndarray_einsum_beta` 0.7.0)

Everything lives in `/verif/lean` (Lean 4.33, Mathlib modules imported one by one, no `require`).
Properties are listed in `properties.jsonl` (C01, C02, ...); `MANIFEST.json` maps each to its theorems;
`seeded/LOG.jsonl` records the mutation tests.

## Layers

| module | content |
|---|---|
| `Verif/Model/Basic` | outcomes (`ok`, `panic`, `ub`), hash-order oracle |
| `Verif/Model/NdArray` | strided views and the ndarray 0.15.1 operations the crate calls; `Alloc`, `SumTree` |
| `Verif/Model/Validation` | `src/validation.rs` |
| `Verif/Model/Optimizers` | `src/optimizers.rs` |
| `Verif/Model/Strategies` | `src/contractors/strategies.rs` |
| `Verif/Model/Singleton` | `src/contractors/singleton_contractors.rs` |
| `Verif/Model/Pair` | `src/contractors/pair_contractors.rs` |
| `Verif/Model/Contractors` | `src/contractors/mod.rs` |
| `Verif/Model/Lib` | `src/lib.rs` |
| `Verif/Model/Overflow` | the constructors again, with checked or wrapping `usize` multiplication (C42) |
| `Verif/Model/Counters` | letter counts of bounded size, checked or wrapping (C65) |
| `Verif/Model/Assign` | `contract_and_assign_pair` and the stacking loop with real buffer writes (C50) |
| `Verif/Model/Machine` | `einsum` and `einsum_path` with bounded letter counters and bounded lengths (C65) |
| `Verif/Model/Release` | everything again with the subtractions, multiplications and counters of the build as parameters (C70) |
| `Verif/Model/Strides` | `Diagonalization::view_singleton` and its callers with strides that are machine words (C77) |
| `Verif/Model/Whole` | `contract_operands`, `einsum` and `einsum_path` with counters, lengths and strides that are machine words (C78) |
| `Verif/Model/Capacity` | execution again, in which some shapes are refused and some arrays cannot be allocated (C95) |
| `Verif/Model/Debug` | the `fmt` functions of `src/contractors/mod.rs` and what they print (C56, C69) |
| `Verif/Model/DebugForms` | both forms of `Debug` output, `{:?}` and `{:#?}`, with escapes, of contractions, orders, contractors and paths (C106) |
| `Verif/Model/Serde` | the derived `Serialize` and `Deserialize` implementations, on JSON trees (C60) |
| `Verif/Model/Binary` | the same implementations with a format that stores values one after the other, such as bincode (C111) |
| `Verif/Spec`, `SpecArray`, `SpecExpr`, `SpecMatrix`, `SpecWork`, `SpecOrder`, `SpecSum`, `SpecFlow`, `SpecAdds`, `SpecTree`, `SpecIndex`, `SpecOnce`, `SpecChoice`, `SpecProgram`, `SpecNorm`, `SpecMeaning`, `SpecKron`, `SpecBinary`, `SpecReshape` | the independent specification: grammar, regular expression, Einstein sum, calls and arrays, formal expressions and rounding, arrays holding Mathlib matrices, counted multiplications, contraction trees, the Einstein sum as one sum, the order of the operations, counted additions, the steps of trees, positions along the letters, lists with one element replaced, choosing additions, sums of absolute values and squares, strings with the same meaning, Kronecker products, values stored one after the other, arrays reshaped in row-major order |
| `Verif/Check/RepoTests` | the crate's own tests and documentation examples evaluated on the model (`#guard`, no theorems) |
| `Verif/Proofs/*` | helper lemmas |
| `Verif/Props/*` | the property theorems `Cnn_...`, each with examples meeting its hypotheses |

The specification files use no definition of the model except `View` (an array: shape, `read`, `Wf`) and,
in `SpecExpr`, `Alloc`.

## Modelling decisions

* **Outcomes.** `Except Fault`; `Fault.panic k` is a Rust panic (assert, unwrap, slice index,
  arithmetic underflow, ndarray shape error), `Fault.ub` an out-of-bounds raw read that Rust would
  not catch. `Result<_, &'static str>` stays data (`Except String`) inside.
* **Arrays.** An array or view is `{buf, off, shape, strides}` with integer strides, as in ndarray;
  an element is read at `off + Σ idx·stride` of the buffer. Transposed, reversed, sliced,
  broadcast, F-order and owned arrays are all instances. The code's layout tests
  (`is_standard_layout`, `as_slice_memory_order`, `strides() > 0`) are modelled on the strides.
* **Layout nondeterminism.** For results of `to_owned`, `sum_axis`, `mapv`, `*`, `dot` ndarray chooses a
  memory layout from internal heuristics. The model takes an `Alloc` oracle which may pick any
  valid layout, differently at each call; theorems hold for every oracle.
* **Summation-order nondeterminism.** ndarray adds the terms of `sum_axis` and `dot` in unrolled or blocked
  order. `Alloc.sumOrder` picks, for each output element, any binary tree of additions whose leaves are each
  term once and any number of zeros (`SumTree`).
* **Fused multiply-add.** On processors that have it, the matrix product of `f32` and `f64` (crate matrixmultiply) uses
  fused multiply-add, which rounds once. An element type of the model has an operation `MulAdd.mulAdd a b c`, and
  `sumOrder` also picks which products of a `dot` are added by it. Types that say nothing else have `a * b + c`; this is
  the case in all theorems about semirings. C41, C52, C53 and C57-C59 are about every `mulAdd`.
* **Hash nondeterminism.** Iteration order of `HashMap`/`HashSet` is an oracle `HashOrd`: an
  arbitrary permutation of the entries, possibly different at each call site and step. Theorems
  hold for every oracle.
* **Scalars.** Model code uses only `0, +, *` and no laws. Correctness theorems are for every commutative
  semiring; C48 says what is computed in every semiring; C52 what is computed with no laws at all (for
  oracles that do not look at the elements); C53 bounds the rounding error of floating-point numbers
  without overflow, underflow and NaN, C64 with them; C57 says when integers are computed exactly.
* **Matrix products.** ndarray's `dot` scales by `alpha = 1` and `beta = 0`: it computes `0 * 0 + 1 * sum`. The model
  leaves the two multiplications out. In a semiring this is the same; C52, C53 and C57-C59 are therefore about element
  types in which `1 * x = x` and `0 * 0 = 0`, as in all numeric types.
* **usize** is `Nat`; subtraction that would underflow is a panic. Products of axis lengths are unbounded in the
  main model; `Model/Overflow` repeats the constructors with checked or wrapping multiplication and C42 relates the two.
  So are letter counts (`i32` in Rust); C65 relates them to bounded ones.
* **serde.** JSON trees as serde_json gives them to the derived code: structs are objects (or arrays of all fields),
  enums externally tagged, `char` a string of one character. `Json.num` stands for the numbers that are accepted as a
  `usize`, `Json.other` for all others (negative, fractional, beyond `usize::MAX`) and truth values. Errors are `none`.
  Formats without names (`Model/Binary`) see numbers, characters, lengths, variant indices and option tags only.
* **Trait objects** (`Box<dyn SingletonContractor>` ...) are closed inductive types of the concrete structs.
* **Erased.** `PhantomData`, lifetimes, `Clone`, storage and dimension type parameters of ndarray arrays.

## Trusted base

* The Lean kernel, and that `lake build` elaborates what is written. No own axioms, no `sorry`, no `native_decide`,
  no `implemented_by`. Every manifest theorem depends only on `propext`, `Quot.sound` and (all but
  `C01_unambiguous`, `C11_unsupported`, `C51_constructors`, `C51_summation_unused`) `Classical.choice`.
* That the model transcribes `/repo/src` faithfully; each definition cites its file and lines. The code was read, not run.
  As a check of the transcription, `Check/RepoTests` evaluates the model on every test of `/repo/tests` and every
  documentation example; all agree with the expected values there.
* That `Model/NdArray` describes ndarray 0.15.1, whose source is not in `/repo`. In particular, from memory:
  - `into_shape` succeeds on a standard-layout view or a Fortran-layout view with the same number of elements only
    (`View.intoShape`); freshly created empty arrays have all strides zero (`defaultStrides`);
  - `ArrayView::from_shape(shape.strides(..), slice)` refuses too short slices and strides that overlap (`fromShapeStrides`);
  - `as_slice_memory_order` requires contiguity of the strides in some axis order (`isContiguous`); a single axis
    counts as contiguous only with the default stride or stride -1;
  - `permuted_axes` panics unless given a permutation; `index_axis`, `sum_axis`, `insert_axis` panic on a bad axis;
  - `&a * &b` broadcasts both to their common shape (`commonShape`, since ndarray 0.15.0) and panics if there is none;
    calls that pass the checks of `einsum` use it with equal shapes only, compiled paths with any (C103).
* That the `regex` crate matches according to the textbook semantics (`Spec.Re`), and that Rust's `char` comparison is by
  code point.
* That the statements in `Spec*.lean` say what is meant.

## Per property plan

| id | model and method |
|---|---|
| C01 | deterministic recogniser for the regex on `List Char`; equivalence with the grammar (`Spec`) and with a denotational regex semantics by induction |
| C02-C05 | `from_indices`/`from_parse` with the hash oracle; list/permutation reasoning, uniqueness of sorted permutations |
| C06, C07 | two nested folds over operands/axes; invariant "map = sizes seen so far" |
| C08 | printer/parser inverse by induction, then C02/C04 |
| C09 | as C02 plus restriction of the size map |
| C10-C12 | `generate_path` as a recursion over steps; invariant on labels carried |
| C13, C15, C24, C25 | labelled-tensor refinement: `Rep v labels dims F` ("view v holds F σ at `labels.map σ`"); each ndarray operation, then each contractor, then simplification + pair, then the path preserve it; nested sums `sumOver` as specification |
| C14 | the stride assertion on the copied empty tensor; without copying, `from_shape` accepts the empty slice only if no axis is longer than one, and `is_contiguous` then holds exactly for one zero-length axis of stride one (`UnitRow`); `Good`/`GoodAt` carry the exact condition through singleton, pair and path proofs |
| C16-C18, C26-C33, C35, C40 | corollaries of C13 by algebra on the specification; `_all` theorems also compare the panics (C14), `_returned` theorems are about all calls that return |
| C14, C15, C17, C22 without laws | `Props/Lawless`: map all elements to the one-element type (C52) and read off outcome and shape there |
| C19, C20, C23, C34, C39, C43 | direct evaluation; negations by explicit witness, plus general theorems where possible |
| C21, C22 | `Rep` with generic labels for `TensordotGeneral`, error analysis of the assertions; the multiplication obeys no law, only the addition is commutative and associative (the comparison with einsum asks for a commutative semiring) |
| C36 | contiguity of the stride order implies bounds and non-overlap of summed strides |
| C37, C38 | same refinement as C25 for the two contractors in full generality |
| C41 | `ub`-freedom of each operation on well-formed views, composed |
| C42 | divisibility/bounds of products over sub-lists; second model `Model/Overflow` with the multiplication as a parameter; `Guarded` relates checked and unbounded runs |
| C44, C46 | each contractor constructed directly: `Rep` refinement on the documented domain |
| C45 | explicit witness |
| C47 | `getStrategy` tables plus cardinality facts about label sets (`pairSummary_ok`, `simplification_ok`) |
| C48 | the refinement of C13 carried out over `Semiring`, each pair contractor labelled with the side on which it multiplies; `orderedTerm` in `Spec` |
| C49 | printer/parser inverse of C08 applied to the subset contractions, then C13 on both sides |
| C50 | `Model/Assign`: mutable views as buffer updates; frame property by induction over the written addresses; also the stacking loop of `StackedTensordotGeneral` restated with real assignments and proved equal to the block form |
| C51 | every constructor is shown free of `ub` for arbitrary arguments, then C41 |
| C52 | the model is natural in the element type (`Proofs/Natural.lean`): run it on formal expressions, then evaluate these in the element type and in a commutative semiring (C13) |
| C53 | induction on the expression of C52; the number of terms and factors are read off its value in ℕ[X] |
| C54 | C13 on both calls; both sums equal the sum over all letters of the product of everything (Fubini on `sumOver`) |
| C55 | C13 on the three calls; splitting `Finset.range (a + b)` inside `sumOver` |
| C56 | `Model/Debug`: the four `fmt` functions and the derived ones as strings; counting braces, using that recorded strings consist of letters, `,` and `->`; `Props/DebugText`: the text of each step against tables of names and `Spec.StepText` |
| C57 | run on expressions (C52); by C58 no sum without terms is a factor, so every subexpression weighs at most the whole; the weight is the Einstein sum of max(1, \|t\|) |
| C58 | `Proofs/Positive`: one preservation lemma per ndarray operation and contractor, on whole buffers of named elements; elements outside the views do not occur in the expressions because they do not occur in their values in ℕ |
| C59 | C21 on expressions, then as for C52, C53, C57 |
| C60 | `Model/Serde`: what the derived `Serialize` and `Deserialize` do with a JSON tree; writing is a relation because hash maps are written in any order; inverse by computation per type, then C17 and C41; `C60_atoms` says exactly which JSON values give each character, number, list, size map, operand number and method; `C60_steps` says where a written path shows each step |
| C61 | `Proofs/Shrink`: `Both` relates the two compilations: lengths may only shrink; the reshapes of a run compare element counts, so shrunk lengths either equal the true ones or the output is empty; induction over the steps of any well-labelled order |
| C62 | `Proofs/Alike`: views with equal shape, strides and elements; one congruence lemma per operation that returns a view, equality of results for those that allocate; every element of the memory block of a contiguous array is an element of the array (mixed radix digits along the stride order) |
| C63 | relational parametricity: the pairs in R form an element type whose projections respect the operations; run there (C52), project; C62 replaces the buffers by ones with related elements only |
| C64 | `Proofs/Floats`: induction on the expressions of C52 and C58 (no factor is a sum without terms): the computed value is at most V = G m + (H - G) w and off by at most V - m, where m, w are the values with \|t\| and max(1, \|t\|) and G = (1+u)^s, H = (1+u+e)^s; binary64 with rounding to even as a concrete type |
| C65 | `Model/Counters`: the counting loops again with the counter as a parameter (checked or wrapping two's complement); the entries are the true counts reduced modulo 2B; existence of strings by `List.replicate`, not by evaluation; `Model/Machine`: all of `einsum` and `einsum_path` with both bounded counters and bounded lengths, equal to `Model/Overflow` because counts never grow from step to step |
| C66 | the specification here is Mathlib's `Matrix`: `IsMatrix`, `IsVector`, `MatrixChain` say that arrays hold matrices; C40 for the single operations, induction over the chain on `sumOver` for products |
| C67 | `Proofs/SignedZero`: binary64 with signed zeros; forgetting the sign respects the operations, so C52 applies; C63 for operands without sign bits |
| C68 | the expressions of C52 and C58, evaluated in ℕ with all elements 1 and with one of them 2: strictly more exactly if it occurs, in the expression as in the sum |
| C69 | unique readability: the text of each type followed by a character that is no letter or digit determines the value and the rest; combinators for fields, lists, options and tagged structs; then `path_shape` for the operand numbers |
| C70 | `Model/Release`: everything that subtracts, multiplies or counts again, with the three operations of the build as a parameter; each subtraction shown not to wrap for its callers; `collect` of a range longer than a `Vec` can be is a panic |
| C71 | elements are paired with the number of multiplications made to obtain them, reset to 0 before each step; `Proofs/Sorts`: every pair contractor multiplies only elements of its (simplified) operands and adds only such products, so each output element costs as many multiplications as the natural number computed from arrays of ones, which `pairOp_ok` evaluates. Only the products of elements are counted: the multiplications by `alpha = 1` and the padded blocks inside matrixmultiply are not |
| C72 | `SpecOrder`: an inductive relation that consumes the pending arrays; induction on it with the sum over the pending arrays as invariant, one step being `pair_ok` and the interchange of sums of C32; for C71's count the same relation gives `Wired` |
| C73 | the positions found are those of distinct labels, and `permuted_axes` accepts a list of axes only if it rearranges all of them, so that the operand's labels are a rearrangement of the labels looked up; on the domain C37, C38 and C44; panics rather than undefined behaviour by C51 |
| C74 | running a path commutes with maps that respect the operations (as for C52), so run the order of C72 on the elements themselves as variables; the bounds are those of C53, C57 and C64, which only use the value of the expression in every commutative semiring and, for the last two, that no factor is an empty sum |
| C75 | the vector of `contract_operands` as a definition of its own; shapes by the invariant of C71 (what a step finds has the labels recorded), labels by C12; the letters kept of the badly listed product computed for every `m` |
| C76 | `SpecSum`: the formula as one `Finset` sum over a type of assignments; equal to `Spec.einsum` by induction on the summed labels (fibres over the value of one label); for unit arrays at most one assignment contributes |
| C77 | `Model/Strides`: the loop over strides and `from_shape` again with addition and absolute value on machine words as parameters; axes of length at least two have sums below the number of elements because `from_shape` succeeded, the order of the others does not matter to its overlap check; `C77_words` compares the arithmetic with `BitVec` |
| C78 | `Model/Whole`: steps run with the strides of `Model/Strides` on paths compiled by `Model/Release`; the invariant on pending arrays of C72 with every step allowed to panic; intermediate results have no repeated label, so only operands need the bound on elements; the compiled contractor differs from the exact one in lengths only (C61) |
| C79 | the compilation of one string for two sizings step by step: everything but `Diagonalization`, the tensordots and `BroadcastProductGeneral` reads only labels; `Rep.diagView` for view sizes below the array's; `Holds.fixedRun` for any shapes with the right number of elements; a stacked tensordot reads its operands only as lists of elements, so an array of the compiled sizes with the same list gives the same result; for arrays of any shape: the overlap test of ndarray as a condition on the strides of the letters, and every address below the number of elements of a contiguous array is that of an index |
| C80 | C13 for both calls; the sum over the letters of the added operand taken innermost, where it has one nonzero term (identity, unit vector) or is constant (ones) |
| C81 | C13 for the three calls; operands reordered as in C27, the inner sum renamed (`sumOver_rename`) without requiring the renaming to be injective on the output letters, then C32's `einsum_stage` |
| C82 | from the bound of C53: the error is distributed over the terms in proportion to their absolute values, and a term is changed by changing its factor from the chosen operand; `C82_tree` does this for every contraction tree from the bound of C74 |
| C83 | restricting a sized contraction of two operands to its own operands changes nothing, so a call for two operands compiles the same pair contraction for a suitable hash order; then induction over the steps |
| C84 | a simplification compiles `subset` of the two-operand contraction, which is the one-operand contraction itself (C83); the reduced contraction needs no simplification; then the lemmas about the contractors again without laws for the elements: the products are listed as `Spec.cells` in row-major order and added by the tree of the allocator (`Proofs/Dataflow`); `TensordotGeneral` and `tensordot` share `TensordotFixedPosition` |
| C85 | the loops of the summation and of the diagonalization again without laws: `Spec.sums` sums the letters of `Spec.fresh` one by one; the order of `fresh` does not depend on the order of the output |
| C86 | the fold of C83 with the formulas of C84 and C85: a step computes a function of the assignments that mentions only sets of letters, except for the order of the contracted letters in a stacked tensordot; two runs side by side, labels of intermediates up to a permutation |
| C87 | run the crate on grades: an element type whose numbers say how many roundings lie behind an element (a product adds the grades and one, a sum takes the larger and one, zero is exact). By C52 the result is the grade of the expression, which bounds its error; by the fold of C83 with C84 and C85 it is bounded step by step. For trees: a step compiles to the same pair contraction whatever other sizes it records; grades of the pending arrays add up, by induction over the pending arrays of C72 |
| C88 | run the crate on tallies: elements that carry the number of additions behind them, set to zero again after each simplification and each step, so that nothing is counted twice. By `pair_split` (the parts of C84), C85 and the fold of C83 all elements of an array have the same tally. For trees: induction over the pending arrays of C72, which may have kept letters nobody needs |
| C89 | at the level of the specification: the map of positions is a change of variables in `sumOver`, letter by letter; then C13 for both calls |
| C90 | transposing: the term of an operand mentions only the set of its letters with their axes; merging: the double sum over `x` and `y` is the sum over `z` (Euclidean division), and row-major order is `i * dims y + j` |
| C91 | the sum over the letters of one group leaves the other group's product alone (`sumOver_mul_left`, `sumOver_mul_right`) |
| C92 | the permutation of the letters is a change of variables that permutes the factors of the term |
| C93 | the side by side runs of C86 with different sizes: the second run has, at an assignment of positions, what the first has at the selected positions; letters that are summed have the same positions in both |
| C94 | C13 for all calls; the derivative of a product of elements by induction over the operands, then of the sums; once with dual numbers (Mathlib's `TrivSqZeroExt`), once with `HasDerivAt` |
| C95 | `Model/Capacity` repeats execution with two predicates: shapes that ndarray accepts, arrays that can be allocated. By structure, a run with limits panics or equals the run without; every contractor allocates its result last; sizes of copies and of partial sums are bounded by those of operands and result; then induction over the steps as in C75 |
| C96 | C76 (the element as one sum over assignments); a finite sum with a choosing addition is zero or one of its terms and absorbs all of them, by induction on the set; Mathlib's `Tropical` for min-plus |
| C97 | an inductive relation between strings, lists of shapes and messages; C01, C02, C05 and C06 give the cases, and every hash order is the part of another one that validation sees |
| C98 | the labels numbered in order of first occurrence and replaced by the letters, or the characters, with these numbers; C13 and C51 for the replaced labels and the renaming of sums (as in C28) back; 26 is the number of letters, by the pigeonhole principle |
| C99 | exactness of `PairContraction::new` from `pair_ok` and from its calls of `subset`; an inductive relation that appends the Einstein sum of two named arrays per step, run in parallel with the loop of `contract_operands`; exactness of `SingletonContraction::new` operation by operation; Mathlib's matrix powers by C66's `IsMatrix` |
| C100 | each step is a call for two operands (C83) whatever summation labels and further lengths it records; `C86_reduced` and C86's two-run lemma step by step along the list of results, operands and intermediate results alike; for generated orders the label lists of C12 |
| C101 | the side by side runs of C86 with the letters of the second run renamed and permuted: the second run has at an assignment `σ` what the first has at `σ` after the renaming; an increasing renaming maps the sorted contracted letters to the sorted ones; the exchange at the first step from the formulas of C84, which are symmetric except for the order of the letters |
| C102 | the contractor that C47 selects, run on a view of any rank: `sum_axis` at one position several times is the sum over a block of axes (induction over the number of axes); the `permuted_axes` check; the two loops of `Diagonalization::view_singleton`; `first` reads position zero |
| C103 | the simplification of an operand without repeated letters is the same for all lengths (C79), so each factor is summed with its own lengths; `commonShape` of two label lists of the same letters by induction; a broadcast reads position zero along axes of length one; sums commute with this |
| C104 | `generateSteps` and `compileSteps` under a renaming of the operand numbers, by induction; both paths start from the sized contraction of the operands in reverse order; then `runSteps`, for all arrays whatever; the statements about two operands follow for both orders |
| C105 | the step of C103 as a statement about a compiled pair (`Rep.pair_elementwise`); induction over the calls of C83 with the lengths of the product so far; the factors are commuted into the order of the operands |
| C106 | `Model/DebugForms`: quoting with the escapes of `char` and `str`, the Unicode tables being a parameter; `{:#?}` indents the text of the parts, so each part must be readable at every depth of indentation; hash maps are printed in any order, so printing is a relation; then reading part by part as in C69; contractors on their own and the compiled steps in `Props/DebugOps`, the hand-written texts having no line feed |
| C107 | the axes of the diagonal view are numbered, so that an output label that is repeated or missing in the operand becomes a number of its own; `Rep.diagView_extra` (strides of such axes are zero) gives the view, `overlap_iff` the panics; sums over numbers are turned into sums over labels; without repeated operand labels the recorded lengths are unused, so that the contractor is the one for the lengths of the array, and a permutation with a repeated axis panics |
| C108 | `SpecNorm`: sums over all elements of an array; the bounds by induction on the letters: a letter of one operand or more splits off a sum of products (`sum_prod_le`), one of two operands or more splits off a Cauchy-Schwarz inequality without roots; a diagonal has not more than all the elements; conversely a letter in one operand only: two ones on a diagonal |
| C109 | `SpecMeaning`: strings that are renamings of each other, outcomes that agree; two equal calls on unit arrays (C76) with all axes of length two make the same positions equal, which gives the renaming; the converse is C28 for the letters that are used, with the messages of C97 |
| C110 | `SpecKron`: Kronecker products of arrays with any number of axes; a sum over `m·n` positions is a sum over `m` and one over `n` (`kron_sum`, by induction on the summed letters), and each term of the large sum is the product of a term of either |
| C111 | `Model/Binary`: the derived code as sequences of numbers, characters, lengths, variant indices and option tags; a format is any way to store these that reads each back and looks at nothing behind it. Readers compose (`Reads.bind`, `Local.bind`), so round trips, prefix-freeness and refusal of cut-off input hold for every type in every such format; bincode is shown to be one; the order at the start of a written path is recompiled as in C60 |
| C112 | `SpecReshape`: two arrays with the same elements at the same row-major positions; every letter stands for a word of letters of the finer call. The position along a letter is the row-major position along its word (`word_sum`, by induction on the word), positions of operands are compared by `ravel_append`, and the summed letters of the finer call are a permutation of the words of the summed letters (`sumOver_perm`) |
| C113 | `SpecBasis`: a matrix applied along one axis, dual bases. Terms are linear in the operand (`along_elem`); for a letter of the output the matrix moves out of the sum (`basis_output`), for a summed letter its sum is made the innermost one (`basis_summed`) and the two matrices meet in the identity (`basis_cancel`) |
| C114 | `SpecNetwork`: operands that are conditional distributions. Induction on the operands from the last one: the sum over its own letter, which occurs nowhere before, is one |
| C115 | `|∏(aᵢ + δᵢ) − ∏aᵢ| ≤ ((1 + ε)ⁿ − 1) ∏|aᵢ|` by induction on the operands, summed over the summed letters |
| C116 | `SpecLoops`: nested loops over an array that is updated in place. An element after the loops is its value before plus the sum of the products whose index it has (`nest_add`, by induction on the loops), which is the formula of C76; the loops commute with homomorphisms of the elements (`nest_map`), so they are expressions with the value of the Einstein sum and the bound of C53 holds for them too |
| C117 | the path as a sequence of two-operand calls (C83); in each call the contractors that C47 selects permute the axes of both operands first, except a completely summed one; a permutation of another number of axes panics; `sum_axis` takes away one axis at a time, so a summed operand with further axes reaches the permutation with too many; a letter needed later is kept by every call (induction over the calls) |
| C118 | an operand without repeated letters is summed with its own lengths (C103), and `Rep.tensordot_resized` and `stacked_resized` (C79) take the sums; the order of the kept letters is that of a hash set; two hash orders for one path evaluated |
| C119 | the path as a sequence of two-operand calls (C83); one call by C103, C118 and `simplification_any` for a scalar factor; induction over the calls, with the letters as sets, as the order of the letters of intermediate results is that of a hash set; element types without laws by C63, relating them to zeros |
| C120 | a call reduces its operands by calls for one operand (C84), which for operands with repeated letters are described by C79 (`misfit_run`) and for others by C107; the reduced call by C119; whether letters are summed first, and so which strides count, is read off the string, as the letters of intermediate results are those still needed (C83). Empty axes: ndarray accepts an empty array as contiguous if its elements would lie side by side with length one for its one empty axis, whose stride is their number; a diagonal of length zero has to end at most one step beyond the array |
| C121 | element type `Ranged lo hi`: integers of a range, with a mark for a value that left it (in Rust the operation panics at once; the mark says which elements the panic would have been for). Unmarked elements are exact by C63 with the relation "marked, or equal and in the range"; for positive elements nothing below the bound is marked by C57; marks of intermediate results reach the result by C68 for one call (`tree_positive`) and induction over the calls of C83; order-dependent panics by evaluation |
| C122 | only addition has laws (commutative, associative, zero), multiplication none: `Spec.combined` is the value of one step for two operands (letters of one operand only are summed first, then the products over the shared letters), `Spec.stepwise` goes along the operands. No hash order, allocator or contractor occurs in it. Each sum tree of C84/C85 becomes `sumOver`; induction over the calls of C83. Application: unsigned integers with overflow checks (`Spec.Unsigned B`), whose multiplication distributes over nothing |
| C123 | one step of `Spec.combined` (C122) does not depend on the order of its operands if the multiplication is commutative: a left operand that shares nothing leaves no shared letters to sum. Hence the first two operands of a call may be exchanged, and all methods agree for two operands. `C123_third` and `C123_commutative` show that neither the restriction to the first two operands nor the commutative law can be dropped |
| C124 | contraction orders as programs (C99, C100) with only the laws of addition: a step has the value `Spec.combined` (C122) of the arrays it names; each compiled step is a call for two operands (C83, C100), whose elements are given by `pair_value` of C122; induction over the steps, for `C124_same` with two runs side by side |
| C125 | natural numbers up to `B`, where results that are too large become `B` (Rust's `Saturating<u8>` and the like), form a commutative semiring: cutting at `B` respects sums and products of natural numbers. So the Einstein sum of C13 and C72 is the cut of the exact sum, as in C33. For the signed kind addition is not associative, and the result depends on the hash order (C43) |
| C126 | by C52, C59 and C74 the elements of a result are the values of expressions that do not depend on the elements of the operands. Values of expressions are continuous in the values of the variables, by induction on the expression, if `+`, `*` and fused multiply-add are continuous. No law is used |
| C127 | the term of the Einstein sum of the means is a product of sums, which is the sum over all outcomes of the products; sums over letters and over outcomes are exchanged; `tensordot` alike from C21; a counterexample over the rational numbers for operands that are not independent |
| C128 | a sum that is not zero has a term that is not zero, and its factors are not zero; conversely if sums vanish only if all terms do and there are no zero divisors |
| C129 | as C92, with a factor for each operand; the factors come out of the term and of the sum |
| C130 | the sum over the letters of one copy and the sum over those of the other are the same number, so that a sum of squares over the shared letters remains |
| C131 | by the lemma behind C130 the three results are sums of products and of squares over the same letters; the inequality from the squares of combinations of the two factors being not negative, with separate cases for sums that are zero, as there is no division |

## What the proofs found

None of these contradicts the crate's tests; each is stated as a theorem.

| finding | theorem |
|---|---|
| an operand with a repeated letter and a zero-length axis makes `einsum` panic instead of returning zeros; exact condition in `C14_iff` | C14 |
| which of two error messages is returned can depend on the hash order | C05 |
| a compiled path does not check shapes at run time: some wrong shapes give silently wrong results | C20 |
| `tensordot` compares only the products of the contracted lengths | C23 |
| `ScalarMatrixProduct` multiplies `matrix * scalar`, the others `lhs * rhs` | C34, C48 |
| `DiagonalizationAndSummation::new` panics when nothing is to be summed | C39 |
| hash order decides the order of additions, so floats are not reproducible bit by bit | C43 (bounded by C53) |
| a letter shared by both operands and the output changes the order of the additions: a batch is not bit for bit the contractions made one by one | C84_batch_differs |
| the letters to be summed are added in the order in which the operand lists them: a matrix and its transpose, letters exchanged too, can have different sums bit for bit | C85_transpose_differs |
| the result of `xi,xj,xij->x` depends on the hash order although no operand is simplified: the letters of the intermediate result come in hash order, and a stacked contraction adds in the order of its left operand; tensor networks (each letter in at most two of operands and output) are not affected | C86_intermediate, C86_network |
| fused multiply-add in the matrix kernels makes results depend on the processor: `0` or `2⁻¹⁰⁴` for the same scalar product | C53_fused (bounded by C53) |
| the order of the pairwise contractions decides the sign of a zero result (hence of `1 / x`) | C67_order_matters |
| the order of the pairwise contractions decides whether `2⁶⁰⁰ · 2⁶⁰⁰ · 2⁻⁶⁰⁰` is `2⁶⁰⁰` or infinite in `f64` | C64_order_matters (excluded by C64's bound) |
| with an empty axis an `f64` result can be NaN although it is a sum of no terms | C68_empty_sum |
| `TensordotFixedPosition::new` accepts contractions whose labels are not in the right positions | C45 |
| intermediate sizes can overflow `usize` although all operands and the result are small; without overflow checks a contractor then records a wrong length, which can only lead to a panic later (C61) | C42_overflow, C42_wraps |
| the recorded `simplified_einsum_string` may be one that the crate itself rejects | C49_not_accepted |
| integer contractions can overflow although the result is small, even zero | C57_overflow |
| with negative elements, whether a build with overflow checks panics depends on the hash order (`xijk,xij->x` with bytes 100, 100, -100, -100), so the same program can panic in one run and return in the next; with a zero element it depends on the order of the operands; with positive elements only it never depends on any order, and for unsigned integers it never depends on the hash order | C121_hash, C121_order (and C121_einsum, C122_unsigned) |
| a build without overflow checks accepts outputs in which a letter is repeated 2³¹ times | C65_duplicate_accepted |
| for an operand with 2³¹ axes of one letter, a build without overflow checks returns the operand instead of its diagonal | C65_wrong_rank |
| a contraction built by hand with output labels that are not in the operand is compiled and run by a build without overflow checks, while a build with checks panics | C70_hand_built |
| a serialised path leaves out its contractors; only its `contraction_order` says what it computes | C60_steps_lossy |
| the `Debug` output of every pair contraction lacks its closing brace | C56 |
| the `Debug` output of a path does not show which operands a step takes: paths that print alike can compute different results | C69_order_not_shown |
| `einsum` contracts from the left whatever the cost: a product of `m` square matrices and a vector takes `m - 1` matrix products (`(m-1)n³ + n²` multiplications), while from the right (the `Reverse` strategy of `einsum_path`) it takes `mn²` | C72_chain |
| `Identity`, `Summation`, `Diagonalization` and `PermutationAndSummation` can be built for contractions they do not compute ("ij->ji", "ij->j", "ij->i", "ii->"); the crate itself never does this | C73_unchecked |
| neither strategy looks at sizes: a product of `2m + 1` matrices listed in a bad order makes an intermediate result of `n^(2m+2)` (naive) or `n^(2m)` (reverse) elements, where `n²` would do | C75_blowup |
| `"i,j,i,j->"` of four vectors panics if an array of all pairs of positions is too large, though operands and result are small; `"i,i,j,j->"` returns the same number | C95_order |
| `"ij->"` of an empty array of shape `(0, m)` panics if `m` elements are more than `isize::MAX` bytes (`f64`, `m = 2^61`): summing over the first axis makes `m` zeros; with the axes exchanged it returns zero | C95_empty |
| a path compiled for the trace of a 2 by 2 matrix returns the trace of the leading block of a 3 by 3 matrix | C79_longer |
| a path compiled for the diagonals of a 1 by 3 by 3 array returns an element off the diagonal of a 2 by 2 by 2 array | C79_mixed |
| a path compiled for the trace of a 2 by 2 matrix, run on a column of four elements, returns the sum of the first and the third if the column is in row-major order and panics if the same column is in column-major order | C79_layout (from C79_misfit) |
| a path compiled for matrix products, or for batches of them, accepts any arrays with as many elements | C79_tensordot, C79_stacked |
| a path compiled for `ikz,j->ikj` and run on arrays of other lengths with as many elements returns, without a panic, arrays that depend on the order of a hash set, so that two runs of one program can differ | C118_differs (from C118_tensordot) |
| a path for a chain of matrix products takes any arrays with the right numbers of elements (`ij,jk,kl->il` for matrices of 2 by 2 takes shapes (4, 1), (1, 4), (2, 2)) and returns an array of the compiled lengths | C119_contracting |
| a path for `ii,i->i` with a 2 by 2 matrix takes a column of four elements for the matrix and panics on a row of two | C120_lengths, C120_refused (example) |
| a path compiled for the diagonal of a matrix without elements panics on this matrix and returns an empty array for a 2 by 2 matrix | C120_empty |
| the trace of a 1 by 1 view with strides `2^62` panics in a build with overflow checks (the sum of the strides has no absolute value in `isize`) | C77_overflow |
| a zero-dimensional array can be no operand of an einsum string: every such call is rejected; a `SizedContraction` built by hand takes it | C98 |
| the arrays of a contraction order may be used any number of times, so a hand-built order of k steps computes a power for which a string needs 2^k operands; the order `Singleton` is also compiled for outputs with repeated labels such as `ij->ii`, which no string means | C99 |
| a contraction order that is kept makes results reproducible that depend on the hash order through an intermediate result; only the simplification of the first left operand still depends on it | C100 |
| letters matter beyond their pattern: `ij,ij->` and `ji,ji->` of the same two arrays may differ in their bits, as contracted letters are added in alphabetical order | C101 |
| with a commutative multiplication, `xij,xji->x` and the same call with the operands exchanged may differ, as a stacked product adds in the order of the letters of its left operand; `ij,ji->` and its exchange agree | C101 |
| a path compiled for `i->i` returns an array with any number of axes unchanged; one for `ij->i` sums the middle axis of a cube; no check compares the number of axes with the letters | C102 |
| a path compiled for `ii->i` returns a vector as it is, and one for `ii->` returns its sum, if the vector is at least as long as the compiled side | C102 |
| a path compiled for `i,j->j` accepts a matrix for the first vector and silently uses its first column only | C102 |
| a path compiled for `ij,ij->ij` multiplies a column by a row and returns a matrix, although the call `einsum` refuses these arrays | C103, C105 (any number of operands) |
| a hand-built order for `ii->k`, with a length of one for `k`, returns the diagonal as an array with two axes, where the output has one label | C107 |

## Not modelled

Unsigned subtractions of the constructors are modelled as panicking when they underflow (a build with overflow checks); C70
says what a build without does. The sum of the strides of a repeated letter
(`singleton_contractors.rs` 238) can leave the range of `isize` only for axes of length one with absurd strides; it is exact
in the model, and C77 says what machine words change.

serde error texts, serde formats other than JSON and positional ones, benchmarks, performance, allocations that abort the process instead of
panicking, the commented-out
`src/iterators.rs`, NaN payloads.

## Mutation tests

Definitions of the model were changed in a scratch copy in a way that a plausible bug would change them, and the
development rebuilt; `seeded/LOG.jsonl` has one line per attempt with the theorems that fail. The entries `auto…` were made by a
script that applies small edits (off by one, comparison or quantifier flipped, left and right swapped, an assertion removed,
a text changed, …) to every definition; for these the rebuild stops at the first failing lemma that a property
theorem rests on, and `theorems_failed` lists the property theorems that rest on it. Edits that do not type check are left out.
An edit that no property theorem notices is either equivalent or led to a tightened theorem; the log says which.
