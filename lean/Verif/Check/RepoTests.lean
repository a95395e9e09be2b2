import Verif.Model.Lib
import Verif.Proofs.Layouts

/-!
# The crate's own tests, run on the model

`/repo/tests/einsum_test.rs` and the documentation tests of `/repo/src/lib.rs`, transcribed.  They are evaluated, not
proved: they check that the model does what the crate is known to do, the theorems are elsewhere.  Random `f64`
arrays are replaced by arrays of integers.  Each contraction is run with two hash orders, two array layouts,
through `einsum` and through paths compiled with both optimization methods.
-/

namespace Einsum.RepoTests

/-- Stands for `rand_array(shape)`. -/
def rand (seed : Nat) (shape : List Nat) : View Int :=
  rowMajor shape ((List.range shape.prod).map fun (i : Nat) => ((i * i * 7 + i * 3 + seed * 5) % 11 : Int) - 5)

/-- `Array::range(0, n, 1).into_shape(shape)`. -/
def range (shape : List Nat) : View Int := rowMajor shape ((List.range shape.prod).map fun (i : Nat) => (i : Int))

/-- Element access for the expected values. -/
def at' (v : View Int) (idx : List Nat) : Int :=
  match v.read idx with
  | .ok x => x
  | .error _ => 99999

/-- The array with the given elements. -/
def tabulate (shape : List Nat) (f : List Nat → Int) : List Nat × List Int := (shape, (allIdx shape).map f)

/-- `for i in 0..n { r += f(i) }`. -/
def sum (n : Nat) (f : Nat → Int) : Int := (List.range n).foldl (fun r i => r + f i) 0

def isArr (r : M (View Int)) (want : List Nat × List Int) : Bool :=
  match r with
  | .ok v => v.shape = want.1 && (match v.toVec with | .ok xs => xs = want.2 | .error _ => false)
  | .error _ => false

def isOkArr (r : M (Except String (View Int))) (want : List Nat × List Int) : Bool :=
  match r with
  | .ok (.ok v) => isArr (.ok v) want
  | _ => false

def runPath (h : HashOrd) (al : Alloc Int) (m : OptimizationMethod) (s : String) (ops : List (View Int)) : M (View Int) := do
  match ← einsumPath h s ops m with
  | .ok p => p.contractOperands al ops
  | .error _ => panic .unwrapErr

/-- All entry points, hash orders and layouts give the expected array. -/
def gives (s : String) (ops : List (View Int)) (want : List Nat × List Int) : Bool :=
  [HashOrd.insertion, HashOrd.reversed].all fun h =>
    [Alloc.rowMajor Int, Alloc.colMajor Int].all fun al =>
      isOkArr (einsum h al s ops) want && isArr (runPath h al .naive s ops) want && isArr (runPath h al .reverse s ops) want

/-- `Contraction::new(s)` has the given labels. -/
def parses (s : String) (inputs : List String) (out summation : String) : Bool :=
  [HashOrd.insertion, HashOrd.reversed].all fun h =>
    match validate h s with
    | .ok c => c.operandIndices = inputs.map String.toList && c.outputIndices = out.toList &&
        c.summationIndices = summation.toList
    | .error _ => false

def fails (s : String) : Bool :=
  [HashOrd.insertion, HashOrd.reversed].all fun h =>
    match validate h s with
    | .ok _ => false
    | .error _ => true

/-! ## Parsing: tp1 - tp18, bad_parses_1, bad_outputs_1 -/

#guard parses "i->" ["i"] "" "i"
#guard parses "ij->" ["ij"] "" "ij"
#guard parses "i->i" ["i"] "i" ""
#guard parses "ij,ij->ij" ["ij", "ij"] "ij" ""
#guard parses "ij,ij->" ["ij", "ij"] "" "ij"
#guard parses "ij,kl->" ["ij", "kl"] "" "ijkl"
#guard parses "ij,jk->ik" ["ij", "jk"] "ik" "j"
#guard parses "ijk,jkl,klm->im" ["ijk", "jkl", "klm"] "im" "jkl"
#guard parses "ij,jk->ki" ["ij", "jk"] "ki" "j"
#guard parses "ij,ja->ai" ["ij", "ja"] "ai" "j"
#guard parses "ii->i" ["ii"] "i" ""
#guard parses "ij,k" ["ij", "k"] "ijk" ""
#guard parses "i" ["i"] "i" ""
#guard parses "ii" ["ii"] "" "i"
#guard parses "ijj" ["ijj"] "i" "j"
#guard parses "i,j,klm,nop" ["i", "j", "klm", "nop"] "ijklmnop" ""
#guard parses "ij,jk" ["ij", "jk"] "ik" "j"
#guard parses "ij,ja" ["ij", "ja"] "ai" "j"
#guard ["->i", "i,", "->", "i,,,j->k"].all fails
#guard ["i,j,k,l,m->p", "i,j->ijj"].all fails

/-! ## One operand -/

-- it_computes_the_trace
#guard let a := rand 1 [5, 5]
  gives "ii->i" [a] (tabulate [5] fun | [i] => at' a [i, i] | _ => 0)
-- it_transposes_a_matrix
#guard let a := rand 2 [2, 5]
  ["ji", "ij->ji", "ji->ij"].all fun s => gives s [a] (tabulate [5, 2] fun | [i, j] => at' a [j, i] | _ => 0)
-- it_clones_a_matrix
#guard let a := rand 3 [2, 5]
  gives "ij->ij" [a] (tabulate [2, 5] (at' a))
-- it_collapses_a_singleton_with_noncontiguous_strides
#guard let cube := rand 4 [4, 4, 4]
  match fromShapeStrides [4, 4] [17, 4] cube.buf with
  | some square => gives "ii->" [square] ([], [sum 4 fun i => at' square [i, i]])
  | none => false
-- it_collapses_a_singleton_without_repeats
#guard let s := rand 5 [4, 2, 3, 5]
  gives "ijkl->lij" [s] (tabulate [5, 4, 2] fun | [l, i, j] => sum 3 fun k => at' s [i, j, k, l] | _ => 0)
-- it_diagonalizes_a_singleton
#guard let s := rand 6 [2, 3, 4, 4, 4]
  gives "jkiii->jik" [s] (tabulate [2, 4, 3] fun | [j, i, k] => at' s [j, k, i, i, i] | _ => 0)
-- it_collapses_a_singleton_with_multiple_repeats
#guard let s := rand 7 [4, 3, 2, 3, 2]
  gives "kjiji->ijk" [s] (tabulate [2, 3, 4] fun | [i, j, k] => at' s [k, j, i, j, i] | _ => 0)
-- it_collapses_a_singleton_with_a_repeat_that_gets_summed
#guard let s := rand 8 [2, 2, 3]
  gives "iij->j" [s] (tabulate [3] fun | [j] => sum 2 fun i => at' s [i, i, j] | _ => 0)
-- it_collapses_a_singleton_with_multiple_repeats_that_get_summed
#guard let s := rand 9 [2, 2, 3, 4, 4]
  gives "iijkk->j" [s] (tabulate [3] fun | [j] => sum 2 fun i => sum 4 fun k => at' s [i, i, j, k, k] | _ => 0)
-- it_sums_a_singleton
#guard let s := rand 10 [2, 3, 4]
  gives "ijk->" [s] ([], [s.buf.foldl (· + ·) 0])
-- it_collapses_a_singleton_with_multiple_sums
#guard let s := rand 11 [2, 3, 4]
  gives "ijk->k" [s] (tabulate [4] fun | [k] => sum 2 fun i => sum 3 fun j => at' s [i, j, k] | _ => 0)
-- it_collapses_a_singleton
#guard let s := rand 12 [4, 4, 2, 3, 5]
  gives "iijkl->lij" [s] (tabulate [5, 4, 2] fun | [l, i, j] => sum 3 fun k => at' s [i, i, j, k, l] | _ => 0)

/-! ## tensordot -/

def dots (l r : View Int) (la ra : List Nat) (want : List Nat × List Int) : Bool :=
  [Alloc.rowMajor Int, Alloc.colMajor Int].all fun al => isArr (tensordot al l r la ra) want

def one : View Int := rowMajor [] [1]

-- tensordot_handles_degenerate_lhs, _rhs, _both
#guard let m := rand 13 [2, 3]
  dots one m [] [] ([2, 3], m.buf) && dots m one [] [] ([2, 3], m.buf) && dots one one [] [] ([], [1])
-- lib.rs 234-268, with smaller lengths
#guard let m1 := rand 14 [2, 3, 4, 2]
  let m2 := rand 15 [3, 4, 2, 2]
  let want := tabulate [2, 2] fun
    | [i, m] => sum 3 fun j => sum 4 fun k => sum 2 fun l => at' m1 [i, j, k, l] * at' m2 [j, k, l, m] | _ => 0
  dots m1 m2 [1, 2, 3] [0, 1, 2] want && gives "ijkl,jklm->im" [m1, m2] want
#guard let m1 := rand 14 [2, 3, 4, 2]
  let m2 := rand 15 [3, 4, 2, 2]
  let want := tabulate [2, 3, 2, 3, 2, 2] fun
    | [a, b, c, d, e, f] => sum 4 fun i => at' m1 [a, b, i, c] * at' m2 [d, i, e, f] | _ => 0
  dots m1 m2 [2] [1] want && gives "abic,dief->abcdef" [m1, m2] want

/-! ## Two operands -/

-- it_multiplies_two_matrices
#guard let a := rand 16 [3, 4]; let b := rand 17 [4, 5]
  gives "ij,jk->ik" [a, b] (tabulate [3, 5] fun | [i, k] => sum 4 fun j => at' a [i, j] * at' b [j, k] | _ => 0)
-- deduped_handles_dot_product, _hadamard_product, _outer_product_vec_vec
#guard let l := rand 18 [3]; let r := rand 19 [3]; let r' := rand 20 [4]
  gives "i,i->" [l, r] ([], [sum 3 fun i => at' l [i] * at' r [i]]) &&
  gives "i,i->i" [l, r] (tabulate [3] fun i => at' l i * at' r i) &&
  gives "i,j->ij" [l, r'] (tabulate [3, 4] fun | [i, j] => at' l [i] * at' r' [j] | _ => 0)
-- deduped_handles_matrix_vector_1 - 4
#guard let m := rand 21 [3, 4]; let v3 := rand 22 [3]; let v4 := rand 23 [4]
  let over4 := tabulate [3] fun | [i] => sum 4 fun j => at' m [i, j] * at' v4 [j] | _ => 0
  let over3 := tabulate [4] fun | [j] => sum 3 fun i => at' m [i, j] * at' v3 [i] | _ => 0
  gives "ij,j->i" [m, v4] over4 && gives "i,ij->j" [v3, m] over3 && gives "ij,i->j" [m, v3] over3 &&
  gives "j,ij->i" [v4, m] over4
-- deduped_handles_stacked_scalar_vector_product_1 - 3
#guard let m := rand 24 [3, 4]; let v := rand 25 [3]; let n := rand 26 [4, 3]
  gives "ij,i->ij" [m, v] (tabulate [3, 4] fun | [i, j] => at' m [i, j] * at' v [i] | _ => 0) &&
  gives "ij,i->ji" [m, v] (tabulate [4, 3] fun | [j, i] => at' m [i, j] * at' v [i] | _ => 0) &&
  gives "i,ji->ij" [v, n] (tabulate [3, 4] fun | [i, j] => at' v [i] * at' n [j, i] | _ => 0)
-- deduped_handles_summed_hadamard_product_aka_stacked_1d_tensordot_1 - 3
#guard let l := rand 27 [3, 4]; let r := rand 28 [3, 4]; let r' := rand 29 [4, 3]
  gives "ij,ij->i" [l, r] (tabulate [3] fun | [i] => sum 4 fun j => at' l [i, j] * at' r [i, j] | _ => 0) &&
  gives "ij,ji->i" [l, r'] (tabulate [3] fun | [i] => sum 4 fun j => at' l [i, j] * at' r' [j, i] | _ => 0) &&
  gives "ji,ij->i" [l, r'] (tabulate [4] fun | [i] => sum 3 fun j => at' l [j, i] * at' r' [i, j] | _ => 0)
-- deduped_handles_summed_hadamard_product_multiple_stacked_axes
#guard let l := rand 30 [2, 3, 4, 5]; let r := rand 31 [3, 5, 4, 2]
  gives "ijkl,jlki->kji" [l, r]
    (tabulate [4, 3, 2] fun | [k, j, i] => sum 5 fun n => at' l [i, j, k, n] * at' r [j, n, k, i] | _ => 0)
-- deduped_handles_2d_hadamard_product, _2, _3, deduped_handles_double_dot_product_mat_mat
#guard let l := rand 32 [2, 3]; let r := rand 33 [2, 3]; let l' := rand 34 [3, 2]
  gives "ij,ij->ij" [l, r] (tabulate [2, 3] fun i => at' l i * at' r i) &&
  gives "ij,ij->ji" [l, r] (tabulate [3, 2] fun i => at' l i.reverse * at' r i.reverse) &&
  gives "ji,ij->ij" [l', r] (tabulate [2, 3] fun i => at' l' i.reverse * at' r i) &&
  gives "ij,ij->" [l, r] ([], [sum 2 fun i => sum 3 fun j => at' l [i, j] * at' r [i, j]])
-- deduped_handles_outer_product_vect_mat_1, _2, deduped_handles_outer_product_mat_mat
#guard let m := rand 35 [2, 3]; let v := rand 36 [4]; let l := rand 37 [5, 4]
  let want := tabulate [4, 2, 3] fun | [k, i, j] => at' m [i, j] * at' v [k] | _ => 0
  gives "ij,k->kij" [m, v] want && gives "k,ij->kij" [v, m] want &&
  gives "lk,ij->kilj" [l, m] (tabulate [4, 2, 5, 3] fun | [k, i, n, j] => at' l [n, k] * at' m [i, j] | _ => 0)
-- deduped_handles_matrix_product_1, _2
#guard let l := rand 38 [2, 3]; let r := rand 39 [3, 4]; let r' := rand 40 [4, 3]
  gives "ij,jk" [l, r] (tabulate [2, 4] fun | [i, k] => sum 3 fun j => at' l [i, j] * at' r [j, k] | _ => 0) &&
  gives "ij,kj" [l, r'] (tabulate [2, 4] fun | [i, k] => sum 3 fun j => at' l [i, j] * at' r' [k, j] | _ => 0)
-- it_handles_stacked_matrix_product_1 - 3
#guard let l1 := rand 41 [4, 2, 5]; let l2 := rand 42 [4, 5, 2]; let l3 := rand 43 [5, 2, 4]; let r := rand 44 [4, 5, 3]
  gives "nij,njk->nik" [l1, r]
    (tabulate [4, 2, 3] fun | [n, i, k] => sum 5 fun j => at' l1 [n, i, j] * at' r [n, j, k] | _ => 0) &&
  gives "nji,njk->nik" [l2, r]
    (tabulate [4, 2, 3] fun | [n, i, k] => sum 5 fun j => at' l2 [n, j, i] * at' r [n, j, k] | _ => 0) &&
  gives "jin,njk->nik" [l3, r]
    (tabulate [4, 2, 3] fun | [n, i, k] => sum 5 fun j => at' l3 [j, i, n] * at' r [n, j, k] | _ => 0)
-- deduped_handles_stacked_outer_product_1
#guard let l := rand 45 [2, 3]; let r := rand 46 [4, 2]
  gives "ij,ki->ijk" [l, r] (tabulate [2, 3, 4] fun | [i, j, k] => at' l [i, j] * at' r [k, i] | _ => 0)
-- diagonals_product, _lhs, _rhs, presum_lhs
#guard let l := rand 47 [2, 2]; let r := rand 48 [2, 2]; let v := rand 49 [2]; let p := rand 50 [2, 3]
  gives "ii,ii->i" [l, r] (tabulate [2] fun | [i] => at' l [i, i] * at' r [i, i] | _ => 0) &&
  gives "ii,i->i" [l, v] (tabulate [2] fun | [i] => at' l [i, i] * at' v [i] | _ => 0) &&
  gives "i,ii->i" [v, r] (tabulate [2] fun | [i] => at' v [i] * at' r [i, i] | _ => 0) &&
  gives "ij,ii->i" [p, r] (tabulate [2] fun | [i] => sum 3 fun j => at' p [i, j] * at' r [i, i] | _ => 0)
-- it_tolerates_permuted_axes
#guard let l := rand 51 [2, 3, 4]
  match (rand 52 [5, 3, 4]).permutedAxes [1, 2, 0] with
  | .ok r => gives "ijk,jkl->il" [l, r]
      (tabulate [2, 5] fun | [i, n] => sum 3 fun j => sum 4 fun k => at' l [i, j, k] * at' r [j, k, n] | _ => 0)
  | .error _ => false

/-! ## More operands -/

-- it_contracts_three_matrices
#guard let a := rand 53 [2, 3]; let b := rand 54 [3, 4]; let c := rand 55 [4, 5]
  gives "ij,jk,kl->il" [a, b, c] (tabulate [2, 5] fun
    | [i, l] => sum 3 fun j => sum 4 fun k => at' a [i, j] * at' b [j, k] * at' c [k, l] | _ => 0)
-- it_contracts_three_matrices_with_repeats_1 - 3, with shorter axes m and n
#guard let a := rand 56 [2, 3]; let b := rand 57 [3, 2, 2, 3, 4]; let c := rand 58 [4, 5]
  gives "ij,jmmnk,kl->il" [a, b, c] (tabulate [2, 5] fun
    | [i, l] => sum 3 fun j => sum 4 fun k => sum 2 fun m => sum 3 fun n =>
      at' a [i, j] * at' b [j, m, m, n, k] * at' c [k, l] | _ => 0)
#guard let a := rand 59 [2, 2, 2, 4, 3]; let b := rand 60 [3, 4]; let c := rand 61 [4, 2, 5]
  gives "immnj,jk,kml->il" [a, b, c] (tabulate [2, 5] fun
    | [i, l] => sum 3 fun j => sum 4 fun k => sum 2 fun m => sum 4 fun n =>
      at' a [i, m, m, n, j] * at' b [j, k] * at' c [k, m, l] | _ => 0)
#guard let a := rand 62 [2, 2, 2, 4, 3]; let b := rand 63 [3, 4]; let c := rand 64 [4, 5]
  gives "immnj,jk,kl->mil" [a, b, c] (tabulate [2, 2, 5] fun
    | [m, i, l] => sum 3 fun j => sum 4 fun k => sum 4 fun n =>
      at' a [i, m, m, n, j] * at' b [j, k] * at' c [k, l] | _ => 0)
-- it_contracts_four_matrices
#guard let a := rand 65 [2, 3]; let b := rand 66 [3, 4]; let c := rand 67 [4, 5]; let d := rand 68 [5, 6]
  gives "ij,jk,kl,lm->il" [a, b, c, d] (tabulate [2, 5] fun
    | [i, l] => sum 3 fun j => sum 4 fun k => sum 6 fun m => at' a [i, j] * at' b [j, k] * at' c [k, l] * at' d [l, m]
    | _ => 0)

/-! ## Documentation of lib.rs and the README -/

-- lib.rs 37-60
#guard gives "ii" [range [5, 5]] ([], [60])
-- lib.rs 62-84
#guard gives "ii->i" [range [5, 5]] ([5], [0, 6, 12, 18, 24])
-- lib.rs 86-108
#guard gives "ij->i" [range [5, 5]] ([5], [10, 35, 60, 85, 110])
-- lib.rs 110-136
#guard gives "ji" [range [2, 3]] ([3, 2], [0, 3, 1, 4, 2, 5]) && gives "ij->ji" [range [2, 3]] ([3, 2], [0, 3, 1, 4, 2, 5])
-- lib.rs 138-166
#guard let c := range [2, 3]; let d := range [3, 4]
  gives "ij,jk->ik" [c, d] (tabulate [2, 4] fun | [i, k] => sum 3 fun j => at' c [i, j] * at' d [j, k] | _ => 0)
-- README
#guard gives "i,ij->j" [rowMajor [2] [1, 2], rowMajor [2, 2] [1, 2, 3, 4]] ([2], [7, 10])

end Einsum.RepoTests
