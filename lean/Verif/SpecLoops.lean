import Mathlib.Data.List.Basic
import Mathlib.Logic.Function.Basic
import Mathlib.Data.Rat.Defs

/-!
# Specification: nests of loops

The expected values of `/repo/tests/einsum_test.rs` are computed by nested `for` loops around `want[[..]] += ..` or
`want[[..]] = ..`.  Nothing here uses the other specifications.
-/

namespace Einsum.Spec

/-- `for c in 0..dims[c] { .. }` for each of the letters, the first one outermost, around `body`. -/
def nest {S : Type} (dims : Char → Nat) (body : (Char → Nat) → S → S) : List Char → (Char → Nat) → S → S
  | [], σ, s => body σ s
  | c :: cs, σ, s => (List.range (dims c)).foldl (fun s v => nest dims body cs (Function.update σ c v) s) s

/-- `x[[..]] * y[[..]] * ...`, multiplied from left to right. -/
def leftProduct {A : Type} [Zero A] [Mul A] : List A → A
  | [] => 0
  | x :: xs => xs.foldl (· * ·) x

/-- The factors: the elements of the operands at the positions of their letters. -/
def picked {A : Type} (inputs : List (List Char)) (ts : List (List Nat → A)) (σ : Char → Nat) : List A :=
  (ts.zip inputs).map fun x => x.1 (x.2.map σ)

/-- An array of zeros after the loops over the letters `cs` around `want[[out]] += x[[..]] * y[[..]] * ...`. -/
def accumulated {A : Type} [Zero A] [Add A] [Mul A] (dims : Char → Nat) (cs : List Char) (inputs : List (List Char))
    (ts : List (List Nat → A)) (out : List Char) : List Nat → A :=
  nest dims (fun σ want => Function.update want (out.map σ) (want (out.map σ) + leftProduct (picked inputs ts σ))) cs
    (fun _ => 0) fun _ => 0

/-- The array `want` after the loops over the letters `cs` around `want[[out]] = x[[..]] * y[[..]] * ...`. -/
def assigned {A : Type} [Zero A] [Mul A] (dims : Char → Nat) (cs : List Char) (inputs : List (List Char))
    (ts : List (List Nat → A)) (out : List Char) (want : List Nat → A) : List Nat → A :=
  nest dims (fun σ want => Function.update want (out.map σ) (leftProduct (picked inputs ts σ))) cs (fun _ => 0) want

/-- `cs` is an order of loops for the operands: one loop for each letter. -/
def LoopOrder (inputs : List (List Char)) (cs : List Char) : Prop := cs.Nodup ∧ ∀ c, c ∈ cs ↔ c ∈ inputs.flatten

/-- A test: the string, the letters of the operands and of the output, the lengths, the order of the loops, and what the
difference between the two results stays below. -/
structure LoopTest where
  text : String
  inputs : List (List Char)
  out : List Char
  lengths : List (Char × Nat)
  loops : List Char
  tol : ℚ

/-- The length of a letter. -/
def LoopTest.dims (t : LoopTest) (c : Char) : Nat := (t.lengths.lookup c).getD 0

/-- The tests of `/repo/tests/einsum_test.rs` 310-1165 whose expected values are computed by loops. -/
def loopTests : List LoopTest := [
  ⟨"ijkl->lij", [['i', 'j', 'k', 'l']], ['l', 'i', 'j'], [('l', 5), ('i', 4), ('j', 2), ('k', 3)], ['l', 'i', 'j', 'k'], 1 / 10 ^ 10⟩,
  ⟨"jkiii->jik", [['j', 'k', 'i', 'i', 'i']], ['j', 'i', 'k'], [('i', 4), ('j', 2), ('k', 3)], ['i', 'j', 'k'], 1 / 10 ^ 10⟩,
  ⟨"kjiji->ijk", [['k', 'j', 'i', 'j', 'i']], ['i', 'j', 'k'], [('i', 2), ('j', 3), ('k', 4)], ['i', 'j', 'k'], 1 / 10 ^ 10⟩,
  ⟨"iij->j", [['i', 'i', 'j']], ['j'], [('j', 3), ('i', 2)], ['j', 'i'], 1 / 10 ^ 10⟩,
  ⟨"iijkk->j", [['i', 'i', 'j', 'k', 'k']], ['j'], [('j', 3), ('i', 2), ('k', 4)], ['j', 'i', 'k'], 1 / 10 ^ 10⟩,
  ⟨"ijk->k", [['i', 'j', 'k']], ['k'], [('k', 4), ('i', 2), ('j', 3)], ['k', 'i', 'j'], 1 / 10 ^ 10⟩,
  ⟨"iijkl->lij", [['i', 'i', 'j', 'k', 'l']], ['l', 'i', 'j'], [('l', 5), ('i', 4), ('j', 2), ('k', 3)], ['l', 'i', 'j', 'k'], 1 / 10 ^ 10⟩,
  ⟨"i,j->ij", [['i'], ['j']], ['i', 'j'], [('i', 3), ('j', 4)], ['i', 'j'], 1 / 10 ^ 10⟩,
  ⟨"ij,j->i", [['i', 'j'], ['j']], ['i'], [('i', 3), ('j', 4)], ['i', 'j'], 1 / 10 ^ 10⟩,
  ⟨"i,ij->j", [['i'], ['i', 'j']], ['j'], [('j', 4), ('i', 3)], ['j', 'i'], 1 / 10 ^ 10⟩,
  ⟨"ij,i->j", [['i', 'j'], ['i']], ['j'], [('j', 4), ('i', 3)], ['j', 'i'], 1 / 10 ^ 10⟩,
  ⟨"j,ij->i", [['j'], ['i', 'j']], ['i'], [('i', 3), ('j', 4)], ['i', 'j'], 1 / 10 ^ 10⟩,
  ⟨"ij,i->ij", [['i', 'j'], ['i']], ['i', 'j'], [('i', 3), ('j', 4)], ['i', 'j'], 1 / 10 ^ 10⟩,
  ⟨"ij,i->ji", [['i', 'j'], ['i']], ['j', 'i'], [('i', 3), ('j', 4)], ['i', 'j'], 1 / 10 ^ 10⟩,
  ⟨"i,ji->ij", [['i'], ['j', 'i']], ['i', 'j'], [('i', 3), ('j', 4)], ['i', 'j'], 1 / 10 ^ 10⟩,
  ⟨"ijkl,jlki->kji", [['i', 'j', 'k', 'l'], ['j', 'l', 'k', 'i']], ['k', 'j', 'i'], [('i', 2), ('j', 3), ('k', 4), ('l', 5)], ['i', 'j', 'k', 'l'], 1 / 10 ^ 10⟩,
  ⟨"ij,k->kij", [['i', 'j'], ['k']], ['k', 'i', 'j'], [('i', 2), ('j', 3), ('k', 4)], ['i', 'j', 'k'], 1 / 10 ^ 10⟩,
  ⟨"k,ij->kij", [['k'], ['i', 'j']], ['k', 'i', 'j'], [('i', 2), ('j', 3), ('k', 4)], ['i', 'j', 'k'], 1 / 10 ^ 10⟩,
  ⟨"lk,ij->kilj", [['l', 'k'], ['i', 'j']], ['k', 'i', 'l', 'j'], [('i', 2), ('j', 3), ('k', 4), ('l', 5)], ['i', 'j', 'k', 'l'], 1 / 10 ^ 10⟩,
  ⟨"nij,njk->nik", [['n', 'i', 'j'], ['n', 'j', 'k']], ['n', 'i', 'k'], [('n', 4), ('i', 2), ('j', 5), ('k', 3)], ['n', 'i', 'j', 'k'], 1 / 10 ^ 10⟩,
  ⟨"nji,njk->nik", [['n', 'j', 'i'], ['n', 'j', 'k']], ['n', 'i', 'k'], [('n', 4), ('i', 2), ('j', 5), ('k', 3)], ['n', 'i', 'j', 'k'], 1 / 10 ^ 10⟩,
  ⟨"jin,njk->nik", [['j', 'i', 'n'], ['n', 'j', 'k']], ['n', 'i', 'k'], [('n', 4), ('i', 2), ('j', 5), ('k', 3)], ['n', 'i', 'j', 'k'], 1 / 10 ^ 10⟩,
  ⟨"ij,ki->ijk", [['i', 'j'], ['k', 'i']], ['i', 'j', 'k'], [('i', 2), ('j', 3), ('k', 4)], ['i', 'j', 'k'], 1 / 10 ^ 10⟩,
  ⟨"ii,ii->i", [['i', 'i'], ['i', 'i']], ['i'], [('i', 2)], ['i'], 1 / 10 ^ 10⟩,
  ⟨"ii,i->i", [['i', 'i'], ['i']], ['i'], [('i', 2)], ['i'], 1 / 10 ^ 10⟩,
  ⟨"i,ii->i", [['i'], ['i', 'i']], ['i'], [('i', 2)], ['i'], 1 / 10 ^ 10⟩,
  ⟨"ij,ii->i", [['i', 'j'], ['i', 'i']], ['i'], [('i', 2), ('j', 3)], ['i', 'j'], 1 / 10 ^ 10⟩,
  ⟨"ijk,jkl->il", [['i', 'j', 'k'], ['j', 'k', 'l']], ['i', 'l'], [('i', 2), ('l', 5), ('j', 3), ('k', 4)], ['i', 'l', 'j', 'k'], 1 / 10 ^ 10⟩,
  ⟨"ij,jk,kl->il", [['i', 'j'], ['j', 'k'], ['k', 'l']], ['i', 'l'], [('i', 2), ('l', 5), ('j', 3), ('k', 4)], ['i', 'l', 'j', 'k'], 1 / 10 ^ 10⟩,
  ⟨"ij,jmmnk,kl->il", [['i', 'j'], ['j', 'm', 'm', 'n', 'k'], ['k', 'l']], ['i', 'l'], [('i', 2), ('l', 5), ('j', 3), ('k', 4), ('m', 6), ('n', 7)], ['i', 'l', 'j', 'k', 'm', 'n'], 1 / 10 ^ 8⟩,
  ⟨"immnj,jk,kml->il", [['i', 'm', 'm', 'n', 'j'], ['j', 'k'], ['k', 'm', 'l']], ['i', 'l'], [('i', 2), ('l', 5), ('j', 3), ('k', 4), ('m', 6), ('n', 7)], ['i', 'l', 'j', 'k', 'm', 'n'], 1 / 10 ^ 8⟩,
  ⟨"immnj,jk,kl->mil", [['i', 'm', 'm', 'n', 'j'], ['j', 'k'], ['k', 'l']], ['m', 'i', 'l'], [('i', 2), ('l', 5), ('j', 3), ('k', 4), ('m', 6), ('n', 7)], ['i', 'l', 'j', 'k', 'm', 'n'], 1 / 10 ^ 9⟩,
  ⟨"ij,jk,kl,lm->il", [['i', 'j'], ['j', 'k'], ['k', 'l'], ['l', 'm']], ['i', 'l'], [('i', 2), ('j', 3), ('k', 4), ('l', 5), ('m', 6)], ['i', 'j', 'k', 'l', 'm'], 1 / 10 ^ 9⟩]

end Einsum.Spec
