import Mathlib.Algebra.BigOperators.Group.Finset.Basic
import Mathlib.Algebra.Ring.Defs
import Mathlib.Data.Char

/-!
# Specification

What the properties talk about, written without reference to the model: the accepted strings, the
Einstein sum, tensor dot product, and a denotational semantics of regular expressions.
-/

namespace Einsum.Spec

/-! ## Strings -/

/-- A lower case ASCII letter. -/
def Letter (c : Char) : Prop := 'a' ≤ c ∧ c ≤ 'z'

/-- The text of a call: the operand pieces separated by commas, then maybe `->` and the output. -/
def render (pieces : List (List Char)) (out : Option (List Char)) : List Char :=
  [','].intercalate pieces ++
    match out with
    | none => []
    | some o => '-' :: '>' :: o

/-- A non-empty list of non-empty runs of letters, and maybe an output run of letters. -/
def WellFormed (pieces : List (List Char)) (out : Option (List Char)) : Prop :=
  pieces ≠ [] ∧ (∀ p ∈ pieces, p ≠ [] ∧ ∀ c ∈ p, Letter c) ∧ ∀ o, out = some o → ∀ c ∈ o, Letter c

/-- Letters used by the operands. -/
def Used (inputs : List (List Char)) (c : Char) : Prop := ∃ p ∈ inputs, c ∈ p

/-- `out` is an admissible explicit output list. -/
def OutputOk (inputs : List (List Char)) (out : List Char) : Prop :=
  out.Nodup ∧ ∀ c ∈ out, Used inputs c

/-- `out` is the implicit output list: the letters occurring exactly once in total, ascending. -/
def ImplicitOutput (inputs : List (List Char)) (out : List Char) : Prop :=
  out.Pairwise (· < ·) ∧ ∀ c, c ∈ out ↔ inputs.flatten.count c = 1

/-- The string `s` asks for the contraction of operands labelled `inputs` to output labels `out`. -/
def Denotes (s : String) (inputs : List (List Char)) (out : List Char) : Prop :=
  (s.toList = render inputs (some out) ∧ WellFormed inputs (some out) ∧ OutputOk inputs out) ∨
  (s.toList = render inputs none ∧ WellFormed inputs none ∧ ImplicitOutput inputs out)

/-! ## Regular expressions -/

/-- Regular expressions over characters. -/
inductive Re where
  | eps
  | char (p : Char → Bool)
  | cat (a b : Re)
  | alt (a b : Re)
  | star (a : Re)

/-- The language of a regular expression. -/
inductive Re.Lang : Re → List Char → Prop where
  | eps : Lang .eps []
  | char {p c} : p c = true → Lang (.char p) [c]
  | cat {a b s t} : Lang a s → Lang b t → Lang (.cat a b) (s ++ t)
  | altL {a b s} : Lang a s → Lang (.alt a b) s
  | altR {a b s} : Lang b s → Lang (.alt a b) s
  | starNil {a} : Lang (.star a) []
  | starCons {a s t} : Lang a s → Lang (.star a) t → Lang (.star a) (s ++ t)

/-- `[a-z]` -/
def Re.az : Re := .char fun c => decide ('a' ≤ c) && decide (c ≤ 'z')
/-- A literal character. -/
def Re.lit (x : Char) : Re := .char fun c => decide (c = x)
/-- `r+` -/
def Re.plus (r : Re) : Re := .cat r (.star r)
/-- `r?` -/
def Re.opt (r : Re) : Re := .alt r .eps

/-- The regular expression of validation.rs 399: `^([a-z]+)((?:,[a-z]+)*)(?:->([a-z]*))?$`. -/
def Re.einsum : Re :=
  .cat (.plus .az) (.cat (.star (.cat (.lit ',') (.plus .az)))
    (.opt (.cat (.lit '-') (.cat (.lit '>') (.star .az)))))

/-! ## Sizes -/

/-- All axes of all operands have the length their letter has in `dims`. -/
def Sized (dims : Char → Nat) (inputs : List (List Char)) (shapes : List (List Nat)) : Prop :=
  List.Forall₂ (fun ix sh => sh = ix.map dims) inputs shapes

/-! ## The Einstein sum -/

/-- `∑` over all values `0 ≤ σ c < dims c` of the listed labels, in an arbitrary label type. -/
def sumOver {ι A : Type} [DecidableEq ι] [AddCommMonoid A] (dims : ι → Nat) :
    List ι → ((ι → Nat) → A) → (ι → Nat) → A
  | [], f, σ => f σ
  | c :: cs, f, σ => ∑ v ∈ Finset.range (dims c), sumOver dims cs f (Function.update σ c v)

/-- The labels summed over: those of the operands that are not in the output, each once. -/
def summed {ι : Type} [DecidableEq ι] (inputs : List (List ι)) (out : List ι) : List ι :=
  inputs.flatten.dedup.filter fun c => c ∉ out

/-- The product of the operands' elements selected by the label values `σ`. -/
def term {ι A : Type} [CommMonoid A] (inputs : List (List ι)) (ts : List (List Nat → A))
    (σ : ι → Nat) : A :=
  (List.zipWith (fun ix t => t (ix.map σ)) inputs ts).prod

/-- The element of the Einstein sum at the output index given by the values of the output labels
under `σ`: the sum over all values of the summed labels of the product of the elements. -/
def einsum {ι A : Type} [DecidableEq ι] [CommSemiring A] (dims : ι → Nat) (inputs : List (List ι))
    (ts : List (List Nat → A)) (out : List ι) (σ : ι → Nat) : A :=
  sumOver dims (summed inputs out) (term inputs ts) σ

/-! ### Multiplication that is not commutative -/

/-- `before`: the labels of the operands multiplied so far; `this`: those of the next operand; `later`: those of
the remaining operands and of the output.  The product so far has no label that is still needed, while the next
operand has one: the next operand is multiplied from the left. -/
def FromLeft {ι : Type} (before this later : List ι) : Prop :=
  (∀ c ∈ before, c ∉ this ∧ c ∉ later) ∧ ∃ c ∈ this, c ∈ later

instance {ι : Type} [DecidableEq ι] (before this later : List ι) : Decidable (FromLeft before this later) :=
  inferInstanceAs (Decidable (_ ∧ _))

/-- The product `x` of operands with labels `before`, multiplied one after the other by the elements of further
operands: from the right, except where `FromLeft` holds. -/
def orderedTerm {ι A : Type} [DecidableEq ι] [Mul A] (out : List ι) (σ : ι → Nat) :
    List ι → A → List (List ι) → List (List Nat → A) → A
  | before, x, ix :: inputs, t :: ts =>
    orderedTerm out σ (before ++ ix)
      (if FromLeft before ix (inputs.flatten ++ out) then t (ix.map σ) * x else x * t (ix.map σ)) inputs ts
  | _, x, _, _ => x

/-- The Einstein sum for elements whose multiplication may depend on the order of the factors. -/
def einsumOrdered {ι A : Type} [DecidableEq ι] [Semiring A] (dims : ι → Nat) (inputs : List (List ι))
    (ts : List (List Nat → A)) (out : List ι) (σ : ι → Nat) : A :=
  match inputs, ts with
  | ix :: inputs, t :: ts =>
    sumOver dims (summed (ix :: inputs) out) (fun σ => orderedTerm out σ ix (t (ix.map σ)) inputs ts) σ
  | _, _ => 0

/-- Label values within range. -/
def InRange {ι : Type} (dims : ι → Nat) (labels : List ι) (σ : ι → Nat) : Prop :=
  ∀ c ∈ labels, σ c < dims c

end Einsum.Spec
