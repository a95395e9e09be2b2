import Mathlib.Data.List.Dedup
import Mathlib.Logic.Function.Basic
import Verif.SpecArray

/-!
# Specification, continued: the order of the operations

Which products are listed in which order, which letters are summed in which order, and how many roundings that makes.
-/

namespace Einsum.Spec

open Function

/-- All ways to change `σ` at the labels `C`, in row-major order. -/
def cells {ι : Type} [DecidableEq ι] (dims : ι → Nat) : List ι → (ι → Nat) → List (ι → Nat)
  | [], σ => [σ]
  | c :: C, σ => (List.range (dims c)).flatMap fun k => cells dims C (update σ c k)

/-- The row-major number of the values of the labels `U`. -/
def rank {ι : Type} (dims : ι → Nat) : List ι → (ι → Nat) → Nat
  | [], _ => 0
  | c :: U, σ => σ c * (U.map dims).prod + rank dims U σ

/-- The sum of the products for all values of the contracted labels `C`, in row-major order, added by the tree `t`. -/
def product {A ι : Type} [Zero A] [Add A] [Mul A] [MulAdd A] [DecidableEq ι] (t : SumTree) (dims : ι → Nat) (C : List ι)
    (F G : (ι → Nat) → A) (σ : ι → Nat) : A :=
  t.dot ((cells dims C σ).map fun σ' => (F σ', G σ'))

/-- The labels of a list that are not in `seen`, in order of first appearance. -/
def fresh {ι : Type} [DecidableEq ι] (seen : List ι) : List ι → List ι
  | [] => []
  | c :: L => if c ∈ seen then fresh seen L else c :: fresh (seen ++ [c]) L

/-- The sums over the labels `b`, one after the other; the labels `a` remain. -/
def sums {A ι : Type} [Zero A] [Add A] [DecidableEq ι] (dims : ι → Nat) (a : List ι) :
    List ι → Alloc A → ((ι → Nat) → A) → (ι → Nat) → A
  | [], _, F => F
  | c :: b, al, F => sums dims a b (al.sub 1) fun σ =>
      (al.sumOrder (0 :: (a ++ b).map σ) (dims c)).sum ((List.range (dims c)).map fun k => F (update σ c k))

/-- Sums one after the other, when the order of an addition depends on the number of terms only. -/
def inTurn {A : Type} [Zero A] [Add A] (t : Nat → SumTree) (dims : Char → Nat) :
    List Char → ((Char → Nat) → A) → (Char → Nat) → A
  | [], F => F
  | c :: b, F => inTurn t dims b fun σ => (t (dims c)).sum ((List.range (dims c)).map fun k => F (update σ c k))

/-- No operand needs to be simplified. -/
structure Reduced (L R o : List Char) : Prop where
  left : L.Nodup
  right : R.Nodup
  leftNeeded : ∀ c ∈ L, c ∈ R ∨ c ∈ o
  rightNeeded : ∀ c ∈ R, c ∈ L ∨ c ∈ o

/-- The steps for the labels `L`, then `rest`, with the output `out`: each has no letter in both operands and its output, or
contracts at most one letter, or its left operand is the first one and needs no simplification. -/
def Settled : Bool → List Char → List (List Char) → List Char → Prop
  | _, _, [], _ => True
  | first, L, R :: rest, out =>
    ((∀ c ∈ L, c ∈ R → c ∉ rest.flatten ++ out) ∨
      (∀ c ∈ L, ∀ d ∈ L, c ∈ R → d ∈ R → c ∉ rest.flatten ++ out → d ∉ rest.flatten ++ out → c = d) ∨
      (first = true ∧ L.Nodup ∧ ∀ c ∈ L, c ∈ R ∨ c ∈ rest.flatten ++ out)) ∧
    Settled false ((L ++ R).filter fun c => c ∈ rest.flatten ++ out) rest out

instance decSettled : ∀ first L rest out, Decidable (Settled first L rest out)
  | _, _, [], _ => isTrue trivial
  | _, L, R :: rest, out =>
    @instDecidableAnd _ _ inferInstance (decSettled false ((L ++ R).filter fun c => c ∈ rest.flatten ++ out) rest out)

/-- The number of roundings on the longest way from a number to the sum. Adding an empty sum is exact. -/
def depth : SumTree → Nat
  | .zero => 0
  | .leaf _ => 0
  | .add l r => if l.leaves = [] then depth r else if r.leaves = [] then depth l else max (depth l) (depth r) + 1
  | .fused _ t => if t.leaves = [] then 0 else depth t + 1

/-- The roundings of the steps for the labels `L`, then `rest`, with the output `out`, if `n` numbers are added in `d n`
roundings one after the other: in each step one for the multiplication, those for the letters that only one operand has, and
those for the contracted letters. -/
def roundings (d : Nat → Nat) (dims : Char → Nat) : List Char → List (List Char) → List Char → Nat
  | L, [], out => ((L.dedup.filter fun c => c ∉ out).map fun c => d (dims c)).sum
  | L, R :: rest, out =>
    ((L.dedup.filter fun c => c ∉ R ++ (rest.flatten ++ out)).map fun c => d (dims c)).sum +
    ((R.dedup.filter fun c => c ∉ L ++ (rest.flatten ++ out)).map fun c => d (dims c)).sum + 1 +
    d ((L.dedup.filter fun c => c ∈ R ∧ c ∉ rest.flatten ++ out).map dims).prod +
    roundings d dims ((L ++ R).filter fun c => c ∈ rest.flatten ++ out) rest out

end Einsum.Spec
