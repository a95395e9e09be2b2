import Verif.SpecArray
import Verif.SpecExpr

/-!
# Specification: how many multiplications

Elements together with the number of multiplications made to obtain them, and the number expected for an Einstein sum
over operands that are taken in one after the other.
-/

namespace Einsum.Spec

/-- An element, and the number of multiplications made to obtain it. -/
structure Counted (A : Type) where
  val : A
  mults : Nat

/-- An element that was given. -/
def Counted.fresh {A : Type} (x : A) : Counted A := ⟨x, 0⟩

instance {A : Type} [Zero A] : Zero (Counted A) := ⟨⟨0, 0⟩⟩
instance {A : Type} [Add A] : Add (Counted A) := ⟨fun x y => ⟨x.val + y.val, x.mults + y.mults⟩⟩
instance {A : Type} [Mul A] : Mul (Counted A) := ⟨fun x y => ⟨x.val * y.val, x.mults + y.mults + 1⟩⟩
instance {A : Type} [MulAdd A] : MulAdd (Counted A) :=
  ⟨fun x y z => ⟨mulAdd x.val y.val z.val, x.mults + y.mults + z.mults + 1⟩⟩

/-- The letters that the step that takes in operand `k + 1` runs over: of those in operands `0, …, k + 1`, the ones that
are needed later (by another operand or the output) and the ones that operand `k + 1` shares with those before it. -/
def stepLetters (inputs : List (List Char)) (out : List Char) (k : Nat) : List Char :=
  (inputs.take (k + 2)).flatten.dedup.filter fun c =>
    c ∈ (inputs.drop (k + 2)).flatten ∨ c ∈ out ∨ c ∈ (inputs.take (k + 1)).flatten ∧ c ∈ inputs.getD (k + 1) []

/-- The number of multiplications when the operands are taken in from left to right. -/
def multCount (dims : Char → Nat) (inputs : List (List Char)) (out : List Char) : Nat :=
  ((List.range (inputs.length - 1)).map fun k => ((stepLetters inputs out k).map dims).prod).sum

end Einsum.Spec
