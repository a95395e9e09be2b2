import Verif.SpecFlow

/-!
# Specification: how many additions

Elements together with the number of additions made to obtain them, and the number expected for an Einstein sum over
operands that are taken in one after the other.
-/

namespace Einsum.Spec

/-- An element, and the number of additions made to obtain it. A fused multiply-add is an addition. -/
structure Tallied (A : Type) where
  val : A
  adds : Nat

/-- An element that was given. -/
def Tallied.fresh {A : Type} (x : A) : Tallied A := ⟨x, 0⟩

instance {A : Type} [Zero A] : Zero (Tallied A) := ⟨⟨0, 0⟩⟩
instance {A : Type} [Add A] : Add (Tallied A) := ⟨fun x y => ⟨x.val + y.val, x.adds + y.adds + 1⟩⟩
instance {A : Type} [Mul A] : Mul (Tallied A) := ⟨fun x y => ⟨x.val * y.val, x.adds + y.adds⟩⟩
instance {A : Type} [MulAdd A] : MulAdd (Tallied A) :=
  ⟨fun x y z => ⟨mulAdd x.val y.val z.val, x.adds + y.adds + z.adds + 1⟩⟩

/-- The additions made when numbers are added in this order. -/
def additions : SumTree → Nat
  | .zero => 0
  | .leaf _ => 0
  | .add l r => additions l + additions r + 1
  | .fused _ t => additions t + 1

/-- Summing the letters `b` one after the other, when the letters `keep` remain and adding `n` numbers takes `a n` additions:
for each letter `a` of its length, for every element that is left. -/
def sumAdds (a : Nat → Nat) (dims : Char → Nat) (keep : List Char) : List Char → Nat
  | [] => 0
  | c :: b => ((keep ++ b).map dims).prod * a (dims c) + sumAdds a dims keep b

/-- The letters of `L` that are in `R` or `o`. -/
def needed (L R o : List Char) : List Char := L.dedup.filter fun c => c ∈ R ∨ c ∈ o

/-- A step with the operands `L` and `R` and the result `o`: the letters of one operand only are summed; then each element of
the result is a sum over the contracted letters, unless the elements are only multiplied. -/
def pairAdds (a : Nat → Nat) (dims : Char → Nat) (L R o : List Char) : Nat :=
  sumAdds a dims (needed L R o) (fresh (needed L R o) L) + sumAdds a dims (needed R L o) (fresh (needed R L o) R) +
  if (∀ c ∈ needed L R o ++ needed R L o, c ∈ L ∧ c ∈ R ∧ c ∈ o) ∨ needed L R o = [] ∨ needed R L o = [] then 0
  else (o.map dims).prod * a (((needed L R o).filter fun c => c ∉ o).map dims).prod

/-- The operands `L`, then `rest`, taken in from left to right. A step keeps the letters that are needed later. -/
def addCount (a : Nat → Nat) (dims : Char → Nat) : List Char → List (List Char) → List Char → Nat
  | L, [], out => sumAdds a dims out (fresh out L)
  | L, R :: rest, out =>
    pairAdds a dims L R ((L ++ R).dedup.filter fun c => c ∈ rest.flatten ++ out) +
    addCount a dims ((L ++ R).dedup.filter fun c => c ∈ rest.flatten ++ out) rest out

end Einsum.Spec
