import Verif.SpecOrder
import Verif.SpecAdds

/-!
# Specification: additions and roundings of the steps of a contraction tree
-/

namespace Einsum.Spec

/-- The additions expected of a step, if adding `n` numbers takes `a n` additions. -/
def stepAdds (a : Nat → Nat) (dims : Char → Nat) (st : PairStep) : Nat :=
  match st.sizedContraction.contraction.operandIndices with
  | [L, R] => pairAdds a dims L R st.sizedContraction.contraction.outputIndices
  | _ => 0

/-- The roundings of a step with the operands `L` and `R` and the result `o`, if `n` numbers are added in `d n` roundings one
after the other: those for the letters that only one operand has, one for the multiplication, and those for the contracted
letters. -/
def pairRoundings (d : Nat → Nat) (dims : Char → Nat) (L R o : List Char) : Nat :=
  ((L.dedup.filter fun c => c ∉ R ++ o).map fun c => d (dims c)).sum +
  ((R.dedup.filter fun c => c ∉ L ++ o).map fun c => d (dims c)).sum + 1 +
  d ((L.dedup.filter fun c => c ∈ R ∧ c ∉ o).map dims).prod

/-- The roundings of a step. -/
def stepRoundings (d : Nat → Nat) (dims : Char → Nat) (st : PairStep) : Nat :=
  match st.sizedContraction.contraction.operandIndices with
  | [L, R] => pairRoundings d dims L R st.sizedContraction.contraction.outputIndices
  | _ => 0

end Einsum.Spec
