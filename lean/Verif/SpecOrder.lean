import Verif.Model.Optimizers
import Verif.Spec

/-!
# Specification: contraction trees

When a list of steps contracts the operands two at a time to the requested output.
-/

namespace Einsum.Spec

/-- Input operands, with the numbers by which steps refer to them. -/
def numbered (inputs : List (List Char)) : List (OperandNumber × List Char) :=
  (List.range inputs.length).map fun i => (.input i, inputs.getD i [])

/-- The steps, of which the next one is number `k`, contract the pending arrays to an array with labels `out`: each step
removes two pending arrays, whose labels and lengths it records, and adds its result.  It may sum over no label that the
output or another pending array has. -/
inductive Contracts (dims : Char → Nat) (out : List Char) :
    Nat → List (OperandNumber × List Char) → List PairStep → Prop where
  | done (k : Nat) : Contracts dims out (k + 1) [(.intermediateResult k, out)] []
  | step {k : Nat} {pending rest : List (OperandNumber × List Char)} {l r : OperandNumber} {L R O : List Char}
      {st : PairStep} {steps : List PairStep} :
      pending.Perm ((l, L) :: (r, R) :: rest) →
      st.operandNums = ⟨l, r⟩ →
      st.sizedContraction.contraction.operandIndices = [L, R] →
      st.sizedContraction.contraction.outputIndices = O →
      (∀ c, c ∈ L ∨ c ∈ R → st.sizedContraction.outputSize c = some (dims c)) →
      OutputOk [L, R] O →
      (∀ c, c ∈ L ∨ c ∈ R → (c ∈ out ∨ ∃ x ∈ rest, c ∈ x.2) → c ∈ O) →
      Contracts dims out (k + 1) ((.intermediateResult k, O) :: rest) steps →
      Contracts dims out k pending (st :: steps)

/-- The labels that a step runs over: those it keeps, and those that both of its arrays have. -/
def runsOver (L R O : List Char) : List Char :=
  (L ++ R).dedup.filter fun c => c ∈ O ∨ c ∈ L ∧ c ∈ R

/-- The multiplications expected of a step. -/
def stepMults (dims : Char → Nat) (st : PairStep) : Nat :=
  match st.sizedContraction.contraction.operandIndices with
  | [L, R] => ((runsOver L R st.sizedContraction.contraction.outputIndices).map dims).prod
  | _ => 0

/-- The labels of a product of `m` matrices with a vector: `c 0, c 1`; `c 1, c 2`; and so on, and then `c m`. -/
def chain (c : Nat → Char) (m : Nat) : List (List Char) :=
  (List.range (m + 1)).map fun i => if i < m then [c i, c (i + 1)] else [c m]

/-- The letters of operands `0, …, k + 1` that are needed later, by another operand or the output. -/
def keptLetters (inputs : List (List Char)) (out : List Char) (k : Nat) : List Char :=
  (inputs.take (k + 2)).flatten.dedup.filter fun c => c ∈ (inputs.drop (k + 2)).flatten ∨ c ∈ out

/-- The labels of a product of `2 m + 1` matrices. -/
def matrices (c : Nat → Char) (m : Nat) : List (List Char) :=
  (List.range (2 * m + 1)).map fun i => [c i, c (i + 1)]

/-- The same matrices: the first, third, fifth and so on, and then the others. -/
def scattered (c : Nat → Char) (m : Nat) : List (List Char) :=
  (List.range (m + 1)).map (fun i => [c (2 * i), c (2 * i + 1)]) ++
    (List.range m).map fun i => [c (2 * i + 1), c (2 * i + 2)]

end Einsum.Spec
