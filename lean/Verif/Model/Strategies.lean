import Verif.Model.Validation

/-!
# Model of `/repo/src/contractors/strategies.rs`
-/

namespace Einsum

/-- `SingletonMethod`, strategies.rs 32-39. -/
inductive SingletonMethod where
  | identity
  | permutation
  | summation
  | diagonalization
  | permutationAndSummation
  | diagonalizationAndSummation
  deriving DecidableEq, Repr

/-- `SingletonSummary`, strategies.rs 43-47. -/
structure SingletonSummary where
  numSummedAxes : Nat
  numDiagonalizedAxes : Nat
  numReorderedAxes : Nat
  deriving DecidableEq, Repr

/-- `SingletonSummary::from_indices`, strategies.rs 58-76. -/
def SingletonSummary.fromIndices (input output : List Char) : M SingletonSummary := do
  let inputCounts := charCounts input
  let numSummedAxes ← usub inputCounts.length output.length
  let numDiagonalizedAxes := (inputCounts.filter fun e => 1 < e.2).length
  let numReorderedAxes := ((output.zip input).filter fun p => p.1 ≠ p.2).length
  return ⟨numSummedAxes, numDiagonalizedAxes, numReorderedAxes⟩

/-- `SingletonSummary::new`, strategies.rs 50-56. -/
def SingletonSummary.new (sc : SizedContraction) : M SingletonSummary := do
  assertThat (sc.contraction.operandIndices.length = 1)
  let input ← index sc.contraction.operandIndices 0
  SingletonSummary.fromIndices input sc.contraction.outputIndices

/-- `SingletonSummary::get_strategy`, strategies.rs 78-91. -/
def SingletonSummary.getStrategy (s : SingletonSummary) : SingletonMethod :=
  match s.numSummedAxes, s.numDiagonalizedAxes, s.numReorderedAxes with
  | 0, 0, 0 => .identity
  | 0, 0, _ => .permutation
  | _, 0, 0 => .summation
  | 0, _, _ => .diagonalization
  | _, 0, _ => .permutationAndSummation
  | _, _, _ => .diagonalizationAndSummation

/-- `PairMethod`, strategies.rs 97-108. -/
inductive PairMethod where
  | hadamardProduct
  | hadamardProductGeneral
  | tensordotFixedPosition
  | tensordotGeneral
  | scalarMatrixProduct
  | scalarMatrixProductGeneral
  | matrixScalarProduct
  | matrixScalarProductGeneral
  | broadcastProductGeneral
  | stackedTensordotGeneral
  deriving DecidableEq, Repr

/-- `PairSummary`, strategies.rs 112-117. -/
structure PairSummary where
  numStackedAxes : Nat
  numLhsOuterAxes : Nat
  numRhsOuterAxes : Nat
  numContractedAxes : Nat
  deriving DecidableEq, Repr

/-- `PairSummary::from_indices`, strategies.rs 129-151. -/
def PairSummary.fromIndices (lhs rhs out : List Char) : M PairSummary := do
  let lhsUniques := hset lhs
  let rhsUniques := hset rhs
  let outputUniques := hset out
  assertThat (lhs.length = lhsUniques.length)
  assertThat (rhs.length = rhsUniques.length)
  assertThat (out.length = outputUniques.length)
  let lhsAndRhs := lhsUniques.filter fun c => c ∈ rhsUniques
  let stacked := lhsAndRhs.filter fun c => c ∈ outputUniques
  let numStackedAxes := stacked.length
  let numContractedAxes ← usub lhsAndRhs.length numStackedAxes
  let l1 ← usub lhsUniques.length numStackedAxes
  let numLhsOuterAxes ← usub l1 numContractedAxes
  let r1 ← usub rhsUniques.length numStackedAxes
  let numRhsOuterAxes ← usub r1 numContractedAxes
  return ⟨numStackedAxes, numLhsOuterAxes, numRhsOuterAxes, numContractedAxes⟩

/-- `PairSummary::new`, strategies.rs 120-127. -/
def PairSummary.new (sc : SizedContraction) : M PairSummary := do
  assertThat (sc.contraction.operandIndices.length = 2)
  let lhs ← index sc.contraction.operandIndices 0
  let rhs ← index sc.contraction.operandIndices 1
  PairSummary.fromIndices lhs rhs sc.contraction.outputIndices

/-- `PairSummary::get_strategy`, strategies.rs 153-169. -/
def PairSummary.getStrategy (s : PairSummary) : PairMethod :=
  match s.numContractedAxes, s.numLhsOuterAxes, s.numRhsOuterAxes, s.numStackedAxes with
  | 0, 0, 0, _ => .hadamardProductGeneral
  | 0, 0, _, 0 => .scalarMatrixProductGeneral
  | 0, _, 0, 0 => .matrixScalarProductGeneral
  | _, _, _, 0 => .tensordotGeneral
  | _, _, _, _ => .stackedTensordotGeneral

end Einsum
