import Verif.Model.Optimizers
import Verif.Model.Strategies
import Verif.Model.Pair

/-!
# Model of `/repo/src/contractors/mod.rs`

`Box<dyn SingletonContractor>` and `Box<dyn PairContractor>` are closed inductive types over the
structs that implement the traits.
-/

namespace Einsum

variable {A : Type}

/-- `Box<dyn SingletonContractor<A>>`, mod.rs 138. -/
inductive SingletonOp where
  | identity
  | permutation (p : Permutation)
  | summation (s : Summation)
  | diagonalization (d : Diagonalization)
  | permutationAndSummation (p : PermutationAndSummation)
  | diagonalizationAndSummation (d : DiagonalizationAndSummation)
  deriving DecidableEq, Repr

/-- Dynamic dispatch of `contract_singleton`, mod.rs 164-172. -/
def SingletonOp.run [Zero A] [Add A] (al : Alloc A) (t : View A) : SingletonOp → M (View A)
  | .identity => Identity.run al t
  | .permutation p => p.run al t
  | .summation s => s.run al t
  | .diagonalization d => d.run al t
  | .permutationAndSummation p => p.run al t
  | .diagonalizationAndSummation d => d.run al t

/-- `SingletonContraction`, mod.rs 135-139. -/
structure SingletonContraction where
  method : SingletonMethod
  op : SingletonOp
  deriving DecidableEq, Repr

/-- The `match method` of `SingletonContraction::new`, mod.rs 148-159. -/
def SingletonOp.new (sc : SizedContraction) : SingletonMethod → M SingletonOp
  | .identity => .ok .identity
  | .permutation => do return .permutation (← Permutation.new sc)
  | .summation => do return .summation (← Summation.new sc)
  | .diagonalization => do return .diagonalization (← Diagonalization.new sc)
  | .permutationAndSummation => do
    return .permutationAndSummation (← PermutationAndSummation.new sc)
  | .diagonalizationAndSummation => do
    return .diagonalizationAndSummation (← DiagonalizationAndSummation.new sc)

/-- `SingletonContraction::new`, mod.rs 142-161. -/
def SingletonContraction.new (sc : SizedContraction) : M SingletonContraction := do
  let summary ← SingletonSummary.new sc
  let method := summary.getStrategy
  let op ← SingletonOp.new sc method
  return ⟨method, op⟩

/-- `SingletonContraction::contract_singleton`, mod.rs 164-172. -/
def SingletonContraction.run [Zero A] [Add A] (self : SingletonContraction) (al : Alloc A)
    (t : View A) : M (View A) := self.op.run al t

/-- `SimplificationMethodAndOutput`, mod.rs 186-192. -/
structure SimplificationMethodAndOutput where
  method : SingletonMethod
  op : SingletonOp
  newIndices : List Char
  einsumString : String
  deriving DecidableEq, Repr

/-- The labels kept by a simplification, mod.rs 204-216: those of this operand that occur in the
other operand or the output, in hash iteration order. -/
def desiredIndices (h : HashOrd) (this other out : List Char) : List Char :=
  let otherAndOutput := hset (hset other ++ hset out)
  let desiredUniques := (hset this).filter fun c => c ∈ otherAndOutput
  h.iter [0] desiredUniques

/-- `SimplificationMethodAndOutput::from_indices_and_sizes`, mod.rs 198-233. -/
def SimplificationMethodAndOutput.fromIndicesAndSizes (h : HashOrd) (this other out : List Char)
    (orig : SizedContraction) : M (Option SimplificationMethodAndOutput) := do
  let newIndices := desiredIndices (h.sub 0) this other out
  let simplification ← unwrapR (orig.subset (h.sub 1) [this] newIndices)
  let c ← SingletonContraction.new simplification
  match c.method with
  | .identity => return none
  | .permutation => return none
  | _ => do
    let s ← simplification.asEinsumString
    return some ⟨c.method, c.op, newIndices, s⟩

/-- `Box<dyn PairContractor<A>>`, mod.rs 270. -/
inductive PairOp where
  | hadamardProduct
  | hadamardProductGeneral (p : HadamardProductGeneral)
  | tensordotFixedPosition (p : TensordotFixedPosition)
  | tensordotGeneral (p : TensordotGeneral)
  | scalarMatrixProduct
  | scalarMatrixProductGeneral (p : ScalarMatrixProductGeneral)
  | matrixScalarProduct
  | matrixScalarProductGeneral (p : MatrixScalarProductGeneral)
  | broadcastProductGeneral (p : BroadcastProductGeneral)
  | stackedTensordotGeneral (p : StackedTensordotGeneral)
  deriving DecidableEq, Repr

/-- Dynamic dispatch of `contract_pair`. -/
def PairOp.run [Zero A] [Add A] [Mul A] [MulAdd A] (al : Alloc A) (l r : View A) : PairOp → M (View A)
  | .hadamardProduct => HadamardProduct.run al l r
  | .hadamardProductGeneral p => p.run al l r
  | .tensordotFixedPosition p => p.run al l r
  | .tensordotGeneral p => p.run al l r
  | .scalarMatrixProduct => ScalarMatrixProduct.run al l r
  | .scalarMatrixProductGeneral p => p.run al l r
  | .matrixScalarProduct => MatrixScalarProduct.run al l r
  | .matrixScalarProductGeneral p => p.run al l r
  | .broadcastProductGeneral p => p.run al l r
  | .stackedTensordotGeneral p => p.run al l r

/-- The `match method` of `PairContraction::new`, mod.rs 309-343. -/
def PairOp.new (sc : SizedContraction) : PairMethod → M PairOp
  | .hadamardProduct => do HadamardProduct.new sc; return .hadamardProduct
  | .hadamardProductGeneral => do return .hadamardProductGeneral (← HadamardProductGeneral.new sc)
  | .scalarMatrixProduct => do ScalarMatrixProduct.new sc; return .scalarMatrixProduct
  | .scalarMatrixProductGeneral => do
    return .scalarMatrixProductGeneral (← ScalarMatrixProductGeneral.new sc)
  | .matrixScalarProduct => do MatrixScalarProduct.new sc; return .matrixScalarProduct
  | .matrixScalarProductGeneral => do
    return .matrixScalarProductGeneral (← MatrixScalarProductGeneral.new sc)
  | .tensordotFixedPosition => do return .tensordotFixedPosition (← TensordotFixedPosition.new sc)
  | .tensordotGeneral => do return .tensordotGeneral (← TensordotGeneral.new sc)
  | .stackedTensordotGeneral => do return .stackedTensordotGeneral (← StackedTensordotGeneral.new sc)
  | .broadcastProductGeneral => do return .broadcastProductGeneral (← BroadcastProductGeneral.new sc)

/-- `PairContraction`, mod.rs 265-272. -/
structure PairContraction where
  lhsSimplification : Option SimplificationMethodAndOutput
  rhsSimplification : Option SimplificationMethodAndOutput
  method : PairMethod
  op : PairOp
  simplifiedEinsumString : String
  deriving DecidableEq, Repr

/-- mod.rs 293-300. -/
def newIndicesOr (s : Option SimplificationMethodAndOutput) (orig : List Char) : List Char :=
  match s with
  | some s => s.newIndices
  | none => orig

/-- `PairContraction::new`, mod.rs 275-351. -/
def PairContraction.new (h : HashOrd) (sc : SizedContraction) : M PairContraction := do
  assertThat (sc.contraction.operandIndices.length = 2)
  let lhs ← index sc.contraction.operandIndices 0
  let rhs ← index sc.contraction.operandIndices 1
  let out := sc.contraction.outputIndices
  let ls ← SimplificationMethodAndOutput.fromIndicesAndSizes (h.sub 0) lhs rhs out sc
  let rs ← SimplificationMethodAndOutput.fromIndicesAndSizes (h.sub 1) rhs lhs out sc
  let reduced ← unwrapR (sc.subset (h.sub 2) [newIndicesOr ls lhs, newIndicesOr rs rhs] out)
  let summary ← PairSummary.new reduced
  let method := summary.getStrategy
  let op ← PairOp.new reduced method
  let str ← reduced.asEinsumString
  return ⟨ls, rs, method, op, str⟩

/-- The simplification of one operand inside `contract_pair`, mod.rs 365-377: the operand itself
when there is none. -/
def simplifyOperand [Zero A] [Add A] (al : Alloc A) (s : Option SimplificationMethodAndOutput)
    (t : View A) : M (View A) :=
  match s with
  | some s => s.op.run al t
  | none => .ok t

/-- `PairContraction::contract_pair`, mod.rs 354-379. -/
def PairContraction.run [Zero A] [Add A] [Mul A] [MulAdd A] (self : PairContraction) (al : Alloc A)
    (l r : View A) : M (View A) := do
  let l' ← simplifyOperand (al.sub 0) self.lhsSimplification l
  let r' ← simplifyOperand (al.sub 1) self.rhsSimplification r
  self.op.run (al.sub 2) l' r'

/-- `EinsumPathSteps`, mod.rs 404-413. -/
inductive EinsumPathSteps where
  | singletonContraction (c : SingletonContraction)
  | pairContractions (steps : List PairContraction)

/-- `EinsumPath`, mod.rs 422-428. -/
structure EinsumPath where
  contractionOrder : ContractionOrder
  steps : EinsumPathSteps

/-- The loop of `EinsumPath::from_path`, mod.rs 448-450. -/
def compileSteps (h : HashOrd) : List PairStep → M (List PairContraction)
  | [] => .ok []
  | s :: ss => do
    let c ← PairContraction.new (h.sub 0) s.sizedContraction
    let cs ← compileSteps (h.sub 1) ss
    return c :: cs

/-- `EinsumPath::from_path`, mod.rs 437-458. -/
def EinsumPath.fromPath (h : HashOrd) (order : ContractionOrder) : M EinsumPath :=
  match order with
  | .singleton sc => do
    let c ← SingletonContraction.new sc
    return ⟨order, .singletonContraction c⟩
  | .pairs orderSteps => do
    let steps ← compileSteps h orderSteps
    return ⟨order, .pairContractions steps⟩

/-- `EinsumPath::new`, mod.rs 431-435. -/
def EinsumPath.new (h : HashOrd) (sc : SizedContraction) : M EinsumPath := do
  let order ← generateOptimizedOrder (h.sub 0) sc .naive
  EinsumPath.fromPath (h.sub 1) order

/-- The operand lookup of mod.rs 475-482. -/
def fetch (operands inter : List (View A)) : OperandNumber → M (View A)
  | .input pos => index operands pos
  | .intermediateResult pos => index inter pos

/-- The loop of `contract_operands`, mod.rs 474-486; returns all intermediate results. -/
def runSteps [Zero A] [Add A] [Mul A] [MulAdd A] (al : Alloc A) (operands : List (View A)) :
    List (PairContraction × PairStep) → List (View A) → M (List (View A))
  | [], inter => .ok inter
  | (step, orderStep) :: rest, inter => do
    let lhs ← fetch operands inter orderStep.operandNums.lhs
    let rhs ← fetch operands inter orderStep.operandNums.rhs
    let r ← step.run (al.sub 0) lhs rhs
    runSteps (al.sub 1) operands rest (inter ++ [r])

/-- `EinsumPath::contract_operands`, mod.rs 462-491. -/
def EinsumPath.contractOperands [Zero A] [Add A] [Mul A] [MulAdd A] (self : EinsumPath) (al : Alloc A)
    (operands : List (View A)) : M (View A) :=
  match self.steps, self.contractionOrder with
  | .singletonContraction c, .singleton _ => do
    let t ← index operands 0
    c.run al t
  | .pairContractions steps, .pairs orderSteps => do
    let inter ← runSteps al operands (steps.zip orderSteps) []
    unwrapO inter.getLast?
  | _, _ => panic .explicit

end Einsum
