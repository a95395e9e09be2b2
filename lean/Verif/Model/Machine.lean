import Verif.Model.Counters
import Verif.Model.Overflow

/-!
# `einsum` and `einsum_path` with letter counters and lengths of bounded size

The functions of `/repo/src` that count letters (`Verif/Model/Counters`), everything that calls them, and the
multiplications of lengths (`Verif/Model/Overflow`) in one model: `k` is the counter, `mul` the multiplication.
Contractors do neither when they run.
-/

namespace Einsum

variable {A : Type}

/-- `SizedContraction::subset`, validation.rs 234-267. -/
def SizedContraction.subsetC (k : Counter) (h : HashOrd) (self : SizedContraction)
    (newOperandIndices : List (List Char)) (newOutputIndices : List Char) : M (Except String SizedContraction) := do
  let allOperandIndices := hset newOperandIndices.flatten
  if (h.iter [3] allOperandIndices).any fun c => (self.outputSize c).isNone then
    return .error errSubset
  else
    match ← Contraction.fromIndicesW k (h.sub 4) newOperandIndices newOutputIndices with
    | .error e => return .error e
    | .ok newContraction =>
      let newOutputSize : OutputSize := fun c => if c ∈ allOperandIndices then self.outputSize c else none
      return .ok ⟨newContraction, newOutputSize⟩

/-- `subset(..).unwrap()`. -/
def SizedContraction.subsetUnwrapC (k : Counter) (h : HashOrd) (self : SizedContraction)
    (newOperandIndices : List (List Char)) (newOutputIndices : List Char) : M SizedContraction := do
  let r ← self.subsetC k h newOperandIndices newOutputIndices
  unwrapR r

/-- `generate_permuted_contraction`, optimizers.rs 113-132. -/
def generatePermutedContractionC (k : Counter) (h : HashOrd) (sc : SizedContraction) (tensorOrder : List Nat) :
    M SizedContraction := do
  assertThat (sc.contraction.operandIndices.length = tensorOrder.length)
  let newOperandIndices ← mapE (index sc.contraction.operandIndices) tensorOrder
  sc.subsetUnwrapC k h newOperandIndices sc.contraction.outputIndices

/-- The loop of `generate_path`, optimizers.rs 195-276. -/
def generateStepsC (k : Counter) (h : HashOrd) (permuted : SizedContraction) (first : Nat) :
    (idxOfLhs : Nat) → (lhs : List Char) → (rest : List (List Char)) → (order : List Nat) → M (List PairStep)
  | idxOfLhs, lhs, rhs :: later, num :: nums => do
    let out := stepOutput (h.sub (2 * idxOfLhs)) lhs rhs later permuted.contraction.outputIndices
    let sc ← permuted.subsetUnwrapC k (h.sub (2 * idxOfLhs + 1)) [lhs, rhs] out
    let operandNums : OperandNumPair :=
      if idxOfLhs = 0 then ⟨.input first, .input num⟩
      else ⟨.intermediateResult (idxOfLhs - 1), .input num⟩
    let steps ← generateStepsC k h permuted first (idxOfLhs + 1) out later nums
    return ⟨sc, operandNums⟩ :: steps
  | _, _, _, _ => .ok []

/-- `generate_path`, optimizers.rs 152-281. -/
def generatePathC (k : Counter) (h : HashOrd) (sc : SizedContraction) (tensorOrder : List Nat) :
    M ContractionOrder := do
  let permuted ← generatePermutedContractionC k (h.sub 0) sc tensorOrder
  match permuted.contraction.operandIndices, tensorOrder with
  | [_], _ => return .singleton permuted
  | [lhs, rhs], t0 :: t1 :: _ => do
    let sc' ← permuted.subsetUnwrapC k (h.sub 1) [lhs, rhs] permuted.contraction.outputIndices
    return .pairs [⟨sc', ⟨.input t0, .input t1⟩⟩]
  | lhs :: rest, t0 :: ts => do
    let steps ← generateStepsC k (h.sub 2) permuted t0 0 lhs rest ts
    return .pairs steps
  | _, _ => panic .indexOutOfBounds

/-- `generate_optimized_order`, optimizers.rs 298-308. -/
def generateOptimizedOrderC (k : Counter) (h : HashOrd) (sc : SizedContraction) (strategy : OptimizationMethod) :
    M ContractionOrder :=
  match strategy with
  | .naive => generatePathC k h sc (naiveOrder sc)
  | .reverse => generatePathC k h sc (reverseOrder sc)
  | _ => panic .explicit

/-- `SingletonContraction::new`, mod.rs 142-161, with `SingletonSummary::new`, strategies.rs 50-56. -/
def SingletonContraction.newC (k : Counter) (sc : SizedContraction) : M SingletonContraction := do
  assertThat (sc.contraction.operandIndices.length = 1)
  let input ← index sc.contraction.operandIndices 0
  let summary ← SingletonSummary.fromIndicesW k input sc.contraction.outputIndices
  let method := summary.getStrategy
  let op ← SingletonOp.new sc method
  return ⟨method, op⟩

/-- `SimplificationMethodAndOutput::from_indices_and_sizes`, mod.rs 198-233. -/
def SimplificationMethodAndOutput.fromIndicesAndSizesC (k : Counter) (h : HashOrd) (this other out : List Char)
    (orig : SizedContraction) : M (Option SimplificationMethodAndOutput) := do
  let newIndices := desiredIndices (h.sub 0) this other out
  let simplification ← orig.subsetUnwrapC k (h.sub 1) [this] newIndices
  let c ← SingletonContraction.newC k simplification
  match c.method with
  | .identity => return none
  | .permutation => return none
  | _ => do
    let s ← simplification.asEinsumString
    return some ⟨c.method, c.op, newIndices, s⟩

/-- `PairContraction::new`, mod.rs 275-351. -/
def PairContraction.newC (k : Counter) (mul : UMul) (h : HashOrd) (sc : SizedContraction) : M PairContraction := do
  assertThat (sc.contraction.operandIndices.length = 2)
  let lhs ← index sc.contraction.operandIndices 0
  let rhs ← index sc.contraction.operandIndices 1
  let out := sc.contraction.outputIndices
  let ls ← SimplificationMethodAndOutput.fromIndicesAndSizesC k (h.sub 0) lhs rhs out sc
  let rs ← SimplificationMethodAndOutput.fromIndicesAndSizesC k (h.sub 1) rhs lhs out sc
  let reduced ← sc.subsetUnwrapC k (h.sub 2) [newIndicesOr ls lhs, newIndicesOr rs rhs] out
  let summary ← PairSummary.new reduced
  let method := summary.getStrategy
  let op ← PairOp.newW mul reduced method
  let str ← reduced.asEinsumString
  return ⟨ls, rs, method, op, str⟩

/-- The loop of `EinsumPath::from_path`, mod.rs 448-450. -/
def compileStepsC (k : Counter) (mul : UMul) (h : HashOrd) : List PairStep → M (List PairContraction)
  | [] => .ok []
  | s :: ss => do
    let c ← PairContraction.newC k mul (h.sub 0) s.sizedContraction
    let cs ← compileStepsC k mul (h.sub 1) ss
    return c :: cs

/-- `EinsumPath::from_path`, mod.rs 437-458. -/
def EinsumPath.fromPathC (k : Counter) (mul : UMul) (h : HashOrd) (order : ContractionOrder) : M EinsumPath :=
  match order with
  | .singleton sc => do
    let c ← SingletonContraction.newC k sc
    return ⟨order, .singletonContraction c⟩
  | .pairs orderSteps => do
    let steps ← compileStepsC k mul h orderSteps
    return ⟨order, .pairContractions steps⟩

/-- `validate_and_size`, validation.rs 437-442, with `from_contraction_and_operands`, 294-301. -/
def validateAndSizeC (k : Counter) (h : HashOrd) (s : String) (operands : List (View A)) :
    M (Except String SizedContraction) := do
  match ← validateW k h s with
  | .error e => return .error e
  | .ok c => return SizedContraction.fromContractionAndShapes c (operands.map View.shape)

/-- `einsum_path`, lib.rs 210-218, with `validate_and_optimize_order`, validation.rs 445-452. -/
def einsumPathC (k : Counter) (mul : UMul) (h : HashOrd) (s : String) (operands : List (View A))
    (strategy : OptimizationMethod) : M (Except String EinsumPath) := do
  match ← validateAndSizeC k ((h.sub 0).sub 0) s operands with
  | .error e => return .error e
  | .ok sc => do
    let order ← generateOptimizedOrderC k ((h.sub 0).sub 1) sc strategy
    let p ← EinsumPath.fromPathC k mul (h.sub 1) order
    return .ok p

/-- `einsum`, lib.rs 221-227, with `contract_operands`, validation.rs 357-363, and `EinsumPath::new`,
mod.rs 431-435. -/
def einsumC [Zero A] [Add A] [Mul A] [MulAdd A] (k : Counter) (mul : UMul) (h : HashOrd) (al : Alloc A) (s : String)
    (operands : List (View A)) : M (Except String (View A)) := do
  match ← validateAndSizeC k (h.sub 0) s operands with
  | .error e => return .error e
  | .ok sc => do
    let order ← generateOptimizedOrderC k ((h.sub 1).sub 0) sc .naive
    let path ← EinsumPath.fromPathC k mul ((h.sub 1).sub 1) order
    let r ← path.contractOperands al operands
    return .ok r

end Einsum
