import Verif.Model.Machine

/-!
# Subtraction in builds with and without overflow checks

The rest of the model panics when an unsigned subtraction of `/repo/src` underflows.  Here every function that
subtracts, multiplies lengths or counts letters is repeated, with everything that calls it, and with these
operations as a parameter.  Contractors do none of this when they run.  The three subtractions of optimizers.rs
(195, 238, 268) are made only where the left side is at least one, and stay as they are.
-/

namespace Einsum

variable {A : Type}

/-- The arithmetic of a build. -/
structure Build where
  counter : Counter
  mul : UMul
  sub : Nat → Nat → M Nat
  /-- the largest number of elements of a `Vec<usize>` -/
  maxLen : Nat

/-- `a - b` on `usize` with largest value `W` in a build without overflow checks; both arguments are at most `W`. -/
def subWrap (W a b : Nat) : M Nat := .ok (if b ≤ a then a - b else a + (W + 1) - b)

/-- A build with overflow checks; counters below `B`, `usize::MAX` is `W`.  A `Vec` has at most `isize::MAX` bytes. -/
def Build.debug (B W : Nat) : Build := ⟨.checked B, umul W, usub, W / 2 / 8⟩

/-- A build without overflow checks. -/
def Build.release (B W : Nat) : Build := ⟨.wrapping B, uwrap W, subWrap W, W / 2 / 8⟩

/-- `(0..n).collect::<Vec<usize>>()`, where only the success matters: "capacity overflow" if it is too long. -/
def Build.collect (b : Build) (n : Nat) : M Unit := if n ≤ b.maxLen then .ok () else panic .explicit

/-- `SingletonSummary::from_indices`, strategies.rs 58-76. -/
def SingletonSummary.fromIndicesB (b : Build) (input output : List Char) : M SingletonSummary := do
  let inputCounts ← charCountsW b.counter input
  let numSummedAxes ← b.sub inputCounts.length output.length
  let numDiagonalizedAxes := (inputCounts.filter fun e => b.counter.gt1 e.2).length
  let numReorderedAxes := ((output.zip input).filter fun p => p.1 ≠ p.2).length
  return ⟨numSummedAxes, numDiagonalizedAxes, numReorderedAxes⟩

/-- `Summation::from_sizes`, singleton_contractors.rs 148-157.  (If `start_index + num_summed_axes` wraps, the first
range is empty; the second is then too long to be collected.) -/
def Summation.fromSizesB (b : Build) (startIndex numSummedAxes : Nat) : M Summation := do
  assertThat (1 ≤ numSummedAxes)
  b.collect numSummedAxes
  Summation.fromSizes startIndex numSummedAxes

/-- `Summation::new`, singleton_contractors.rs 138-146. -/
def Summation.newB (b : Build) (sc : SizedContraction) : M Summation := do
  let input ← index sc.contraction.operandIndices 0
  let n ← b.sub input.length sc.contraction.outputIndices.length
  Summation.fromSizesB b sc.contraction.outputIndices.length n

/-- `PermutationAndSummation::new`, singleton_contractors.rs 277-305. -/
def PermutationAndSummation.newB (b : Build) (sc : SizedContraction) : M PermutationAndSummation := do
  let input ← index sc.contraction.operandIndices 0
  let out := sc.contraction.outputIndices
  let order1 ← mapE (fun c => unwrapO (position c input)) out
  let order2 := (List.range input.length).filter fun i =>
    match input[i]? with
    | some c => (position c out).isNone
    | none => false
  let summation ← Summation.newB b sc
  return ⟨Permutation.fromIndices (order1 ++ order2), summation⟩

/-- `DiagonalizationAndSummation::new`, singleton_contractors.rs 334-345. -/
def DiagonalizationAndSummation.newB (b : Build) (sc : SizedContraction) : M DiagonalizationAndSummation := do
  let diagonalization ← Diagonalization.new sc
  let n ← b.sub diagonalization.outputShape.length sc.contraction.outputIndices.length
  let summation ← Summation.fromSizesB b sc.contraction.outputIndices.length n
  return ⟨diagonalization, summation⟩

/-- The `match method` of `SingletonContraction::new`, mod.rs 146-158. -/
def SingletonOp.newB (b : Build) (sc : SizedContraction) : SingletonMethod → M SingletonOp
  | .summation => do return .summation (← Summation.newB b sc)
  | .permutationAndSummation => do
    return .permutationAndSummation (← PermutationAndSummation.newB b sc)
  | .diagonalizationAndSummation => do
    return .diagonalizationAndSummation (← DiagonalizationAndSummation.newB b sc)
  | m => SingletonOp.new sc m

/-- `SingletonContraction::new`, mod.rs 142-161, with `SingletonSummary::new`, strategies.rs 50-56. -/
def SingletonContraction.newB (b : Build) (sc : SizedContraction) : M SingletonContraction := do
  assertThat (sc.contraction.operandIndices.length = 1)
  let input ← index sc.contraction.operandIndices 0
  let summary ← SingletonSummary.fromIndicesB b input sc.contraction.outputIndices
  let method := summary.getStrategy
  let op ← SingletonOp.newB b sc method
  return ⟨method, op⟩

/-- `PairSummary::from_indices`, strategies.rs 129-151. -/
def PairSummary.fromIndicesB (b : Build) (lhs rhs out : List Char) : M PairSummary := do
  let lhsUniques := hset lhs
  let rhsUniques := hset rhs
  let outputUniques := hset out
  assertThat (lhs.length = lhsUniques.length)
  assertThat (rhs.length = rhsUniques.length)
  assertThat (out.length = outputUniques.length)
  let lhsAndRhs := lhsUniques.filter fun c => c ∈ rhsUniques
  let stacked := lhsAndRhs.filter fun c => c ∈ outputUniques
  let numStackedAxes := stacked.length
  let numContractedAxes ← b.sub lhsAndRhs.length numStackedAxes
  let l1 ← b.sub lhsUniques.length numStackedAxes
  let numLhsOuterAxes ← b.sub l1 numContractedAxes
  let r1 ← b.sub rhsUniques.length numStackedAxes
  let numRhsOuterAxes ← b.sub r1 numContractedAxes
  return ⟨numStackedAxes, numLhsOuterAxes, numRhsOuterAxes, numContractedAxes⟩

/-- `PairSummary::new`, strategies.rs 120-127. -/
def PairSummary.newB (b : Build) (sc : SizedContraction) : M PairSummary := do
  assertThat (sc.contraction.operandIndices.length = 2)
  let lhs ← index sc.contraction.operandIndices 0
  let rhs ← index sc.contraction.operandIndices 1
  PairSummary.fromIndicesB b lhs rhs sc.contraction.outputIndices

/-- The LHS loop, pair_contractors.rs 154-161. -/
def lhsLoopB (b : Build) (numAxes numContracted : Nat) : Nat → List Nat → Nat × Nat × List Nat →
    M (Nat × Nat × List Nat)
  | _, [], acc => .ok acc
  | axis, n :: ns, (u, c, out) => do
    let cut ← b.sub numAxes numContracted
    if axis < cut then do
      let u' ← b.mul u n
      lhsLoopB b numAxes numContracted (axis + 1) ns (u', c, out ++ [n])
    else do
      let c' ← b.mul c n
      lhsLoopB b numAxes numContracted (axis + 1) ns (u, c', out)

/-- `TensordotFixedPosition::from_shapes_and_number_of_contracted_axes`, pair_contractors.rs 142-180. -/
def TensordotFixedPosition.fromShapesB (b : Build) (lhsShape rhsShape : List Nat) (numContracted : Nat) :
    M TensordotFixedPosition := do
  let (ul, cl, out) ← lhsLoopB b lhsShape.length numContracted 0 lhsShape (1, 1, [])
  let (ur, cr, out') ← rhsLoopW b.mul numContracted 0 rhsShape (1, 1, out)
  assertThat (cr = cl)
  return ⟨ul, ur, cl, out'⟩

/-- `TensordotFixedPosition::new`, pair_contractors.rs 114-134. -/
def TensordotFixedPosition.newB (b : Build) (sc : SizedContraction) : M TensordotFixedPosition := do
  assertThat (sc.contraction.operandIndices.length = 2)
  let lhs ← index sc.contraction.operandIndices 0
  let rhs ← index sc.contraction.operandIndices 1
  let twice ← b.sub (lhs.length + rhs.length) sc.contraction.outputIndices.length
  assertThat (twice % 2 = 0)
  let lhsShape ← sizesOf sc lhs
  let rhsShape ← sizesOf sc rhs
  TensordotFixedPosition.fromShapesB b lhsShape rhsShape (twice / 2)

/-- `TensordotGeneral::from_shapes_and_axis_numbers`, pair_contractors.rs 314-375. -/
def TensordotGeneral.fromShapesAndAxisNumbersB (b : Build)
    (lhsShape rhsShape lhsAxes rhsAxes outputOrder : List Nat) : M TensordotGeneral := do
  let numContracted := lhsAxes.length
  assertThat (numContracted = rhsAxes.length)
  assertThat (numContracted = (hset lhsAxes).length)
  assertThat (numContracted = (hset rhsAxes).length)
  let permutationLhs := uncontractedAxes lhsShape.length lhsAxes ++ lhsAxes
  let adjustedLhsShape ← mapE (index lhsShape) permutationLhs
  let permutationRhs := rhsAxes ++ uncontractedAxes rhsShape.length rhsAxes
  let adjustedRhsShape ← mapE (index rhsShape) permutationRhs
  let fixed ← TensordotFixedPosition.fromShapesB b adjustedLhsShape adjustedRhsShape numContracted
  return ⟨⟨permutationLhs⟩, ⟨permutationRhs⟩, fixed, ⟨outputOrder⟩⟩

/-- `TensordotGeneral::from_shapes_and_indices`, pair_contractors.rs 267-307. -/
def TensordotGeneral.fromShapesAndIndicesB (b : Build) (lhsShape rhsShape : List Nat)
    (lhs rhs contracted out : List Char) : M TensordotGeneral := do
  let lhsContractedAxes ← findOutputsInInputsUnique contracted lhs
  let rhsContractedAxes ← findOutputsInInputsUnique contracted rhs
  let uncontracted := (lhs.filter fun c => (position c out).isSome) ++
    (rhs.filter fun c => (position c out).isSome)
  let outputOrder ← findOutputsInInputsUnique out uncontracted
  TensordotGeneral.fromShapesAndAxisNumbersB b lhsShape rhsShape lhsContractedAxes rhsContractedAxes outputOrder

/-- `TensordotGeneral::new`, pair_contractors.rs 248-265. -/
def TensordotGeneral.newB (b : Build) (sc : SizedContraction) : M TensordotGeneral := do
  assertThat (sc.contraction.operandIndices.length = 2)
  let lhs ← index sc.contraction.operandIndices 0
  let rhs ← index sc.contraction.operandIndices 1
  let lhsShape ← sizesOf sc lhs
  let rhsShape ← sizesOf sc rhs
  TensordotGeneral.fromShapesAndIndicesB b lhsShape rhsShape lhs rhs
    sc.contraction.summationIndices sc.contraction.outputIndices

/-- `StackedTensordotGeneral::new`, pair_contractors.rs 825-959. -/
def StackedTensordotGeneral.newB (b : Build) (sc : SizedContraction) : M StackedTensordotGeneral := do
  assertThat (sc.contraction.operandIndices.length = 2)
  let lhs ← index sc.contraction.operandIndices 0
  let rhs ← index sc.contraction.operandIndices 1
  let out := sc.contraction.outputIndices
  let maybeLhs ← maybeFindOutputsInInputsUnique out lhs
  let maybeRhs ← maybeFindOutputsInInputsUnique out rhs
  let acc ← stackClassifyW b.mul sc ((maybeLhs.zip maybeRhs).zip out) {}
  let (lhsContracted, rhsContracted, contractedShape) ← stackContracted sc rhs out 0 lhs
  let lhsOrder := acc.lhsStackAxes ++ acc.lhsOuterAxes ++ lhsContracted
  let lhsOutputShape := acc.stackLen :: (acc.lhsUncontractedShape ++ contractedShape)
  let rhsOrder := acc.rhsStackAxes ++ rhsContracted ++ acc.rhsOuterAxes
  let rhsOutputShape := acc.stackLen :: (contractedShape ++ acc.rhsUncontractedShape)
  let intermediateIndices := acc.stackIndices ++ acc.lhsOuterIndices ++ acc.rhsOuterIndices
  let lhsOuterSizes ← sizesOf sc acc.lhsOuterIndices
  let rhsOuterSizes ← sizesOf sc acc.rhsOuterIndices
  let intermediateShape := acc.stackLen :: (lhsOuterSizes ++ rhsOuterSizes)
  let outputOrder ← findOutputsInInputsUnique out intermediateIndices
  let outputShape ← sizesOf sc intermediateIndices
  let fixed ← TensordotFixedPosition.fromShapesB b lhsOutputShape.tail rhsOutputShape.tail
    lhsContracted.length
  return ⟨⟨lhsOrder⟩, ⟨rhsOrder⟩, lhsOutputShape, rhsOutputShape, intermediateShape, fixed,
    outputShape, ⟨outputOrder⟩⟩

/-- The `match method` of `PairContraction::new`, mod.rs 309-343. -/
def PairOp.newB (b : Build) (sc : SizedContraction) : PairMethod → M PairOp
  | .tensordotFixedPosition => do return .tensordotFixedPosition (← TensordotFixedPosition.newB b sc)
  | .tensordotGeneral => do return .tensordotGeneral (← TensordotGeneral.newB b sc)
  | .stackedTensordotGeneral => do return .stackedTensordotGeneral (← StackedTensordotGeneral.newB b sc)
  | m => PairOp.new sc m

/-- `SimplificationMethodAndOutput::from_indices_and_sizes`, mod.rs 198-233. -/
def SimplificationMethodAndOutput.fromIndicesAndSizesB (b : Build) (h : HashOrd) (this other out : List Char)
    (orig : SizedContraction) : M (Option SimplificationMethodAndOutput) := do
  let newIndices := desiredIndices (h.sub 0) this other out
  let simplification ← orig.subsetUnwrapC b.counter (h.sub 1) [this] newIndices
  let c ← SingletonContraction.newB b simplification
  match c.method with
  | .identity => return none
  | .permutation => return none
  | _ => do
    let s ← simplification.asEinsumString
    return some ⟨c.method, c.op, newIndices, s⟩

/-- `PairContraction::new`, mod.rs 275-351. -/
def PairContraction.newB (b : Build) (h : HashOrd) (sc : SizedContraction) : M PairContraction := do
  assertThat (sc.contraction.operandIndices.length = 2)
  let lhs ← index sc.contraction.operandIndices 0
  let rhs ← index sc.contraction.operandIndices 1
  let out := sc.contraction.outputIndices
  let ls ← SimplificationMethodAndOutput.fromIndicesAndSizesB b (h.sub 0) lhs rhs out sc
  let rs ← SimplificationMethodAndOutput.fromIndicesAndSizesB b (h.sub 1) rhs lhs out sc
  let reduced ← sc.subsetUnwrapC b.counter (h.sub 2) [newIndicesOr ls lhs, newIndicesOr rs rhs] out
  let summary ← PairSummary.newB b reduced
  let method := summary.getStrategy
  let op ← PairOp.newB b reduced method
  let str ← reduced.asEinsumString
  return ⟨ls, rs, method, op, str⟩

/-- The loop of `EinsumPath::from_path`, mod.rs 448-450. -/
def compileStepsB (b : Build) (h : HashOrd) : List PairStep → M (List PairContraction)
  | [] => .ok []
  | s :: ss => do
    let c ← PairContraction.newB b (h.sub 0) s.sizedContraction
    let cs ← compileStepsB b (h.sub 1) ss
    return c :: cs

/-- `EinsumPath::from_path`, mod.rs 437-458. -/
def EinsumPath.fromPathB (b : Build) (h : HashOrd) (order : ContractionOrder) : M EinsumPath :=
  match order with
  | .singleton sc => do
    let c ← SingletonContraction.newB b sc
    return ⟨order, .singletonContraction c⟩
  | .pairs orderSteps => do
    let steps ← compileStepsB b h orderSteps
    return ⟨order, .pairContractions steps⟩

/-- `einsum_path`, lib.rs 210-218. -/
def einsumPathB (b : Build) (h : HashOrd) (s : String) (operands : List (View A))
    (strategy : OptimizationMethod) : M (Except String EinsumPath) := do
  match ← validateAndSizeC b.counter ((h.sub 0).sub 0) s operands with
  | .error e => return .error e
  | .ok sc => do
    let order ← generateOptimizedOrderC b.counter ((h.sub 0).sub 1) sc strategy
    let p ← EinsumPath.fromPathB b (h.sub 1) order
    return .ok p

/-- `einsum`, lib.rs 221-227. -/
def einsumB [Zero A] [Add A] [Mul A] [MulAdd A] (b : Build) (h : HashOrd) (al : Alloc A) (s : String)
    (operands : List (View A)) : M (Except String (View A)) := do
  match ← validateAndSizeC b.counter (h.sub 0) s operands with
  | .error e => return .error e
  | .ok sc => do
    let order ← generateOptimizedOrderC b.counter ((h.sub 1).sub 0) sc .naive
    let path ← EinsumPath.fromPathB b ((h.sub 1).sub 1) order
    let r ← path.contractOperands al operands
    return .ok r

/-- `tensordot`, lib.rs 269-294; the output order is collected in line 285. -/
def tensordotB [Zero A] [Add A] [Mul A] [MulAdd A] (b : Build) (al : Alloc A) (lhs rhs : View A)
    (lhsAxes rhsAxes : List Nat) : M (View A) := do
  assertThat (lhsAxes.length = rhsAxes.length)
  let n ← b.sub (lhs.shape.length + rhs.shape.length) (2 * lhsAxes.length)
  b.collect n
  let t ← TensordotGeneral.fromShapesAndAxisNumbersB b lhs.shape rhs.shape lhsAxes rhsAxes (List.range n)
  t.run al lhs rhs

end Einsum
