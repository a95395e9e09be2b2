import Verif.Model.Lib

/-!
# The multiplications of `usize` in `/repo/src`, in a word of bounded size

`/repo/src` multiplies axis lengths in two places only: `TensordotFixedPosition::
from_shapes_and_number_of_contracted_axes` (pair_contractors.rs 154-170) and the loop of
`StackedTensordotGeneral::new` (pair_contractors.rs 866-867).  The rest of the model uses unbounded natural
numbers.  Here the same functions, and everything that calls them, are repeated with the multiplication as a
parameter: `umul W` panics when the product exceeds `W` (`usize::MAX`), as in a build with overflow checks,
and `uwrap W` reduces it modulo `W + 1`, as in a build without.  (Subtractions always panic on underflow;
`C42` shows that none underflows.)
-/

namespace Einsum

variable {A : Type}

/-- `a * b` on `usize` with largest value `W` in a build with overflow checks. -/
def umul (W a b : Nat) : M Nat := if a * b ≤ W then .ok (a * b) else panic .mulOverflow

/-- `a * b` on `usize` with largest value `W` in a build without overflow checks. -/
def uwrap (W a b : Nat) : M Nat := .ok (a * b % (W + 1))

/-- A multiplication of lengths. -/
abbrev UMul := Nat → Nat → M Nat

/-- The LHS loop, pair_contractors.rs 154-161. -/
def lhsLoopW (mul : UMul) (numAxes numContracted : Nat) : Nat → List Nat → Nat × Nat × List Nat →
    M (Nat × Nat × List Nat)
  | _, [], acc => .ok acc
  | axis, n :: ns, (u, c, out) => do
    let cut ← usub numAxes numContracted
    if axis < cut then do
      let u' ← mul u n
      lhsLoopW mul numAxes numContracted (axis + 1) ns (u', c, out ++ [n])
    else do
      let c' ← mul c n
      lhsLoopW mul numAxes numContracted (axis + 1) ns (u, c', out)

/-- The RHS loop, pair_contractors.rs 163-170. -/
def rhsLoopW (mul : UMul) (numContracted : Nat) : Nat → List Nat → Nat × Nat × List Nat → M (Nat × Nat × List Nat)
  | _, [], acc => .ok acc
  | axis, n :: ns, (u, c, out) =>
    if axis < numContracted then do
      let c' ← mul c n
      rhsLoopW mul numContracted (axis + 1) ns (u, c', out)
    else do
      let u' ← mul u n
      rhsLoopW mul numContracted (axis + 1) ns (u', c, out ++ [n])

/-- `TensordotFixedPosition::from_shapes_and_number_of_contracted_axes`, pair_contractors.rs 142-180. -/
def TensordotFixedPosition.fromShapesW (mul : UMul) (lhsShape rhsShape : List Nat) (numContracted : Nat) :
    M TensordotFixedPosition := do
  let (ul, cl, out) ← lhsLoopW mul lhsShape.length numContracted 0 lhsShape (1, 1, [])
  let (ur, cr, out') ← rhsLoopW mul numContracted 0 rhsShape (1, 1, out)
  assertThat (cr = cl)
  return ⟨ul, ur, cl, out'⟩

/-- `TensordotFixedPosition::new`, pair_contractors.rs 114-134. -/
def TensordotFixedPosition.newW (mul : UMul) (sc : SizedContraction) : M TensordotFixedPosition := do
  assertThat (sc.contraction.operandIndices.length = 2)
  let lhs ← index sc.contraction.operandIndices 0
  let rhs ← index sc.contraction.operandIndices 1
  let twice ← usub (lhs.length + rhs.length) sc.contraction.outputIndices.length
  assertThat (twice % 2 = 0)
  let lhsShape ← sizesOf sc lhs
  let rhsShape ← sizesOf sc rhs
  TensordotFixedPosition.fromShapesW mul lhsShape rhsShape (twice / 2)

/-- `TensordotGeneral::from_shapes_and_axis_numbers`, pair_contractors.rs 314-375. -/
def TensordotGeneral.fromShapesAndAxisNumbersW (mul : UMul)
    (lhsShape rhsShape lhsAxes rhsAxes outputOrder : List Nat) : M TensordotGeneral := do
  let numContracted := lhsAxes.length
  assertThat (numContracted = rhsAxes.length)
  assertThat (numContracted = (hset lhsAxes).length)
  assertThat (numContracted = (hset rhsAxes).length)
  let permutationLhs := uncontractedAxes lhsShape.length lhsAxes ++ lhsAxes
  let adjustedLhsShape ← mapE (index lhsShape) permutationLhs
  let permutationRhs := rhsAxes ++ uncontractedAxes rhsShape.length rhsAxes
  let adjustedRhsShape ← mapE (index rhsShape) permutationRhs
  let fixed ← TensordotFixedPosition.fromShapesW mul adjustedLhsShape adjustedRhsShape numContracted
  return ⟨⟨permutationLhs⟩, ⟨permutationRhs⟩, fixed, ⟨outputOrder⟩⟩

/-- `TensordotGeneral::from_shapes_and_indices`, pair_contractors.rs 267-307. -/
def TensordotGeneral.fromShapesAndIndicesW (mul : UMul) (lhsShape rhsShape : List Nat)
    (lhs rhs contracted out : List Char) : M TensordotGeneral := do
  let lhsContractedAxes ← findOutputsInInputsUnique contracted lhs
  let rhsContractedAxes ← findOutputsInInputsUnique contracted rhs
  let uncontracted := (lhs.filter fun c => (position c out).isSome) ++
    (rhs.filter fun c => (position c out).isSome)
  let outputOrder ← findOutputsInInputsUnique out uncontracted
  TensordotGeneral.fromShapesAndAxisNumbersW mul lhsShape rhsShape lhsContractedAxes rhsContractedAxes outputOrder

/-- `TensordotGeneral::new`, pair_contractors.rs 248-265. -/
def TensordotGeneral.newW (mul : UMul) (sc : SizedContraction) : M TensordotGeneral := do
  assertThat (sc.contraction.operandIndices.length = 2)
  let lhs ← index sc.contraction.operandIndices 0
  let rhs ← index sc.contraction.operandIndices 1
  let lhsShape ← sizesOf sc lhs
  let rhsShape ← sizesOf sc rhs
  TensordotGeneral.fromShapesAndIndicesW mul lhsShape rhsShape lhs rhs
    sc.contraction.summationIndices sc.contraction.outputIndices

/-- The loop over the output labels of `StackedTensordotGeneral::new`, pair_contractors.rs 856-883. -/
def stackClassifyW (mul : UMul) (sc : SizedContraction) :
    List ((Option Nat × Option Nat) × Char) → StackAcc → M StackAcc
  | [], acc => .ok acc
  | ((some lp, some rp), c) :: rest, acc => do
    let n ← sc.outputSize.get c
    let len ← mul acc.stackLen n
    stackClassifyW mul sc rest { acc with
      lhsStackAxes := acc.lhsStackAxes ++ [lp], rhsStackAxes := acc.rhsStackAxes ++ [rp]
      stackIndices := acc.stackIndices ++ [c], stackLen := len }
  | ((some lp, none), c) :: rest, acc => do
    let n ← sc.outputSize.get c
    stackClassifyW mul sc rest { acc with
      lhsOuterAxes := acc.lhsOuterAxes ++ [lp], lhsOuterIndices := acc.lhsOuterIndices ++ [c]
      lhsUncontractedShape := acc.lhsUncontractedShape ++ [n] }
  | ((none, some rp), c) :: rest, acc => do
    let n ← sc.outputSize.get c
    stackClassifyW mul sc rest { acc with
      rhsOuterAxes := acc.rhsOuterAxes ++ [rp], rhsOuterIndices := acc.rhsOuterIndices ++ [c]
      rhsUncontractedShape := acc.rhsUncontractedShape ++ [n] }
  | ((none, none), _) :: _, _ => panic .explicit

/-- `StackedTensordotGeneral::new`, pair_contractors.rs 825-959. -/
def StackedTensordotGeneral.newW (mul : UMul) (sc : SizedContraction) : M StackedTensordotGeneral := do
  assertThat (sc.contraction.operandIndices.length = 2)
  let lhs ← index sc.contraction.operandIndices 0
  let rhs ← index sc.contraction.operandIndices 1
  let out := sc.contraction.outputIndices
  let maybeLhs ← maybeFindOutputsInInputsUnique out lhs
  let maybeRhs ← maybeFindOutputsInInputsUnique out rhs
  let acc ← stackClassifyW mul sc ((maybeLhs.zip maybeRhs).zip out) {}
  let (lhsContracted, rhsContracted, contractedShape) ← stackContracted sc rhs out 0 lhs
  let lhsOrder := acc.lhsStackAxes ++ acc.lhsOuterAxes ++ lhsContracted
  let lhsOutputShape := acc.stackLen :: (acc.lhsUncontractedShape ++ contractedShape)
  let rhsOrder := acc.rhsStackAxes ++ rhsContracted ++ acc.rhsOuterAxes
  let rhsOutputShape := acc.stackLen :: (contractedShape ++ acc.rhsUncontractedShape)
  let intermediateIndices := acc.stackIndices ++ acc.lhsOuterIndices ++ acc.rhsOuterIndices
  let lhsOuterSizes ← sizesOf sc acc.lhsOuterIndices
  let rhsOuterSizes ← sizesOf sc acc.rhsOuterIndices
  let intermediateShape := acc.stackLen :: (lhsOuterSizes ++ rhsOuterSizes)
  let outputOrder ← findOutputsInInputsUnique out intermediateIndices
  let outputShape ← sizesOf sc intermediateIndices
  let fixed ← TensordotFixedPosition.fromShapesW mul lhsOutputShape.tail rhsOutputShape.tail
    lhsContracted.length
  return ⟨⟨lhsOrder⟩, ⟨rhsOrder⟩, lhsOutputShape, rhsOutputShape, intermediateShape, fixed,
    outputShape, ⟨outputOrder⟩⟩

/-- The `match method` of `PairContraction::new`, mod.rs 309-343. -/
def PairOp.newW (mul : UMul) (sc : SizedContraction) : PairMethod → M PairOp
  | .tensordotFixedPosition => do return .tensordotFixedPosition (← TensordotFixedPosition.newW mul sc)
  | .tensordotGeneral => do return .tensordotGeneral (← TensordotGeneral.newW mul sc)
  | .stackedTensordotGeneral => do return .stackedTensordotGeneral (← StackedTensordotGeneral.newW mul sc)
  | m => PairOp.new sc m

/-- `PairContraction::new`, mod.rs 275-351. -/
def PairContraction.newW (mul : UMul) (h : HashOrd) (sc : SizedContraction) : M PairContraction := do
  assertThat (sc.contraction.operandIndices.length = 2)
  let lhs ← index sc.contraction.operandIndices 0
  let rhs ← index sc.contraction.operandIndices 1
  let out := sc.contraction.outputIndices
  let ls ← SimplificationMethodAndOutput.fromIndicesAndSizes (h.sub 0) lhs rhs out sc
  let rs ← SimplificationMethodAndOutput.fromIndicesAndSizes (h.sub 1) rhs lhs out sc
  let reduced ← unwrapR (sc.subset (h.sub 2) [newIndicesOr ls lhs, newIndicesOr rs rhs] out)
  let summary ← PairSummary.new reduced
  let method := summary.getStrategy
  let op ← PairOp.newW mul reduced method
  let str ← reduced.asEinsumString
  return ⟨ls, rs, method, op, str⟩

/-- The loop of `EinsumPath::from_path`, mod.rs 448-450. -/
def compileStepsW (mul : UMul) (h : HashOrd) : List PairStep → M (List PairContraction)
  | [] => .ok []
  | s :: ss => do
    let c ← PairContraction.newW mul (h.sub 0) s.sizedContraction
    let cs ← compileStepsW mul (h.sub 1) ss
    return c :: cs

/-- `EinsumPath::from_path`, mod.rs 437-458. -/
def EinsumPath.fromPathW (mul : UMul) (h : HashOrd) (order : ContractionOrder) : M EinsumPath :=
  match order with
  | .singleton sc => do
    let c ← SingletonContraction.new sc
    return ⟨order, .singletonContraction c⟩
  | .pairs orderSteps => do
    let steps ← compileStepsW mul h orderSteps
    return ⟨order, .pairContractions steps⟩

/-- `einsum_path`, lib.rs 210-218. -/
def einsumPathW (mul : UMul) (h : HashOrd) (s : String) (operands : List (View A))
    (strategy : OptimizationMethod) : M (Except String EinsumPath) := do
  match ← validateAndOptimizeOrder (h.sub 0) s operands strategy with
  | .error e => return .error e
  | .ok order => do
    let p ← EinsumPath.fromPathW mul (h.sub 1) order
    return .ok p

/-- `einsum`, lib.rs 221-227, with `contract_operands`, validation.rs 357-363, and `EinsumPath::new`,
mod.rs 431-435. -/
def einsumW [Zero A] [Add A] [Mul A] [MulAdd A] (mul : UMul) (h : HashOrd) (al : Alloc A) (s : String)
    (operands : List (View A)) : M (Except String (View A)) :=
  match validateAndSize (h.sub 0) s operands with
  | .error e => .ok (.error e)
  | .ok sc => do
    let order ← generateOptimizedOrder ((h.sub 1).sub 0) sc .naive
    let path ← EinsumPath.fromPathW mul ((h.sub 1).sub 1) order
    let r ← path.contractOperands al operands
    return .ok r

/-- `tensordot`, lib.rs 269-294. -/
def tensordotW [Zero A] [Add A] [Mul A] [MulAdd A] (mul : UMul) (al : Alloc A) (lhs rhs : View A)
    (lhsAxes rhsAxes : List Nat) : M (View A) := do
  assertThat (lhsAxes.length = rhsAxes.length)
  let n ← usub (lhs.shape.length + rhs.shape.length) (2 * lhsAxes.length)
  let t ← TensordotGeneral.fromShapesAndAxisNumbersW mul lhs.shape rhs.shape lhsAxes rhsAxes (List.range n)
  t.run al lhs rhs

end Einsum
