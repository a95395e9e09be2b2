import Verif.Model.Singleton

/-!
# Model of `/repo/src/contractors/pair_contractors.rs`

`run` is `contract_pair`.
-/

namespace Einsum

variable {A : Type}

/-- `maybe_find_outputs_in_inputs_unique`, pair_contractors.rs 53-73. -/
def maybeFindOutputsInInputsUnique (out input : List Char) : M (List (Option Nat)) :=
  mapE (fun c =>
    match position c input with
    | some p => do
      assertThat (position c (input.drop (p + 1))).isNone
      return some p
    | none => .ok none) out

/-- `find_outputs_in_inputs_unique`, 75-80. -/
def findOutputsInInputsUnique (out input : List Char) : M (List Nat) := do
  let ps ← maybeFindOutputsInInputsUnique out input
  mapE unwrapO ps

/-- `sc.output_size[c]` for each label, e.g. 126-127. -/
def sizesOf (sc : SizedContraction) (labels : List Char) : M (List Nat) := mapE sc.outputSize.get labels

/-! ## TensordotFixedPosition -/

/-- `TensordotFixedPosition`, 96-111. -/
structure TensordotFixedPosition where
  lenUncontractedLhs : Nat
  lenUncontractedRhs : Nat
  lenContractedAxes : Nat
  outputShape : List Nat
  deriving DecidableEq, Repr

/-- The LHS loop of `from_shapes_and_number_of_contracted_axes`, 154-161, with accumulators
`(len_uncontracted_lhs, len_contracted_lhs, output_shape)`; `cut = num_axes - num_contracted`
is computed (and may underflow) in each iteration. -/
def lhsLoop (numAxes numContracted : Nat) : Nat → List Nat → Nat × Nat × List Nat →
    M (Nat × Nat × List Nat)
  | _, [], acc => .ok acc
  | axis, n :: ns, (u, c, out) => do
    let cut ← usub numAxes numContracted
    if axis < cut then lhsLoop numAxes numContracted (axis + 1) ns (u * n, c, out ++ [n])
    else lhsLoop numAxes numContracted (axis + 1) ns (u, c * n, out)

/-- The RHS loop, 163-170, with accumulators `(len_uncontracted_rhs, len_contracted_rhs,
output_shape)`. -/
def rhsLoop (numContracted : Nat) : Nat → List Nat → Nat × Nat × List Nat → Nat × Nat × List Nat
  | _, [], acc => acc
  | axis, n :: ns, (u, c, out) =>
    if axis < numContracted then rhsLoop numContracted (axis + 1) ns (u, c * n, out)
    else rhsLoop numContracted (axis + 1) ns (u * n, c, out ++ [n])

/-- `TensordotFixedPosition::from_shapes_and_number_of_contracted_axes`, 142-180. -/
def TensordotFixedPosition.fromShapes (lhsShape rhsShape : List Nat) (numContracted : Nat) :
    M TensordotFixedPosition := do
  let (ul, cl, out) ← lhsLoop lhsShape.length numContracted 0 lhsShape (1, 1, [])
  let (ur, cr, out') := rhsLoop numContracted 0 rhsShape (1, 1, out)
  assertThat (cr = cl)
  return ⟨ul, ur, cl, out'⟩

/-- `TensordotFixedPosition::new`, 114-134. -/
def TensordotFixedPosition.new (sc : SizedContraction) : M TensordotFixedPosition := do
  assertThat (sc.contraction.operandIndices.length = 2)
  let lhs ← index sc.contraction.operandIndices 0
  let rhs ← index sc.contraction.operandIndices 1
  let twice ← usub (lhs.length + rhs.length) sc.contraction.outputIndices.length
  assertThat (twice % 2 = 0)
  let lhsShape ← sizesOf sc lhs
  let rhsShape ← sizesOf sc rhs
  TensordotFixedPosition.fromShapes lhsShape rhsShape (twice / 2)

/-- The reshape of one operand to a matrix, 194-206 and 208-220: in place if row-major, otherwise
through a copy. -/
def asMatrix (t : View A) (rows cols : Nat) : M (View A) :=
  if t.isStandardLayout then
    match t.intoShape [rows, cols] with
    | some v => .ok v
    | none => panic .unwrapErr
  else do
    let data ← t.toVec
    match fromShapeVec [rows, cols] data with
    | some v => .ok v
    | none => panic .unwrapErr

/-- `TensordotFixedPosition::contract_pair`, 183-227. -/
def TensordotFixedPosition.run [Zero A] [Add A] [Mul A] [MulAdd A] (self : TensordotFixedPosition) (al : Alloc A)
    (lhs rhs : View A) : M (View A) := do
  let lhsView ← asMatrix lhs self.lenUncontractedLhs self.lenContractedAxes
  let rhsView ← asMatrix rhs self.lenContractedAxes self.lenUncontractedRhs
  let prod ← lhsView.dot al rhsView
  match prod.intoShape self.outputShape with
  | some v => .ok v
  | none => panic .unwrapErr

/-! ## TensordotGeneral -/

/-- `TensordotGeneral`, 240-245. -/
structure TensordotGeneral where
  lhsPermutation : Permutation
  rhsPermutation : Permutation
  tensordotFixedPosition : TensordotFixedPosition
  outputPermutation : Permutation
  deriving DecidableEq, Repr

/-- `(0..shape.len())` without the contracted axes: the filter loops 333-338 and 351-356. -/
def uncontractedAxes (n : Nat) (axes : List Nat) : List Nat :=
  (List.range n).filter fun i => i ∉ hset axes

/-- `TensordotGeneral::from_shapes_and_axis_numbers`, 314-375. -/
def TensordotGeneral.fromShapesAndAxisNumbers (lhsShape rhsShape lhsAxes rhsAxes outputOrder : List Nat) :
    M TensordotGeneral := do
  let numContracted := lhsAxes.length
  assertThat (numContracted = rhsAxes.length)
  assertThat (numContracted = (hset lhsAxes).length)
  assertThat (numContracted = (hset rhsAxes).length)
  let permutationLhs := uncontractedAxes lhsShape.length lhsAxes ++ lhsAxes
  let adjustedLhsShape ← mapE (index lhsShape) permutationLhs
  let permutationRhs := rhsAxes ++ uncontractedAxes rhsShape.length rhsAxes
  let adjustedRhsShape ← mapE (index rhsShape) permutationRhs
  let fixed ← TensordotFixedPosition.fromShapes adjustedLhsShape adjustedRhsShape numContracted
  return ⟨⟨permutationLhs⟩, ⟨permutationRhs⟩, fixed, ⟨outputOrder⟩⟩

/-- `TensordotGeneral::from_shapes_and_indices`, 267-307. -/
def TensordotGeneral.fromShapesAndIndices (lhsShape rhsShape : List Nat)
    (lhs rhs contracted out : List Char) : M TensordotGeneral := do
  let lhsContractedAxes ← findOutputsInInputsUnique contracted lhs
  let rhsContractedAxes ← findOutputsInInputsUnique contracted rhs
  let uncontracted := (lhs.filter fun c => (position c out).isSome) ++
    (rhs.filter fun c => (position c out).isSome)
  let outputOrder ← findOutputsInInputsUnique out uncontracted
  TensordotGeneral.fromShapesAndAxisNumbers lhsShape rhsShape lhsContractedAxes rhsContractedAxes outputOrder

/-- `TensordotGeneral::new`, 248-265. -/
def TensordotGeneral.new (sc : SizedContraction) : M TensordotGeneral := do
  assertThat (sc.contraction.operandIndices.length = 2)
  let lhs ← index sc.contraction.operandIndices 0
  let rhs ← index sc.contraction.operandIndices 1
  let lhsShape ← sizesOf sc lhs
  let rhsShape ← sizesOf sc rhs
  TensordotGeneral.fromShapesAndIndices lhsShape rhsShape lhs rhs
    sc.contraction.summationIndices sc.contraction.outputIndices

/-- `TensordotGeneral::contract_pair`, 378-397. -/
def TensordotGeneral.run [Zero A] [Add A] [Mul A] [MulAdd A] (self : TensordotGeneral) (al : Alloc A)
    (lhs rhs : View A) : M (View A) := do
  let l ← self.lhsPermutation.view lhs
  let r ← self.rhsPermutation.view rhs
  let t ← self.tensordotFixedPosition.run (al.sub 0) l r
  self.outputPermutation.run (al.sub 1) t

/-! ## Hadamard -/

/-- `HadamardProduct::new`, 410-419. -/
def HadamardProduct.new (sc : SizedContraction) : M Unit := do
  assertThat (sc.contraction.operandIndices.length = 2)
  let lhs ← index sc.contraction.operandIndices 0
  let rhs ← index sc.contraction.operandIndices 1
  assertThat (lhs = rhs)
  assertThat (lhs = sc.contraction.outputIndices)

/-- `HadamardProduct::contract_pair`, 426-439. -/
def HadamardProduct.run [Mul A] (al : Alloc A) (lhs rhs : View A) : M (View A) := lhs.mul al rhs

/-- `HadamardProductGeneral`, 450-454. -/
structure HadamardProductGeneral where
  lhsPermutation : Permutation
  rhsPermutation : Permutation
  deriving DecidableEq, Repr

/-- `HadamardProductGeneral::new`, 457-476. -/
def HadamardProductGeneral.new (sc : SizedContraction) : M HadamardProductGeneral := do
  assertThat (sc.contraction.operandIndices.length = 2)
  let lhs ← index sc.contraction.operandIndices 0
  let rhs ← index sc.contraction.operandIndices 1
  let out := sc.contraction.outputIndices
  assertThat (lhs.length = rhs.length)
  assertThat (lhs.length = out.length)
  let lp ← findOutputsInInputsUnique out lhs
  let rp ← findOutputsInInputsUnique out rhs
  return ⟨⟨lp⟩, ⟨rp⟩⟩

/-- `HadamardProductGeneral::contract_pair`, 479-495. -/
def HadamardProductGeneral.run [Mul A] (self : HadamardProductGeneral) (al : Alloc A)
    (lhs rhs : View A) : M (View A) := do
  let l ← self.lhsPermutation.view lhs
  let r ← self.rhsPermutation.view rhs
  HadamardProduct.run al l r

/-! ## Scalar times matrix -/

/-- `ScalarMatrixProduct::new`, 508-517. -/
def ScalarMatrixProduct.new (sc : SizedContraction) : M Unit := do
  assertThat (sc.contraction.operandIndices.length = 2)
  let lhs ← index sc.contraction.operandIndices 0
  let rhs ← index sc.contraction.operandIndices 1
  assertThat (lhs.length = 0)
  assertThat (sc.contraction.outputIndices = rhs)

/-- `ScalarMatrixProduct::contract_pair`, 524-538: note the order `x * lhs_0d`. -/
def ScalarMatrixProduct.run [Mul A] (al : Alloc A) (lhs rhs : View A) : M (View A) := do
  let f ← lhs.first
  let lhs0d ← unwrapO f
  rhs.mapv al fun x => x * lhs0d

/-- `ScalarMatrixProductGeneral`, 549-552. -/
structure ScalarMatrixProductGeneral where
  rhsPermutation : Permutation
  deriving DecidableEq, Repr

/-- `ScalarMatrixProductGeneral::new`, 555-577 (with `from_indices`). -/
def ScalarMatrixProductGeneral.new (sc : SizedContraction) : M ScalarMatrixProductGeneral := do
  assertThat (sc.contraction.operandIndices.length = 2)
  let lhs ← index sc.contraction.operandIndices 0
  let rhs ← index sc.contraction.operandIndices 1
  assertThat (lhs.length = 0)
  assertThat (rhs.length = sc.contraction.outputIndices.length)
  let p ← findOutputsInInputsUnique sc.contraction.outputIndices rhs
  return ⟨⟨p⟩⟩

/-- `ScalarMatrixProductGeneral::contract_pair`, 580-594. -/
def ScalarMatrixProductGeneral.run [Mul A] (self : ScalarMatrixProductGeneral) (al : Alloc A)
    (lhs rhs : View A) : M (View A) := do
  let r ← self.rhsPermutation.view rhs
  ScalarMatrixProduct.run al lhs r

/-- `MatrixScalarProduct::new`, 607-616. -/
def MatrixScalarProduct.new (sc : SizedContraction) : M Unit := do
  assertThat (sc.contraction.operandIndices.length = 2)
  let lhs ← index sc.contraction.operandIndices 0
  let rhs ← index sc.contraction.operandIndices 1
  assertThat (rhs.length = 0)
  assertThat (sc.contraction.outputIndices = lhs)

/-- `MatrixScalarProduct::contract_pair`, 623-637. -/
def MatrixScalarProduct.run [Mul A] (al : Alloc A) (lhs rhs : View A) : M (View A) := do
  let f ← rhs.first
  let rhs0d ← unwrapO f
  lhs.mapv al fun x => x * rhs0d

/-- `MatrixScalarProductGeneral`, 648-651. -/
structure MatrixScalarProductGeneral where
  lhsPermutation : Permutation
  deriving DecidableEq, Repr

/-- `MatrixScalarProductGeneral::new`, 654-676 (with `from_indices`). -/
def MatrixScalarProductGeneral.new (sc : SizedContraction) : M MatrixScalarProductGeneral := do
  assertThat (sc.contraction.operandIndices.length = 2)
  let lhs ← index sc.contraction.operandIndices 0
  let rhs ← index sc.contraction.operandIndices 1
  assertThat (rhs.length = 0)
  assertThat (lhs.length = sc.contraction.outputIndices.length)
  let p ← findOutputsInInputsUnique sc.contraction.outputIndices lhs
  return ⟨⟨p⟩⟩

/-- `MatrixScalarProductGeneral::contract_pair`, 679-693. -/
def MatrixScalarProductGeneral.run [Mul A] (self : MatrixScalarProductGeneral) (al : Alloc A)
    (lhs rhs : View A) : M (View A) := do
  let l ← self.lhsPermutation.view lhs
  MatrixScalarProduct.run al l rhs

/-! ## Broadcast -/

/-- `BroadcastProductGeneral`, 707-714. -/
structure BroadcastProductGeneral where
  lhsPermutation : Permutation
  rhsPermutation : Permutation
  lhsInsertions : List Nat
  rhsInsertions : List Nat
  outputSizes : List Nat
  deriving DecidableEq, Repr

/-- `.enumerate().filter(is_none).map(|(i, _)| i)`, 735-746. -/
def nonePositions (i : Nat) : List (Option Nat) → List Nat
  | [] => []
  | none :: l => i :: nonePositions (i + 1) l
  | some _ :: l => nonePositions (i + 1) l

/-- `BroadcastProductGeneral::new`, 717-760. -/
def BroadcastProductGeneral.new (sc : SizedContraction) : M BroadcastProductGeneral := do
  assertThat (sc.contraction.operandIndices.length = 2)
  let lhs ← index sc.contraction.operandIndices 0
  let rhs ← index sc.contraction.operandIndices 1
  let out := sc.contraction.outputIndices
  let maybeLhs ← maybeFindOutputsInInputsUnique out lhs
  let maybeRhs ← maybeFindOutputsInInputsUnique out rhs
  let outputSizes ← sizesOf sc out
  return ⟨⟨maybeLhs.filterMap id⟩, ⟨maybeRhs.filterMap id⟩,
    nonePositions 0 maybeLhs, nonePositions 0 maybeRhs, outputSizes⟩

/-- The insertion loops, 776-781. -/
def insertAxes : List Nat → View A → M (View A)
  | [], v => .ok v
  | i :: is, v => do
    let v' ← v.insertAxis i
    insertAxes is v'

/-- `BroadcastProductGeneral::contract_pair`, 763-788. -/
def BroadcastProductGeneral.run [Mul A] (self : BroadcastProductGeneral) (al : Alloc A)
    (lhs rhs : View A) : M (View A) := do
  let l ← self.lhsPermutation.view lhs
  let r ← self.rhsPermutation.view rhs
  let l ← insertAxes self.lhsInsertions l
  let r ← insertAxes self.rhsInsertions r
  let l ← unwrapO (l.broadcast self.outputSizes)
  let r ← unwrapO (r.broadcast self.outputSizes)
  HadamardProduct.run al l r

/-! ## Stacked tensordot -/

/-- `StackedTensordotGeneral`, 813-822. -/
structure StackedTensordotGeneral where
  lhsPermutation : Permutation
  rhsPermutation : Permutation
  lhsOutputShape : List Nat
  rhsOutputShape : List Nat
  intermediateShape : List Nat
  tensordotFixedPosition : TensordotFixedPosition
  outputShape : List Nat
  outputPermutation : Permutation
  deriving DecidableEq, Repr

/-- The vectors filled by the loop 856-883. -/
structure StackAcc where
  lhsStackAxes : List Nat := []
  rhsStackAxes : List Nat := []
  stackIndices : List Char := []
  stackLen : Nat := 1
  lhsOuterAxes : List Nat := []
  lhsOuterIndices : List Char := []
  lhsUncontractedShape : List Nat := []
  rhsOuterAxes : List Nat := []
  rhsOuterIndices : List Char := []
  rhsUncontractedShape : List Nat := []

/-- The loop over the output labels, 856-883 (`lhs_output_shape[0]` and `rhs_output_shape[0]` are
multiplied by the same sizes; both are `stackLen`). -/
def stackClassify (sc : SizedContraction) :
    List ((Option Nat × Option Nat) × Char) → StackAcc → M StackAcc
  | [], acc => .ok acc
  | ((some lp, some rp), c) :: rest, acc => do
    let n ← sc.outputSize.get c
    stackClassify sc rest { acc with
      lhsStackAxes := acc.lhsStackAxes ++ [lp], rhsStackAxes := acc.rhsStackAxes ++ [rp]
      stackIndices := acc.stackIndices ++ [c], stackLen := acc.stackLen * n }
  | ((some lp, none), c) :: rest, acc => do
    let n ← sc.outputSize.get c
    stackClassify sc rest { acc with
      lhsOuterAxes := acc.lhsOuterAxes ++ [lp], lhsOuterIndices := acc.lhsOuterIndices ++ [c]
      lhsUncontractedShape := acc.lhsUncontractedShape ++ [n] }
  | ((none, some rp), c) :: rest, acc => do
    let n ← sc.outputSize.get c
    stackClassify sc rest { acc with
      rhsOuterAxes := acc.rhsOuterAxes ++ [rp], rhsOuterIndices := acc.rhsOuterIndices ++ [c]
      rhsUncontractedShape := acc.rhsUncontractedShape ++ [n] }
  | ((none, none), _) :: _, _ => panic .explicit

/-- The loop over the LHS labels, 885-901: LHS axes, RHS axes and lengths of the contracted labels. -/
def stackContracted (sc : SizedContraction) (rhs out : List Char) :
    Nat → List Char → M (List Nat × List Nat × List Nat)
  | _, [] => .ok ([], [], [])
  | pos, c :: cs =>
    match position c out with
    | some _ => stackContracted sc rhs out (pos + 1) cs
    | none => do
      let rp ← unwrapO (position c rhs)
      let n ← sc.outputSize.get c
      let (ls, rs, ns) ← stackContracted sc rhs out (pos + 1) cs
      return (pos :: ls, rp :: rs, n :: ns)

/-- `StackedTensordotGeneral::new`, 825-959. -/
def StackedTensordotGeneral.new (sc : SizedContraction) : M StackedTensordotGeneral := do
  assertThat (sc.contraction.operandIndices.length = 2)
  let lhs ← index sc.contraction.operandIndices 0
  let rhs ← index sc.contraction.operandIndices 1
  let out := sc.contraction.outputIndices
  let maybeLhs ← maybeFindOutputsInInputsUnique out lhs
  let maybeRhs ← maybeFindOutputsInInputsUnique out rhs
  let acc ← stackClassify sc ((maybeLhs.zip maybeRhs).zip out) {}
  let (lhsContracted, rhsContracted, contractedShape) ← stackContracted sc rhs out 0 lhs
  let lhsOrder := acc.lhsStackAxes ++ acc.lhsOuterAxes ++ lhsContracted
  let lhsOutputShape := acc.stackLen :: (acc.lhsUncontractedShape ++ contractedShape)
  let rhsOrder := acc.rhsStackAxes ++ rhsContracted ++ acc.rhsOuterAxes
  let rhsOutputShape := acc.stackLen :: (contractedShape ++ acc.rhsUncontractedShape)
  let intermediateIndices := acc.stackIndices ++ acc.lhsOuterIndices ++ acc.rhsOuterIndices
  let lhsOuterSizes ← sizesOf sc acc.lhsOuterIndices
  let rhsOuterSizes ← sizesOf sc acc.rhsOuterIndices
  let intermediateShape := acc.stackLen :: (lhsOuterSizes ++ rhsOuterSizes)
  let outputOrder ← findOutputsInInputsUnique out intermediateIndices
  let outputShape ← sizesOf sc intermediateIndices
  let fixed ← TensordotFixedPosition.fromShapes lhsOutputShape.tail rhsOutputShape.tail
    lhsContracted.length
  return ⟨⟨lhsOrder⟩, ⟨rhsOrder⟩, lhsOutputShape, rhsOutputShape, intermediateShape, fixed,
    outputShape, ⟨outputOrder⟩⟩

/-- The loop over `intermediate_result.outer_iter_mut()`, 988-996.  The intermediate array is a fresh
row-major array, so its `i`-th subview is the `i`-th block of `block` elements of the buffer;
`contract_and_assign_pair` (mod.rs 109-122) contracts and assigns with broadcasting to the
subview's shape.  `n` subviews remain. -/
def stackLoop [Zero A] [Add A] [Mul A] [MulAdd A] (fixed : TensordotFixedPosition) (al : Alloc A) (subShape : List Nat)
    (block : Nat) : (i n : Nat) → List (View A) → List (View A) → List A → M (List A)
  | _, 0, _, _, buf => .ok buf
  | i, n + 1, ls, rs, buf => do
    let l ← unwrapO ls.head?
    let r ← unwrapO rs.head?
    let res ← fixed.run (al.sub i) l r
    match res.broadcast subShape with
    | none => panic .ndarray
    | some res' => do
      let data ← res'.toVec
      stackLoop fixed al subShape block (i + 1) n ls.tail rs.tail
        (buf.take (i * block) ++ data ++ buf.drop ((i + 1) * block))

/-- `StackedTensordotGeneral::contract_pair`, 962-1003. -/
def StackedTensordotGeneral.run [Zero A] [Add A] [Mul A] [MulAdd A] (self : StackedTensordotGeneral)
    (al : Alloc A) (lhs rhs : View A) : M (View A) := do
  let lp ← self.lhsPermutation.view lhs
  let ldata ← lp.toVec
  match fromShapeVec self.lhsOutputShape ldata with
  | none => panic .unwrapErr
  | some lre => do
    let rp ← self.rhsPermutation.view rhs
    let rdata ← rp.toVec
    match fromShapeVec self.rhsOutputShape rdata with
    | none => panic .unwrapErr
    | some rre => do
      let ls ← lre.outerIter
      let rs ← rre.outerIter
      match self.intermediateShape with
      | [] => panic .ndarray
      | n :: subShape => do
        let buf ← stackLoop self.tensordotFixedPosition (al.sub 0) subShape subShape.prod 0 n ls rs
          (List.replicate (n * subShape.prod) 0)
        let inter : View A := ⟨buf, 0, n :: subShape, defaultStrides (n :: subShape)⟩
        match inter.intoShape self.outputShape with
        | none => panic .unwrapErr
        | some res => self.outputPermutation.run (al.sub 1) res

end Einsum
