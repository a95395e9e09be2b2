import Verif.Model.Lib

/-!
# Execution with limits on arrays

ndarray refuses shapes whose non-zero lengths have a product above `isize::MAX`, and a vector of more than `isize::MAX`
bytes cannot be allocated: both are panics.  Here `contract_singleton`, `contract_pair` and their callers are repeated with
these limits as a parameter.  Views that change neither the number of elements nor the product of the non-zero
lengths (`permuted_axes`, `insert_axis`, `outer_iter`) are not checked.
-/

namespace Einsum

variable {A : Type}

/-- The limits: shapes that ndarray accepts, and shapes of which an array can be allocated. -/
structure Room where
  shape : List Nat → Bool
  alloc : List Nat → Bool

/-- The limits of ndarray and of `Vec`: at most `maxElems` elements (`isize::MAX`), lengths of zero counting as one, and at
most `maxBytes` bytes (also `isize::MAX`) for elements of `elemSize` bytes. -/
def Room.ndarray (maxElems maxBytes elemSize : Nat) : Room where
  shape s := decide ((s.filter (· ≠ 0)).prod ≤ maxElems)
  alloc s := decide ((s.filter (· ≠ 0)).prod ≤ maxElems) && decide (s.prod * elemSize ≤ maxBytes)

/-- Panics unless the array can be created. -/
def grant (b : Bool) : M Unit := if b then .ok () else panic .ndarray

/-! ## ndarray -/

/-- `to_owned()` / `into_owned()` (singleton_contractors.rs 61, 123, 262). -/
def View.toOwnedR (room : Room) (al : Alloc A) (v : View A) : M (View A) := do
  grant (room.alloc v.shape)
  v.toOwned al

/-- `sum_axis(Axis(ax))` (singleton_contractors.rs 166, 168). -/
def View.sumAxisR [Zero A] [Add A] (room : Room) (al : Alloc A) (ax : Nat) (v : View A) : M (View A) := do
  grant (room.alloc (v.shape.eraseIdx ax))
  v.sumAxis al ax

/-- `mapv(f)` (pair_contractors.rs 536, 635). -/
def View.mapvR (room : Room) (al : Alloc A) (f : A → A) (v : View A) : M (View A) := do
  grant (room.alloc v.shape)
  v.mapv al f

/-- `lhs * rhs` (pair_contractors.rs 437). -/
def View.mulR [Mul A] (room : Room) (al : Alloc A) (l r : View A) : M (View A) :=
  match commonShape l.shape r.shape with
  | none => panic .ndarray
  | some s => do
    grant (room.alloc s)
    l.mul al r

/-- `broadcast(shape)`, `None` if the shape is refused (pair_contractors.rs 783, 784; also inside `assign`). -/
def View.broadcastR (room : Room) (v : View A) (shape : List Nat) : Option (View A) :=
  if room.shape shape then v.broadcast shape else none

/-- `into_shape(shape)`, `Err` if the shape is refused (pair_contractors.rs 197, 211, 224, 998). -/
def View.intoShapeR (room : Room) (v : View A) (shape : List Nat) : Option (View A) :=
  if room.shape shape then v.intoShape shape else none

/-- Collecting the elements of an array into a vector, and `Array::from_shape_vec(shape, vec)`
(singleton_contractors.rs 258-260, pair_contractors.rs 200, 214, 974, 980). -/
def copyInto (room : Room) (v : View A) (shape : List Nat) : M (View A) := do
  grant (room.alloc shape)
  let data ← v.toVec
  match fromShapeVec shape data with
  | some w => .ok w
  | none => panic .unwrapErr

/-- `lhs.dot(&rhs)` for two-dimensional arrays (pair_contractors.rs 223). -/
def View.dotR [Zero A] [Add A] [Mul A] [MulAdd A] (room : Room) (al : Alloc A) (l r : View A) : M (View A) :=
  match l.shape, r.shape with
  | [m, _], [_, n] => do
    grant (room.alloc [m, n])
    l.dot al r
  | _, _ => panic .ndarray

/-! ## Contractors of one array -/

/-- `Identity::contract_singleton`, singleton_contractors.rs 55-63. -/
def Identity.runR (room : Room) (al : Alloc A) (t : View A) : M (View A) := t.toOwnedR room al

/-- `Permutation::contract_singleton`, singleton_contractors.rs 114-125. -/
def Permutation.runR (room : Room) (self : Permutation) (al : Alloc A) (t : View A) : M (View A) := do
  let v ← t.permutedAxes self.permutation
  v.toOwnedR room al

/-- The loop of `Summation::contract_singleton`, singleton_contractors.rs 167-169. -/
def sumAxesR [Zero A] [Add A] (room : Room) (al : Alloc A) : List Nat → View A → M (View A)
  | [], v => .ok v
  | ax :: axs, v => do
    let r ← v.sumAxisR room (al.sub 0) ax
    sumAxesR room (al.sub 1) axs r

/-- `Summation::contract_singleton`, singleton_contractors.rs 160-172. -/
def Summation.runR [Zero A] [Add A] (room : Room) (self : Summation) (al : Alloc A) (t : View A) : M (View A) := do
  let ax0 ← index self.adjustedAxisList 0
  let r ← t.sumAxisR room (al.sub 0) ax0
  sumAxesR room (al.sub 1) self.adjustedAxisList.tail r

/-- `Diagonalization::view_singleton`, singleton_contractors.rs 227-250; `from_shape` refuses shapes too. -/
def Diagonalization.viewR (room : Room) (self : Diagonalization) (t : View A) : M (View A) := do
  let strides ← diagStrides self.inputToOutputMapping (self.outputShape.map fun _ => 0) 0 t.strides
  let dataSlice ← unwrapO t.asSliceMemoryOrder
  grant (room.shape self.outputShape)
  match fromShapeStrides self.outputShape strides dataSlice with
  | some v => .ok v
  | none => panic .unwrapErr

/-- `Diagonalization::contract_singleton`, singleton_contractors.rs 252-264. -/
def Diagonalization.runR (room : Room) (self : Diagonalization) (al : Alloc A) (t : View A) : M (View A) := do
  let cloned ← copyInto room t t.shape
  let v ← self.viewR room cloned
  v.toOwnedR room al

/-- `PermutationAndSummation::contract_singleton`, singleton_contractors.rs 308-317. -/
def PermutationAndSummation.runR [Zero A] [Add A] (room : Room) (self : PermutationAndSummation) (al : Alloc A)
    (t : View A) : M (View A) := do
  let p ← self.permutation.view t
  self.summation.runR room al p

/-- `DiagonalizationAndSummation::contract_singleton`, singleton_contractors.rs 348-373. -/
def DiagonalizationAndSummation.runR [Zero A] [Add A] (room : Room) (self : DiagonalizationAndSummation)
    (al : Alloc A) (t : View A) : M (View A) := do
  let viewed ←
    if t.asSliceMemoryOrder.isSome && t.strides.all (fun s => 0 < s) then
      self.diagonalization.viewR room t
    else
      self.diagonalization.runR room (al.sub 0) t
  self.summation.runR room (al.sub 1) viewed

/-- Dynamic dispatch of `contract_singleton`, mod.rs 164-172. -/
def SingletonOp.runR [Zero A] [Add A] (room : Room) (al : Alloc A) (t : View A) : SingletonOp → M (View A)
  | .identity => Identity.runR room al t
  | .permutation p => p.runR room al t
  | .summation s => s.runR room al t
  | .diagonalization d => d.runR room al t
  | .permutationAndSummation p => p.runR room al t
  | .diagonalizationAndSummation d => d.runR room al t

/-! ## Contractors of two arrays -/

/-- The reshape of one operand to a matrix, pair_contractors.rs 194-206 and 208-220. -/
def asMatrixR (room : Room) (t : View A) (rows cols : Nat) : M (View A) :=
  if t.isStandardLayout then
    match t.intoShapeR room [rows, cols] with
    | some v => .ok v
    | none => panic .unwrapErr
  else copyInto room t [rows, cols]

/-- `TensordotFixedPosition::contract_pair`, pair_contractors.rs 183-227. -/
def TensordotFixedPosition.runR [Zero A] [Add A] [Mul A] [MulAdd A] (room : Room) (self : TensordotFixedPosition)
    (al : Alloc A) (lhs rhs : View A) : M (View A) := do
  let lhsView ← asMatrixR room lhs self.lenUncontractedLhs self.lenContractedAxes
  let rhsView ← asMatrixR room rhs self.lenContractedAxes self.lenUncontractedRhs
  let prod ← lhsView.dotR room al rhsView
  match prod.intoShapeR room self.outputShape with
  | some v => .ok v
  | none => panic .unwrapErr

/-- `TensordotGeneral::contract_pair`, pair_contractors.rs 378-397. -/
def TensordotGeneral.runR [Zero A] [Add A] [Mul A] [MulAdd A] (room : Room) (self : TensordotGeneral) (al : Alloc A)
    (lhs rhs : View A) : M (View A) := do
  let l ← self.lhsPermutation.view lhs
  let r ← self.rhsPermutation.view rhs
  let t ← self.tensordotFixedPosition.runR room (al.sub 0) l r
  self.outputPermutation.runR room (al.sub 1) t

/-- `HadamardProduct::contract_pair`, pair_contractors.rs 426-439. -/
def HadamardProduct.runR [Mul A] (room : Room) (al : Alloc A) (lhs rhs : View A) : M (View A) := lhs.mulR room al rhs

/-- `HadamardProductGeneral::contract_pair`, pair_contractors.rs 479-495. -/
def HadamardProductGeneral.runR [Mul A] (room : Room) (self : HadamardProductGeneral) (al : Alloc A)
    (lhs rhs : View A) : M (View A) := do
  let l ← self.lhsPermutation.view lhs
  let r ← self.rhsPermutation.view rhs
  HadamardProduct.runR room al l r

/-- `ScalarMatrixProduct::contract_pair`, pair_contractors.rs 524-538. -/
def ScalarMatrixProduct.runR [Mul A] (room : Room) (al : Alloc A) (lhs rhs : View A) : M (View A) := do
  let f ← lhs.first
  let lhs0d ← unwrapO f
  rhs.mapvR room al fun x => x * lhs0d

/-- `ScalarMatrixProductGeneral::contract_pair`, pair_contractors.rs 580-594. -/
def ScalarMatrixProductGeneral.runR [Mul A] (room : Room) (self : ScalarMatrixProductGeneral) (al : Alloc A)
    (lhs rhs : View A) : M (View A) := do
  let r ← self.rhsPermutation.view rhs
  ScalarMatrixProduct.runR room al lhs r

/-- `MatrixScalarProduct::contract_pair`, pair_contractors.rs 623-637. -/
def MatrixScalarProduct.runR [Mul A] (room : Room) (al : Alloc A) (lhs rhs : View A) : M (View A) := do
  let f ← rhs.first
  let rhs0d ← unwrapO f
  lhs.mapvR room al fun x => x * rhs0d

/-- `MatrixScalarProductGeneral::contract_pair`, pair_contractors.rs 679-693. -/
def MatrixScalarProductGeneral.runR [Mul A] (room : Room) (self : MatrixScalarProductGeneral) (al : Alloc A)
    (lhs rhs : View A) : M (View A) := do
  let l ← self.lhsPermutation.view lhs
  MatrixScalarProduct.runR room al l rhs

/-- `BroadcastProductGeneral::contract_pair`, pair_contractors.rs 763-788. -/
def BroadcastProductGeneral.runR [Mul A] (room : Room) (self : BroadcastProductGeneral) (al : Alloc A)
    (lhs rhs : View A) : M (View A) := do
  let l ← self.lhsPermutation.view lhs
  let r ← self.rhsPermutation.view rhs
  let l ← insertAxes self.lhsInsertions l
  let r ← insertAxes self.rhsInsertions r
  let l ← unwrapO (l.broadcastR room self.outputSizes)
  let r ← unwrapO (r.broadcastR room self.outputSizes)
  HadamardProduct.runR room al l r

/-- The loop over `intermediate_result.outer_iter_mut()`, pair_contractors.rs 988-996. -/
def stackLoopR [Zero A] [Add A] [Mul A] [MulAdd A] (room : Room) (fixed : TensordotFixedPosition) (al : Alloc A)
    (subShape : List Nat) (block : Nat) : (i n : Nat) → List (View A) → List (View A) → List A → M (List A)
  | _, 0, _, _, buf => .ok buf
  | i, n + 1, ls, rs, buf => do
    let l ← unwrapO ls.head?
    let r ← unwrapO rs.head?
    let res ← fixed.runR room (al.sub i) l r
    match res.broadcastR room subShape with
    | none => panic .ndarray
    | some res' => do
      let data ← res'.toVec
      stackLoopR room fixed al subShape block (i + 1) n ls.tail rs.tail
        (buf.take (i * block) ++ data ++ buf.drop ((i + 1) * block))

/-- `StackedTensordotGeneral::contract_pair`, pair_contractors.rs 962-1003. -/
def StackedTensordotGeneral.runR [Zero A] [Add A] [Mul A] [MulAdd A] (room : Room) (self : StackedTensordotGeneral)
    (al : Alloc A) (lhs rhs : View A) : M (View A) := do
  let lp ← self.lhsPermutation.view lhs
  let lre ← copyInto room lp self.lhsOutputShape
  let rp ← self.rhsPermutation.view rhs
  let rre ← copyInto room rp self.rhsOutputShape
  grant (room.alloc self.intermediateShape)
  let ls ← lre.outerIter
  let rs ← rre.outerIter
  match self.intermediateShape with
  | [] => panic .ndarray
  | n :: subShape => do
    let buf ← stackLoopR room self.tensordotFixedPosition (al.sub 0) subShape subShape.prod 0 n ls rs
      (List.replicate (n * subShape.prod) 0)
    let inter : View A := ⟨buf, 0, n :: subShape, defaultStrides (n :: subShape)⟩
    match inter.intoShapeR room self.outputShape with
    | none => panic .unwrapErr
    | some res => self.outputPermutation.runR room (al.sub 1) res

/-- Dynamic dispatch of `contract_pair`. -/
def PairOp.runR [Zero A] [Add A] [Mul A] [MulAdd A] (room : Room) (al : Alloc A) (l r : View A) : PairOp → M (View A)
  | .hadamardProduct => HadamardProduct.runR room al l r
  | .hadamardProductGeneral p => p.runR room al l r
  | .tensordotFixedPosition p => p.runR room al l r
  | .tensordotGeneral p => p.runR room al l r
  | .scalarMatrixProduct => ScalarMatrixProduct.runR room al l r
  | .scalarMatrixProductGeneral p => p.runR room al l r
  | .matrixScalarProduct => MatrixScalarProduct.runR room al l r
  | .matrixScalarProductGeneral p => p.runR room al l r
  | .broadcastProductGeneral p => p.runR room al l r
  | .stackedTensordotGeneral p => p.runR room al l r

/-! ## Paths -/

/-- The simplification of one operand inside `contract_pair`, mod.rs 365-377. -/
def simplifyOperandR [Zero A] [Add A] (room : Room) (al : Alloc A) (s : Option SimplificationMethodAndOutput)
    (t : View A) : M (View A) :=
  match s with
  | some s => s.op.runR room al t
  | none => .ok t

/-- `PairContraction::contract_pair`, mod.rs 354-379. -/
def PairContraction.runR [Zero A] [Add A] [Mul A] [MulAdd A] (room : Room) (self : PairContraction) (al : Alloc A)
    (l r : View A) : M (View A) := do
  let l' ← simplifyOperandR room (al.sub 0) self.lhsSimplification l
  let r' ← simplifyOperandR room (al.sub 1) self.rhsSimplification r
  self.op.runR room (al.sub 2) l' r'

/-- The loop of `contract_operands`, mod.rs 474-486. -/
def runStepsR [Zero A] [Add A] [Mul A] [MulAdd A] (room : Room) (al : Alloc A) (operands : List (View A)) :
    List (PairContraction × PairStep) → List (View A) → M (List (View A))
  | [], inter => .ok inter
  | (step, orderStep) :: rest, inter => do
    let lhs ← fetch operands inter orderStep.operandNums.lhs
    let rhs ← fetch operands inter orderStep.operandNums.rhs
    let r ← step.runR room (al.sub 0) lhs rhs
    runStepsR room (al.sub 1) operands rest (inter ++ [r])

/-- `EinsumPath::contract_operands`, mod.rs 462-491. -/
def EinsumPath.contractOperandsR [Zero A] [Add A] [Mul A] [MulAdd A] (room : Room) (self : EinsumPath)
    (al : Alloc A) (operands : List (View A)) : M (View A) :=
  match self.steps, self.contractionOrder with
  | .singletonContraction c, .singleton _ => do
    let t ← index operands 0
    c.op.runR room al t
  | .pairContractions steps, .pairs orderSteps => do
    let inter ← runStepsR room al operands (steps.zip orderSteps) []
    unwrapO inter.getLast?
  | _, _ => panic .explicit

/-- `einsum`, lib.rs 221-227. -/
def einsumR [Zero A] [Add A] [Mul A] [MulAdd A] (room : Room) (h : HashOrd) (al : Alloc A) (s : String)
    (operands : List (View A)) : M (Except String (View A)) :=
  match validateAndSize (h.sub 0) s operands with
  | .error e => .ok (.error e)
  | .ok sc => do
    let path ← EinsumPath.new (h.sub 1) sc
    let r ← path.contractOperandsR room al operands
    return .ok r

/-- `tensordot`, lib.rs 269-294. -/
def tensordotR [Zero A] [Add A] [Mul A] [MulAdd A] (room : Room) (al : Alloc A) (lhs rhs : View A)
    (lhsAxes rhsAxes : List Nat) : M (View A) := do
  assertThat (lhsAxes.length = rhsAxes.length)
  let n ← usub (lhs.shape.length + rhs.shape.length) (2 * lhsAxes.length)
  let t ← TensordotGeneral.fromShapesAndAxisNumbers lhs.shape rhs.shape lhsAxes rhsAxes (List.range n)
  t.runR room al lhs rhs

end Einsum
