import Verif.Model.NdArray
import Verif.Model.Validation

/-!
# Model of `/repo/src/contractors/singleton_contractors.rs`

Constructors take the label lists and sizes of a `SizedContraction`; `run` is
`contract_singleton`, `view` is `view_singleton`.
-/

namespace Einsum

/-! `Identity`, singleton_contractors.rs 32-63. -/

/-- `Identity::contract_singleton`, 55-63. -/
def Identity.run {A : Type} (al : Alloc A) (t : View A) : M (View A) := t.toOwned al

/-- `Permutation`, 70-72. -/
structure Permutation where
  permutation : List Nat
  deriving DecidableEq, Repr

/-- `Permutation::new`, 75-95. -/
def Permutation.new (sc : SizedContraction) : M Permutation := do
  assertThat (sc.contraction.operandIndices.length = 1)
  let input ← index sc.contraction.operandIndices 0
  assertThat (input.length = sc.contraction.outputIndices.length)
  let permutation ← mapE (fun c => unwrapO (position c input)) sc.contraction.outputIndices
  return ⟨permutation⟩

/-- `Permutation::from_indices`, 97-101. -/
def Permutation.fromIndices (p : List Nat) : Permutation := ⟨p⟩

/-- `Permutation::view_singleton`, 104-112. -/
def Permutation.view {A : Type} (self : Permutation) (t : View A) : M (View A) :=
  t.permutedAxes self.permutation

/-- `Permutation::contract_singleton`, 114-125. -/
def Permutation.run {A : Type} (self : Permutation) (al : Alloc A) (t : View A) : M (View A) := do
  let v ← t.permutedAxes self.permutation
  v.toOwned al

/-- `Summation`, 132-135. -/
structure Summation where
  origAxisList : List Nat
  adjustedAxisList : List Nat
  deriving DecidableEq, Repr

/-- `Summation::from_sizes`, 148-157. -/
def Summation.fromSizes (startIndex numSummedAxes : Nat) : M Summation := do
  assertThat (1 ≤ numSummedAxes)
  return ⟨(List.range numSummedAxes).map (startIndex + ·),
    (List.range numSummedAxes).map fun _ => startIndex⟩

/-- `Summation::new`, 138-146. -/
def Summation.new (sc : SizedContraction) : M Summation := do
  let input ← index sc.contraction.operandIndices 0
  let n ← usub input.length sc.contraction.outputIndices.length
  Summation.fromSizes sc.contraction.outputIndices.length n

/-- The loop `for &axis in adjusted_axis_list[1..] { result = result.sum_axis(axis) }`, 167-169. -/
def sumAxes {A : Type} [Zero A] [Add A] (al : Alloc A) : List Nat → View A → M (View A)
  | [], v => .ok v
  | ax :: axs, v => do
    let r ← v.sumAxis (al.sub 0) ax
    sumAxes (al.sub 1) axs r

/-- `Summation::contract_singleton`, 160-172. -/
def Summation.run {A : Type} [Zero A] [Add A] (self : Summation) (al : Alloc A) (t : View A) :
    M (View A) := do
  let ax0 ← index self.adjustedAxisList 0
  let r ← t.sumAxis (al.sub 0) ax0
  sumAxes (al.sub 1) self.adjustedAxisList.tail r

/-- `Diagonalization`, 183-186. -/
structure Diagonalization where
  inputToOutputMapping : List Nat
  outputShape : List Nat
  deriving DecidableEq, Repr

/-- The loop of `Diagonalization::new`, 203-214: the extended output labels and the mapping. -/
def diagLoop (adjusted : List Char) (mapping : List Nat) : List Char → List Char × List Nat
  | [] => (adjusted, mapping)
  | c :: cs =>
    match position c adjusted with
    | some pos => diagLoop adjusted (mapping ++ [pos]) cs
    | none => diagLoop (adjusted ++ [c]) (mapping ++ [adjusted.length]) cs

/-- `Diagonalization::new`, 189-224. -/
def Diagonalization.new (sc : SizedContraction) : M Diagonalization := do
  assertThat (sc.contraction.operandIndices.length = 1)
  let input ← index sc.contraction.operandIndices 0
  let (adjusted, mapping) := diagLoop sc.contraction.outputIndices [] input
  let outputShape ← mapE sc.outputSize.get adjusted
  return ⟨mapping, outputShape⟩

/-- The loop of `view_singleton`, 236-239:
`assert!(stride > 0); strides[mapping[idx]] += stride`. -/
def diagStrides (mapping : List Nat) (acc : List Nat) : Nat → List Int → M (List Nat)
  | _, [] => .ok acc
  | idx, s :: ss => do
    assertThat (0 < s)
    let m ← index mapping idx
    let old ← index acc m
    diagStrides mapping (acc.set m (old + s.toNat)) (idx + 1) ss

/-- `Diagonalization::view_singleton`, 227-250. -/
def Diagonalization.view {A : Type} (self : Diagonalization) (t : View A) : M (View A) := do
  let strides ← diagStrides self.inputToOutputMapping (self.outputShape.map fun _ => 0) 0 t.strides
  let dataSlice ← unwrapO t.asSliceMemoryOrder
  match fromShapeStrides self.outputShape strides dataSlice with
  | some v => .ok v
  | none => panic .unwrapErr

/-- `Diagonalization::contract_singleton`, 252-264. -/
def Diagonalization.run {A : Type} (self : Diagonalization) (al : Alloc A) (t : View A) :
    M (View A) := do
  let data ← t.toVec
  match fromShapeVec t.shape data with
  | none => panic .unwrapErr
  | some cloned => do
    let v ← self.view cloned
    v.toOwned al

/-- `PermutationAndSummation`, 271-274. -/
structure PermutationAndSummation where
  permutation : Permutation
  summation : Summation
  deriving DecidableEq, Repr

/-- `PermutationAndSummation::new`, 277-305. -/
def PermutationAndSummation.new (sc : SizedContraction) : M PermutationAndSummation := do
  let input ← index sc.contraction.operandIndices 0
  let out := sc.contraction.outputIndices
  let order1 ← mapE (fun c => unwrapO (position c input)) out
  let order2 := (List.range input.length).filter fun i =>
    match input[i]? with
    | some c => (position c out).isNone
    | none => false
  let summation ← Summation.new sc
  return ⟨Permutation.fromIndices (order1 ++ order2), summation⟩

/-- `PermutationAndSummation::contract_singleton`, 308-317. -/
def PermutationAndSummation.run {A : Type} [Zero A] [Add A] (self : PermutationAndSummation)
    (al : Alloc A) (t : View A) : M (View A) := do
  let p ← self.permutation.view t
  self.summation.run al p

/-- `DiagonalizationAndSummation`, 328-331. -/
structure DiagonalizationAndSummation where
  diagonalization : Diagonalization
  summation : Summation
  deriving DecidableEq, Repr

/-- `DiagonalizationAndSummation::new`, 334-345. -/
def DiagonalizationAndSummation.new (sc : SizedContraction) : M DiagonalizationAndSummation := do
  let diagonalization ← Diagonalization.new sc
  let n ← usub diagonalization.outputShape.length sc.contraction.outputIndices.length
  let summation ← Summation.fromSizes sc.contraction.outputIndices.length n
  return ⟨diagonalization, summation⟩

/-- `DiagonalizationAndSummation::contract_singleton`, 348-373. -/
def DiagonalizationAndSummation.run {A : Type} [Zero A] [Add A] (self : DiagonalizationAndSummation)
    (al : Alloc A) (t : View A) : M (View A) := do
  let viewed ←
    if t.asSliceMemoryOrder.isSome && t.strides.all (fun s => 0 < s) then
      self.diagonalization.view t
    else
      self.diagonalization.run (al.sub 0) t
  self.summation.run (al.sub 1) viewed

end Einsum
