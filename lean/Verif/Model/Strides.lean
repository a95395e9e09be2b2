import Verif.Model.Contractors

/-!
# Strides as machine words

`Diagonalization::view_singleton` adds up strides in `usize`, and ndarray's `from_shape` takes their absolute values
in `isize`.  Here the loop and its callers are repeated with these operations as a parameter.
-/

namespace Einsum

variable {A : Type}

/-- The arithmetic on strides of a build. -/
structure StrideArith where
  add : Nat → Nat → M Nat
  /-- `(s as isize).abs() as usize` -/
  abs : Nat → M Nat
  /-- `s as isize` -/
  signed : Nat → Int

/-- `s as isize`, where `usize::MAX` is `W`. -/
def asSigned (W s : Nat) : Int := if s ≤ W / 2 then s else s - (W + 1)

/-- Overflow checks: sums beyond `usize::MAX` and the absolute value of `isize::MIN` panic. -/
def StrideArith.debug (W : Nat) : StrideArith where
  add a b := if a + b ≤ W then .ok (a + b) else panic .addOverflow
  abs s := if s ≤ W / 2 then .ok s else if s = W / 2 + 1 then panic .addOverflow else .ok (W + 1 - s)
  signed := asSigned W

/-- No overflow checks.  (The absolute value of `isize::MIN` is `isize::MIN`; as a sort key it comes first, not last as
here, which only moves an axis that the overlap check skips or that has been rejected for its offset.) -/
def StrideArith.release (W : Nat) : StrideArith where
  add a b := .ok ((a + b) % (W + 1))
  abs s := .ok (if s ≤ W / 2 then s else W + 1 - s)
  signed := asSigned W

/-- The loop of `view_singleton`, singleton_contractors.rs 236-239. -/
def diagStridesS (ar : StrideArith) (mapping : List Nat) (acc : List Nat) : Nat → List Int → M (List Nat)
  | _, [] => .ok acc
  | idx, s :: ss => do
    assertThat (0 < s)
    let m ← index mapping idx
    let old ← index acc m
    let new ← ar.add old s.toNat
    diagStridesS ar mapping (acc.set m new) (idx + 1) ss

/-- `ArrayView::from_shape(shape.strides(strides), slice)`, singleton_contractors.rs 244-248: the offset and overlap
checks look at absolute values. -/
def fromShapeStridesS (ar : StrideArith) (shape strides : List Nat) (data : List A) : M (Option (View A)) :=
  if shape.length ≠ strides.length then .ok none
  else do
    let abs ← mapE ar.abs strides
    return (fromShapeStrides shape abs data).map fun v => { v with strides := strides.map ar.signed }

/-- `Diagonalization::view_singleton`, singleton_contractors.rs 227-250. -/
def Diagonalization.viewS (ar : StrideArith) (self : Diagonalization) (t : View A) : M (View A) := do
  let strides ← diagStridesS ar self.inputToOutputMapping (self.outputShape.map fun _ => 0) 0 t.strides
  let dataSlice ← unwrapO t.asSliceMemoryOrder
  match ← fromShapeStridesS ar self.outputShape strides dataSlice with
  | some v => .ok v
  | none => panic .unwrapErr

/-- `Diagonalization::contract_singleton`, singleton_contractors.rs 252-264. -/
def Diagonalization.runS (ar : StrideArith) (self : Diagonalization) (al : Alloc A) (t : View A) : M (View A) := do
  let data ← t.toVec
  match fromShapeVec t.shape data with
  | none => panic .unwrapErr
  | some cloned => do
    let v ← self.viewS ar cloned
    v.toOwned al

/-- `DiagonalizationAndSummation::contract_singleton`, singleton_contractors.rs 348-373. -/
def DiagonalizationAndSummation.runS [Zero A] [Add A] (ar : StrideArith) (self : DiagonalizationAndSummation)
    (al : Alloc A) (t : View A) : M (View A) := do
  let viewed ←
    if t.asSliceMemoryOrder.isSome && t.strides.all (fun s => 0 < s) then
      self.diagonalization.viewS ar t
    else
      self.diagonalization.runS ar (al.sub 0) t
  self.summation.run (al.sub 1) viewed

/-- Dynamic dispatch of `contract_singleton`, mod.rs 164-172. -/
def SingletonOp.runS [Zero A] [Add A] (ar : StrideArith) (al : Alloc A) (t : View A) : SingletonOp → M (View A)
  | .diagonalization d => d.runS ar al t
  | .diagonalizationAndSummation d => d.runS ar al t
  | o => o.run al t

end Einsum
