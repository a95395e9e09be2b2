import Verif.Model.Basic

/-!
# Strided arrays: the part of ndarray 0.15.1 that `/repo/src` uses

ndarray is an external crate, pinned to 0.15.1 in `/repo/Cargo.lock` lines 78-79, whose source is
not in `/repo`.  This file is therefore part of the trusted base: it writes down the documented
behaviour of each method that the crate calls.  Every definition names the call sites in `/repo/src`.

`Array`, `ArrayView`, `ArrayViewMut` and every dimension type are one structure here: a buffer, the
offset of element `[0,…,0]`, the axis lengths and the (signed) strides.
-/

namespace Einsum

/-- `ArrayBase<S, D>` (all storage and dimension types; `/repo/src/lib.rs` 188-199 erases them with
`into_dyn_view`). -/
structure View (A : Type) where
  buf : List A
  off : Int
  shape : List Nat
  strides : List Int
  deriving DecidableEq, Repr

/-- `idx` is a valid index tuple for `shape`. -/
def InB : List Nat → List Nat → Prop
  | [], [] => True
  | d :: ds, i :: is => i < d ∧ InB ds is
  | _, _ => False

instance InB.dec : (s i : List Nat) → Decidable (InB s i)
  | [], [] => .isTrue trivial
  | _ :: _, [] => .isFalse id
  | [], _ :: _ => .isFalse id
  | d :: ds, i :: is => @instDecidableAnd _ _ (Nat.decLt i d) (InB.dec ds is)

/-- `Σ idx[k] * strides[k]`. -/
def dotI : List Int → List Nat → Int
  | s :: ss, i :: is => s * (i : Int) + dotI ss is
  | _, _ => 0

/-- Raw read of the buffer at an address; outside the buffer it is undefined behaviour. -/
def readAt {A : Type} (buf : List A) (a : Int) : M A :=
  if 0 ≤ a then
    match buf[a.toNat]? with
    | some x => .ok x
    | none => .error .ub
  else .error .ub

/-- Element access `v[idx]`: the index is checked against the shape, the address is not checked. -/
def View.read {A : Type} (v : View A) (idx : List Nat) : M A :=
  if InB v.shape idx then readAt v.buf (v.off + dotI v.strides idx)
  else panic .ndarray

/-- The validity invariant ndarray maintains for every array and view: one stride per axis and
every in-range index addresses an element of the buffer. -/
def View.Wf {A : Type} (v : View A) : Prop :=
  v.strides.length = v.shape.length ∧ ∀ idx, InB v.shape idx → ∃ x, v.read idx = .ok x

/-- All index tuples of a shape in logical (row-major) order. -/
def allIdx : List Nat → List (List Nat)
  | [] => [[]]
  | d :: ds => (List.range d).flatMap fun i => (allIdx ds).map (i :: ·)

/-- `tensor.iter().cloned().collect::<Vec<A>>()`
(singleton_contractors.rs 261, pair_contractors.rs 202, 216, 976, 982). -/
def View.toVec {A : Type} (v : View A) : M (List A) := mapE v.read (allIdx v.shape)

/-- Products of the axis lengths to the right of each axis. -/
def sufProds : List Nat → List Nat
  | [] => []
  | _ :: ds => ds.prod :: sufProds ds

/-- `Dimension::default_strides`: row-major strides; all zero when the array is empty. -/
def defaultStrides (shape : List Nat) : List Int :=
  if shape.all (· ≠ 0) then (sufProds shape).map Int.ofNat else shape.map fun _ => 0

/-- Products of the axis lengths to the left of each axis. -/
def preProds (acc : Nat) : List Nat → List Nat
  | [] => []
  | d :: ds => acc :: preProds (acc * d) ds

/-- `Dimension::fortran_strides`: column-major strides; all zero when the array is empty. -/
def fortranStrides (shape : List Nat) : List Int :=
  if shape.all (· ≠ 0) then (preProds 1 shape).map Int.ofNat else shape.map fun _ => 0

/-- Is this shape/stride pair row-major?  Axes of length 1 may have any stride; an empty array
always is. -/
def isStandard (shape : List Nat) (strides : List Int) : Bool :=
  shape.any (· = 0) ||
    ((shape.zip (strides.zip (defaultStrides shape))).all fun t => t.1 = 1 || t.2.1 = t.2.2)

/-- `is_standard_layout()` (pair_contractors.rs 195, 209). -/
def View.isStandardLayout {A : Type} (v : View A) : Bool := isStandard v.shape v.strides

/-- `Array::from_shape_vec(shape, vec)`, `Err` unless the length is the product of the shape
(singleton_contractors.rs 260, pair_contractors.rs 200, 214, 974, 980). -/
def fromShapeVec {A : Type} (shape : List Nat) (data : List A) : Option (View A) :=
  if data.length = shape.prod then some ⟨data, 0, shape, defaultStrides shape⟩ else none

/-- `into_shape(shape)` (pair_contractors.rs 197, 211, 224, 998): element counts must agree and the
array must be row-major, or (with at least two axes) column-major, in which case the new
shape is column-major too; the buffer is kept. -/
def View.intoShape {A : Type} (v : View A) (shape : List Nat) : Option (View A) :=
  if shape.prod ≠ v.shape.prod then none
  else if v.isStandardLayout then some { v with shape := shape, strides := defaultStrides shape }
  else if 1 < v.shape.length && isStandard v.shape.reverse v.strides.reverse then
    some { v with shape := shape, strides := fortranStrides shape }
  else none

/-- `permuted_axes(axes)` (singleton_contractors.rs 110, 122): panics unless `axes` lists every axis
exactly once; the result's axis `k` is the input's axis `axes[k]`. -/
def View.permutedAxes {A : Type} (v : View A) (axes : List Nat) : M (View A) :=
  if axes.all (· < v.shape.length) && (List.range v.shape.length).all (fun a => axes.count a = 1) then
    .ok { v with
      shape := axes.map fun a => v.shape.getD a 0
      strides := axes.map fun a => v.strides.getD a 0 }
  else panic .ndarray

/-- `mulAdd a b c` is `a * b + c` computed in one operation: for floating-point numbers with one rounding. -/
class MulAdd (A : Type) where
  mulAdd : A → A → A → A

export MulAdd (mulAdd)

/-- Types that do not say otherwise multiply, then add. -/
instance (priority := low) {A : Type} [Add A] [Mul A] : MulAdd A := ⟨fun a b c => a * b + c⟩

/-- A way of adding up a list: which elements are added when, possibly starting from zeros.  `fused i t` adds element
`i` to the sum `t`; if the element is a product, the multiplication and the addition are one operation. -/
inductive SumTree where
  | zero
  | leaf (i : Nat)
  | add (l r : SumTree)
  | fused (i : Nat) (t : SumTree)
  deriving DecidableEq, Repr

/-- The positions added up, from left to right. -/
def SumTree.leaves : SumTree → List Nat
  | .zero => []
  | .leaf i => [i]
  | .add l r => l.leaves ++ r.leaves
  | .fused i t => i :: t.leaves

/-- The sum of the list `xs` in this order. -/
def SumTree.sum {A : Type} [Zero A] [Add A] (xs : List A) : SumTree → A
  | .zero => 0
  | .leaf i => xs.getD i 0
  | .add l r => l.sum xs + r.sum xs
  | .fused i t => xs.getD i 0 + t.sum xs

/-- The sum of the products of the pairs `ps` in this order. -/
def SumTree.dot {A : Type} [Zero A] [Add A] [Mul A] [MulAdd A] (ps : List (A × A)) : SumTree → A
  | .zero => 0
  | .leaf i => (ps.getD i (0, 0)).1 * (ps.getD i (0, 0)).2
  | .add l r => l.dot ps + r.dot ps
  | .fused i t => mulAdd (ps.getD i (0, 0)).1 (ps.getD i (0, 0)).2 (t.dot ps)

/-- Adding from left to right to an accumulator that starts at zero. -/
def SumTree.sequential : Nat → SumTree
  | 0 => .zero
  | n + 1 => .add (SumTree.sequential n) (.leaf n)

theorem SumTree.sequential_leaves (n : Nat) : (SumTree.sequential n).leaves = List.range n := by
  induction n with
  | zero => rfl
  | succ n ih => rw [sequential, leaves, ih, leaves, List.range_succ]

/-- What ndarray does not promise.

How it lays out the arrays it allocates for the results of `to_owned`, `sum_axis`, `mapv`
and `*`: it preserves or optimises strides by internal heuristics.  `make p shape data` is the
array allocated at program point `p` for the logical content `data` (row-major order); any
layout is allowed, and a different one at each point.

In which order `sum_axis` and `dot` add (it unrolls with eight accumulators, blocks, or adds whole subarrays):
`sumOrder p n` is the order in which `n` numbers are added at point `p`; any order and
bracketing is allowed that uses each number once, and any choice of the products added by fused multiply-add. -/
structure Alloc (A : Type) where
  make : List Nat → List Nat → List A → View A
  wf : ∀ p shape data, data.length = shape.prod → (make p shape data).Wf
  shape_eq : ∀ p shape data, data.length = shape.prod → (make p shape data).shape = shape
  toVec_eq : ∀ p shape data, data.length = shape.prod → (make p shape data).toVec = .ok data
  sumOrder : List Nat → Nat → SumTree
  sumOrder_perm : ∀ p n, (sumOrder p n).leaves.Perm (List.range n)

/-- The oracle for the `k`-th sub-computation. -/
def Alloc.sub {A : Type} (al : Alloc A) (k : Nat) : Alloc A where
  make := fun p => al.make (k :: p)
  wf := fun p => al.wf (k :: p)
  shape_eq := fun p => al.shape_eq (k :: p)
  toVec_eq := fun p => al.toVec_eq (k :: p)
  sumOrder := fun p => al.sumOrder (k :: p)
  sumOrder_perm := fun p => al.sumOrder_perm (k :: p)

/-- `to_owned()` / `into_owned()` (singleton_contractors.rs 61, 123, 262). -/
def View.toOwned {A : Type} (al : Alloc A) (v : View A) : M (View A) := do
  let data ← v.toVec
  return al.make [] v.shape data

/-- `sum_axis(Axis(ax))` (singleton_contractors.rs 166, 168): panics if there is no such axis. -/
def View.sumAxis {A : Type} [Zero A] [Add A] (al : Alloc A) (ax : Nat) (v : View A) : M (View A) :=
  match v.shape[ax]? with
  | none => panic .ndarray
  | some d => do
    let newShape := v.shape.eraseIdx ax
    let data ← mapE (fun idx => do
        let xs ← mapE (fun k => v.read (idx.insertIdx ax k)) (List.range d)
        return (al.sumOrder idx d).sum xs)
      (allIdx newShape)
    return al.make [] newShape data

/-- `mapv(f)` (pair_contractors.rs 536, 635). -/
def View.mapv {A : Type} (al : Alloc A) (f : A → A) (v : View A) : M (View A) := do
  let data ← v.toVec
  return al.make [] v.shape (data.map f)

/-- `first()` (pair_contractors.rs 535, 634): `None` on an empty array. -/
def View.first {A : Type} (v : View A) : M (Option A) :=
  if v.shape.any (· = 0) then .ok none
  else do
    let x ← v.read (v.shape.map fun _ => 0)
    return some x

/-- Strides of a broadcast to `shape`, both given innermost axis first. -/
def broadcastRev : List Nat → List Int → List Nat → Option (List Int)
  | [], _, new => some (new.map fun _ => 0)
  | d :: ds, s :: ss, n :: ns =>
    if d = n then (broadcastRev ds ss ns).map (s :: ·)
    else if d = 1 then (broadcastRev ds ss ns).map (0 :: ·)
    else none
  | _ :: _, _, _ => none

/-- `broadcast(shape)` (pair_contractors.rs 783, 784; also inside `*` and `assign`): axes are aligned
on the right, an axis of length 1 or a missing axis is repeated with stride 0. -/
def View.broadcast {A : Type} (v : View A) (shape : List Nat) : Option (View A) :=
  (broadcastRev v.shape.reverse v.strides.reverse shape.reverse).map fun ss =>
    { v with shape := shape, strides := ss.reverse }

/-- The common shape of two shapes given innermost axis first: an axis of length 1 or a missing axis takes the length of
the other (ndarray's `co_broadcast`). -/
def commonRev : List Nat → List Nat → Option (List Nat)
  | [], es => some es
  | d :: ds, [] => some (d :: ds)
  | d :: ds, e :: es =>
    if d = e then (commonRev ds es).map (d :: ·)
    else if d = 1 then (commonRev ds es).map (e :: ·)
    else if e = 1 then (commonRev ds es).map (d :: ·)
    else none

/-- The shape to which both operands of `*` are broadcast. -/
def commonShape (s t : List Nat) : Option (List Nat) := (commonRev s.reverse t.reverse).map List.reverse

/-- Both operands of `*` broadcast to their common shape (ndarray's `broadcast_with`). -/
def View.broadcastWith {A : Type} (l r : View A) : Option (View A × View A) := do
  let s ← commonShape l.shape r.shape
  let l' ← l.broadcast s
  let r' ← r.broadcast s
  return (l', r')

/-- `lhs * rhs` elementwise, both broadcast to their common shape (pair_contractors.rs 437); panics if there is none.
If the shapes are equal, ndarray broadcasts neither; broadcasting to the same shape changes nothing. -/
def View.mul {A : Type} [Mul A] (al : Alloc A) (l r : View A) : M (View A) :=
  match l.broadcastWith r with
  | none => panic .ndarray
  | some (l', r') => do
    let data ← mapE (fun idx => do
        let x ← l'.read idx
        let y ← r'.read idx
        return x * y)
      (allIdx l'.shape)
    return al.make [] l'.shape data

/-- `insert_axis(Axis(ax))` (pair_contractors.rs 777, 780). -/
def View.insertAxis {A : Type} (ax : Nat) (v : View A) : M (View A) :=
  if ax ≤ v.shape.length then
    .ok { v with shape := v.shape.insertIdx ax 1, strides := v.strides.insertIdx ax 1 }
  else panic .ndarray

/-- `lhs.dot(&rhs)` for two-dimensional arrays (pair_contractors.rs 223): the matrix product.
ndarray allocates the result row-major, except column-major when both first strides are 1
(`column_major = lhs_s0 == 1 && rhs_s0 == 1`).  The products are added in any order, some of them possibly by
fused multiply-add, as matrixmultiply's kernels do.  ndarray computes `0 * 0 + 1 * sum` for each element; the model has
`sum`, to which `sumOrder` may add zeros, so it is for elements with `1 * x = x` and `0 * 0 = 0`. -/
def View.dot {A : Type} [Zero A] [Add A] [Mul A] [MulAdd A] (al : Alloc A) (l r : View A) : M (View A) :=
  match l.shape, r.shape with
  | [m, k], [k', n] =>
    if k = k' then do
      let elem := fun (i j : Nat) => do
        let ps ← mapE (fun x => do
            let a ← l.read [i, x]
            let b ← r.read [x, j]
            return (a, b))
          (List.range k)
        return (al.sumOrder [i, j] k).dot ps
      if l.strides[0]? = some 1 ∧ r.strides[0]? = some 1 then do
        let data ← mapE (fun ji : List Nat => elem (ji.getD 1 0) (ji.getD 0 0)) (allIdx [n, m])
        return ⟨data, 0, [m, n], fortranStrides [m, n]⟩
      else do
        let data ← mapE (fun ij : List Nat => elem (ij.getD 0 0) (ij.getD 1 0)) (allIdx [m, n])
        return ⟨data, 0, [m, n], defaultStrides [m, n]⟩
    else panic .ndarray
  | _, _ => panic .ndarray

/-- The subviews yielded by `outer_iter()` (pair_contractors.rs 986, 987), one per index of axis 0. -/
def View.outerIter {A : Type} (v : View A) : M (List (View A)) :=
  match v.shape, v.strides with
  | d :: ds, s :: ss =>
    .ok ((List.range d).map fun (i : Nat) => ⟨v.buf, v.off + s * (i : Int), ds, ss⟩)
  | _, _ => panic .ndarray

/-- `Dimension::_fastest_varying_stride_order`: axes sorted (stably) by absolute stride. -/
def strideOrder (strides : List Int) : List Nat :=
  (List.range strides.length).mergeSort
    (fun i j => decide ((strides.getD i 0).natAbs ≤ (strides.getD j 0).natAbs))

/-- The loop of `Dimension::is_contiguous` over the axes in stride order. -/
def contigLoop (shape : List Nat) (strides : List Int) : Nat → List Nat → Bool
  | _, [] => true
  | c, i :: is =>
    (shape.getD i 0 = 1 || (strides.getD i 0).natAbs = c) && contigLoop shape strides (c * shape.getD i 0) is

/-- `Dimension::is_contiguous`: the elements fill a gap-free block of memory. -/
def isContiguous (shape : List Nat) (strides : List Int) : Bool :=
  if strides = defaultStrides shape then true
  else if shape.length = 1 then strides = [-1]
  else contigLoop shape strides 1 (strideOrder strides)

/-- Address of the first element in memory (negative strides reach below the offset). -/
def memStart (off : Int) : List Nat → List Int → Int
  | d :: ds, s :: ss => memStart (if s < 0 then off + s * ((d : Int) - 1) else off) ds ss
  | _, _ => off

/-- `as_slice_memory_order()` (singleton_contractors.rs 243, 362): the underlying memory block of a
contiguous array. -/
def View.asSliceMemoryOrder {A : Type} (v : View A) : Option (List A) :=
  if isContiguous v.shape v.strides then
    if v.shape.any (· = 0) then some []
    else some ((v.buf.drop (memStart v.off v.shape v.strides).toNat).take v.shape.prod)
  else none

/-- `max_abs_offset_check_overflow`: the largest offset reachable (no overflow in the model). -/
def maxOffset : List Nat → List Nat → Nat
  | d :: ds, s :: ss => (d - 1) * s + maxOffset ds ss
  | _, _ => 0

/-- The loop of `dim_stride_overlap` over the axes in stride order: may two indices share an
address? -/
def overlapLoop (shape : List Nat) (strides : List Nat) : Nat → List Nat → Bool
  | _, [] => false
  | sum, i :: is =>
    let d := shape.getD i 0
    let s := strides.getD i 0
    if d = 0 then false
    else if d = 1 then overlapLoop shape strides sum is
    else if s ≤ sum then true
    else overlapLoop shape strides (sum + (d - 1) * s) is

/-- `ArrayView::from_shape(shape.strides(strides), slice)` (singleton_contractors.rs 244-248): `Err`
unless every index stays inside the slice and no two indices alias. -/
def fromShapeStrides {A : Type} (shape strides : List Nat) (data : List A) : Option (View A) :=
  if shape.length ≠ strides.length then none
  else
    let isEmpty := shape.any (· = 0)
    let m := maxOffset shape strides
    if isEmpty && decide (data.length < m) then none
    else if !isEmpty && decide (data.length ≤ m) then none
    else if !isEmpty && overlapLoop shape strides 0 (strideOrder (strides.map Int.ofNat)) then none
    else some ⟨data, 0, shape, strides.map Int.ofNat⟩

end Einsum
