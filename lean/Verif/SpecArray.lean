import Verif.Model.NdArray
import Verif.Spec

/-!
# Specification, continued: arrays

What a call is and what it means for an array to be the Einstein sum.  The only model notions used
are those of an array (`View`): its shape, `View.read` (element access) and `View.Wf` (validity).
-/

namespace Einsum.Spec

/-- `v` is a valid array, and its element at each index tuple is given by `t`. -/
def Elements {A : Type} (v : View A) (t : List Nat → A) : Prop :=
  v.Wf ∧ ∀ idx, InB v.shape idx → v.read idx = .ok (t idx)

/-- Two valid arrays with the same shape and the same elements (the layouts may differ). -/
def SameArray {A : Type} (v w : View A) : Prop :=
  v.Wf ∧ w.Wf ∧ v.shape = w.shape ∧ ∀ idx, InB v.shape idx → v.read idx = w.read idx

/-- Equal shape, strides and elements.  The two may begin anywhere in buffers that agree nowhere else. -/
structure Alike {A : Type} (v w : View A) : Prop where
  same : SameArray v w
  strides : v.strides = w.strides

/-- Equal shape and strides, and elements related by `R`. -/
structure Related {A B : Type} (R : A → B → Prop) (v : View A) (w : View B) : Prop where
  shape : v.shape = w.shape
  strides : v.strides = w.strides
  wf : v.Wf ∧ w.Wf
  elements : ∀ idx x y, v.read idx = .ok x → w.read idx = .ok y → R x y

/-- Both fail with the same error, or both return, with related values. -/
def SameOutcome {ε α β : Type} (R : α → β → Prop) : Except ε α → Except ε β → Prop
  | .ok a, .ok b => R a b
  | .error e, .error e' => e = e'
  | _, _ => False

/-- No operand has both a repeated letter and an axis of length zero. -/
def NoEmptyDiagonal (dims : Char → Nat) (inputs : List (List Char)) : Prop :=
  ∀ ix ∈ inputs, ix.Nodup ∨ ∀ c ∈ ix, dims c ≠ 0

/-- All strides are positive, exactly one axis has length zero and its stride is one, and all other axes have
length one.  (ndarray stores every freshly created empty array with zero strides, so such an array is a slice of a
non-empty one.) -/
def UnitRow {A : Type} (v : View A) : Prop :=
  (∀ x ∈ v.strides, 0 < x) ∧ (∀ d ∈ v.shape, d ≤ 1) ∧
    ∃ k : Nat, v.shape[k]? = some 0 ∧ v.strides[k]? = some 1 ∧ ∀ j, j ≠ k → v.shape[j]? ≠ some 0

/-- The letter occurs in the output or in an operand other than the one at position `k`. -/
def Elsewhere (inputs : List (List Char)) (out : List Char) (k : Nat) (c : Char) : Prop :=
  c ∈ out ∨ ∃ (j : Nat) (jx : List Char), j ≠ k ∧ inputs[j]? = some jx ∧ c ∈ jx

/-- Some operand has a repeated letter and an axis of length zero; operands as in `UnitRow` count only if each of
their letters occurs elsewhere. -/
def EmptyDiagonal {A : Type} (dims : Char → Nat) (inputs : List (List Char)) (out : List Char)
    (operands : List (View A)) : Prop :=
  ∃ (k : Nat) (ix : List Char) (v : View A), inputs[k]? = some ix ∧ operands[k]? = some v ∧
    ¬ ix.Nodup ∧ (∃ c ∈ ix, dims c = 0) ∧ (UnitRow v → ∀ c ∈ ix, Elsewhere inputs out k c)

/-- A valid call: the string `s` has operand labels `inputs` and output labels `out`, the axis
lengths are consistently `dims`, and the operands' elements are `ts`. -/
structure Call {A : Type} (s : String) (operands : List (View A)) (inputs : List (List Char))
    (out : List Char) (dims : Char → Nat) (ts : List (List Nat → A)) : Prop where
  denotes : Denotes s inputs out
  sized : Sized dims inputs (operands.map View.shape)
  elements : List.Forall₂ Elements operands ts

/-- `r` is the Einstein sum of the tensors `ts`: it has one axis per output label, and the element
at each output index is the sum over the other labels. -/
def IsEinsum {A : Type} [CommSemiring A] (dims : Char → Nat) (inputs : List (List Char))
    (ts : List (List Nat → A)) (out : List Char) (r : View A) : Prop :=
  r.Wf ∧ r.shape = out.map dims ∧
    ∀ σ, InRange dims out σ → r.read (out.map σ) = .ok (einsum dims inputs ts out σ)

/-- `r` holds the Einstein sum with the products formed in the order described by `orderedTerm`. -/
def IsEinsumOrdered {A : Type} [Semiring A] (dims : Char → Nat) (inputs : List (List Char)) (ts : List (List Nat → A))
    (out : List Char) (r : View A) : Prop :=
  r.Wf ∧ r.shape = out.map dims ∧
    ∀ σ, InRange dims out σ → r.read (out.map σ) = .ok (einsumOrdered dims inputs ts out σ)

/-- Memory address of an element. -/
def address {A : Type} (v : View A) (idx : List Nat) : Int := v.off + dotI v.strides idx

/-- Different elements have different addresses, as in every mutable view. -/
def Exclusive {A : Type} (v : View A) : Prop :=
  ∀ idx idx', InB v.shape idx → InB v.shape idx' → address v idx = address v idx' → idx = idx'

/-- Shape `s` can be broadcast to shape `t`: aligned on the right, each length equal or 1. -/
def Broadcasts (s t : List Nat) : Prop :=
  s.length ≤ t.length ∧ List.Forall₂ (fun d n => d = n ∨ d = 1) s (t.drop (t.length - s.length))

/-- The element of an array of shape `s` found at index `idx` after broadcasting. -/
def sourceIndex (s idx : List Nat) : List Nat :=
  List.zipWith (fun d i => if d = 1 then 0 else i) s (idx.drop (idx.length - s.length))

/-- `out'` is `out` after an assignment of the elements `t`: the same view of a buffer of the same length, with
the new elements in the view and every element of the buffer outside the view unchanged. -/
structure Assigned {A : Type} (out out' : View A) (t : List Nat → A) : Prop where
  shape : out'.shape = out.shape
  strides : out'.strides = out.strides
  off : out'.off = out.off
  length : out'.buf.length = out.buf.length
  inside : ∀ idx, InB out.shape idx → out'.read idx = .ok (t idx)
  outside : ∀ n : Nat, (∀ idx, InB out.shape idx → address out idx ≠ n) → out'.buf[n]? = out.buf[n]?

/-- The part `start .. start + len` of every axis labelled `c` (ndarray's `slice_axis`; `ix` are the labels of the
axes). -/
def slice {A : Type} (c : Char) (start len : Nat) (ix : List Char) (v : View A) : View A :=
  ⟨v.buf, v.off + dotI v.strides (ix.map fun d => if d = c then start else 0),
    List.zipWith (fun d n => if d = c then len else n) ix v.shape, v.strides⟩

end Einsum.Spec
