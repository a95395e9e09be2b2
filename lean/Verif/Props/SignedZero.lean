import Verif.Proofs.SignedZero
import Verif.Props.Related
import Verif.Props.Floats

/-!
# The sign of zero (C67)
-/

namespace Einsum

open Spec

/-- C67 for `einsum`: forgetting the sign of zeros before or after the call is the same, whatever the arguments. -/
theorem C67_einsum (h : HashOrd) (al : UniformAlloc) (s : String) (operands : List (View D64)) :
    einsum h (al.alloc F64) s (operands.map (View.map D64.forget)) =
      (einsum h (al.alloc D64) s operands).map (Except.map (View.map D64.forget)) :=
  C52_natural _ D64.forget_hom h al s operands

/-- C67 for every path, compiled or put together by hand. -/
theorem C67_path (p : EinsumPath) (al : UniformAlloc) (operands : List (View D64)) :
    p.contractOperands (al.alloc F64) (operands.map (View.map D64.forget)) =
      (p.contractOperands (al.alloc D64) operands).map (View.map D64.forget) :=
  p.contractOperands_map D64.forget_hom (al.compat _) operands

/-- C67 for `tensordot`. -/
theorem C67_tensordot (al : UniformAlloc) (l r : View D64) (la ra : List Nat) :
    tensordot (al.alloc F64) (l.map D64.forget) (r.map D64.forget) la ra =
      (tensordot (al.alloc D64) l r la ra).map (View.map D64.forget) :=
  C59_natural _ D64.forget_hom al l r la ra

namespace D64

/-- Equal up to the sign of zero. -/
def Same (x y : D64) : Prop := x = y ∨ ∃ s t, x = zero s ∧ y = zero t

theorem same_iff {x y : D64} : x.Same y ↔ x.forget = y.forget := by
  constructor
  · rintro (rfl | ⟨s, t, rfl, rfl⟩) <;> rfl
  · intro h
    rcases x with s | ⟨x, hx⟩ | s | _ <;> rcases y with t | ⟨y, hy⟩ | t | _ <;> simp only [forget] at h <;> cases h
    · exact .inr ⟨s, t, rfl, rfl⟩
    · exact (hy rfl).elim
    · exact (hx rfl).elim
    · exact .inl rfl
    · exact .inl rfl
    · exact .inl rfl

theorem preserved_same : Preserved Same where
  zero := .inl rfl
  add := fun x y x' y' h h' => by
    rw [same_iff] at *
    rw [forget_add, forget_add, h, h']
  mul := fun x y x' y' h h' => by
    rw [same_iff] at *
    rw [forget_mul, forget_mul, h, h']
  mulAdd := fun x y z x' y' z' h h' h'' => by
    rw [same_iff] at *
    rw [forget_mulAdd, forget_mulAdd, h, h', h'']

/-- Neither infinite nor NaN. -/
def Finite (x : D64) : Prop := x.isFin = true ∧ F64.Representable x.val

theorem finite_iff {x : D64} : x.Finite ↔ x.forget.Finite := by
  rcases x with s | ⟨x, hx⟩ | s | _
  · exact ⟨fun h => h.2, fun h => ⟨rfl, h⟩⟩
  · exact ⟨fun h => h.2, fun h => ⟨rfl, h⟩⟩
  · exact ⟨fun h => absurd h.1 Bool.false_ne_true, fun h => h.elim⟩
  · exact ⟨fun h => absurd h.1 Bool.false_ne_true, fun h => h.elim⟩

theorem val_forget (x : D64) : x.forget.val = x.val := by
  rcases x with s | ⟨x, hx⟩ | s | _ <;> rfl

theorem floating : Floating Finite val (2⁻¹ ^ 53) (2⁻¹ ^ 1075) F64.top where
  nonneg := F64.floating.nonneg
  zero := ⟨finite_iff.2 F64.floating.zero.1, rfl⟩
  add := fun x y hx hy h => by
    simp only [finite_iff, ← val_forget, forget_add] at *
    exact F64.floating.add _ _ hx hy h
  mul := fun x y hx hy h => by
    simp only [finite_iff, ← val_forget, forget_mul] at *
    exact F64.floating.mul _ _ hx hy h
  mulAdd := fun x y z hx hy hz => .inr fun h => by
    simp only [finite_iff, ← val_forget, forget_mulAdd] at *
    exact F64.mulAdd_near hx hy hz h
  zero_add := fun x y hx hy h => by
    simp only [finite_iff, ← val_forget, forget_add] at *
    exact F64.floating.zero_add _ _ hx hy h
  add_zero := fun x y hx hy h => by
    simp only [finite_iff, ← val_forget, forget_add] at *
    exact F64.floating.add_zero _ _ hx hy h

end D64

/-- C67: operands that differ in the signs of zeros only give the same error or panic, or results that differ in the
signs of zeros only. -/
theorem C67_same (h : HashOrd) (al : UniformAlloc) (s : String) (operands operands' : List (View D64))
    (ho : List.Forall₂ (Related D64.Same) operands operands') :
    SameOutcome (SameOutcome (Related D64.Same)) (einsum h (al.alloc D64) s operands)
      (einsum h (al.alloc D64) s operands') :=
  C63_einsum D64.preserved_same h al s operands operands' ho

/-- C67: the error bound of C64. -/
theorem C67_binary64 (h : HashOrd) (al : UniformAlloc) (s : String) (operands : List (View D64))
    (inputs : List (List Char)) (out : List Char) (dims : Char → Nat) (ts : List (List Nat → D64))
    (hc : Call s operands inputs out dims ts) (h0 : ∀ c ∈ inputs.flatten, dims c ≠ 0)
    (hg : ∀ v ∈ operands, ∀ idx x, v.read idx = .ok x → D64.Finite x) :
    ∃ r, einsum h (al.alloc D64) s operands = .ok (.ok r) ∧ r.Wf ∧ r.shape = out.map dims ∧
      ∀ σ, InRange dims out σ → (1 + 2⁻¹ ^ 53 + 2⁻¹ ^ 1075) ^ (termCount dims inputs out + inputs.length - 2) *
          Spec.einsum dims inputs (ts.map fun t idx => max 1 |(t idx).val|) out σ ≤ F64.top →
        ∃ y, r.read (out.map σ) = .ok y ∧ D64.Finite y ∧
          |y.val - Spec.einsum dims inputs (ts.map fun t idx => (t idx).val) out σ| ≤
            ((1 + 2⁻¹ ^ 53) ^ (termCount dims inputs out + inputs.length - 2) - 1) *
              Spec.einsum dims inputs (ts.map fun t idx => |(t idx).val|) out σ +
            ((1 + 2⁻¹ ^ 53 + 2⁻¹ ^ 1075) ^ (termCount dims inputs out + inputs.length - 2) -
              (1 + 2⁻¹ ^ 53) ^ (termCount dims inputs out + inputs.length - 2)) *
              Spec.einsum dims inputs (ts.map fun t idx => max 1 |(t idx).val|) out σ :=
  C64_einsum D64.floating h al s operands inputs out dims ts hc h0 hg

/-- C67: operands without sign bits never give `-0` (nor a negative number), … -/
theorem C67_unsigned (h : HashOrd) (al : UniformAlloc) (s : String) (operands : List (View D64))
    (hw : ∀ v ∈ operands, v.Wf) (hp : ∀ v ∈ operands, ∀ idx x, v.read idx = .ok x → x.sign = false) (r : View D64)
    (hr : einsum h (al.alloc D64) s operands = .ok (.ok r)) (idx : List Nat) (x : D64) (hx : r.read idx = .ok x) :
    x.sign = false :=
  C63_closed (P := fun x : D64 => x.sign = false) rfl (fun _ _ => D64.sign_add) (fun _ _ => D64.sign_mul)
    (fun _ _ _ => D64.sign_mulAdd) h al s operands hw hp r hr idx x hx

/-- … also with paths … -/
theorem C67_unsigned_path (p : EinsumPath) (al : UniformAlloc) (operands : List (View D64)) (hw : ∀ v ∈ operands, v.Wf)
    (hp : ∀ v ∈ operands, ∀ idx x, v.read idx = .ok x → x.sign = false) (r : View D64)
    (hr : p.contractOperands (al.alloc D64) operands = .ok r) (idx : List Nat) (x : D64) (hx : r.read idx = .ok x) :
    x.sign = false :=
  C63_closed_path (P := fun x : D64 => x.sign = false) rfl (fun _ _ => D64.sign_add) (fun _ _ => D64.sign_mul)
    (fun _ _ _ => D64.sign_mulAdd) p al operands hw hp r hr idx x hx

/-- … and `tensordot`. -/
theorem C67_unsigned_tensordot (al : UniformAlloc) (l r : View D64) (la ra : List Nat) (hl : l.Wf) (hr : r.Wf)
    (hpl : ∀ idx x, l.read idx = .ok x → x.sign = false) (hpr : ∀ idx x, r.read idx = .ok x → x.sign = false)
    (w : View D64) (hw : tensordot (al.alloc D64) l r la ra = .ok w) (idx : List Nat) (x : D64)
    (hx : w.read idx = .ok x) : x.sign = false :=
  C63_closed_tensordot (P := fun x : D64 => x.sign = false) rfl (fun _ _ => D64.sign_add) (fun _ _ => D64.sign_mul)
    (fun _ _ _ => D64.sign_mulAdd) al l r la ra hl hr hpl hpr w hw idx x hx

namespace Ex

/-- The number as `f64`. -/
def d64 (q : ℚ) : D64 := .of false q

def plusMinus : View D64 := ⟨[d64 1, d64 (-1)], 0, [2], [1]⟩
def ones : View D64 := ⟨[d64 1, d64 1], 0, [2], [1]⟩
def minusOne : View D64 := ⟨[d64 (-1)], 0, [1], [1]⟩

end Ex

/-- C67: the sign of a zero depends on the order of contraction: `(1·1 + (-1)·1)·(-1)` is `-0`, and
`1·(1·(-1)) + (-1)·(1·(-1))` is `+0`. -/
theorem C67_order_matters :
    einsum HashOrd.insertion (Alloc.rowMajor D64) "i,i,j->" [Ex.plusMinus, Ex.ones, Ex.minusOne] =
      .ok (.ok ⟨[.zero true], 0, [], []⟩) ∧
    ∃ p, einsumPath HashOrd.insertion "i,i,j->" [Ex.plusMinus, Ex.ones, Ex.minusOne] .reverse = .ok (.ok p) ∧
      p.contractOperands (Alloc.rowMajor D64) [Ex.plusMinus, Ex.ones, Ex.minusOne] =
        .ok ⟨[.zero false], 0, [], []⟩ := by
  refine ⟨by decide +kernel, ?_⟩
  have h : (match einsumPath HashOrd.insertion "i,i,j->" [Ex.plusMinus, Ex.ones, Ex.minusOne] .reverse with
    | .ok (.ok p) => p.contractOperands (Alloc.rowMajor D64) [Ex.plusMinus, Ex.ones, Ex.minusOne]
    | _ => .error .ub) = .ok ⟨[.zero false], 0, [], []⟩ := by decide +kernel
  split at h
  · rename_i p hp
    exact ⟨p, hp, h⟩
  · cases h

/-! ## Examples -/

namespace Ex

/-- `-z / 8`, multiples of 8 giving `-0`. -/
def negEighth (z : Int) : D64 := .of true (-((z % 8 : ℤ) * 2 ^ (-3 : ℤ)))

theorem negEighth_finite (z : Int) : (negEighth z).Finite := by
  have h : F64.Representable (-((z % 8 : ℤ) * 2 ^ (-3 : ℤ))) :=
    ⟨-(z % 8), -3, by rw [abs_neg, abs_of_nonneg (Int.emod_nonneg _ (by decide))]; omega, by decide, by decide,
      by push_cast; ring⟩
  rw [D64.finite_iff, negEighth, D64.forget_of]
  exact (F64.of_representable (F64.Representable.le_top h)).2

theorem negEighth_eight : negEighth 8 = .zero true := by decide +kernel

/-- `z / 8`, multiples of 8 giving `+0`. -/
def posEighth (z : Int) : D64 := .of false ((z % 8 : ℤ) * 2 ^ (-3 : ℤ))

theorem posEighth_sign (z : Int) : (posEighth z).sign = false := by
  have h : (0 : ℚ) ≤ (z % 8 : ℤ) := by exact_mod_cast Int.emod_nonneg z (by decide)
  have h' := mul_nonneg h (F64.zpow2_pos (-3)).le
  refine D64.sign_of _ ?_
  rcases h'.lt_or_eq with h | h
  exacts [.inl h, .inr ⟨h.symm, rfl⟩]

end Ex

example := C67_einsum HashOrd.reversed UniformAlloc.fused "ij,jk->ik" ([Ex.m23, Ex.m32].map (View.map Ex.negEighth))

/-- Also for a rejected call. -/
example := C67_einsum HashOrd.reversed UniformAlloc.fused "ij,jk->iq" ([Ex.m23, Ex.m32].map (View.map Ex.negEighth))

example (p : EinsumPath) := C67_path p UniformAlloc.colMajor ([Ex.m23, Ex.m32].map (View.map Ex.negEighth))

example := C67_tensordot UniformAlloc.colMajor (Ex.m332.map Ex.negEighth) (Ex.m32.map Ex.negEighth) [2, 1] [1, 0]

/-- `[-0]` instead of `[+0]`. -/
example : SameOutcome (SameOutcome (Related D64.Same))
    (einsum HashOrd.reversed (Alloc.rowMajor D64) "i,j->ij" [⟨[.zero true], 0, [1], [1]⟩, Ex.minusOne])
    (einsum HashOrd.reversed (Alloc.rowMajor D64) "i,j->ij" [⟨[.zero false], 0, [1], [1]⟩, Ex.minusOne]) := by
  have el : ∀ x : D64, Elements ⟨[x], 0, [1], [1]⟩ fun _ => x := fun x =>
    elements_of rfl (by simp [allIdx, View.read, readAt])
  have wf := fun x => (el x).1
  refine C67_same HashOrd.reversed UniformAlloc.rowMajor "i,j->ij" _ _ (.cons ⟨rfl, rfl, ⟨wf _, wf _⟩, fun idx x y hx hy => ?_⟩
    (.cons ⟨rfl, rfl, ⟨wf _, wf _⟩, fun idx x y hx hy => ?_⟩ .nil))
  · by_cases hi : InB [1] idx
    · rw [(el (.zero true)).2 idx hi] at hx
      rw [(el (.zero false)).2 idx hi] at hy
      cases hx
      cases hy
      exact .inr ⟨true, false, rfl, rfl⟩
    · rw [View.read, if_neg hi] at hx
      cases hx
  · rw [hx] at hy; cases hy; exact .inl rfl

example : ∃ r, einsum HashOrd.reversed (Alloc.fused D64) "ij,jk->ik"
      ([Ex.m23, Ex.m32].map (View.map Ex.negEighth)) = .ok (.ok r) ∧
    ∃ y, r.read [0, 0] = .ok y ∧ D64.Finite y := by
  obtain ⟨r, h1, -, -, h2⟩ := C67_binary64 HashOrd.reversed UniformAlloc.fused "ij,jk->ik" _ _ _ _ _
    (Ex.call_matmul.map Ex.negEighth) Ex.pos_matmul (Ex.of_map Ex.negEighth_finite _)
  obtain ⟨y, y1, y2, -⟩ := h2 (fun _ => 0)
    (by intro c _; exact Nat.pos_of_ne_zero (by unfold Ex.dims; split <;> omega)) (by decide +kernel)
  exact ⟨r, h1, y, y1, y2⟩

example := C67_unsigned HashOrd.reversed UniformAlloc.fused "ij,jk->ik" ([Ex.m23, Ex.m32].map (View.map Ex.posEighth))
  (by simpa using ⟨Ex.e23.1.map _, Ex.e32.1.map _⟩) (Ex.of_map Ex.posEighth_sign _)

example (p : EinsumPath) := C67_unsigned_path p UniformAlloc.fused ([Ex.m23, Ex.m32].map (View.map Ex.posEighth))
  (by simpa using ⟨Ex.e23.1.map _, Ex.e32.1.map _⟩) (Ex.of_map Ex.posEighth_sign _)

example := C67_unsigned_tensordot UniformAlloc.fused (Ex.m23.map Ex.posEighth) (Ex.m32.map Ex.posEighth) [1] [0]
  (Ex.e23.1.map _) (Ex.e32.1.map _) (Ex.of_map Ex.posEighth_sign [Ex.m23] _ (by simp))
  (Ex.of_map Ex.posEighth_sign [Ex.m32] _ (by simp))

end Einsum
