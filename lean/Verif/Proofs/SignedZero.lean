import Verif.Proofs.Binary64

/-!
# IEEE 754 binary64 with signed zeros
-/

namespace Einsum

open Spec

/-- Values of the type `f64`.  The payload of NaN is left out. -/
inductive D64
  | zero (neg : Bool)
  | num (q : ℚ) (h : q ≠ 0)
  | inf (neg : Bool)
  | nan
  deriving DecidableEq

namespace D64

/-- The result of an operation with the exact value `q`.  The sign of zero is that of `q`, or `neg` if `q` is zero. -/
def of (neg : Bool) (q : ℚ) : D64 :=
  if h : F64.rnd q = 0 then zero (if q = 0 then neg else q < 0)
  else if |F64.rnd q| ≤ F64.top then num (F64.rnd q) h else inf (q < 0)

/-- Addition; the sum of two zeros is negative if both are, other sums that are zero are positive. -/
protected def add : D64 → D64 → D64
  | nan, _ => nan
  | _, nan => nan
  | inf s, inf t => if s = t then inf s else nan
  | inf s, _ => inf s
  | _, inf t => inf t
  | zero s, zero t => zero (s && t)
  | zero _, num y _ => of false y
  | num x _, zero _ => of false x
  | num x _, num y _ => of false (x + y)

/-- The sign bit. -/
def sign : D64 → Bool
  | zero s => s
  | num q _ => q < 0
  | inf s => s
  | nan => false

/-- Multiplication; the sign of the product is the product of the signs. -/
protected def mul : D64 → D64 → D64
  | nan, _ => nan
  | _, nan => nan
  | inf _, zero _ => nan
  | zero _, inf _ => nan
  | inf s, y => inf (s ^^ y.sign)
  | x, inf t => inf (x.sign ^^ t)
  | zero s, y => zero (s ^^ y.sign)
  | x, zero t => zero (x.sign ^^ t)
  | num x _, num y _ => of false (x * y)

/-- The value of a finite number, 0 for others. -/
def val : D64 → ℚ
  | num q _ => q
  | _ => 0

/-- Neither infinite nor NaN. -/
def isFin : D64 → Bool
  | zero _ => true
  | num _ _ => true
  | _ => false

instance : Zero D64 := ⟨zero false⟩
instance : Add D64 := ⟨D64.add⟩
instance : Mul D64 := ⟨D64.mul⟩

/-- Fused multiply-add: finite products are not rounded.  If the exact product and the summand are zeros then the
result has their common sign; other exact zeros are positive. -/
protected def mulAdd (x y z : D64) : D64 :=
  if x.isFin && y.isFin then
    if z.isFin then of (x.val * y.val = 0 && z.val = 0 && (x.sign ^^ y.sign) && z.sign) (x.val * y.val + z.val) else z
  else x * y + z

instance : MulAdd D64 := ⟨D64.mulAdd⟩

/-- Forget the sign of zeros. -/
def forget : D64 → F64
  | zero _ => .fin 0
  | num q _ => .fin q
  | inf s => .inf s
  | nan => .nan

theorem forget_zero (s : Bool) : forget (zero s) = .fin 0 := rfl
theorem forget_num (q : ℚ) (h : q ≠ 0) : forget (num q h) = .fin q := rfl
theorem forget_inf (s : Bool) : forget (inf s) = .inf s := rfl
theorem forget_nan : forget nan = .nan := rfl

theorem forget_of (neg : Bool) (q : ℚ) : forget (of neg q) = .of q := by
  unfold of F64.of
  by_cases h : F64.rnd q = 0
  · have : |(0 : ℚ)| ≤ F64.top := by
      rw [abs_zero, F64.top]; exact mul_nonneg (by norm_num) (F64.zpow2_pos _).le
    rw [dif_pos h, h, if_pos this]
    rfl
  · rw [dif_neg h]
    split <;> rfl

theorem of_zero (neg : Bool) : of neg 0 = zero neg := by
  rw [of, dif_pos F64.rnd_zero, if_pos rfl]

theorem f64_of_zero : F64.of 0 = .fin 0 := by rw [← forget_of false, of_zero]; rfl

theorem forget_add (x y : D64) : forget (x + y) = forget x + forget y := by
  change forget (D64.add x y) = F64.add (forget x) (forget y)
  rcases x with s | ⟨x, hx⟩ | s | _ <;> rcases y with t | ⟨y, hy⟩ | t | _ <;>
    simp only [D64.add, F64.add, forget_zero, forget_num, forget_inf, forget_nan, forget_of, zero_add, add_zero, f64_of_zero]
  split <;> rfl

theorem forget_mul (x y : D64) : forget (x * y) = forget x * forget y := by
  change forget (D64.mul x y) = F64.mul (forget x) (forget y)
  rcases x with s | ⟨x, hx⟩ | s | _ <;> rcases y with t | ⟨y, hy⟩ | t | _ <;>
    simp only [D64.mul, F64.mul, forget_zero, forget_num, forget_inf, forget_nan, forget_of, zero_mul, mul_zero, f64_of_zero, sign, if_true, if_false, *]

theorem forget_mulAdd (x y z : D64) : forget (mulAdd x y z) = mulAdd (forget x) (forget y) (forget z) := by
  change forget (D64.mulAdd x y z) = F64.mulAdd (forget x) (forget y) (forget z)
  unfold D64.mulAdd
  rcases x with s | ⟨x, hx⟩ | s | _ <;> rcases y with t | ⟨y, hy⟩ | t | _ <;> rcases z with u | ⟨z, hz⟩ | u | _ <;>
    simp only [isFin, Bool.and_true, Bool.and_false, if_true, if_false, forget_of, val,
      F64.mulAdd, forget_zero, forget_num, forget_inf, forget_nan, Bool.false_eq_true, forget_add, forget_mul]

/-- Forgetting the sign of zeros respects the operations. -/
theorem forget_hom : OpHom forget := ⟨rfl, forget_add, forget_mul, forget_mulAdd⟩

/-! ## Numbers without a sign bit -/

theorem sign_of (neg : Bool) {q : ℚ} (h : 0 < q ∨ q = 0 ∧ neg = false) : (of neg q).sign = false := by
  have h' : decide (q < 0) = false := by
    rcases h with h | h
    · exact decide_eq_false (not_lt.2 h.le)
    · exact decide_eq_false (by rw [h.1]; exact lt_irrefl _)
  unfold of
  by_cases hr : F64.rnd q = 0
  · rw [dif_pos hr]
    rcases h with h | h
    · rw [if_neg h.ne', h']; rfl
    · rw [if_pos h.1, h.2]; rfl
  · rw [dif_neg hr]
    split
    · refine decide_eq_false (not_lt.2 ?_)
      have hq : 0 ≤ q := by rcases h with h | h; exacts [h.le, h.1.ge]
      exact mul_nonneg (by exact_mod_cast F64.roundEven_nonneg (div_nonneg hq (F64.zpow2_pos _).le)) (F64.zpow2_pos _).le
    · exact h'

/-- Addition gives no sign bit to numbers without. -/
theorem sign_add {x y : D64} (hx : x.sign = false) (hy : y.sign = false) : (x + y).sign = false := by
  change (D64.add x y).sign = false
  rcases x with s | ⟨x, h⟩ | s | _ <;> rcases y with t | ⟨y, h'⟩ | t | _ <;>
    simp only [sign, decide_eq_false_iff_not, not_lt] at hx hy <;> simp only [D64.add] <;> subst_vars <;> try rfl
  · exact sign_of _ (.inl (lt_of_le_of_ne hy h'.symm))
  · exact sign_of _ (.inl (lt_of_le_of_ne hx h.symm))
  · exact sign_of _ (.inl (add_pos_of_pos_of_nonneg (lt_of_le_of_ne hx h.symm) hy))

theorem sign_mul {x y : D64} (hx : x.sign = false) (hy : y.sign = false) : (x * y).sign = false := by
  change (D64.mul x y).sign = false
  rcases x with s | ⟨x, h⟩ | s | _ <;> rcases y with t | ⟨y, h'⟩ | t | _ <;> simp only [D64.mul] <;> try rfl
  all_goals try
    simp only [sign] at hx hy ⊢
    simp only [hx, hy]
    rfl
  simp only [sign, decide_eq_false_iff_not, not_lt] at hx hy
  exact sign_of _ (.inl (mul_pos (lt_of_le_of_ne hx h.symm) (lt_of_le_of_ne hy h'.symm)))

theorem val_nonneg {x : D64} (hx : x.sign = false) : 0 ≤ x.val := by
  rcases x with s | ⟨x, h⟩ | s | _
  · exact le_rfl
  · simp only [sign, decide_eq_false_iff_not, not_lt] at hx
    exact hx
  · exact le_rfl
  · exact le_rfl

theorem sign_mulAdd {x y z : D64} (hx : x.sign = false) (hy : y.sign = false) (hz : z.sign = false) :
    (mulAdd x y z).sign = false := by
  change (D64.mulAdd x y z).sign = false
  unfold D64.mulAdd
  split
  · split
    · refine sign_of _ ?_
      have := add_nonneg (mul_nonneg (val_nonneg hx) (val_nonneg hy)) (val_nonneg hz)
      rcases this.lt_or_eq with h | h
      · exact .inl h
      · exact .inr ⟨h.symm, by rw [hz, Bool.and_false]⟩
    · exact hz
  · exact sign_add (sign_mul hx hy) hz

end D64

end Einsum
