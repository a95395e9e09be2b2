import Verif.SpecExpr
import Mathlib.Data.Rat.Floor
import Mathlib.Data.Int.Log
import Mathlib.Tactic.Linarith
import Mathlib.Tactic.Ring
import Mathlib.Tactic.Positivity

/-!
# IEEE 754 binary64

Finite numbers, infinities and NaN; rounding to nearest, ties to even; gradual underflow; overflow to infinity.  The sign
of zero and the payload of NaN are left out.
-/

namespace Einsum

open Spec

namespace F64

/-- The nearest integer, of two the even one. -/
def roundEven (x : ℚ) : ℤ :=
  if x - ⌊x⌋ < 1 / 2 then ⌊x⌋ else if 1 / 2 < x - ⌊x⌋ then ⌊x⌋ + 1 else if ⌊x⌋ % 2 = 0 then ⌊x⌋ else ⌊x⌋ + 1

theorem roundEven_near (x : ℚ) : |(roundEven x : ℚ) - x| ≤ 1 / 2 := by
  have h1 := Int.floor_le x
  have h2 := Int.lt_floor_add_one x
  unfold roundEven
  split_ifs with a b c
  · rw [abs_le]; constructor <;> linarith
  · push_cast; rw [abs_le]; constructor <;> linarith
  · rw [abs_le]; constructor <;> linarith
  · push_cast; rw [abs_le]; constructor <;> linarith

theorem roundEven_int (k : ℤ) : roundEven k = k := by
  have h := roundEven_near k
  have h1 : |((roundEven k - k : ℤ) : ℚ)| ≤ 1 / 2 := by push_cast; exact h
  have h2 : ((|roundEven k - k| : ℤ) : ℚ) < 1 := by rw [Int.cast_abs]; linarith
  have h3 : |roundEven k - k| < 1 := by exact_mod_cast h2
  have := abs_nonneg (roundEven k - k)
  have h4 : roundEven (k : ℚ) - k = 0 := abs_eq_zero.1 (by omega)
  omega

theorem roundEven_nonneg {x : ℚ} (h : 0 ≤ x) : 0 ≤ roundEven x := by
  have := Int.floor_nonneg.2 h
  unfold roundEven
  split_ifs <;> omega

theorem roundEven_le {x : ℚ} {n : ℤ} (h : |x| ≤ n) : |roundEven x| ≤ n := by
  have h1 := roundEven_near x
  have h2 : |(roundEven x : ℚ)| ≤ |(roundEven x : ℚ) - x| + |x| := by
    calc |(roundEven x : ℚ)| = |((roundEven x : ℚ) - x) + x| := by ring_nf
      _ ≤ _ := abs_add_le _ _
  have h3 : ((|roundEven x| : ℤ) : ℚ) < ((n + 1 : ℤ) : ℚ) := by rw [Int.cast_abs]; push_cast; linarith
  have h4 : |roundEven x| < n + 1 := by exact_mod_cast h3
  omega

/-- Exponent of the last place. -/
def ulp (q : ℚ) : ℤ := max (Int.log 2 |q| - 52) (-1074)

/-- Round to a multiple of the last place. -/
def rnd (q : ℚ) : ℚ := roundEven (q / 2 ^ ulp q) * 2 ^ ulp q

/-- The largest finite number. -/
def top : ℚ := (2 ^ 53 - 1) * 2 ^ (971 : ℤ)

/-- The finite numbers. -/
def Representable (q : ℚ) : Prop := ∃ m e : ℤ, |m| < 2 ^ 53 ∧ -1074 ≤ e ∧ e ≤ 971 ∧ q = m * 2 ^ e

theorem zpow2_pos (e : ℤ) : (0 : ℚ) < 2 ^ e := zpow_pos (by norm_num) _

theorem zpow2_add (a b : ℤ) : (2 : ℚ) ^ (a + b) = 2 ^ a * 2 ^ b := zpow_add₀ (by norm_num) _ _

theorem zpow2_mono {a b : ℤ} (h : a ≤ b) : (2 : ℚ) ^ a ≤ 2 ^ b := zpow_le_zpow_right₀ (by norm_num) h

theorem rnd_near (q : ℚ) : |rnd q - q| ≤ 1 / 2 * 2 ^ ulp q := by
  have hp := zpow2_pos (ulp q)
  have h1 := roundEven_near (q / 2 ^ ulp q)
  have : |rnd q - q| = |(roundEven (q / 2 ^ ulp q) : ℚ) - q / 2 ^ ulp q| * 2 ^ ulp q := by
    conv_rhs => rw [← abs_of_pos hp, ← abs_mul, sub_mul, abs_of_pos hp, div_mul_cancel₀ _ hp.ne']
    rfl
  rw [this]
  gcongr

theorem log_le {q : ℚ} (hq : q ≠ 0) : (2 : ℚ) ^ Int.log 2 |q| ≤ |q| := by
  have := Int.zpow_log_le_self (b := 2) (r := |q|) (by norm_num) (abs_pos.2 hq)
  exact_mod_cast this

theorem lt_log (q : ℚ) : |q| < (2 : ℚ) ^ (Int.log 2 |q| + 1) := by
  have := Int.lt_zpow_succ_log_self (b := 2) (by norm_num) |q|
  exact_mod_cast this

theorem log_lt {q : ℚ} (hq : q ≠ 0) {e : ℤ} (h : |q| < 2 ^ e) : Int.log 2 |q| < e := by
  by_contra h'
  exact absurd (lt_of_le_of_lt (log_le hq) h) (not_lt.2 (zpow2_mono (by omega)))

/-- Numbers that are not tiny have a relative error. -/
theorem rnd_relative {q : ℚ} (h : -1074 < Int.log 2 |q| - 52 ∨ rnd q = q) : |rnd q - q| ≤ 2⁻¹ ^ 53 * |q| := by
  rcases h with h | h
  · have hu : ulp q = Int.log 2 |q| + -52 := by unfold ulp; omega
    by_cases hq : q = 0
    · simp [hq, rnd, show roundEven 0 = 0 by simpa using roundEven_int 0]
    refine (rnd_near q).trans ?_
    rw [hu, zpow2_add]
    have := log_le hq
    calc 1 / 2 * ((2 : ℚ) ^ Int.log 2 |q| * 2 ^ (-52 : ℤ)) = 2⁻¹ ^ 53 * 2 ^ Int.log 2 |q| := by norm_num; ring
      _ ≤ _ := by gcongr
  · rw [h, sub_self, abs_zero]; positivity

theorem rnd_error (q : ℚ) : |rnd q - q| ≤ 2⁻¹ ^ 53 * |q| + 2⁻¹ ^ 1075 := by
  by_cases h : -1074 < Int.log 2 |q| - 52
  · exact (rnd_relative (.inl h)).trans (le_add_of_nonneg_right (by positivity))
  · refine (rnd_near q).trans (le_add_of_nonneg_of_le (by positivity) ?_)
    have hu : ulp q = -1074 := by unfold ulp; omega
    rw [hu, zpow_neg, show (1074 : ℤ) = ((1074 : ℕ) : ℤ) from rfl, zpow_natCast, ← inv_pow, pow_succ _ 1074]
    generalize (2⁻¹ : ℚ) ^ 1074 = t
    linarith

/-- Multiples of the last place are not rounded. -/
theorem rnd_exact {q : ℚ} {m e : ℤ} (hq : q = m * 2 ^ e) (he : ulp q ≤ e) : rnd q = q := by
  unfold rnd
  obtain ⟨n, hn⟩ : ∃ n : ℕ, e = n + ulp q := ⟨(e - ulp q).toNat, by omega⟩
  have : q / 2 ^ ulp q = ((m * 2 ^ n : ℤ) : ℚ) := by
    rw [div_eq_iff (zpow2_pos _).ne']
    nth_rewrite 1 [hq]
    rw [hn, zpow2_add, zpow_natCast]
    push_cast
    ring
  rw [this, roundEven_int, ← this, div_mul_cancel₀ _ (zpow2_pos _).ne']

theorem Representable.ulp_le {q : ℚ} {m e : ℤ} (hm : |m| < 2 ^ 53) (he : -1074 ≤ e) (hq : q = m * 2 ^ e) (h0 : q ≠ 0) :
    ulp q ≤ e := by
  have h1 : |q| < 2 ^ (53 + e) := by
    rw [hq, abs_mul, abs_of_pos (zpow2_pos e), zpow2_add]
    have : |(m : ℚ)| < 2 ^ 53 := by rw [← Int.cast_abs]; exact_mod_cast hm
    have hp := zpow2_pos e
    norm_num at this ⊢
    gcongr
  have := log_lt h0 h1
  unfold ulp
  omega

theorem rnd_zero : rnd 0 = 0 := by
  simp [rnd, show roundEven 0 = 0 by simpa using roundEven_int 0]

/-- Finite numbers are not rounded. -/
theorem Representable.rnd {q : ℚ} (h : Representable q) : rnd q = q := by
  obtain ⟨m, e, h1, h2, -, h4⟩ := h
  by_cases h0 : q = 0
  · rw [h0, rnd_zero]
  · exact rnd_exact h4 (ulp_le h1 h2 h4 h0)

theorem Representable.multiple {q : ℚ} (h : Representable q) : ∃ k : ℤ, q = k * 2 ^ (-1074 : ℤ) := by
  obtain ⟨m, e, h1, h2, -, h4⟩ := h
  obtain ⟨n, rfl⟩ : ∃ n : ℕ, e = n + -1074 := ⟨(e + 1074).toNat, by omega⟩
  refine ⟨m * 2 ^ n, ?_⟩
  rw [h4, zpow2_add, zpow_natCast]
  generalize (2 : ℚ) ^ (-1074 : ℤ) = t
  push_cast
  ring

/-- Sums of finite numbers have a relative error, however small they are. -/
theorem rnd_add {x y : ℚ} (hx : Representable x) (hy : Representable y) :
    |F64.rnd (x + y) - (x + y)| ≤ 2⁻¹ ^ 53 * |x + y| := by
  refine rnd_relative ?_
  by_cases h : -1074 < Int.log 2 |x + y| - 52
  · exact .inl h
  · right
    obtain ⟨j, hj⟩ := hx.multiple
    obtain ⟨k, hk⟩ := hy.multiple
    refine rnd_exact (m := j + k) (e := -1074) ?_ (by unfold ulp; omega)
    rw [hj, hk]
    generalize (2 : ℚ) ^ (-1074 : ℤ) = t
    push_cast
    ring

theorem top_eq : top = ((2 ^ 53 - 1 : ℤ) : ℚ) * 2 ^ (971 : ℤ) := by unfold top; generalize (2 : ℚ) ^ (971 : ℤ) = t; push_cast; norm_num

/-- Below the largest number rounding gives a finite number. -/
theorem rnd_representable {q : ℚ} (h : |q| ≤ top) : Representable (F64.rnd q) ∧ |F64.rnd q| ≤ top := by
  have hp := zpow2_pos (ulp q)
  by_cases h0 : q = 0
  · rw [h0, rnd_zero]
    refine ⟨⟨0, 0, by norm_num, by norm_num, by norm_num, by simp⟩, ?_⟩
    rw [h0] at h
    exact h
  have hlog : Int.log 2 |q| < 1024 := by
    refine log_lt h0 (lt_of_le_of_lt h ?_)
    rw [show (1024 : ℤ) = 53 + 971 from rfl, zpow2_add, top]
    have := zpow2_pos 971
    have h53 : (2 : ℚ) ^ (53 : ℤ) = 2 ^ 53 := by norm_cast
    rw [h53]
    generalize (2 : ℚ) ^ (971 : ℤ) = t at *
    nlinarith
  have hu : ulp q ≤ 971 := by unfold ulp; omega
  have hu' : -1074 ≤ ulp q := by unfold ulp; omega
  have hb : |q / 2 ^ ulp q| ≤ ((2 ^ 53 : ℤ) : ℚ) := by
    rw [abs_div, abs_of_pos hp, div_le_iff₀ hp]
    refine (lt_log q).le.trans ?_
    rw [show ((2 ^ 53 : ℤ) : ℚ) = 2 ^ (53 : ℤ) by norm_cast, ← zpow2_add]
    exact zpow2_mono (by unfold ulp; omega)
  have hk := roundEven_le hb
  by_cases h971 : ulp q = 971
  · have hb' : |q / 2 ^ ulp q| ≤ ((2 ^ 53 - 1 : ℤ) : ℚ) := by
      rw [abs_div, abs_of_pos hp, div_le_iff₀ hp, h971, ← top_eq]
      exact h
    have hk' := roundEven_le hb'
    refine ⟨⟨_, ulp q, by omega, hu', hu, rfl⟩, ?_⟩
    unfold F64.rnd
    rw [abs_mul, abs_of_pos hp, ← Int.cast_abs, top_eq]
    rw [h971] at hk' ⊢
    exact mul_le_mul_of_nonneg_right (by exact_mod_cast hk') (zpow2_pos 971).le
  · have hle : |F64.rnd q| ≤ top := by
      unfold F64.rnd
      rw [abs_mul, abs_of_pos hp, ← Int.cast_abs]
      have h1 : ((|roundEven (q / 2 ^ ulp q)| : ℤ) : ℚ) ≤ 2 ^ 53 := by exact_mod_cast hk
      have h2 : (2 : ℚ) ^ ulp q ≤ 2 ^ (970 : ℤ) := zpow2_mono (by omega)
      have h3 : (2 : ℚ) ^ (971 : ℤ) = 2 * 2 ^ (970 : ℤ) := by
        rw [show (971 : ℤ) = 1 + 970 from rfl, zpow2_add, zpow_one]
      unfold top
      rw [h3]
      have := zpow2_pos 970
      calc _ ≤ (2 : ℚ) ^ 53 * 2 ^ (970 : ℤ) := by gcongr
        _ ≤ _ := by
          generalize (2 : ℚ) ^ (970 : ℤ) = t at this
          norm_num
          linarith
    refine ⟨?_, hle⟩
    by_cases hk53 : |roundEven (q / 2 ^ ulp q)| = 2 ^ 53
    · rcases abs_eq (by norm_num) |>.1 hk53 with h' | h'
      · refine ⟨2 ^ 52, ulp q + 1, by norm_num, by omega, by omega, ?_⟩
        unfold F64.rnd
        rw [h', zpow2_add, zpow_one]
        push_cast
        ring
      · refine ⟨-2 ^ 52, ulp q + 1, by norm_num, by omega, by omega, ?_⟩
        unfold F64.rnd
        rw [h', zpow2_add, zpow_one]
        push_cast
        ring
    · exact ⟨_, ulp q, lt_of_le_of_ne hk hk53, hu', hu, rfl⟩

end F64

/-- Values of the type `f64`. -/
inductive F64
  | fin (q : ℚ)
  | inf (neg : Bool)
  | nan
  deriving DecidableEq

namespace F64

/-- The result of an operation with the exact value `q`. -/
def of (q : ℚ) : F64 := if |rnd q| ≤ top then fin (rnd q) else inf (q < 0)

protected def add : F64 → F64 → F64
  | fin x, fin y => of (x + y)
  | nan, _ => nan
  | _, nan => nan
  | inf s, inf t => if s = t then inf s else nan
  | inf s, fin _ => inf s
  | fin _, inf t => inf t

protected def mul : F64 → F64 → F64
  | fin x, fin y => of (x * y)
  | nan, _ => nan
  | _, nan => nan
  | inf s, inf t => inf (s ^^ t)
  | inf s, fin y => if y = 0 then nan else inf (s ^^ (y < 0))
  | fin x, inf t => if x = 0 then nan else inf ((x < 0) ^^ t)

instance : Zero F64 := ⟨fin 0⟩
instance : Add F64 := ⟨F64.add⟩
instance : Mul F64 := ⟨F64.mul⟩

/-- Fused multiply-add: finite products are not rounded. -/
protected def mulAdd : F64 → F64 → F64 → F64
  | fin x, fin y, fin z => of (x * y + z)
  | fin _, fin _, z => z
  | x, y, z => x * y + z

instance : MulAdd F64 := ⟨F64.mulAdd⟩

/-- The value of a finite number. -/
def val : F64 → ℚ
  | fin q => q
  | _ => 0

/-- Neither infinite nor NaN. -/
def Finite : F64 → Prop
  | fin q => Representable q
  | _ => False

theorem of_representable {q : ℚ} (h : |q| ≤ top) : of q = fin (rnd q) ∧ (of q).Finite := by
  have := rnd_representable h
  unfold of
  rw [if_pos this.2]
  exact ⟨rfl, this.1⟩

theorem Representable.le_top {q : ℚ} (h : Representable q) : |q| ≤ top := by
  obtain ⟨m, e, h1, h2, h3, rfl⟩ := h
  rw [abs_mul, abs_of_pos (zpow2_pos e), top_eq, ← Int.cast_abs]
  have a1 : ((|m| : ℤ) : ℚ) ≤ ((2 ^ 53 - 1 : ℤ) : ℚ) := by exact_mod_cast (by omega : |m| ≤ 2 ^ 53 - 1)
  have a2 := zpow2_mono h3
  have := zpow2_pos e
  gcongr

theorem mulAdd_near {x y z : F64} (hx : x.Finite) (hy : y.Finite) (hz : z.Finite) (h : |x.val * y.val + z.val| ≤ top) :
    (Einsum.mulAdd x y z).Finite ∧ |(Einsum.mulAdd x y z).val - (x.val * y.val + z.val)| ≤
      2⁻¹ ^ 53 * |x.val * y.val + z.val| + 2⁻¹ ^ 1075 := by
  rcases x with x | _ | _ <;> try exact hx.elim
  rcases y with y | _ | _ <;> try exact hy.elim
  rcases z with z | _ | _ <;> try exact hz.elim
  change Finite (of (x * y + z)) ∧ |val (of (x * y + z)) - (x * y + z)| ≤ _
  obtain ⟨h1, h2⟩ := of_representable h
  simp only [val] at h1 h2 ⊢
  refine ⟨h2, ?_⟩
  rw [h1]
  exact rnd_error _

theorem floating : Floating Finite val (2⁻¹ ^ 53) (2⁻¹ ^ 1075) top where
  nonneg := ⟨by positivity, by positivity⟩
  zero := ⟨⟨0, 0, by norm_num, by norm_num, by norm_num, by simp⟩, rfl⟩
  add := by
    rintro (x | _ | _) (y | _ | _) hx hy h <;> try exact hx.elim
    all_goals try exact hy.elim
    change Finite (of (x + y)) ∧ |val (of (x + y)) - (x + y)| ≤ _
    obtain ⟨h1, h2⟩ := of_representable h
    simp only [val] at h1 h2 ⊢
    refine ⟨h2, ?_⟩
    rw [h1]
    exact rnd_add hx hy
  mul := by
    rintro (x | _ | _) (y | _ | _) hx hy h <;> try exact hx.elim
    all_goals try exact hy.elim
    change Finite (of (x * y)) ∧ |val (of (x * y)) - (x * y)| ≤ _
    obtain ⟨h1, h2⟩ := of_representable h
    simp only [val] at h1 h2 ⊢
    refine ⟨h2, ?_⟩
    rw [h1]
    exact rnd_error _
  mulAdd := fun _ _ _ hx hy hz => .inr (mulAdd_near hx hy hz)
  zero_add := by
    rintro (x | _ | _) (y | _ | _) hx hy h <;> try exact hx.elim
    all_goals try exact hy.elim
    change Finite (of (x + y)) ∧ val (of (x + y)) = y
    rw [show x = 0 from h, zero_add]
    obtain ⟨h1, h2⟩ := of_representable (Representable.le_top hy)
    exact ⟨h2, by rw [h1]; exact Representable.rnd hy⟩
  add_zero := by
    rintro (x | _ | _) (y | _ | _) hx hy h <;> try exact hx.elim
    all_goals try exact hy.elim
    change Finite (of (x + y)) ∧ val (of (x + y)) = x
    rw [show y = 0 from h, add_zero]
    obtain ⟨h1, h2⟩ := of_representable (Representable.le_top hx)
    exact ⟨h2, by rw [h1]; exact Representable.rnd hx⟩

end F64

end Einsum
