import Verif.Proofs.Rounding
import Mathlib.Tactic.Positivity
import Mathlib.Tactic.GCongr

/-!
# Errors of expressions in the presence of underflow and overflow
-/

namespace Einsum

open Spec Polynomial

variable {K : Type} [Field K] [LinearOrder K] [IsStrictOrderedRing K]

/-- Bound for the magnitude of a value computed with `s` roundings, `m` the value with absolute values in place of the
elements, `w` the value with the weights `max 1 |t|`. -/
def mag (u e : K) (s : ℕ) (m w : K) : K := (1 + u) ^ s * m + ((1 + u + e) ^ s - (1 + u) ^ s) * w

section
variable {u e : K} (hu : 0 ≤ u) (he : 0 ≤ e)
include hu he

theorem pow_gap (s : ℕ) : (1 + u) ^ s ≤ (1 + u + e) ^ s :=
  pow_le_pow_left₀ (by linarith) (by linarith) s

theorem one_le_big (s : ℕ) : 1 ≤ (1 + u + e) ^ s := one_le_pow₀ (by linarith)

theorem pow_gap_succ (s : ℕ) : (1 + u) * ((1 + u + e) ^ s - (1 + u) ^ s) ≤ (1 + u + e) ^ (s + 1) - (1 + u) ^ (s + 1) := by
  have := one_le_big hu he s
  rw [pow_succ, pow_succ]
  nlinarith [mul_nonneg he (zero_le_one.trans this)]

theorem pow_gap_mono {s t : ℕ} (h : s ≤ t) :
    (1 + u + e) ^ s - (1 + u) ^ s ≤ (1 + u + e) ^ t - (1 + u) ^ t := by
  induction h with
  | refl => exact le_rfl
  | @step t _ ih =>
    have h1 := pow_gap_succ hu he t
    have h2 := mul_nonneg hu (sub_nonneg.2 (pow_gap hu he t))
    exact ih.trans (by rw [Nat.succ_eq_add_one]; linarith)

theorem mag_mono {s t : ℕ} (h : s ≤ t) {m w : K} (hm : 0 ≤ m) (hw : 0 ≤ w) : mag u e s m w ≤ mag u e t m w := by
  unfold mag
  have h1 := pow_gap_mono hu he h
  have h2 := pow_bound_mono hu h
  gcongr

omit he in
theorem mag_le {s : ℕ} {m w : K} (hmw : m ≤ w) : mag u e s m w ≤ (1 + u + e) ^ s * w := by
  unfold mag
  have : 0 ≤ (1 + u) ^ s := by positivity
  nlinarith

theorem mag_succ (s : ℕ) {m w : K} (hw : 0 ≤ w) : (1 + u) * mag u e s m w ≤ mag u e (s + 1) m w := by
  unfold mag
  have h1 := mul_le_mul_of_nonneg_right (pow_gap_succ hu he s) hw
  calc _ = (1 + u) ^ (s + 1) * m + (1 + u) * ((1 + u + e) ^ s - (1 + u) ^ s) * w := by ring
    _ ≤ _ := by linarith

theorem mag_mul (s t : ℕ) {m w n z : K} (hmw : m ≤ w) (hnz : n ≤ z) (hw : 1 ≤ w) (hz : 1 ≤ z) :
    (1 + u) * (mag u e s m w * mag u e t n z) + e ≤ mag u e (s + t + 1) (m * n) (w * z) := by
  unfold mag
  have g1 : 0 ≤ (1 + u) ^ s := by positivity
  have g2 : 0 ≤ (1 + u) ^ t := by positivity
  have d1 := sub_nonneg.2 (pow_gap hu he s)
  have d2 := sub_nonneg.2 (pow_gap hu he t)
  have o1 := one_le_big hu he s
  have o2 := one_le_big hu he t
  rw [pow_succ, pow_succ, pow_add, pow_add]
  generalize (1 + u) ^ s = g at *
  generalize (1 + u) ^ t = g' at *
  generalize (1 + u + e) ^ s = k at *
  generalize (1 + u + e) ^ t = k' at *
  have w0 : 0 ≤ w := by linarith
  have z0 : 0 ≤ z := by linarith
  have a1 : g * m * ((k' - g') * z) ≤ g * w * ((k' - g') * z) := by gcongr
  have a2 : (k - g) * w * (g' * n) ≤ (k - g) * w * (g' * z) := by gcongr
  have a3 : 1 ≤ k * k' * (w * z) := by
    have h1 : 1 ≤ k * k' := one_le_mul_of_one_le_of_one_le o1 o2
    have h2 : 1 ≤ w * z := one_le_mul_of_one_le_of_one_le hw hz
    exact one_le_mul_of_one_le_of_one_le h1 h2
  have a4 : e * 1 ≤ e * (k * k' * (w * z)) := by gcongr
  have a5 : (g * m + (k - g) * w) * (g' * n + (k' - g') * z) ≤ g * g' * (m * n) + (k * k' - g * g') * (w * z) := by
    nlinarith
  have a6 : (1 + u) * ((g * m + (k - g) * w) * (g' * n + (k' - g') * z)) ≤
      (1 + u) * (g * g' * (m * n) + (k * k' - g * g') * (w * z)) := by gcongr
  nlinarith

end

theorem steps_mul {p q : ℕ[X]} (d1 : 1 ≤ p.natDegree) (o1 : 1 ≤ p.eval 1) (d2 : 1 ≤ q.natDegree) (o2 : 1 ≤ q.eval 1) :
    steps p + steps q + 1 ≤ steps (p * q) ∧ 1 ≤ (p * q).natDegree ∧ 1 ≤ (p * q).eval 1 := by
  have na : p ≠ 0 := by rintro rfl; simp at d1
  have nb : q ≠ 0 := by rintro rfl; simp at d2
  have hd := natDegree_mul na nb
  refine ⟨?_, by omega, by rw [eval_mul]; exact Nat.mul_pos o1 o2⟩
  simp only [steps, eval_mul, hd]
  obtain ⟨i, hi⟩ := Nat.exists_eq_add_of_le o1
  obtain ⟨j, hj⟩ := Nat.exists_eq_add_of_le o2
  rw [hi, hj]
  have : (1 + i) * (1 + j) = 1 + i + j + i * j := by ring
  rw [this]
  omega

theorem steps_add {p q : ℕ[X]} (e1 : 1 ≤ p.natDegree) (o1 : 1 ≤ p.eval 1) (e2 : 1 ≤ q.natDegree) (o2 : 1 ≤ q.eval 1) :
    steps p + 1 ≤ steps (p + q) ∧ steps q + 1 ≤ steps (p + q) ∧ 1 ≤ (p + q).natDegree ∧ 1 ≤ (p + q).eval 1 := by
  have d1 := natDegree_le_add_left p q
  have d2 := natDegree_le_add_left q p
  rw [add_comm q] at d2
  simp only [steps, eval_add]
  omega

/-- `v` approximates `x`, a sum of products as counted by `p`; with the absolute values of the elements the value is `m`,
with their weights `w`. -/
structure Within (u e : K) (p : ℕ[X]) (v x m w : K) : Prop where
  deg : 1 ≤ p.natDegree
  one : 1 ≤ p.eval 1
  abs : |x| ≤ m
  le : m ≤ w
  ge : 1 ≤ w
  err : |v - x| ≤ mag u e (steps p) m w - m

namespace Within

variable {u e : K} {p q r : ℕ[X]} {v x m w v' x' m' w' v'' x'' m'' w'' z : K}

theorem mag_bound (h : Within u e p v x m w) : |v| ≤ mag u e (steps p) m w := by
  have : |v| ≤ |v - x| + |x| := by
    calc |v| = |(v - x) + x| := by ring_nf
      _ ≤ _ := abs_add_le _ _
  linarith [h.err, h.abs]

omit [IsStrictOrderedRing K] in
theorem steps_mul (h : Within u e p v x m w) (h' : Within u e q v' x' m' w') :
    steps p + steps q + 1 ≤ steps (p * q) ∧ 1 ≤ (p * q).natDegree ∧ 1 ≤ (p * q).eval 1 :=
  Einsum.steps_mul h.deg h.one h'.deg h'.one

omit [IsStrictOrderedRing K] in
theorem steps_add (h : Within u e p v x m w) (h' : Within u e q v' x' m' w') :
    steps p + 1 ≤ steps (p + q) ∧ steps q + 1 ≤ steps (p + q) ∧ 1 ≤ (p + q).natDegree ∧ 1 ≤ (p + q).eval 1 :=
  Einsum.steps_add h.deg h.one h'.deg h'.one

theorem prod_err (h : Within u e p v x m w) (h' : Within u e q v' x' m' w') :
    |v * v' - x * x'| ≤ mag u e (steps p) m w * mag u e (steps q) m' w' - m * m' := by
  have a1 : |v * v' - x * x'| ≤ |v - x| * |x'| + |v| * |v' - x'| := by
    have : v * v' - x * x' = (v - x) * x' + v * (v' - x') := by ring
    rw [this, ← abs_mul, ← abs_mul]
    exact abs_add_le _ _
  have a2 : |v - x| * |x'| ≤ (mag u e (steps p) m w - m) * m' :=
    mul_le_mul h.err h'.abs (abs_nonneg _) ((abs_nonneg _).trans h.err)
  have a3 : |v| * |v' - x'| ≤ mag u e (steps p) m w * (mag u e (steps q) m' w' - m') :=
    mul_le_mul h.mag_bound h'.err (abs_nonneg _) ((abs_nonneg _).trans h.mag_bound)
  nlinarith

theorem prod_mag (h : Within u e p v x m w) (h' : Within u e q v' x' m' w') :
    |v * v'| ≤ mag u e (steps p) m w * mag u e (steps q) m' w' := by
  rw [abs_mul]
  exact mul_le_mul h.mag_bound h'.mag_bound (abs_nonneg _) ((abs_nonneg _).trans h.mag_bound)

theorem m_nonneg (h : Within u e p v x m w) : 0 ≤ m := (abs_nonneg _).trans h.abs

theorem w_nonneg (h : Within u e p v x m w) : 0 ≤ w := zero_le_one.trans h.ge

variable (hu : 0 ≤ u) (he : 0 ≤ e)
include hu he

/-- Bound for the product with one rounding more. -/
theorem prod_step (h : Within u e p v x m w) (h' : Within u e q v' x' m' w') {s : ℕ} (hs : steps p + steps q + 1 ≤ s) :
    (1 + u) * (mag u e (steps p) m w * mag u e (steps q) m' w') + e ≤ mag u e s (m * m') (w * w') :=
  (mag_mul hu he _ _ h.le h'.le h.ge h'.ge).trans
    (mag_mono hu he hs (mul_nonneg h.m_nonneg h'.m_nonneg) (mul_nonneg h.w_nonneg h'.w_nonneg))

theorem mul (h : Within u e p v x m w) (h' : Within u e q v' x' m' w')
    (hz : |z - v * v'| ≤ u * |v * v'| + e) : Within u e (p * q) z (x * x') (m * m') (w * w') := by
  obtain ⟨s1, s2, s3⟩ := h.steps_mul h'
  refine ⟨s2, s3, ?_, mul_le_mul h.le h'.le h'.m_nonneg h.w_nonneg, one_le_mul_of_one_le_of_one_le h.ge h'.ge, ?_⟩
  · rw [abs_mul]; exact mul_le_mul h.abs h'.abs (abs_nonneg _) h.m_nonneg
  · have h1 := h.prod_err h'
    have h2 := h.prod_step hu he h' s1
    have h3 := mul_le_mul_of_nonneg_left (h.prod_mag h') hu
    have h4 : |z - x * x'| ≤ |z - v * v'| + |v * v' - x * x'| := abs_sub_le _ _ _
    linarith

theorem add (h : Within u e p v x m w) (h' : Within u e q v' x' m' w')
    (hz : |z - (v + v')| ≤ u * |v + v'|) : Within u e (p + q) z (x + x') (m + m') (w + w') := by
  obtain ⟨s1, s1', s2, s3⟩ := h.steps_add h'
  refine ⟨s2, s3, (abs_add_le _ _).trans (add_le_add h.abs h'.abs), add_le_add h.le h'.le,
    by linarith [h.ge, h'.w_nonneg], ?_⟩
  have e1 := (mag_succ hu he _ h.w_nonneg (m := m)).trans (mag_mono hu he s1 h.m_nonneg h.w_nonneg)
  have e2 := (mag_succ hu he _ h'.w_nonneg (m := m')).trans (mag_mono hu he s1' h'.m_nonneg h'.w_nonneg)
  have e3 : mag u e (steps (p + q)) (m + m') (w + w') =
      mag u e (steps (p + q)) m w + mag u e (steps (p + q)) m' w' := by unfold mag; ring
  have e4 : |v + v'| ≤ mag u e (steps p) m w + mag u e (steps q) m' w' :=
    (abs_add_le _ _).trans (add_le_add h.mag_bound h'.mag_bound)
  have e5 := mul_le_mul_of_nonneg_left e4 hu
  have e6 : |z - (x + x')| ≤ |z - (v + v')| + (|v - x| + |v' - x'|) := by
    have : z - (x + x') = (z - (v + v')) + ((v - x) + (v' - x')) := by ring
    rw [this]
    exact (abs_add_le _ _).trans (by gcongr; exact abs_add_le _ _)
  have := h.err
  have := h'.err
  rw [e3]
  linarith

/-- Fused multiply-add. -/
theorem mulAdd (h : Within u e p v x m w) (h' : Within u e q v' x' m' w') (h'' : Within u e r v'' x'' m'' w'')
    (hz : |z - (v * v' + v'')| ≤ u * |v * v' + v''| + e) :
    Within u e (p * q + r) z (x * x' + x'') (m * m' + m'') (w * w' + w'') := by
  have hp := h.mul hu he h' (z := v * v') (by rw [sub_self, abs_zero]; positivity)
  obtain ⟨t1, -, -⟩ := h.steps_mul h'
  obtain ⟨s1, s1', s2, s3⟩ := hp.steps_add h''
  refine ⟨s2, s3, (abs_add_le _ _).trans (add_le_add hp.abs h''.abs), add_le_add hp.le h''.le,
    by linarith [hp.ge, h''.w_nonneg], ?_⟩
  have e1 := h.prod_step hu he h' (show steps p + steps q + 1 ≤ steps (p * q + r) by omega)
  have e2 := (mag_succ hu he _ h''.w_nonneg (m := m'')).trans (mag_mono hu he s1' h''.m_nonneg h''.w_nonneg)
  have e3 : mag u e (steps (p * q + r)) (m * m' + m'') (w * w' + w'') =
      mag u e (steps (p * q + r)) (m * m') (w * w') + mag u e (steps (p * q + r)) m'' w'' := by unfold mag; ring
  have e4 : |v * v' + v''| ≤ mag u e (steps p) m w * mag u e (steps q) m' w' + mag u e (steps r) m'' w'' :=
    (abs_add_le _ _).trans (add_le_add (h.prod_mag h') h''.mag_bound)
  have e5 := mul_le_mul_of_nonneg_left e4 hu
  have e6 : |z - (x * x' + x'')| ≤ |z - (v * v' + v'')| + (|v * v' - x * x'| + |v'' - x''|) := by
    have : z - (x * x' + x'') = (z - (v * v' + v'')) + ((v * v' - x * x') + (v'' - x'')) := by ring
    rw [this]
    exact (abs_add_le _ _).trans (by gcongr; exact abs_add_le _ _)
  have := h.prod_err h'
  have := h''.err
  rw [e3]
  linarith

/-- The product does not overflow. -/
theorem mul_le (h : Within u e p v x m w) (h' : Within u e q v' x' m' w') {s : ℕ} (hs : steps (p * q) ≤ s) :
    |v * v'| ≤ (1 + u + e) ^ s * (w * w') := by
  obtain ⟨t1, -, -⟩ := h.steps_mul h'
  have e1 := h.prod_step hu he h' (t1.trans hs)
  have e2 := h.prod_mag h'
  have e3 := mag_le hu (e := e) (s := s) (mul_le_mul h.le h'.le h'.m_nonneg h.w_nonneg)
  have e4 := mul_nonneg hu ((abs_nonneg _).trans e2)
  linarith

/-- The sum does not overflow. -/
theorem add_le (h : Within u e p v x m w) (h' : Within u e q v' x' m' w') :
    |v + v'| ≤ (1 + u + e) ^ steps (p + q) * (w + w') := by
  have := (h.add hu he h' (z := v + v') (by rw [sub_self, abs_zero]; positivity))
  exact this.mag_bound.trans (mag_le hu this.le)

theorem mulAdd_le (h : Within u e p v x m w) (h' : Within u e q v' x' m' w') (h'' : Within u e r v'' x'' m'' w'') :
    |v * v' + v''| ≤ (1 + u + e) ^ steps (p * q + r) * (w * w' + w'') := by
  have := (h.mulAdd hu he h' h'' (z := v * v' + v'') (by rw [sub_self, abs_zero]; positivity))
  exact this.mag_bound.trans (mag_le hu this.le)

end Within

end Einsum
