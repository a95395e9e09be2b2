import Verif.SpecExpr
import Verif.Spec
import Mathlib.Algebra.Polynomial.Degree.Lemmas
import Mathlib.Algebra.Polynomial.Eval.Degree
import Mathlib.Algebra.Polynomial.Degree.Operations
import Mathlib.Tactic.Linarith
import Mathlib.Tactic.Ring

/-!
# The error of an expression evaluated with rounding

`Expr.eval (fun _ => X)` in ℕ[X] tells how many terms an expression has and how many factors each.
-/

namespace Einsum

open Spec Polynomial

theorem natDegree_le_add_left (p q : ℕ[X]) : p.natDegree ≤ (p + q).natDegree := by
  by_cases hp : p = 0
  · simp [hp]
  · apply le_natDegree_of_ne_zero
    have : p.coeff p.natDegree ≠ 0 := by rw [coeff_natDegree]; exact leadingCoeff_ne_zero.2 hp
    rw [coeff_add]
    omega

variable {F K : Type} [Zero F] [Add F] [Mul F] [MulAdd F] [Field K] [LinearOrder K] [IsStrictOrderedRing K]

/-- Number of roundings for a polynomial: (terms - 1) + (factors - 1). -/
noncomputable def steps (p : ℕ[X]) : ℕ := p.eval 1 + p.natDegree - 2

theorem pow_bound_mono {u : K} (hu : 0 ≤ u) {a b : ℕ} (h : a ≤ b) : (1 + u) ^ a ≤ (1 + u) ^ b :=
  pow_le_pow_right₀ (by linarith) h

theorem add_bound {u g1 g2 G v1 v2 x1 x2 m1 m2 v : K} (hu : 0 ≤ u) (h1 : |v1 - x1| ≤ (g1 - 1) * m1)
    (h2 : |v2 - x2| ≤ (g2 - 1) * m2) (hx1 : |x1| ≤ m1) (hx2 : |x2| ≤ m2) (hv : |v - (v1 + v2)| ≤ u * |v1 + v2|)
    (hg1 : (1 + u) * g1 ≤ G) (hg2 : (1 + u) * g2 ≤ G) : |v - (x1 + x2)| ≤ (G - 1) * (m1 + m2) := by
  have a1 : |v - (x1 + x2)| ≤ |v - (v1 + v2)| + (|v1 - x1| + |v2 - x2|) := by
    have : v - (x1 + x2) = (v - (v1 + v2)) + ((v1 - x1) + (v2 - x2)) := by ring
    rw [this]
    exact (abs_add_le _ _).trans (by gcongr; exact abs_add_le _ _)
  have a2 : |v1 + v2| ≤ (|v1 - x1| + |x1|) + (|v2 - x2| + |x2|) := by
    have : v1 + v2 = ((v1 - x1) + x1) + ((v2 - x2) + x2) := by ring
    rw [this]
    exact (abs_add_le _ _).trans (add_le_add (abs_add_le _ _) (abs_add_le _ _))
  have m1n : 0 ≤ m1 := (abs_nonneg _).trans hx1
  have m2n : 0 ≤ m2 := (abs_nonneg _).trans hx2
  have a3 : |v1 + v2| ≤ g1 * m1 + g2 * m2 := by nlinarith
  have a4 : u * |v1 + v2| ≤ u * (g1 * m1 + g2 * m2) := by gcongr
  have b1 : (1 + u) * g1 * m1 ≤ G * m1 := by gcongr
  have b2 : (1 + u) * g2 * m2 ≤ G * m2 := by gcongr
  nlinarith

theorem mul_bound {u g1 g2 G v1 v2 x1 x2 m1 m2 v : K} (hu : 0 ≤ u) (h1 : |v1 - x1| ≤ (g1 - 1) * m1)
    (h2 : |v2 - x2| ≤ (g2 - 1) * m2) (hx1 : |x1| ≤ m1) (hx2 : |x2| ≤ m2) (hv : |v - v1 * v2| ≤ u * |v1 * v2|)
    (hG : (1 + u) * (g1 * g2) ≤ G) : |v - x1 * x2| ≤ (G - 1) * (m1 * m2) := by
  have m1n : 0 ≤ m1 := (abs_nonneg _).trans hx1
  have m2n : 0 ≤ m2 := (abs_nonneg _).trans hx2
  have n1 : |v1| ≤ g1 * m1 := by
    have : |v1| ≤ |v1 - x1| + |x1| := by
      have e : v1 = (v1 - x1) + x1 := by ring
      calc |v1| = |(v1 - x1) + x1| := by rw [← e]
        _ ≤ _ := abs_add_le _ _
    linarith
  have n2 : |v2| ≤ g2 * m2 := by
    have : |v2| ≤ |v2 - x2| + |x2| := by
      have e : v2 = (v2 - x2) + x2 := by ring
      calc |v2| = |(v2 - x2) + x2| := by rw [← e]
        _ ≤ _ := abs_add_le _ _
    linarith
  have a1 : |v - x1 * x2| ≤ |v - v1 * v2| + (|v1 - x1| * |x2| + |v1| * |v2 - x2|) := by
    have : v - x1 * x2 = (v - v1 * v2) + ((v1 - x1) * x2 + v1 * (v2 - x2)) := by ring
    rw [this, ← abs_mul, ← abs_mul]
    exact (abs_add_le _ _).trans (by gcongr; exact abs_add_le _ _)
  have a2 : |v1 * v2| ≤ g1 * m1 * (g2 * m2) := by
    rw [abs_mul]
    exact mul_le_mul n1 n2 (abs_nonneg _) ((abs_nonneg _).trans n1)
  have a3 : u * |v1 * v2| ≤ u * (g1 * m1 * (g2 * m2)) := by gcongr
  have a4 : |v1 - x1| * |x2| ≤ (g1 - 1) * m1 * m2 :=
    mul_le_mul h1 hx2 (abs_nonneg _) ((abs_nonneg _).trans h1)
  have a5 : |v1| * |v2 - x2| ≤ g1 * m1 * ((g2 - 1) * m2) :=
    mul_le_mul n1 h2 (abs_nonneg _) ((abs_nonneg _).trans n1)
  have b1 : (1 + u) * (g1 * g2) * (m1 * m2) ≤ G * (m1 * m2) := by gcongr
  nlinarith

/-- `v` approximates `x`, a sum of products as counted by `p`, whose absolute values give `m`. -/
def Approx (u : K) (p : ℕ[X]) (v x m : K) : Prop :=
  |x| ≤ m ∧ ((p = 0 ∧ v = 0 ∧ x = 0 ∧ m = 0) ∨
    (1 ≤ p.natDegree ∧ 1 ≤ p.eval 1 ∧ |v - x| ≤ ((1 + u) ^ steps p - 1) * m))

theorem Approx.add {u : K} (hu : 0 ≤ u) {p q : ℕ[X]} {v w x y m n z : K} (ha : Approx u p v x m) (hb : Approx u q w y n)
    (h : |z - (v + w)| ≤ u * |v + w|) (h0 : v = 0 → z = w) (h0' : w = 0 → z = v) :
    Approx u (p + q) z (x + y) (m + n) := by
  obtain ⟨xa, ha⟩ := ha
  obtain ⟨xb, hb⟩ := hb
  refine ⟨(abs_add_le _ _).trans (add_le_add xa xb), ?_⟩
  rcases ha with ⟨pa, va, xa0, ma⟩ | ⟨da, la, ea⟩
  · rw [h0 va, pa, xa0, ma]
    simp only [zero_add]
    exact hb
  · rcases hb with ⟨pb, vb, xb0, mb⟩ | ⟨db, lb, eb⟩
    · rw [h0' vb, pb, xb0, mb]
      simp only [add_zero]
      exact .inr ⟨da, la, ea⟩
    · have d1 := natDegree_le_add_left p q
      have d2 := natDegree_le_add_left q p
      rw [add_comm q] at d2
      refine .inr ⟨by omega, by rw [eval_add]; omega, ?_⟩
      refine add_bound hu ea eb xa xb h ?_ ?_
      · rw [← pow_succ']
        exact pow_bound_mono hu (by simp only [steps, eval_add]; omega)
      · rw [← pow_succ']
        exact pow_bound_mono hu (by simp only [steps, eval_add]; omega)

/-- Products: `z` is `v * w` up to the error `u`. -/
theorem Approx.mul {u : K} (hu : 0 ≤ u) {p q : ℕ[X]} {v w x y m n z : K} (ha : Approx u p v x m) (hb : Approx u q w y n)
    (h : |z - v * w| ≤ u * |v * w|) : Approx u (p * q) z (x * y) (m * n) := by
  obtain ⟨xa, ha⟩ := ha
  obtain ⟨xb, hb⟩ := hb
  refine ⟨by rw [abs_mul]; exact mul_le_mul xa xb (abs_nonneg _) ((abs_nonneg _).trans xa), ?_⟩
  rcases ha with ⟨pa, va, xa0, ma⟩ | ⟨da, la, ea⟩
  · rw [va] at h
    rw [pa, xa0, ma]
    simp only [zero_mul, abs_zero, mul_zero, sub_zero] at h ⊢
    exact .inl ⟨trivial, abs_nonpos_iff.1 h, trivial, trivial⟩
  · rcases hb with ⟨pb, vb, xb0, mb⟩ | ⟨db, lb, eb⟩
    · rw [vb] at h
      rw [pb, xb0, mb]
      simp only [abs_zero, mul_zero, sub_zero] at h ⊢
      exact .inl ⟨trivial, abs_nonpos_iff.1 h, trivial, trivial⟩
    · have na : p ≠ 0 := by intro h; rw [h] at da; simp at da
      have nb : q ≠ 0 := by intro h; rw [h] at db; simp at db
      have hd := natDegree_mul na nb
      refine .inr ⟨by omega, ?_, ?_⟩
      · rw [eval_mul]; exact Nat.mul_pos la lb
      · refine mul_bound hu ea eb xa xb h ?_
        rw [← pow_add, ← pow_succ']
        refine pow_bound_mono hu ?_
        simp only [steps, eval_mul, hd]
        obtain ⟨i, hi⟩ := Nat.exists_eq_add_of_le la
        obtain ⟨j, hj⟩ := Nat.exists_eq_add_of_le lb
        rw [hi, hj]
        have : (1 + i) * (1 + j) = 1 + i + j + i * j := by ring
        rw [this]
        omega

/-- Fused multiply-add: as if the product were exact. -/
theorem Approx.mulAdd {u : K} (hu : 0 ≤ u) {p q r : ℕ[X]} {v w t x y s m n o z : K} (ha : Approx u p v x m)
    (hb : Approx u q w y n) (hc : Approx u r t s o) (h : |z - (v * w + t)| ≤ u * |v * w + t|)
    (h0 : v * w = 0 → z = t) : Approx u (p * q + r) z (x * y + s) (m * n + o) := by
  rcases hc.2 with ⟨pc, vc, xc0, mc⟩ | -
  · rw [pc, xc0, mc, add_zero, add_zero, add_zero]
    rw [vc, add_zero] at h
    exact ha.mul hu hb h
  · by_cases ht : t = 0
    · -- the product is rounded to `z`
      have hz : Approx u (p * q) z (x * y) (m * n) := ha.mul hu hb (by rw [ht, add_zero] at h; exact h)
      refine hz.add hu hc ?_ (fun h' => ?_) fun _ => rfl
      · rw [ht]; simp; positivity
      · rw [ht, h']
    · have hw : Approx u (p * q) (v * w) (x * y) (m * n) := ha.mul hu hb (by rw [sub_self, abs_zero]; positivity)
      exact hw.add hu hc h h0 fun h' => absurd h' ht

/-- The error bound for any expression. -/
theorem expr_error {val : F → K} {u : K} (hr : Rounded val u) (e : Expr F) :
    Approx u (e.eval fun _ => (X : ℕ[X])) (val (e.eval id)) (e.eval val) (e.eval fun a => |val a|) := by
  have hu := hr.nonneg
  induction e with
  | var a =>
    refine ⟨le_rfl, .inr ?_⟩
    simp [Expr.eval, steps]
  | zero => exact ⟨by simp [Expr.eval], .inl ⟨rfl, hr.zero, rfl, rfl⟩⟩
  | add a b iha ihb => exact iha.add hu ihb (hr.add _ _) (hr.zero_add _ _) (hr.add_zero _ _)
  | mul a b iha ihb => exact iha.mul hu ihb (hr.mul _ _)
  | mulAdd a b c iha ihb ihc =>
    rcases hr.mulAdd (a.eval id) (b.eval id) (c.eval id) with h | ⟨h1, h2⟩
    · have := (iha.mul hu ihb (hr.mul _ _)).add hu ihc (hr.add _ _) (hr.zero_add _ _) (hr.add_zero _ _)
      rw [← h] at this
      exact this
    · exact iha.mulAdd hu ihb ihc h1 h2

end Einsum
