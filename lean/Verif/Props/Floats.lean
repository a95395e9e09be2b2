import Verif.Props.TensordotLaws
import Verif.Proofs.Floats
import Verif.Proofs.Binary64

/-!
# Property C64: floats that overflow and underflow
-/

namespace Einsum

open Spec Polynomial

section
variable {F K : Type} [Zero F] [Add F] [Mul F] [MulAdd F] [Field K] [LinearOrder K] [IsStrictOrderedRing K]

omit [IsStrictOrderedRing K] in
theorem Spec.Expr.IsZ.floating {good : F → Prop} {val : F → K} {u e W : K} (hf : Floating good val u e W) {x : Expr F}
    (h : x.IsZ) : good (x.eval id) ∧ val (x.eval id) = 0 := by
  induction x with
  | var x => exact h.elim
  | zero => exact hf.zero
  | add a b iha ihb =>
    obtain ⟨a1, a2⟩ := iha h.1
    obtain ⟨b1, b2⟩ := ihb h.2
    have := hf.zero_add _ _ a1 b1 a2
    rw [b2] at this
    exact this
  | mul a b => exact h.elim
  | mulAdd a b c => exact h.elim

/-- The absolute value of an element, but at least one. -/
def weightAbs (val : F → K) (x : F) : K := max 1 |val x|

omit [Zero F] [Add F] [Mul F] [MulAdd F] in
theorem Spec.Expr.IsP.counts (val : F → K) {x : Expr F} (h : x.IsP) :
    1 ≤ (x.eval fun _ => (X : ℕ[X])).natDegree ∧ 1 ≤ (x.eval fun _ => (X : ℕ[X])).eval 1 ∧
      1 ≤ x.eval (weightAbs val) := by
  induction x with
  | var x => exact ⟨by simp [Expr.eval], by simp [Expr.eval], le_max_left _ _⟩
  | zero => exact h.elim
  | add a b iha ihb =>
    simp only [Expr.eval]
    rcases h with ⟨h1, h2⟩ | ⟨h1, h2⟩ | ⟨h1, h2⟩
    · rw [h1.eval, h1.eval, zero_add, zero_add]; exact ihb h2
    · rw [h2.eval, h2.eval, add_zero, add_zero]; exact iha h1
    · obtain ⟨a1, a2, a3⟩ := iha h1
      obtain ⟨b1, b2, b3⟩ := ihb h2
      obtain ⟨-, -, c1, c2⟩ := steps_add a1 a2 b1 b2
      exact ⟨c1, c2, by linarith⟩
  | mul a b iha ihb =>
    obtain ⟨a1, a2, a3⟩ := iha h.1
    obtain ⟨b1, b2, b3⟩ := ihb h.2
    obtain ⟨-, c1, c2⟩ := steps_mul a1 a2 b1 b2
    exact ⟨c1, c2, one_le_mul_of_one_le_of_one_le a3 b3⟩
  | mulAdd a b c iha ihb ihc =>
    obtain ⟨a1, a2, a3⟩ := iha h.1
    obtain ⟨b1, b2, b3⟩ := ihb h.2.1
    obtain ⟨-, d1, d2⟩ := steps_mul a1 a2 b1 b2
    have d3 := one_le_mul_of_one_le_of_one_le a3 b3
    change 1 ≤ (a.eval (fun _ => (X : ℕ[X])) * b.eval (fun _ => (X : ℕ[X])) + c.eval fun _ => (X : ℕ[X])).natDegree ∧
      1 ≤ (a.eval (fun _ => (X : ℕ[X])) * b.eval (fun _ => (X : ℕ[X])) + c.eval fun _ => (X : ℕ[X])).eval 1 ∧
      1 ≤ a.eval (weightAbs val) * b.eval (weightAbs val) + c.eval (weightAbs val)
    rcases h.2.2 with h1 | h1
    · rw [h1.eval, h1.eval, add_zero, add_zero]; exact ⟨d1, d2, d3⟩
    · obtain ⟨c1, c2, c3⟩ := ihc h1
      obtain ⟨-, -, f1, f2⟩ := steps_add d1 d2 c1 c2
      exact ⟨f1, f2, by linarith⟩

/-- The error of an expression none of whose factors is a sum of no terms. -/
theorem Spec.Expr.IsP.floating {good : F → Prop} {val : F → K} {u e W : K} (hf : Floating good val u e W) {x : Expr F}
    (h : x.IsP) (hg : ∀ y, x.Has y → good y)
    (hW : (1 + u + e) ^ steps (x.eval fun _ => (X : ℕ[X])) * x.eval (weightAbs val) ≤ W) :
    good (x.eval id) ∧ Within u e (x.eval fun _ => (X : ℕ[X])) (val (x.eval id)) (x.eval val)
      (x.eval fun a => |val a|) (x.eval (weightAbs val)) := by
  obtain ⟨hu, he⟩ := hf.nonneg
  have smaller : ∀ {s t : ℕ} {w z : K}, s ≤ t → 1 ≤ w → w ≤ z → (1 + u + e) ^ s * w ≤ (1 + u + e) ^ t * z :=
    fun {s t w z} hs hw hz => by
      have h1 := one_le_big hu he s
      have h2 : (1 + u + e) ^ s ≤ (1 + u + e) ^ t := pow_le_pow_right₀ (by linarith) hs
      exact mul_le_mul h2 hz (by linarith) (by linarith)
  induction x with
  | var y =>
    refine ⟨hg y rfl, by simp [Expr.eval], by simp [Expr.eval], le_rfl, le_max_right _ _, le_max_left _ _, ?_⟩
    simp [Expr.eval, steps, mag]
  | zero => exact h.elim
  | add a b iha ihb =>
    simp only [Expr.eval] at hW ⊢
    rcases h with ⟨h1, h2⟩ | ⟨h1, h2⟩ | ⟨h1, h2⟩
    · simp only [h1.eval, zero_add] at hW ⊢
      obtain ⟨b1, b2⟩ := ihb h2 (fun x hh => hg x (.inr hh)) hW
      obtain ⟨a1, a2⟩ := h1.floating hf
      obtain ⟨c1, c2⟩ := hf.zero_add _ _ a1 b1 a2
      rw [c2]
      exact ⟨c1, b2⟩
    · simp only [h2.eval, add_zero] at hW ⊢
      obtain ⟨b1, b2⟩ := iha h1 (fun x hh => hg x (.inl hh)) hW
      obtain ⟨a1, a2⟩ := h2.floating hf
      obtain ⟨c1, c2⟩ := hf.add_zero _ _ b1 a1 a2
      rw [c2]
      exact ⟨c1, b2⟩
    · obtain ⟨n1, n2, n3⟩ := h1.counts val
      obtain ⟨m1, m2, m3⟩ := h2.counts val
      obtain ⟨s1, s2, -, -⟩ := steps_add n1 n2 m1 m2
      obtain ⟨a1, a2⟩ := iha h1 (fun x hh => hg x (.inl hh)) ((smaller (by omega) n3 (by linarith)).trans hW)
      obtain ⟨b1, b2⟩ := ihb h2 (fun x hh => hg x (.inr hh)) ((smaller (by omega) m3 (by linarith)).trans hW)
      obtain ⟨c1, c2⟩ := hf.add _ _ a1 b1 ((a2.add_le hu he b2).trans hW)
      exact ⟨c1, a2.add hu he b2 c2⟩
  | mul a b iha ihb =>
    simp only [Expr.eval] at hW ⊢
    obtain ⟨n1, n2, n3⟩ := h.1.counts val
    obtain ⟨m1, m2, m3⟩ := h.2.counts val
    obtain ⟨s1, -, -⟩ := steps_mul n1 n2 m1 m2
    obtain ⟨a1, a2⟩ := iha h.1 (fun x hh => hg x (.inl hh))
      ((smaller (by omega) n3 (le_mul_of_one_le_right (by linarith) m3)).trans hW)
    obtain ⟨b1, b2⟩ := ihb h.2 (fun x hh => hg x (.inr hh))
      ((smaller (by omega) m3 (le_mul_of_one_le_left (by linarith) n3)).trans hW)
    obtain ⟨c1, c2⟩ := hf.mul _ _ a1 b1 ((a2.mul_le hu he b2 le_rfl).trans hW)
    exact ⟨c1, a2.mul hu he b2 c2⟩
  | mulAdd a b c iha ihb ihc =>
    change (1 + u + e) ^ steps (a.eval (fun _ => (X : ℕ[X])) * b.eval (fun _ => (X : ℕ[X])) + c.eval fun _ => (X : ℕ[X])) *
      (a.eval (weightAbs val) * b.eval (weightAbs val) + c.eval (weightAbs val)) ≤ W at hW
    change good (Einsum.mulAdd (a.eval id) (b.eval id) (c.eval id)) ∧
      Within u e (a.eval (fun _ => (X : ℕ[X])) * b.eval (fun _ => (X : ℕ[X])) + c.eval fun _ => (X : ℕ[X]))
        (val (Einsum.mulAdd (a.eval id) (b.eval id) (c.eval id))) (a.eval val * b.eval val + c.eval val)
        (a.eval (fun a => |val a|) * b.eval (fun a => |val a|) + c.eval (fun a => |val a|))
        (a.eval (weightAbs val) * b.eval (weightAbs val) + c.eval (weightAbs val))
    obtain ⟨n1, n2, n3⟩ := h.1.counts val
    obtain ⟨m1, m2, m3⟩ := h.2.1.counts val
    obtain ⟨s1, t1, t2⟩ := steps_mul n1 n2 m1 m2
    have ab := one_le_mul_of_one_le_of_one_le n3 m3
    rcases h.2.2 with hc | hc
    · simp only [hc.eval, add_zero] at hW ⊢
      obtain ⟨a1, a2⟩ := iha h.1 (fun x hh => hg x (.inl hh))
        ((smaller (by omega) n3 (le_mul_of_one_le_right (by linarith) m3)).trans hW)
      obtain ⟨b1, b2⟩ := ihb h.2.1 (fun x hh => hg x (.inr (.inl hh)))
        ((smaller (by omega) m3 (le_mul_of_one_le_left (by linarith) n3)).trans hW)
      obtain ⟨c1, c2⟩ := hc.floating hf
      have hle := (a2.mul_le hu he b2 le_rfl).trans hW
      rcases hf.mulAdd _ _ _ a1 b1 c1 with h' | h'
      · rw [h']
        obtain ⟨d1, d2⟩ := hf.mul _ _ a1 b1 hle
        obtain ⟨e1, e2⟩ := hf.add_zero _ _ d1 c1 c2
        rw [e2]
        exact ⟨e1, a2.mul hu he b2 d2⟩
      · rw [c2, add_zero] at h'
        obtain ⟨d1, d2⟩ := h' hle
        exact ⟨d1, a2.mul hu he b2 d2⟩
    · obtain ⟨q1, q2, q3⟩ := hc.counts val
      obtain ⟨r1, r2, -, -⟩ := steps_add t1 t2 q1 q2
      have hab := le_mul_of_one_le_right (zero_le_one.trans n3) m3
      have hba := le_mul_of_one_le_left (zero_le_one.trans m3) n3
      obtain ⟨a1, a2⟩ := iha h.1 (fun x hh => hg x (.inl hh)) ((smaller (by omega) n3 (by linarith)).trans hW)
      obtain ⟨b1, b2⟩ := ihb h.2.1 (fun x hh => hg x (.inr (.inl hh))) ((smaller (by omega) m3 (by linarith)).trans hW)
      obtain ⟨c1, c2⟩ := ihc hc (fun x hh => hg x (.inr (.inr hh))) ((smaller (by omega) q3 (by linarith)).trans hW)
      rcases hf.mulAdd _ _ _ a1 b1 c1 with h' | h'
      · rw [h']
        obtain ⟨d1, d2⟩ := hf.mul _ _ a1 b1
          ((a2.mul_le hu he b2 le_rfl).trans ((smaller (by omega) ab (by linarith)).trans hW))
        have d3 := a2.mul hu he b2 d2
        obtain ⟨e1, e2⟩ := hf.add _ _ d1 c1 ((d3.add_le hu he c2).trans hW)
        exact ⟨e1, d3.add hu he c2 e2⟩
      · obtain ⟨d1, d2⟩ := h' ((a2.mulAdd_le hu he b2 c2).trans hW)
        exact ⟨d1, a2.mulAdd hu he b2 c2 d2⟩

theorem formal_floating {good : F → Prop} {val : F → K} {u e W : K} (hf : Floating good val u e W)
    {dims : Char → Nat} {inputs : List (List Char)} {ts : List (List Nat → F)} {out : List Char}
    (hl : ts.length = inputs.length) {σ : Char → Nat} {x : Expr F} (hx : x.IsP) (hg : ∀ y, x.Has y → good y)
    (hxs : ∀ (S : Type) [CommSemiring S] (f : F → S),
      x.eval f = Spec.einsum dims inputs (ts.map fun t idx => f (t idx)) out σ)
    (hW : (1 + u + e) ^ (termCount dims inputs out + inputs.length - 2) *
      Spec.einsum dims inputs (ts.map fun t idx => max 1 |val (t idx)|) out σ ≤ W) :
    good (x.eval id) ∧
      |val (x.eval id) - Spec.einsum dims inputs (ts.map fun t idx => val (t idx)) out σ| ≤
        ((1 + u) ^ (termCount dims inputs out + inputs.length - 2) - 1) *
          Spec.einsum dims inputs (ts.map fun t idx => |val (t idx)|) out σ +
        ((1 + u + e) ^ (termCount dims inputs out + inputs.length - 2) -
          (1 + u) ^ (termCount dims inputs out + inputs.length - 2)) *
          Spec.einsum dims inputs (ts.map fun t idx => max 1 |val (t idx)|) out σ := by
  obtain ⟨hu, he⟩ := hf.nonneg
  have hs : steps (x.eval fun _ => (X : ℕ[X])) ≤ termCount dims inputs out + inputs.length - 2 := by
    rw [hxs ℕ[X] (fun _ => X), einsum_const X dims inputs ts out hl σ]
    have hd : ((termCount dims inputs out : ℕ[X]) * X ^ inputs.length).natDegree ≤ inputs.length := by
      refine natDegree_mul_le.trans ?_
      rw [natDegree_natCast, natDegree_X_pow]
      omega
    simp only [steps, eval_mul, eval_natCast, eval_pow, eval_X, one_pow, mul_one]
    simp only [Nat.cast_id]
    omega
  rw [show (Spec.einsum dims inputs (ts.map fun t idx => max 1 |val (t idx)|) out σ) = x.eval (weightAbs val) from
    (hxs K (weightAbs val)).symm] at hW ⊢
  have hw := (hx.counts val).2.2
  obtain ⟨h1, h2⟩ := hx.floating hf hg (le_trans (mul_le_mul_of_nonneg_right
    (pow_le_pow_right₀ (by linarith) hs) (by linarith)) hW)
  refine ⟨h1, ?_⟩
  rw [← hxs K val, ← hxs K fun a => |val a|]
  refine h2.err.trans ?_
  have := mag_mono hu he hs h2.m_nonneg h2.w_nonneg
  rw [mag, mag] at this
  rw [mag]
  linarith

/-- C64: if `(1 + u + e) ^ (N + k - 2)` times the Einstein sum of the weights `max 1 |t|` is at most the largest number
then the element of the result is finite, and as close to the exact value as stated. -/
theorem C64_einsum {good : F → Prop} {val : F → K} {u e W : K} (hf : Floating good val u e W) (h : HashOrd)
    (al : UniformAlloc) (s : String) (operands : List (View F)) (inputs : List (List Char)) (out : List Char)
    (dims : Char → Nat) (ts : List (List Nat → F))
    (hc : Call s operands inputs out dims ts) (h0 : ∀ c ∈ inputs.flatten, dims c ≠ 0)
    (hg : ∀ v ∈ operands, ∀ idx x, v.read idx = .ok x → good x) :
    ∃ r, einsum h (al.alloc F) s operands = .ok (.ok r) ∧ r.Wf ∧ r.shape = out.map dims ∧
      ∀ σ, InRange dims out σ → (1 + u + e) ^ (termCount dims inputs out + inputs.length - 2) *
          Spec.einsum dims inputs (ts.map fun t idx => max 1 |val (t idx)|) out σ ≤ W →
        ∃ y, r.read (out.map σ) = .ok y ∧ good y ∧
          |val y - Spec.einsum dims inputs (ts.map fun t idx => val (t idx)) out σ| ≤
            ((1 + u) ^ (termCount dims inputs out + inputs.length - 2) - 1) *
              Spec.einsum dims inputs (ts.map fun t idx => |val (t idx)|) out σ +
            ((1 + u + e) ^ (termCount dims inputs out + inputs.length - 2) -
              (1 + u) ^ (termCount dims inputs out + inputs.length - 2)) *
              Spec.einsum dims inputs (ts.map fun t idx => max 1 |val (t idx)|) out σ := by
  obtain ⟨R, h1, h2, h3, h4⟩ := einsum_positive h al s operands inputs out dims ts hc h0
  have hr := h3 F id
  rw [map_map_id] at hr
  refine ⟨_, hr, h1.map _, h2, fun σ hσ hW => ?_⟩
  obtain ⟨x, e1, e2, e3, e4⟩ := h4 σ hσ
  obtain ⟨g1, g2⟩ := formal_floating hf hc.length e2
    (fun y hh => by obtain ⟨v, hv, idx, hi⟩ := e3 y hh; exact hg v hv idx y hi) e4 hW
  exact ⟨x.eval id, by rw [View.read_map, e1]; rfl, g1, g2⟩

/-- C64: the same for compiled paths in either order. -/
theorem C64_path {good : F → Prop} {val : F → K} {u e W : K} (hf : Floating good val u e W) (h : HashOrd)
    (al : UniformAlloc) (s : String) (operands : List (View F)) (inputs : List (List Char)) (out : List Char)
    (dims : Char → Nat) (ts : List (List Nat → F)) (m : OptimizationMethod) (hm : m = .naive ∨ m = .reverse)
    (hc : Call s operands inputs out dims ts) (h0 : ∀ c ∈ inputs.flatten, dims c ≠ 0)
    (hg : ∀ v ∈ operands, ∀ idx x, v.read idx = .ok x → good x) :
    ∃ p r, einsumPath h s operands m = .ok (.ok p) ∧ p.contractOperands (al.alloc F) operands = .ok r ∧
      r.Wf ∧ r.shape = out.map dims ∧
      ∀ σ, InRange dims out σ → (1 + u + e) ^ (termCount dims inputs out + inputs.length - 2) *
          Spec.einsum dims inputs (ts.map fun t idx => max 1 |val (t idx)|) out σ ≤ W →
        ∃ y, r.read (out.map σ) = .ok y ∧ good y ∧
          |val y - Spec.einsum dims inputs (ts.map fun t idx => val (t idx)) out σ| ≤
            ((1 + u) ^ (termCount dims inputs out + inputs.length - 2) - 1) *
              Spec.einsum dims inputs (ts.map fun t idx => |val (t idx)|) out σ +
            ((1 + u + e) ^ (termCount dims inputs out + inputs.length - 2) -
              (1 + u) ^ (termCount dims inputs out + inputs.length - 2)) *
              Spec.einsum dims inputs (ts.map fun t idx => max 1 |val (t idx)|) out σ := by
  obtain ⟨p, p1, R, h1, h2, h3, h4⟩ := path_positive h al s operands inputs out dims ts m hm hc h0
  have hr := h3 F id
  rw [map_map_id] at hr
  refine ⟨p, _, p1, hr, h1.map _, h2, fun σ hσ hW => ?_⟩
  obtain ⟨x, e1, e2, e3, e4⟩ := h4 σ hσ
  obtain ⟨g1, g2⟩ := formal_floating hf hc.length e2
    (fun y hh => by obtain ⟨v, hv, idx, hi⟩ := e3 y hh; exact hg v hv idx y hi) e4 hW
  exact ⟨x.eval id, by rw [View.read_map, e1]; rfl, g1, g2⟩

/-- C64: the same for tensordot, `N` the number of products summed. -/
theorem C64_tensordot {good : F → Prop} {val : F → K} {u e W : K} (hf : Floating good val u e W)
    (al : UniformAlloc) (l r : View F) (T U : List Nat → F)
    (la ra : List Nat) (hp : Paired l.shape r.shape la ra) (hl : Elements l T) (hr : Elements r U)
    (hl0 : ∀ d ∈ l.shape, d ≠ 0) (hr0 : ∀ d ∈ r.shape, d ≠ 0)
    (hlg : ∀ idx x, l.read idx = .ok x → good x) (hrg : ∀ idx x, r.read idx = .ok x → good x) :
    ∃ w, tensordot (al.alloc F) l r la ra = .ok w ∧ w.Wf ∧
      w.shape = lengths l.shape (kept l.shape.length la) ++ lengths r.shape (kept r.shape.length ra) ∧
      ∀ a b, InB (lengths l.shape (kept l.shape.length la)) a → InB (lengths r.shape (kept r.shape.length ra)) b →
        (1 + u + e) ^ (lengths l.shape la).prod *
          pairedSum l.shape r.shape la ra (fun i => max 1 |val (T i)|) (fun i => max 1 |val (U i)|) a b ≤ W →
        ∃ y, w.read (a ++ b) = .ok y ∧ good y ∧
          |val y - pairedSum l.shape r.shape la ra (fun i => val (T i)) (fun i => val (U i)) a b| ≤
            ((1 + u) ^ (lengths l.shape la).prod - 1) *
              pairedSum l.shape r.shape la ra (fun i => |val (T i)|) (fun i => |val (U i)|) a b +
            ((1 + u + e) ^ (lengths l.shape la).prod - (1 + u) ^ (lengths l.shape la).prod) *
              pairedSum l.shape r.shape la ra (fun i => max 1 |val (T i)|) (fun i => max 1 |val (U i)|) a b := by
  obtain ⟨hu, he⟩ := hf.nonneg
  obtain ⟨R, h1, h2, h3, h4⟩ := tensordot_positive al l r T U la ra hp hl hr hl0 hr0
  have hw := h3 F id
  rw [View.map_id, View.map_id] at hw
  refine ⟨_, hw, h1.map _, h2, fun a b ha hb hB => ?_⟩
  obtain ⟨x, e1, hx, hh, hxs⟩ := h4 a b ha hb
  have hgood : ∀ y, x.Has y → good y := fun y hy => by
    rcases hh y hy with ⟨idx, hi⟩ | ⟨idx, hi⟩
    exacts [hlg idx y hi, hrg idx y hi]
  have hs : steps (x.eval fun _ => (X : ℕ[X])) ≤ (lengths l.shape la).prod := by
    rw [hxs ℕ[X] fun _ => X, pairedSum, sumIdx_const, ← pow_two]
    have hd : (((lengths l.shape la).prod : ℕ[X]) * X ^ 2).natDegree ≤ 2 := by
      refine natDegree_mul_le.trans ?_
      rw [natDegree_natCast, natDegree_X_pow]
    simp only [steps, eval_mul, eval_natCast, eval_pow, eval_X, one_pow, mul_one]
    simp only [Nat.cast_id]
    omega
  rw [show pairedSum l.shape r.shape la ra (fun i => max 1 |val (T i)|) (fun i => max 1 |val (U i)|) a b =
    x.eval (weightAbs val) from (hxs K (weightAbs val)).symm] at hB ⊢
  have hw := (hx.counts val).2.2
  obtain ⟨g1, g2⟩ := hx.floating hf hgood (le_trans (mul_le_mul_of_nonneg_right
    (pow_le_pow_right₀ (by linarith) hs) (by linarith)) hB)
  refine ⟨x.eval id, by rw [View.read_map, e1]; rfl, g1, ?_⟩
  rw [← hxs K val, ← hxs K fun a => |val a|]
  refine g2.err.trans ?_
  have := mag_mono hu he hs g2.m_nonneg g2.w_nonneg
  rw [mag, mag] at this
  rw [mag]
  linarith

end

/-! ## binary64 -/

/-- C64: `f64`, the last place of which is `2⁻⁵³` relative to a number and never less than `2⁻¹⁰⁷⁴`; on architectures
with and without fused multiply-add. -/
theorem C64_binary64 (h : HashOrd) (al : UniformAlloc) (s : String) (operands : List (View F64))
    (inputs : List (List Char)) (out : List Char) (dims : Char → Nat) (ts : List (List Nat → F64))
    (hc : Call s operands inputs out dims ts) (h0 : ∀ c ∈ inputs.flatten, dims c ≠ 0)
    (hg : ∀ v ∈ operands, ∀ idx x, v.read idx = .ok x → F64.Finite x) :
    ∃ r, einsum h (al.alloc F64) s operands = .ok (.ok r) ∧ r.Wf ∧ r.shape = out.map dims ∧
      ∀ σ, InRange dims out σ → (1 + 2⁻¹ ^ 53 + 2⁻¹ ^ 1075) ^ (termCount dims inputs out + inputs.length - 2) *
          Spec.einsum dims inputs (ts.map fun t idx => max 1 |(t idx).val|) out σ ≤ F64.top →
        ∃ y, r.read (out.map σ) = .ok y ∧ F64.Finite y ∧
          |y.val - Spec.einsum dims inputs (ts.map fun t idx => (t idx).val) out σ| ≤
            ((1 + 2⁻¹ ^ 53) ^ (termCount dims inputs out + inputs.length - 2) - 1) *
              Spec.einsum dims inputs (ts.map fun t idx => |(t idx).val|) out σ +
            ((1 + 2⁻¹ ^ 53 + 2⁻¹ ^ 1075) ^ (termCount dims inputs out + inputs.length - 2) -
              (1 + 2⁻¹ ^ 53) ^ (termCount dims inputs out + inputs.length - 2)) *
              Spec.einsum dims inputs (ts.map fun t idx => max 1 |(t idx).val|) out σ :=
  C64_einsum F64.floating h al s operands inputs out dims ts hc h0 hg

namespace Ex

/-- An array with one element. -/
def one (q : ℚ) : View F64 := ⟨[.fin q], 0, [1], [1]⟩

/-- Eighths. -/
def eighth (z : Int) : F64 := .fin ((z % 64 : ℤ) * 2 ^ (-3 : ℤ))

theorem eighth_finite (z : Int) : (eighth z).Finite :=
  ⟨z % 64, -3, by rw [abs_of_nonneg (Int.emod_nonneg _ (by decide))]; omega, by decide, by decide, rfl⟩

end Ex

/-- C64: without the bound the order matters.  Of `2⁶⁰⁰ · 2⁶⁰⁰ · 2⁻⁶⁰⁰` the first product is infinite, the last is not. -/
theorem C64_order_matters :
    einsum HashOrd.insertion (Alloc.rowMajor F64) "i,i,i->i" [Ex.one (2 ^ 600), Ex.one (2 ^ 600), Ex.one (2⁻¹ ^ 600)] =
      .ok (.ok ⟨[.inf false], 0, [1], [1]⟩) ∧
    ∃ p, einsumPath HashOrd.insertion "i,i,i->i" [Ex.one (2 ^ 600), Ex.one (2 ^ 600), Ex.one (2⁻¹ ^ 600)] .reverse =
        .ok (.ok p) ∧
      p.contractOperands (Alloc.rowMajor F64) [Ex.one (2 ^ 600), Ex.one (2 ^ 600), Ex.one (2⁻¹ ^ 600)] =
        .ok ⟨[.fin (2 ^ 600)], 0, [1], [1]⟩ := by
  refine ⟨by decide +kernel, ?_⟩
  have h : (match einsumPath HashOrd.insertion "i,i,i->i"
      [Ex.one (2 ^ 600), Ex.one (2 ^ 600), Ex.one (2⁻¹ ^ 600)] .reverse with
    | .ok (.ok p) => p.contractOperands (Alloc.rowMajor F64) [Ex.one (2 ^ 600), Ex.one (2 ^ 600), Ex.one (2⁻¹ ^ 600)]
    | _ => .error .ub) = .ok ⟨[.fin (2 ^ 600)], 0, [1], [1]⟩ := by decide +kernel
  split at h
  · rename_i p hp
    exact ⟨p, hp, h⟩
  · cases h

/-- `(1·6 + 2·4 + 3·2) / 64` is computed without rounding errors, but all the theorem knows is the bound. -/
example : ∃ r, einsum HashOrd.reversed (Alloc.fused F64) "ij,jk->ik"
      ([Ex.m23, Ex.m32].map (View.map Ex.eighth)) = .ok (.ok r) ∧
    ∃ y, r.read [0, 0] = .ok y ∧ F64.Finite y ∧ |y.val - 20 / 64| ≤ 1 / 2 ^ 50 := by
  obtain ⟨r, h1, -, -, h2⟩ := C64_binary64 HashOrd.reversed UniformAlloc.fused "ij,jk->ik" _ _ _ _ _
    (Ex.call_matmul.map Ex.eighth) Ex.pos_matmul (Ex.of_map Ex.eighth_finite _)
  obtain ⟨y, y1, y2, y3⟩ := h2 (fun _ => 0)
    (by intro c _; exact Nat.pos_of_ne_zero (by unfold Ex.dims; split <;> omega)) (by decide +kernel)
  refine ⟨r, h1, y, y1, y2, ?_⟩
  have e1 : Spec.einsum Ex.dims [['i', 'j'], ['j', 'k']]
      ([Ex.elems Ex.m23, Ex.elems Ex.m32].map fun t idx => (Ex.eighth (t idx)).val) ['i', 'k'] (fun _ => 0) = 20 / 64 := by
    decide +kernel
  have e2 : ((1 + 2⁻¹ ^ 53) ^ (termCount Ex.dims [['i', 'j'], ['j', 'k']] ['i', 'k'] + 2 - 2) - 1) *
      Spec.einsum Ex.dims [['i', 'j'], ['j', 'k']]
        ([Ex.elems Ex.m23, Ex.elems Ex.m32].map fun t idx => |(Ex.eighth (t idx)).val|) ['i', 'k'] (fun _ => 0) +
      ((1 + 2⁻¹ ^ 53 + 2⁻¹ ^ 1075) ^ (termCount Ex.dims [['i', 'j'], ['j', 'k']] ['i', 'k'] + 2 - 2) -
        (1 + 2⁻¹ ^ 53) ^ (termCount Ex.dims [['i', 'j'], ['j', 'k']] ['i', 'k'] + 2 - 2)) *
      Spec.einsum Ex.dims [['i', 'j'], ['j', 'k']]
        ([Ex.elems Ex.m23, Ex.elems Ex.m32].map fun t idx => max 1 |(Ex.eighth (t idx)).val|) ['i', 'k'] (fun _ => 0) ≤
      1 / 2 ^ 50 := by
    decide +kernel
  rw [← e1]
  exact y3.trans e2

example : ∃ p r, einsumPath HashOrd.insertion "ij,jk->ik" ([Ex.m23, Ex.m32].map (View.map Ex.eighth)) .reverse =
      .ok (.ok p) ∧
    p.contractOperands (Alloc.colMajor F64) ([Ex.m23, Ex.m32].map (View.map Ex.eighth)) = .ok r ∧
    ∃ y, r.read [0, 0] = .ok y ∧ F64.Finite y := by
  obtain ⟨p, r, h0, h1, -, -, h2⟩ := C64_path F64.floating HashOrd.insertion UniformAlloc.colMajor "ij,jk->ik" _ _ _ _ _
    .reverse (.inr rfl) (Ex.call_matmul.map Ex.eighth) Ex.pos_matmul (Ex.of_map Ex.eighth_finite _)
  obtain ⟨y, y1, y2, -⟩ := h2 (fun _ => 0)
    (by intro c _; exact Nat.pos_of_ne_zero (by unfold Ex.dims; split <;> omega)) (by decide +kernel)
  exact ⟨p, r, h0, h1, y, y1, y2⟩

example : ∃ w, tensordot (Alloc.rowMajor F64) (Ex.m332.map Ex.eighth) (Ex.m32.map Ex.eighth) [2, 1] [1, 0] = .ok w ∧
    ∃ y, w.read [1] = .ok y ∧ F64.Finite y := by
  obtain ⟨w, h1, -, -, h2⟩ := C64_tensordot F64.floating UniformAlloc.rowMajor _ _ _ _ [2, 1] [1, 0] Ex.paired
    (Ex.e332.map Ex.eighth) (Ex.e32.map Ex.eighth) (by decide) (by decide)
    (Ex.of_map Ex.eighth_finite [Ex.m332] _ (by simp)) (Ex.of_map Ex.eighth_finite [Ex.m32] _ (by simp))
  obtain ⟨y, y1, y2, -⟩ := h2 [1] [] (by decide) (by decide) (by decide +kernel)
  exact ⟨w, h1, y, y1, y2⟩

end Einsum
