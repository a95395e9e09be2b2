import Verif.Props.Rounding

/-!
# Property C82: backward error
-/

namespace Einsum

open Spec

variable {K : Type} [Field K] [LinearOrder K] [IsStrictOrderedRing K]

/-- `1` or `-1`, so that `x` times it is `|x|`. -/
def unitSign (x : K) : K := if 0 ≤ x then 1 else -1

theorem mul_unitSign (x : K) : x * unitSign x = |x| := by
  unfold unitSign
  split
  · rw [mul_one, abs_of_nonneg ‹_›]
  · rw [mul_neg, mul_one, abs_of_neg (not_le.1 ‹_›)]

theorem abs_unitSign (x : K) : |unitSign x| = 1 := by unfold unitSign; split <;> simp

omit [LinearOrder K] [IsStrictOrderedRing K] in
/-- Multiplying the factor from one operand. -/
theorem term_set {inputs : List (List Char)} {ps : List (List Nat → K)} {k : Nat} {ix : List Char} {t t' : List Nat → K}
    (hk : inputs[k]? = some ix) (ht : ps[k]? = some t) {τ : Char → Nat} {m : K} (h : t' (ix.map τ) = t (ix.map τ) * m) :
    term inputs (ps.set k t') τ = term inputs ps τ * m := by
  induction inputs generalizing ps k with
  | nil => simp at hk
  | cons jx inputs ih =>
    cases ps with
    | nil => simp at ht
    | cons p ps =>
      cases k with
      | zero =>
        simp only [List.getElem?_cons_zero, Option.some.injEq] at hk ht
        subst hk ht
        rw [List.set_cons_zero, term_cons, term_cons, h]
        ring
      | succ k =>
        rw [List.getElem?_cons_succ] at hk ht
        rw [List.set_cons_succ, term_cons, term_cons, ih hk ht, mul_assoc]

theorem term_abs (inputs : List (List Char)) (ps : List (List Nat → K)) (τ : Char → Nat) :
    term inputs (ps.map fun t idx => |t idx|) τ = |term inputs ps τ| := by
  induction inputs generalizing ps with
  | nil => simp [term]
  | cons ix inputs ih =>
    cases ps with
    | nil => simp [term]
    | cons p ps => rw [List.map_cons, term_cons, term_cons, ih, abs_mul]

/-- Changing the operand `t` so that every term changes by `θ` times its absolute value. -/
theorem einsum_set {dims : Char → Nat} {inputs : List (List Char)} {out : List Char} {ps : List (List Nat → K)} {k : Nat}
    {ix : List Char} {t t' : List Nat → K} (hk : inputs[k]? = some ix) (ht : ps[k]? = some t) {σ : Char → Nat} {θ : K}
    (h : ∀ τ, (∀ c, c ∉ summed inputs out → τ c = σ c) →
      t' (ix.map τ) = t (ix.map τ) * (1 + θ * unitSign (term inputs ps τ))) :
    Spec.einsum dims inputs (ps.set k t') out σ = Spec.einsum dims inputs ps out σ +
      θ * Spec.einsum dims inputs (ps.map fun t idx => |t idx|) out σ := by
  unfold Spec.einsum
  have e1 := sumOver_map (dims := dims) (fun x : K => θ * x) (by simp) (by intros; exact mul_add _ _ _)
    (summed inputs out) (term inputs (ps.map fun t idx => |t idx|)) σ
  rw [e1, ← sumOver_add]
  refine sumOver_congr fun τ h1 _ => ?_
  rw [term_set hk ht (h τ h1), term_abs, ← mul_unitSign]
  ring

/-- The share of the error by which each term has to change. -/
theorem exists_share {y S T γ : K} (h : |y - S| ≤ γ * T) (hγ : 0 ≤ γ) (hT : 0 ≤ T) : ∃ θ, |θ| ≤ γ ∧ y = S + θ * T := by
  rcases hT.lt_or_eq with hT | hT
  · refine ⟨(y - S) / T, ?_, by field_simp; ring⟩
    rw [abs_div, abs_of_pos hT, div_le_iff₀ hT]
    exact h
  · rw [← hT, mul_zero] at h
    have := abs_eq_zero.1 (le_antisymm h (abs_nonneg _))
    exact ⟨0, by simpa using hγ, by rw [sub_eq_zero.1 this, zero_mul, add_zero]⟩

theorem einsum_abs_nonneg (dims : Char → Nat) (inputs : List (List Char)) (ps : List (List Nat → K)) (out : List Char)
    (σ : Char → Nat) : 0 ≤ Spec.einsum dims inputs (ps.map fun t idx => |t idx|) out σ := by
  unfold Spec.einsum
  have : ∀ (cs : List Char) (σ : Char → Nat), 0 ≤ sumOver dims cs (term inputs (ps.map fun t idx => |t idx|)) σ := by
    intro cs
    induction cs with
    | nil => intro σ; rw [sumOver_nil, term_abs]; exact abs_nonneg _
    | cons c cs ih => intro σ; exact Finset.sum_nonneg fun v _ => ih _
  exact this _ σ

/-- One element: an operand with all summed letters is changed. -/
theorem backward_element {dims : Char → Nat} {inputs : List (List Char)} {out : List Char} {ps : List (List Nat → K)}
    {k : Nat} {ix : List Char} {t : List Nat → K} (hk : inputs[k]? = some ix) (ht : ps[k]? = some t)
    (hall : ∀ c, Used inputs c → c ∈ ix ∨ c ∈ out) {γ y : K} (hγ : 0 ≤ γ) {σ : Char → Nat}
    (hy : |y - Spec.einsum dims inputs ps out σ| ≤
      γ * Spec.einsum dims inputs (ps.map fun t idx => |t idx|) out σ) :
    ∃ t', (∀ idx, |t' idx - t idx| ≤ γ * |t idx|) ∧ y = Spec.einsum dims inputs (ps.set k t') out σ := by
  obtain ⟨θ, h1, h2⟩ := exists_share hy hγ (einsum_abs_nonneg ..)
  let back : List Nat → Char → Nat := fun idx c => if c ∈ ix then idx.getD (ix.idxOf c) 0 else σ c
  refine ⟨fun idx => t idx * (1 + θ * unitSign (term inputs ps (back idx))), fun idx => ?_, ?_⟩
  · have e : t idx * (1 + θ * unitSign (term inputs ps (back idx))) - t idx =
        θ * unitSign (term inputs ps (back idx)) * t idx := by ring
    rw [e, abs_mul, abs_mul, abs_unitSign, mul_one]
    exact mul_le_mul_of_nonneg_right h1 (abs_nonneg _)
  · rw [h2, einsum_set hk ht]
    intro τ hτ
    have : term inputs ps (back (ix.map τ)) = term inputs ps τ := by
      refine dependsOn_term inputs ps _ _ fun c hc => ?_
      simp only [back]
      split
      · rename_i hci
        have hl := List.idxOf_lt_length_of_mem hci
        rw [List.getD_eq_getElem?_getD, List.getElem?_map, List.getElem?_eq_getElem hl]
        simp
      · rename_i hci
        exact (hτ c fun hs => (mem_summed.1 hs).2 ((hall c (used_iff.2 hc)).resolve_left hci)).symm
    simp only [this]

/-- All elements: an operand with all letters is changed. -/
theorem backward_whole {dims : Char → Nat} {inputs : List (List Char)} {out : List Char} {ps : List (List Nat → K)}
    {k : Nat} {ix : List Char} {t : List Nat → K} (hk : inputs[k]? = some ix) (ht : ps[k]? = some t)
    (hall : ∀ c, Used inputs c → c ∈ ix) (ho : ∀ c ∈ out, Used inputs c) {γ : K} (hγ : 0 ≤ γ) {y : List Nat → K}
    (hy : ∀ σ, InRange dims out σ → |y (out.map σ) - Spec.einsum dims inputs ps out σ| ≤
      γ * Spec.einsum dims inputs (ps.map fun t idx => |t idx|) out σ) :
    ∃ t', (∀ idx, |t' idx - t idx| ≤ γ * |t idx|) ∧
      ∀ σ, InRange dims out σ → y (out.map σ) = Spec.einsum dims inputs (ps.set k t') out σ := by
  classical
  have key : ∀ σ, ∃ θ, |θ| ≤ γ ∧ (InRange dims out σ → y (out.map σ) = Spec.einsum dims inputs ps out σ +
      θ * Spec.einsum dims inputs (ps.map fun t idx => |t idx|) out σ) := by
    intro σ
    by_cases hσ : InRange dims out σ
    · obtain ⟨θ, h1, h2⟩ := exists_share (hy σ hσ) hγ (einsum_abs_nonneg ..)
      exact ⟨θ, h1, fun _ => h2⟩
    · exact ⟨0, by simpa using hγ, fun h => absurd h hσ⟩
  choose θ h1 h2 using key
  let back : List Nat → Char → Nat := fun idx c => if c ∈ ix then idx.getD (ix.idxOf c) 0 else 0
  have hback : ∀ τ : Char → Nat, ∀ c ∈ ix, back (ix.map τ) c = τ c := by
    intro τ c hci
    have hl := List.idxOf_lt_length_of_mem hci
    simp only [back, if_pos hci]
    rw [List.getD_eq_getElem?_getD, List.getElem?_map, List.getElem?_eq_getElem hl]
    simp
  -- the values of the output letters, everything else zero
  let rest : (Char → Nat) → Char → Nat := fun σ c => if c ∈ out then σ c else 0
  refine ⟨fun idx => t idx * (1 + θ (rest (back idx)) * unitSign (term inputs ps (back idx))), fun idx => ?_, fun σ hσ => ?_⟩
  · have e : t idx * (1 + θ (rest (back idx)) * unitSign (term inputs ps (back idx))) - t idx =
        θ (rest (back idx)) * unitSign (term inputs ps (back idx)) * t idx := by ring
    rw [e, abs_mul, abs_mul, abs_unitSign, mul_one]
    exact mul_le_mul_of_nonneg_right (h1 _) (abs_nonneg _)
  · have hr : InRange dims out (rest σ) := fun c hc => by simp only [rest, if_pos hc]; exact hσ c hc
    have e1 : out.map (rest σ) = out.map σ := List.map_congr_left fun c hc => by simp only [rest, if_pos hc]
    have e2 : ∀ ps : List (List Nat → K), Spec.einsum dims inputs ps out (rest σ) = Spec.einsum dims inputs ps out σ := by
      intro ps
      refine (dependsOn_term inputs ps).sumOver (L' := out) (fun c hc => ?_) _ _ fun c hc => by simp only [rest, if_pos hc]
      by_cases hco : c ∈ out
      · exact .inl hco
      · exact .inr (mem_summed.2 ⟨hc, hco⟩)
    have h3 := h2 (rest σ) hr
    rw [e1, e2, e2] at h3
    rw [h3, einsum_set hk ht]
    intro τ hτ
    have e3 : term inputs ps (back (ix.map τ)) = term inputs ps τ :=
      dependsOn_term inputs ps _ _ fun c hc => hback τ c (hall c (used_iff.2 hc))
    have e4 : rest (back (ix.map τ)) = rest σ := by
      funext c
      simp only [rest]
      split
      · rename_i hco
        rw [hback τ c (hall c (ho c hco)), hτ c fun hs => (mem_summed.1 hs).2 hco]
      · rfl
    simp only [e3, e4]

variable {F : Type} [Zero F] [Add F] [Mul F] [MulAdd F]

theorem gamma_nonneg {u : K} (hu : 0 ≤ u) (n : Nat) : 0 ≤ (1 + u) ^ n - 1 :=
  sub_nonneg.2 (one_le_pow₀ (by linarith))

omit [IsStrictOrderedRing K] [Zero F] [Add F] [Mul F] [MulAdd F] in
theorem abs_vals (ts : List (List Nat → F)) (val : F → K) :
    (ts.map fun t idx => |val (t idx)|) = (ts.map fun t idx => val (t idx)).map fun t idx => |t idx| := by
  rw [List.map_map]; rfl

/-- Every element of `r` is within the bound of C53 of the Einstein sum. -/
def ErrorWithin (val : F → K) (γ : K) (dims : Char → Nat) (inputs : List (List Char)) (ts : List (List Nat → F))
    (out : List Char) (r : View F) : Prop :=
  ∀ σ, InRange dims out σ → ∃ y, r.read (out.map σ) = .ok y ∧
    |val y - Spec.einsum dims inputs (ts.map fun t idx => val (t idx)) out σ| ≤
      γ * Spec.einsum dims inputs (ts.map fun t idx => |val (t idx)|) out σ

omit [Zero F] [Add F] [Mul F] [MulAdd F] in
theorem ErrorWithin.element {val : F → K} {γ : K} {dims : Char → Nat} {inputs : List (List Char)} {ts : List (List Nat → F)}
    {out : List Char} {r : View F} (hw : ErrorWithin val γ dims inputs ts out r) (hγ : 0 ≤ γ)
    {k : Nat} {ix : List Char} {t : List Nat → F} (hk : inputs[k]? = some ix) (ht : ts[k]? = some t)
    (hall : ∀ c, Used inputs c → c ∈ ix ∨ c ∈ out) {σ : Char → Nat} (hσ : InRange dims out σ) :
    ∃ y, r.read (out.map σ) = .ok y ∧ ∃ t' : List Nat → K, (∀ idx, |t' idx - val (t idx)| ≤ γ * |val (t idx)|) ∧
      val y = Spec.einsum dims inputs ((ts.map fun t idx => val (t idx)).set k t') out σ := by
  obtain ⟨y, y1, y2⟩ := hw σ hσ
  rw [abs_vals] at y2
  exact ⟨y, y1, backward_element (t := fun idx => val (t idx)) hk (by rw [List.getElem?_map, ht]; rfl) hall hγ y2⟩

omit [Zero F] [Add F] [Mul F] [MulAdd F] in
theorem ErrorWithin.whole {val : F → K} {γ : K} {dims : Char → Nat} {inputs : List (List Char)} {ts : List (List Nat → F)}
    {out : List Char} {r : View F} (hw : ErrorWithin val γ dims inputs ts out r) (hγ : 0 ≤ γ)
    (ho : ∀ c ∈ out, Used inputs c) {k : Nat} {ix : List Char} {t : List Nat → F} (hk : inputs[k]? = some ix)
    (ht : ts[k]? = some t) (hall : ∀ c, Used inputs c → c ∈ ix) :
    ∃ t' : List Nat → K, (∀ idx, |t' idx - val (t idx)| ≤ γ * |val (t idx)|) ∧
      ∀ σ, InRange dims out σ → ∃ y, r.read (out.map σ) = .ok y ∧
        val y = Spec.einsum dims inputs ((ts.map fun t idx => val (t idx)).set k t') out σ := by
  have hy : ∀ idx, ∃ y : K, ∀ z, r.read idx = .ok z → y = val z := by
    intro idx
    cases hz : r.read idx with
    | error e => exact ⟨0, by simp⟩
    | ok z => exact ⟨val z, fun z' h => by cases h; rfl⟩
  choose y hy using hy
  obtain ⟨t', t1, t2⟩ := backward_whole (t := fun idx => val (t idx)) (y := y) (dims := dims) (out := out) hk
    (by rw [List.getElem?_map, ht]; rfl) hall ho hγ (by
      intro σ hσ
      obtain ⟨z, z1, z2⟩ := hw σ hσ
      rw [hy _ z z1, ← abs_vals]
      exact z2)
  refine ⟨t', t1, fun σ hσ => ?_⟩
  obtain ⟨z, z1, -⟩ := hw σ hσ
  exact ⟨z, z1, by rw [← hy _ z z1]; exact t2 σ hσ⟩

/-- C82: each element of the result is the exact Einstein sum for operands of which one, with all summed letters, has been
changed a little. -/
theorem C82_element {val : F → K} {u : K} (hr : Rounded val u) (h : HashOrd) (al : UniformAlloc) (s : String)
    (operands : List (View F)) (inputs : List (List Char)) (out : List Char) (dims : Char → Nat)
    (ts : List (List Nat → F)) (hc : Call s operands inputs out dims ts) (hn : NoEmptyDiagonal dims inputs) :
    ∃ r, einsum h (al.alloc F) s operands = .ok (.ok r) ∧ r.Wf ∧ r.shape = out.map dims ∧
      ∀ k ix t, inputs[k]? = some ix → ts[k]? = some t → (∀ c, Used inputs c → c ∈ ix ∨ c ∈ out) →
      ∀ σ, InRange dims out σ → ∃ y, r.read (out.map σ) = .ok y ∧ ∃ t' : List Nat → K,
        (∀ idx, |t' idx - val (t idx)| ≤
          ((1 + u) ^ (termCount dims inputs out + inputs.length - 2) - 1) * |val (t idx)|) ∧
        val y = Spec.einsum dims inputs ((ts.map fun t idx => val (t idx)).set k t') out σ := by
  obtain ⟨r, r1, r2, r3, r4⟩ := C53_error hr h al s operands inputs out dims ts hc hn
  exact ⟨r, r1, r2, r3, fun k ix t hk ht hall σ hσ =>
    ErrorWithin.element (inputs := inputs) r4 (gamma_nonneg hr.nonneg _) hk ht hall hσ⟩

/-- C82: where an operand has all letters, the result is the exact Einstein sum after one change of that operand. -/
theorem C82_whole {val : F → K} {u : K} (hr : Rounded val u) (h : HashOrd) (al : UniformAlloc) (s : String)
    (operands : List (View F)) (inputs : List (List Char)) (out : List Char) (dims : Char → Nat)
    (ts : List (List Nat → F)) (hc : Call s operands inputs out dims ts) (hn : NoEmptyDiagonal dims inputs) :
    ∃ r, einsum h (al.alloc F) s operands = .ok (.ok r) ∧ r.Wf ∧ r.shape = out.map dims ∧
      ∀ k ix t, inputs[k]? = some ix → ts[k]? = some t → (∀ c, Used inputs c → c ∈ ix) → ∃ t' : List Nat → K,
        (∀ idx, |t' idx - val (t idx)| ≤
          ((1 + u) ^ (termCount dims inputs out + inputs.length - 2) - 1) * |val (t idx)|) ∧
        ∀ σ, InRange dims out σ → ∃ y, r.read (out.map σ) = .ok y ∧
          val y = Spec.einsum dims inputs ((ts.map fun t idx => val (t idx)).set k t') out σ := by
  obtain ⟨r, r1, r2, r3, r4⟩ := C53_error hr h al s operands inputs out dims ts hc hn
  exact ⟨r, r1, r2, r3, fun k ix t hk ht hall =>
    ErrorWithin.whole (inputs := inputs) r4 (gamma_nonneg hr.nonneg _) hc.denotes.outputOk.2 hk ht hall⟩

/-- C82: the same for compiled paths. -/
theorem C82_path {val : F → K} {u : K} (hr : Rounded val u) (h : HashOrd) (al : UniformAlloc) (s : String)
    (operands : List (View F)) (inputs : List (List Char)) (out : List Char) (dims : Char → Nat)
    (ts : List (List Nat → F)) (m : OptimizationMethod) (hm : m = .naive ∨ m = .reverse)
    (hc : Call s operands inputs out dims ts) (hn : NoEmptyDiagonal dims inputs) :
    ∃ p r, einsumPath h s operands m = .ok (.ok p) ∧ p.contractOperands (al.alloc F) operands = .ok r ∧
      r.Wf ∧ r.shape = out.map dims ∧
      (∀ k ix t, inputs[k]? = some ix → ts[k]? = some t → (∀ c, Used inputs c → c ∈ ix ∨ c ∈ out) →
        ∀ σ, InRange dims out σ → ∃ y, r.read (out.map σ) = .ok y ∧ ∃ t' : List Nat → K,
          (∀ idx, |t' idx - val (t idx)| ≤
            ((1 + u) ^ (termCount dims inputs out + inputs.length - 2) - 1) * |val (t idx)|) ∧
          val y = Spec.einsum dims inputs ((ts.map fun t idx => val (t idx)).set k t') out σ) ∧
      ∀ k ix t, inputs[k]? = some ix → ts[k]? = some t → (∀ c, Used inputs c → c ∈ ix) → ∃ t' : List Nat → K,
        (∀ idx, |t' idx - val (t idx)| ≤
          ((1 + u) ^ (termCount dims inputs out + inputs.length - 2) - 1) * |val (t idx)|) ∧
        ∀ σ, InRange dims out σ → ∃ y, r.read (out.map σ) = .ok y ∧
          val y = Spec.einsum dims inputs ((ts.map fun t idx => val (t idx)).set k t') out σ := by
  obtain ⟨p, r, p1, r1, r2, r3, r4⟩ := C53_path hr h al s operands inputs out dims ts m hm hc hn
  exact ⟨p, r, p1, r1, r2, r3, fun k ix t hk ht hall σ hσ =>
      ErrorWithin.element (inputs := inputs) r4 (gamma_nonneg hr.nonneg _) hk ht hall hσ,
    fun k ix t hk ht hall =>
      ErrorWithin.whole (inputs := inputs) r4 (gamma_nonneg hr.nonneg _) hc.denotes.outputOk.2 hk ht hall⟩

/-! ### Examples -/

/-- Each element of a matrix product of floating-point numbers is the exact element for a changed second factor. -/
example : ∃ r, einsum HashOrd.reversed (Alloc.colMajor Fl) "ij,jk->ik"
      ([Ex.m23, Ex.m32].map (View.map fun z : Int => Fl.mk ((z : ℚ) / 10))) = .ok (.ok r) ∧
    ∀ σ, InRange Ex.dims ['i', 'k'] σ → ∃ y, r.read [σ 'i', σ 'k'] = .ok y ∧ ∃ t' : List Nat → ℚ,
      (∀ idx, |t' idx - (Ex.elems Ex.m32 idx : ℚ) / 10| ≤ ((1 + 2⁻¹ ^ 53) ^ 3 - 1) * |(Ex.elems Ex.m32 idx : ℚ) / 10|) ∧
      y.q = Spec.einsum Ex.dims [['i', 'j'], ['j', 'k']] [fun idx => (Ex.elems Ex.m23 idx : ℚ) / 10, t'] ['i', 'k'] σ := by
  obtain ⟨r, h1, -, -, h2⟩ := C82_element Fl.rounded HashOrd.reversed UniformAlloc.colMajor "ij,jk->ik" _ _ _ _ _
    (Ex.call_matmul.map fun z : Int => Fl.mk ((z : ℚ) / 10)) Ex.ned_matmul
  refine ⟨r, h1, fun σ hσ => ?_⟩
  exact h2 1 ['j', 'k'] _ rfl rfl (by simp [Used]; tauto) σ hσ

namespace Ex

def v3b : View Int := ⟨[1, 2, 4], 2, [3], [-1]⟩

theorem call_mvb : Call "ij,j->i" [m23, v3b] [['i', 'j'], ['j']] ['i'] dims [elems m23, elems v3b] :=
  ⟨.inl ⟨by decide, ⟨by simp, by simp [Letter], by simp [Letter]⟩, by simp [OutputOk, Used]⟩,
    .cons (by decide) (.cons (by decide) .nil), .cons e23 (.cons (elements_of rfl (by decide)) .nil)⟩

theorem ned_mvb : NoEmptyDiagonal dims [['i', 'j'], ['j']] := by simp [NoEmptyDiagonal]

end Ex

/-- A matrix-vector product of floating-point numbers is the exact product of a slightly changed matrix and the vector. -/
example : ∃ r, einsum HashOrd.reversed (Alloc.fused Fl) "ij,j->i"
      ([Ex.m23, Ex.v3b].map (View.map fun z : Int => Fl.mk ((z : ℚ) / 10))) = .ok (.ok r) ∧ ∃ t' : List Nat → ℚ,
    (∀ idx, |t' idx - (Ex.elems Ex.m23 idx : ℚ) / 10| ≤ ((1 + 2⁻¹ ^ 53) ^ 3 - 1) * |(Ex.elems Ex.m23 idx : ℚ) / 10|) ∧
    ∀ σ, InRange Ex.dims ['i'] σ → ∃ y, r.read [σ 'i'] = .ok y ∧
      y.q = Spec.einsum Ex.dims [['i', 'j'], ['j']] [t', fun idx => (Ex.elems Ex.v3b idx : ℚ) / 10] ['i'] σ := by
  obtain ⟨r, h1, -, -, h2⟩ := C82_whole Fl.rounded HashOrd.reversed UniformAlloc.fused "ij,j->i" _ _ _ _ _
    (Ex.call_mvb.map fun z : Int => Fl.mk ((z : ℚ) / 10)) Ex.ned_mvb
  exact ⟨r, h1, h2 0 ['i', 'j'] _ rfl rfl (by simp [Used])⟩

example : ∃ p r, einsumPath HashOrd.insertion "ij,j->i"
      ([Ex.m23, Ex.v3b].map (View.map fun z : Int => Fl.mk ((z : ℚ) / 10))) .reverse = .ok (.ok p) ∧
    p.contractOperands (Alloc.rowMajor Fl)
      ([Ex.m23, Ex.v3b].map (View.map fun z : Int => Fl.mk ((z : ℚ) / 10))) = .ok r ∧ ∃ t' : List Nat → ℚ,
    (∀ idx, |t' idx - (Ex.elems Ex.m23 idx : ℚ) / 10| ≤ ((1 + 2⁻¹ ^ 53) ^ 3 - 1) * |(Ex.elems Ex.m23 idx : ℚ) / 10|) ∧
    ∀ σ, InRange Ex.dims ['i'] σ → ∃ y, r.read [σ 'i'] = .ok y ∧
      y.q = Spec.einsum Ex.dims [['i', 'j'], ['j']] [t', fun idx => (Ex.elems Ex.v3b idx : ℚ) / 10] ['i'] σ := by
  obtain ⟨p, r, h0, h1, -, -, -, h2⟩ := C82_path Fl.rounded HashOrd.insertion UniformAlloc.rowMajor "ij,j->i" _ _ _ _ _
    .reverse (.inr rfl) (Ex.call_mvb.map fun z : Int => Fl.mk ((z : ℚ) / 10)) Ex.ned_mvb
  exact ⟨p, r, h0, h1, h2 0 ['i', 'j'] _ rfl rfl (by simp [Used])⟩

/-- C82: a matrix product need not be the exact product of any changed factors: for the column and the row with elements
`1` and `1 + 2⁻⁵²` it is not a matrix of rank one. -/
theorem C82_product :
    einsum HashOrd.insertion (Alloc.rowMajor Fl) "ij,jk->ik"
        [⟨[⟨1⟩, ⟨1 + 2⁻¹ ^ 52⟩], 0, [2, 1], [1, 1]⟩, ⟨[⟨1⟩, ⟨1 + 2⁻¹ ^ 52⟩], 0, [1, 2], [2, 1]⟩] =
      .ok (.ok ⟨[⟨1⟩, ⟨1 + 2⁻¹ ^ 52⟩, ⟨1 + 2⁻¹ ^ 52⟩, ⟨1 + 2⁻¹ ^ 51⟩], 0, [2, 2], [2, 1]⟩) ∧
    ∀ (dims : Char → Nat), dims 'j' = 1 → ∀ a b : List Nat → ℚ,
      ¬ ((∀ σ, σ 'i' = 0 → σ 'k' = 0 → 1 = Spec.einsum dims [['i', 'j'], ['j', 'k']] [a, b] ['i', 'k'] σ) ∧
        (∀ σ, σ 'i' = 0 → σ 'k' = 1 → 1 + 2⁻¹ ^ 52 = Spec.einsum dims [['i', 'j'], ['j', 'k']] [a, b] ['i', 'k'] σ) ∧
        (∀ σ, σ 'i' = 1 → σ 'k' = 0 → 1 + 2⁻¹ ^ 52 = Spec.einsum dims [['i', 'j'], ['j', 'k']] [a, b] ['i', 'k'] σ) ∧
        ∀ σ, σ 'i' = 1 → σ 'k' = 1 → 1 + 2⁻¹ ^ 51 = Spec.einsum dims [['i', 'j'], ['j', 'k']] [a, b] ['i', 'k'] σ) := by
  refine ⟨by decide +kernel, fun dims hj a b h => ?_⟩
  have e : ∀ σ, Spec.einsum dims [['i', 'j'], ['j', 'k']] [a, b] ['i', 'k'] σ = a [σ 'i', 0] * b [0, σ 'k'] := by
    intro σ
    have : summed [['i', 'j'], ['j', 'k']] ['i', 'k'] = ['j'] := by decide
    simp [Spec.einsum, this, sumOver, hj, term]
  obtain ⟨h1, h2, h3, h4⟩ := h
  have h1 := h1 (fun _ => 0) rfl rfl
  have h2 := h2 (fun c => if c = 'i' then 0 else 1) rfl rfl
  have h3 := h3 (fun c => if c = 'i' then 1 else 0) rfl rfl
  have h4 := h4 (fun _ => 1) rfl rfl
  rw [e] at h1 h2 h3 h4
  simp only [if_true, Char.reduceEq, if_false] at h1 h2 h3 h4
  have : (1 : ℚ) * (1 + 2⁻¹ ^ 51) = (1 + 2⁻¹ ^ 52) * (1 + 2⁻¹ ^ 52) := by
    calc (1 : ℚ) * (1 + 2⁻¹ ^ 51) = (a [0, 0] * b [0, 0]) * (a [1, 0] * b [0, 1]) := by rw [← h1, ← h4]
      _ = (a [0, 0] * b [0, 1]) * (a [1, 0] * b [0, 0]) := by ring
      _ = _ := by rw [← h2, ← h3]
  norm_num at this

end Einsum
