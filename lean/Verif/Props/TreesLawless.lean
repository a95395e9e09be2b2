import Verif.Props.Trees
import Verif.Props.Floats
import Verif.Props.Backward

/-!
# Any contraction tree, for element types without laws: C74
-/

namespace Einsum

open Spec

theorem forall₂_map {A B : Type} (f : A → B) {vs : List (View A)} {ts : List (List Nat → A)}
    (h : List.Forall₂ Elements vs ts) :
    List.Forall₂ Elements (vs.map (View.map f)) (ts.map fun t idx => f (t idx)) := by
  induction h with
  | nil => exact .nil
  | cons h _ ih => exact .cons ⟨h.1.map f, fun idx hi => by rw [View.read_map, h.2 idx hi]; rfl⟩ ih

theorem shapes_map {A B : Type} (f : A → B) (vs : List (View A)) :
    (vs.map (View.map f)).map View.shape = vs.map View.shape := by
  rw [List.map_map]; rfl

theorem length_of_sized {A : Type} {dims : Char → Nat} {inputs : List (List Char)} {operands : List (View A)}
    {ts : List (List Nat → A)} (hs : Sized dims inputs (operands.map View.shape))
    (he : List.Forall₂ Elements operands ts) : ts.length = inputs.length := by
  have h1 := he.length_eq
  have h2 : inputs.length = (operands.map View.shape).length := hs.length_eq
  simp only [List.length_map] at h2
  omega

/-- C74: what a compiled order computes, as expressions in the elements of the operands. -/
theorem C74_uniform {V : Type} (h : HashOrd) (al : UniformAlloc) (steps : List PairStep) (inputs : List (List Char))
    (out : List Char) (dims : Char → Nat) (operands : List (View V)) (ts : List (List Nat → V))
    (hc : Contracts dims out 0 (numbered inputs) steps) (hs : Sized dims inputs (operands.map View.shape))
    (he : List.Forall₂ Elements operands ts) (hn : NoEmptyDiagonal dims inputs) :
    ∃ p, EinsumPath.fromPath h (.pairs steps) = .ok p ∧ ∃ R : View (Expr V), IsFormalEinsum dims inputs ts out R ∧
      ∀ (A : Type) [Zero A] [Add A] [Mul A] [MulAdd A] (val : V → A),
        p.contractOperands (al.alloc A) (operands.map (View.map val)) = .ok (R.map (Expr.eval val)) := by
  obtain ⟨p, p1, p2⟩ := pending_outcome hc h
  refine ⟨p, p1, ?_⟩
  have key : ∀ (A : Type) [Zero A] [Add A] [Mul A] [MulAdd A] (val : V → A),
      p.contractOperands (al.alloc A) (operands.map (View.map val)) =
        (p.contractOperands (al.alloc (Expr V)) (operands.map (View.map Expr.var))).map (View.map (Expr.eval val)) := by
    intro A _ _ _ _ val
    rw [← p.contractOperands_map (eval_opHom val) (al.compat _)]
    rw [map_var_eval]
  have ok : ∀ (S : Type) [CommSemiring S] (f : V → S), ∃ r,
      p.contractOperands (al.alloc S) (operands.map (View.map f)) = .ok r ∧
        IsEinsum dims inputs (ts.map fun t idx => f (t idx)) out r := fun S _ f =>
    (p2 S (al.alloc S) _ _ (by rw [shapes_map]; exact hs) (forall₂_map f he)).1 hn
  obtain ⟨r, h1, h2⟩ := ok ℕ fun _ => 0
  rw [key] at h1
  cases hR : p.contractOperands (al.alloc (Expr V)) (operands.map (View.map Expr.var)) with
  | error e => rw [hR] at h1; simp [Except.map] at h1
  | ok R =>
    rw [hR] at h1
    simp only [Except.map, Except.ok.injEq] at h1
    rw [hR] at key
    refine ⟨R, ⟨.of_map (f := Expr.eval fun _ => (0 : ℕ)) (h1 ▸ h2.1), ?_, fun σ hσ => ?_⟩, fun A _ _ _ _ val => key A val⟩
    · rw [← h2.2.1, ← h1]; rfl
    · have hσr := h2.2.2 σ hσ
      rw [← h1, View.read_map] at hσr
      cases he : R.read (out.map σ) with
      | error e => rw [he] at hσr; simp [Except.map] at hσr
      | ok e =>
        refine ⟨e, rfl, fun S _ f => ?_⟩
        obtain ⟨r', g1, g2⟩ := ok S f
        rw [key] at g1
        simp only [Except.map, Except.ok.injEq] at g1
        have := g2.2.2 σ hσ
        rw [← g1, View.read_map, he] at this
        simpa [Except.map] using this

/-! ## Rounding -/

section
variable {F K : Type} [Zero F] [Add F] [Mul F] [MulAdd F] [Field K] [LinearOrder K] [IsStrictOrderedRing K]

/-- C74: the bound of C53 holds for every order. -/
theorem C74_error {val : F → K} {u : K} (hr : Rounded val u) (h : HashOrd) (al : UniformAlloc) (steps : List PairStep)
    (inputs : List (List Char)) (out : List Char) (dims : Char → Nat) (operands : List (View F))
    (ts : List (List Nat → F)) (hc : Contracts dims out 0 (numbered inputs) steps)
    (hs : Sized dims inputs (operands.map View.shape)) (he : List.Forall₂ Elements operands ts)
    (hn : NoEmptyDiagonal dims inputs) :
    ∃ p r, EinsumPath.fromPath h (.pairs steps) = .ok p ∧ p.contractOperands (al.alloc F) operands = .ok r ∧
      r.Wf ∧ r.shape = out.map dims ∧
      ∀ σ, InRange dims out σ → ∃ y, r.read (out.map σ) = .ok y ∧
        |val y - Spec.einsum dims inputs (ts.map fun t idx => val (t idx)) out σ| ≤
          ((1 + u) ^ (termCount dims inputs out + inputs.length - 2) - 1) *
            Spec.einsum dims inputs (ts.map fun t idx => |val (t idx)|) out σ := by
  obtain ⟨p, p1, R, ⟨h1, h2, h3⟩, h4⟩ := C74_uniform h al steps inputs out dims operands ts hc hs he hn
  have := h4 F id
  rw [map_map_id] at this
  refine ⟨p, _, p1, this, h1.map _, h2, fun σ hσ => ?_⟩
  obtain ⟨e, e1, e2⟩ := h3 σ hσ
  exact ⟨e.eval id, by rw [View.read_map, e1]; rfl, formal_error hr (length_of_sized hs he) e2⟩

/-- C82 for any contraction tree: each element of the result is the exact Einstein sum for operands of which one, with all
summed letters, has been changed a little, and if an operand has all letters one change serves all elements. -/
theorem C82_tree {val : F → K} {u : K} (hr : Rounded val u) (h : HashOrd) (al : UniformAlloc) (steps : List PairStep)
    (inputs : List (List Char)) (out : List Char) (dims : Char → Nat) (operands : List (View F))
    (ts : List (List Nat → F)) (ho : ∀ c ∈ out, Used inputs c) (hc : Contracts dims out 0 (numbered inputs) steps)
    (hs : Sized dims inputs (operands.map View.shape)) (he : List.Forall₂ Elements operands ts)
    (hn : NoEmptyDiagonal dims inputs) :
    ∃ p r, EinsumPath.fromPath h (.pairs steps) = .ok p ∧ p.contractOperands (al.alloc F) operands = .ok r ∧
      r.Wf ∧ r.shape = out.map dims ∧
      (∀ k ix t, inputs[k]? = some ix → ts[k]? = some t → (∀ c, Used inputs c → c ∈ ix ∨ c ∈ out) →
        ∀ σ, InRange dims out σ → ∃ y, r.read (out.map σ) = .ok y ∧ ∃ t' : List Nat → K,
          (∀ idx, |t' idx - val (t idx)| ≤
            ((1 + u) ^ (termCount dims inputs out + inputs.length - 2) - 1) * |val (t idx)|) ∧
          val y = Spec.einsum dims inputs ((ts.map fun t idx => val (t idx)).set k t') out σ) ∧
      ∀ k ix t, inputs[k]? = some ix → ts[k]? = some t → (∀ c, Used inputs c → c ∈ ix) → ∃ t' : List Nat → K,
        (∀ idx, |t' idx - val (t idx)| ≤
          ((1 + u) ^ (termCount dims inputs out + inputs.length - 2) - 1) * |val (t idx)|) ∧
        ∀ σ, InRange dims out σ → ∃ y, r.read (out.map σ) = .ok y ∧
          val y = Spec.einsum dims inputs ((ts.map fun t idx => val (t idx)).set k t') out σ := by
  obtain ⟨p, r, p1, r1, r2, r3, r4⟩ := C74_error hr h al steps inputs out dims operands ts hc hs he hn
  exact ⟨p, r, p1, r1, r2, r3, fun k ix t hk ht hall σ hσ =>
      ErrorWithin.element (inputs := inputs) r4 (gamma_nonneg hr.nonneg _) hk ht hall hσ,
    fun k ix t hk ht hall => ErrorWithin.whole (inputs := inputs) r4 (gamma_nonneg hr.nonneg _) ho hk ht hall⟩

/-- C74: two orders differ by at most twice the bound. -/
theorem C74_reproducible {val : F → K} {u : K} (hr : Rounded val u) (h h' : HashOrd) (al al' : UniformAlloc)
    (steps steps' : List PairStep) (inputs : List (List Char)) (out : List Char) (dims : Char → Nat)
    (operands : List (View F)) (ts : List (List Nat → F)) (hc : Contracts dims out 0 (numbered inputs) steps)
    (hc' : Contracts dims out 0 (numbered inputs) steps') (hs : Sized dims inputs (operands.map View.shape))
    (he : List.Forall₂ Elements operands ts) (hn : NoEmptyDiagonal dims inputs) :
    ∃ p p' r r', EinsumPath.fromPath h (.pairs steps) = .ok p ∧ EinsumPath.fromPath h' (.pairs steps') = .ok p' ∧
      p.contractOperands (al.alloc F) operands = .ok r ∧ p'.contractOperands (al'.alloc F) operands = .ok r' ∧
      ∀ σ, InRange dims out σ → ∃ y y', r.read (out.map σ) = .ok y ∧ r'.read (out.map σ) = .ok y' ∧
        |val y - val y'| ≤ 2 * (((1 + u) ^ (termCount dims inputs out + inputs.length - 2) - 1) *
            Spec.einsum dims inputs (ts.map fun t idx => |val (t idx)|) out σ) := by
  obtain ⟨p, r, p1, h1, -, -, h2⟩ := C74_error hr h al steps inputs out dims operands ts hc hs he hn
  obtain ⟨p', r', p1', h1', -, -, h2'⟩ := C74_error hr h' al' steps' inputs out dims operands ts hc' hs he hn
  refine ⟨p, p', r, r', p1, p1', h1, h1', fun σ hσ => ?_⟩
  obtain ⟨y, y1, y2⟩ := h2 σ hσ
  obtain ⟨y', y1', y2'⟩ := h2' σ hσ
  refine ⟨y, y', y1, y1', ?_⟩
  have := abs_sub_le (val y) (Spec.einsum dims inputs (ts.map fun t idx => val (t idx)) out σ) (val y')
  rw [abs_sub_comm (Spec.einsum dims inputs _ out σ)] at this
  linarith

end

/-! ## Orders without empty axes -/

/-- The variables of the expressions computed are elements of the operands. -/
theorem tree_has {V : Type} {steps : List PairStep} {operands : List (View V)} {inputs : List (List Char)}
    {out : List Char} {dims : Char → Nat} {ts : List (List Nat → V)}
    (hc : Contracts dims out 0 (numbered inputs) steps) (hs : Sized dims inputs (operands.map View.shape))
    (he : List.Forall₂ Elements operands ts) (hn : NoEmptyDiagonal dims inputs) {σ : Char → Nat}
    (hσ : InRange dims out σ) {e : Expr V} (hp : e.IsP)
    (hv : ∀ (S : Type) [CommSemiring S] (f : V → S),
      e.eval f = Spec.einsum dims inputs (ts.map fun t idx => f (t idx)) out σ) {x : V} (hx : e.Has x) :
    ∃ v ∈ operands, ∃ idx, v.read idx = .ok x := by
  classical
  by_contra hno
  simp only [not_exists, not_and] at hno
  set f : V → ℕ := fun _ => 1 with hf
  set g : V → ℕ := fun y => if y = x then 2 else 1 with hg
  have hlt : e.eval f < e.eval g := hp.lt (fun _ => Nat.one_pos) (fun y => by simp only [hg]; split <;> omega)
    (by simp [hg]) hx
  have hel : ∀ (vs : List (View V)) (ts : List (List Nat → V)), (∀ v ∈ vs, ∀ idx, ¬ v.read idx = .ok x) →
      List.Forall₂ Elements vs ts →
      List.Forall₂ Elements (vs.map (View.map f)) (ts.map fun t idx => g (t idx)) := by
    intro vs ts hv h
    induction h with
    | nil => exact .nil
    | @cons v t _ _ h _ ih =>
      refine .cons ⟨h.1.map f, fun idx hi => ?_⟩ (ih fun v hv' => hv v (by simp [hv']))
      rw [View.read_map, h.2 idx hi]
      have hne : t idx ≠ x := fun he => hv v (by simp) idx (by rw [h.2 idx hi, he])
      simp only [Except.map, hf, hg, if_neg hne]
  obtain ⟨p, p1, p2⟩ := pending_outcome hc HashOrd.insertion
  have hs' : Sized dims inputs ((operands.map (View.map f)).map View.shape) := by rw [shapes_map]; exact hs
  obtain ⟨r, h1, h2⟩ := (p2 ℕ (Alloc.rowMajor ℕ) _ _ hs' (forall₂_map f he)).1 hn
  obtain ⟨r', h1', h2'⟩ := (p2 ℕ (Alloc.rowMajor ℕ) _ _ hs' (hel _ _ hno he)).1 hn
  rw [h1] at h1'
  cases h1'
  have e1 := h2.2.2 σ hσ
  have e2 := h2'.2.2 σ hσ
  rw [e1, ← hv ℕ f, ← hv ℕ g] at e2
  simp only [Except.ok.injEq] at e2
  omega

/-- The expressions computed when no axis is empty. -/
theorem tree_positive {V : Type} (h : HashOrd) (al : UniformAlloc) (steps : List PairStep) (inputs : List (List Char))
    (out : List Char) (dims : Char → Nat) (operands : List (View V)) (ts : List (List Nat → V))
    (hc : Contracts dims out 0 (numbered inputs) steps) (hs : Sized dims inputs (operands.map View.shape))
    (he : List.Forall₂ Elements operands ts) (h0 : ∀ c ∈ inputs.flatten, dims c ≠ 0)
    (hp : ∀ st ∈ steps, ∀ c d, st.sizedContraction.outputSize c = some d → d ≠ 0) :
    ∃ p, EinsumPath.fromPath h (.pairs steps) = .ok p ∧ ∃ R : View (Expr V), R.Wf ∧ R.shape = out.map dims ∧
      (∀ (A : Type) [Zero A] [Add A] [Mul A] [MulAdd A] (val : V → A),
        p.contractOperands (al.alloc A) (operands.map (View.map val)) = .ok (R.map (Expr.eval val))) ∧
      ∀ σ, InRange dims out σ → ∃ e : Expr V, R.read (out.map σ) = .ok e ∧ e.IsP ∧
        (∀ x, e.Has x → ∃ v ∈ operands, ∃ idx, v.read idx = .ok x) ∧
        ∀ (S : Type) [CommSemiring S] (f : V → S),
          e.eval f = Spec.einsum dims inputs (ts.map fun t idx => f (t idx)) out σ := by
  have hn := noEmptyDiagonal_of h0
  obtain ⟨p, p1, R, ⟨h1, h2, h3⟩, h4⟩ := C74_uniform h al steps inputs out dims operands ts hc hs he hn
  refine ⟨p, p1, R, h1, h2, h4, fun σ hσ => ?_⟩
  obtain ⟨e, e1, e2⟩ := h3 σ hσ
  have hR := h4 (Expr V) Expr.var
  rw [View.map_eval_var] at hR
  have ho : ContractionOrder.Pos (.pairs steps) := fun st hst c d hd => Nat.pos_of_ne_zero (hp st hst c d hd)
  have hpos : p.Pos := ho.path h p p1
  have hf : Full Expr.IsP R := hpos.run (expr_closed V) (al.tight _) (full_operands hs h0) R hR
  have hP := hf.read _ _ e1
  exact ⟨e, e1, hP, fun x hx => tree_has hc hs he hn hσ hP e2 hx, e2⟩

/-- C74: integers that fit as in C57 are computed exactly in every order. -/
theorem C74_exact {F : Type} [Zero F] [Add F] [Mul F] [MulAdd F] {good : F → Prop} {val : F → ℤ} {B : ℕ}
    (hx : ExactWithin good val B) (h : HashOrd) (al : UniformAlloc) (steps : List PairStep)
    (inputs : List (List Char)) (out : List Char) (dims : Char → Nat) (operands : List (View F))
    (ts : List (List Nat → F)) (hc : Contracts dims out 0 (numbered inputs) steps)
    (hs : Sized dims inputs (operands.map View.shape)) (he : List.Forall₂ Elements operands ts)
    (h0 : ∀ c ∈ inputs.flatten, dims c ≠ 0)
    (hp : ∀ st ∈ steps, ∀ c d, st.sizedContraction.outputSize c = some d → d ≠ 0)
    (hg : ∀ v ∈ operands, ∀ idx x, v.read idx = .ok x → good x) :
    ∃ p r, EinsumPath.fromPath h (.pairs steps) = .ok p ∧ p.contractOperands (al.alloc F) operands = .ok r ∧
      r.Wf ∧ r.shape = out.map dims ∧
      ∀ σ, InRange dims out σ →
        Spec.einsum dims inputs (ts.map fun t idx => max 1 (val (t idx)).natAbs) out σ ≤ B →
        ∃ y, r.read (out.map σ) = .ok y ∧ good y ∧
          val y = Spec.einsum dims inputs (ts.map fun t idx => val (t idx)) out σ := by
  obtain ⟨p, p1, R, h1, h2, h3, h4⟩ := tree_positive h al steps inputs out dims operands ts hc hs he h0 hp
  have hr := h3 F id
  rw [map_map_id] at hr
  refine ⟨p, _, p1, hr, h1.map _, h2, fun σ hσ hB => ?_⟩
  obtain ⟨e, e1, e2, e3, e4⟩ := h4 σ hσ
  have := e2.exact hx (fun x hh => by obtain ⟨v, hv, idx, hi⟩ := e3 x hh; exact hg v hv idx x hi)
    (by rw [e4 ℕ (weight val)]; exact hB)
  exact ⟨e.eval id, by rw [View.read_map, e1]; rfl, this.1, by rw [this.2.1, e4 ℤ val]⟩

/-- C74: floating-point numbers as in C64 do not overflow, in any order, and have the error of C64. -/
theorem C74_floating {F K : Type} [Zero F] [Add F] [Mul F] [MulAdd F] [Field K] [LinearOrder K]
    [IsStrictOrderedRing K] {good : F → Prop} {val : F → K} {u e W : K} (hf : Floating good val u e W) (h : HashOrd)
    (al : UniformAlloc) (steps : List PairStep) (inputs : List (List Char)) (out : List Char) (dims : Char → Nat)
    (operands : List (View F)) (ts : List (List Nat → F)) (hc : Contracts dims out 0 (numbered inputs) steps)
    (hs : Sized dims inputs (operands.map View.shape)) (he : List.Forall₂ Elements operands ts)
    (h0 : ∀ c ∈ inputs.flatten, dims c ≠ 0)
    (hp : ∀ st ∈ steps, ∀ c d, st.sizedContraction.outputSize c = some d → d ≠ 0)
    (hg : ∀ v ∈ operands, ∀ idx x, v.read idx = .ok x → good x) :
    ∃ p r, EinsumPath.fromPath h (.pairs steps) = .ok p ∧ p.contractOperands (al.alloc F) operands = .ok r ∧
      r.Wf ∧ r.shape = out.map dims ∧
      ∀ σ, InRange dims out σ → (1 + u + e) ^ (termCount dims inputs out + inputs.length - 2) *
          Spec.einsum dims inputs (ts.map fun t idx => max 1 |val (t idx)|) out σ ≤ W →
        ∃ y, r.read (out.map σ) = .ok y ∧ good y ∧
          |val y - Spec.einsum dims inputs (ts.map fun t idx => val (t idx)) out σ| ≤
            ((1 + u) ^ (termCount dims inputs out + inputs.length - 2) - 1) *
              Spec.einsum dims inputs (ts.map fun t idx => |val (t idx)|) out σ +
            ((1 + u + e) ^ (termCount dims inputs out + inputs.length - 2) -
              (1 + u) ^ (termCount dims inputs out + inputs.length - 2)) *
              Spec.einsum dims inputs (ts.map fun t idx => max 1 |val (t idx)|) out σ := by
  obtain ⟨p, p1, R, h1, h2, h3, h4⟩ := tree_positive h al steps inputs out dims operands ts hc hs he h0 hp
  have hr := h3 F id
  rw [map_map_id] at hr
  refine ⟨p, _, p1, hr, h1.map _, h2, fun σ hσ hW => ?_⟩
  obtain ⟨x, e1, e2, e3, e4⟩ := h4 σ hσ
  obtain ⟨g1, g2⟩ := formal_floating hf (length_of_sized hs he) e2
    (fun y hh => by obtain ⟨v, hv, idx, hi⟩ := e3 y hh; exact hg v hv idx y hi) e4 hW
  exact ⟨x.eval id, by rw [View.read_map, e1]; rfl, g1, g2⟩

/-! ## Examples -/

/-- The product of the last two operands, then that of the first with it, summed over `j`. -/
def Ex.hadamardTree : List PairStep :=
  [Ex.stepOf ['i', 'j'] ['i', 'j'] ['j', 'i'] (.input 1) (.input 2),
    Ex.stepOf ['i', 'j'] ['j', 'i'] ['i'] (.input 0) (.intermediateResult 0)]

theorem Ex.contracts_hadamard :
    Contracts Ex.treeDims ['i'] 0 (numbered [['i', 'j'], ['i', 'j'], ['i', 'j']]) Ex.hadamardTree := by
  refine .step (l := .input 1) (r := .input 2) (rest := [(.input 0, ['i', 'j'])]) ?_ rfl rfl rfl
    (fun _ _ => rfl) ?_ (by simp [Ex.stepOf]) ?_
  · exact List.perm_append_comm (l₁ := [(OperandNumber.input 0, ['i', 'j'])])
      (l₂ := [(.input 1, ['i', 'j']), (.input 2, ['i', 'j'])])
  · simp [OutputOk, Used, Ex.stepOf]
  refine .step (l := .input 0) (r := .intermediateResult 0) (rest := []) ?_ rfl rfl rfl
    (fun _ _ => rfl) ?_ (by simp [Ex.stepOf]) (.done 1)
  · exact .swap _ _ _
  · simp [OutputOk, Used, Ex.stepOf]

theorem Ex.sized_tree_map {B : Type} (f : Int → B) :
    Sized Ex.treeDims Ex.treeInputs (([Ex.m23, Ex.m32, Ex.m23, Ex.m32].map (View.map f)).map View.shape) := by
  rw [shapes_map]
  exact Ex.sized_tree

theorem Ex.treeDims_ne (c : Char) : Ex.treeDims c ≠ 0 := by unfold Ex.treeDims; split <;> omega

theorem Ex.balanced_pos : ∀ st ∈ Ex.balanced, ∀ c d, st.sizedContraction.outputSize c = some d → d ≠ 0 := by
  intro st hst c d hd
  have : st.sizedContraction.outputSize c = some (Ex.treeDims c) := by
    simp only [Ex.balanced, List.mem_cons, List.not_mem_nil, or_false] at hst
    rcases hst with rfl | rfl | rfl <;> rfl
  rw [this] at hd
  cases hd
  exact Ex.treeDims_ne c

/-- One array of expressions for the balanced tree, whatever the element type. -/
example : ∃ p, EinsumPath.fromPath HashOrd.reversed (.pairs Ex.balanced) = .ok p ∧ ∃ R : View (Expr Int),
    R.shape = [2, 2] ∧ ∀ (A : Type) [Zero A] [Add A] [Mul A] [MulAdd A] (val : Int → A),
      p.contractOperands (Alloc.colMajor A) ([Ex.m23, Ex.m32, Ex.m23, Ex.m32].map (View.map val)) =
        .ok (R.map (Expr.eval val)) := by
  obtain ⟨p, p1, R, h1, h2⟩ := C74_uniform HashOrd.reversed UniformAlloc.colMajor _ _ _ _ _ _ Ex.contracts_tree Ex.sized_tree
    (forall₂_elem Ex.wf_tree) Ex.ned_tree
  exact ⟨p, p1, R, h1.2.1, h2⟩

/-- Tenths, rounded to 53 bits, with fused multiply-add: 18 terms of four factors, so 20 roundings. -/
example : ∃ p r, EinsumPath.fromPath HashOrd.reversed (.pairs Ex.balanced) = .ok p ∧
    p.contractOperands (Alloc.fused Fl)
      ([Ex.m23, Ex.m32, Ex.m23, Ex.m32].map (View.map fun z : Int => Fl.mk ((z : ℚ) / 10))) = .ok r ∧
    ∀ σ, InRange Ex.treeDims ['i', 'm'] σ → ∃ y, r.read [σ 'i', σ 'm'] = .ok y ∧
      |y.q - Spec.einsum Ex.treeDims Ex.treeInputs
        ([Ex.m23, Ex.m32, Ex.m23, Ex.m32].map fun v idx => (v.elem idx : ℚ) / 10) ['i', 'm'] σ| ≤
      ((1 + 2⁻¹ ^ 53) ^ 20 - 1) * Spec.einsum Ex.treeDims Ex.treeInputs
        ([Ex.m23, Ex.m32, Ex.m23, Ex.m32].map fun v idx => |(v.elem idx : ℚ) / 10|) ['i', 'm'] σ := by
  obtain ⟨p, r, h1, h2, -, -, h3⟩ := C74_error Fl.rounded HashOrd.reversed UniformAlloc.fused _ _ _ _ _ _
    Ex.contracts_tree (Ex.sized_tree_map _) (forall₂_map (fun z : Int => Fl.mk ((z : ℚ) / 10)) (forall₂_elem Ex.wf_tree))
    Ex.ned_tree
  exact ⟨p, r, h1, h2, h3⟩

/-- Three operands `ij`, `ij` and `ij`, the last two multiplied first: the sum is that of one changed operand. -/
example : ∃ p r, EinsumPath.fromPath HashOrd.insertion (.pairs Ex.hadamardTree) = .ok p ∧
    p.contractOperands (Alloc.colMajor Fl)
      ([Ex.m23, Ex.m23, Ex.m23].map (View.map fun z : Int => Fl.mk ((z : ℚ) / 10))) = .ok r ∧ ∃ t' : List Nat → ℚ,
    (∀ idx, |t' idx - (Ex.m23.elem idx : ℚ) / 10| ≤ ((1 + 2⁻¹ ^ 53) ^ 4 - 1) * |(Ex.m23.elem idx : ℚ) / 10|) ∧
    ∀ σ, InRange Ex.treeDims ['i'] σ → ∃ y, r.read [σ 'i'] = .ok y ∧
      y.q = Spec.einsum Ex.treeDims [['i', 'j'], ['i', 'j'], ['i', 'j']]
        [t', fun idx => (Ex.m23.elem idx : ℚ) / 10, fun idx => (Ex.m23.elem idx : ℚ) / 10] ['i'] σ := by
  obtain ⟨p, r, h0, h1, -, -, -, h2⟩ := C82_tree Fl.rounded HashOrd.insertion UniformAlloc.colMajor Ex.hadamardTree
    [['i', 'j'], ['i', 'j'], ['i', 'j']] ['i'] Ex.treeDims
    ([Ex.m23, Ex.m23, Ex.m23].map (View.map fun z : Int => Fl.mk ((z : ℚ) / 10))) _ (by simp [Used]) Ex.contracts_hadamard
    (.cons rfl (.cons rfl (.cons rfl .nil)))
    (forall₂_map (fun z : Int => Fl.mk ((z : ℚ) / 10)) (forall₂_elem (operands := [Ex.m23, Ex.m23, Ex.m23]) (fun v hv => Ex.wf_tree v (by simp at hv; simp [hv]))))
    (by simp [NoEmptyDiagonal])
  exact ⟨p, r, h0, h1, h2 0 ['i', 'j'] _ rfl rfl (by simp [Used])⟩

/-- The balanced tree and the order that the crate generates, on the same rounded numbers. -/
example : ∃ sc steps, SizedContraction.fromStringAndShapes HashOrd.insertion "ij,jk,kl,lm->im"
      ([Ex.m23, Ex.m32, Ex.m23, Ex.m32].map View.shape) = .ok sc ∧
    generateOptimizedOrder HashOrd.insertion sc .naive = .ok (.pairs steps) ∧
    ∃ p p' r r', EinsumPath.fromPath HashOrd.insertion (.pairs Ex.balanced) = .ok p ∧
      EinsumPath.fromPath HashOrd.reversed (.pairs steps) = .ok p' ∧
      p.contractOperands (Alloc.rowMajor Fl)
        ([Ex.m23, Ex.m32, Ex.m23, Ex.m32].map (View.map fun z : Int => Fl.mk ((z : ℚ) / 10))) = .ok r ∧
      p'.contractOperands (Alloc.colMajor Fl)
        ([Ex.m23, Ex.m32, Ex.m23, Ex.m32].map (View.map fun z : Int => Fl.mk ((z : ℚ) / 10))) = .ok r' := by
  obtain ⟨sc, steps, h1, h2, h3⟩ := C72_generated HashOrd.insertion HashOrd.insertion _ _ _ _ _ Ex.denotes_tree
    Ex.sized_tree (by decide) .naive (.inl rfl)
  obtain ⟨p, p', r, r', g1, g2, g3, g4, -⟩ := C74_reproducible Fl.rounded HashOrd.insertion HashOrd.reversed
    UniformAlloc.rowMajor UniformAlloc.colMajor _ _ _ _ _ _ _ Ex.contracts_tree h3 (Ex.sized_tree_map _)
    (forall₂_map (fun z : Int => Fl.mk ((z : ℚ) / 10)) (forall₂_elem Ex.wf_tree)) Ex.ned_tree
  exact ⟨sc, steps, h1, h2, p, p', r, r', g1, g2, g3, g4⟩

/-- In a build that panics on overflow the balanced tree does not panic. -/
example : ∃ p r, EinsumPath.fromPath HashOrd.reversed (.pairs Ex.balanced) = .ok p ∧
    p.contractOperands (Alloc.colMajor Checked)
      ([Ex.m23, Ex.m32, Ex.m23, Ex.m32].map (View.map fun z : Int => Checked.mk (some z))) = .ok r ∧
    ∃ y m, r.read [0, 0] = .ok y ∧ y.value = some m ∧
      m = Spec.einsum Ex.treeDims Ex.treeInputs ([Ex.m23, Ex.m32, Ex.m23, Ex.m32].map View.elem) ['i', 'm'] fun _ => 0 := by
  obtain ⟨p, r, h1, h2, -, -, h3⟩ := C74_exact Checked.exactWithin HashOrd.reversed UniformAlloc.colMajor _ _ _ _ _ _
    Ex.contracts_tree (Ex.sized_tree_map _) (forall₂_map (fun z : Int => Checked.mk (some z)) (forall₂_elem Ex.wf_tree))
    (fun c _ => Ex.treeDims_ne c) Ex.balanced_pos (Ex.of_map (fun a => ⟨a, rfl⟩) _)
  obtain ⟨y, y1, ⟨m, hm⟩, y3⟩ := h3 (fun _ => 0) (fun c _ => Nat.pos_of_ne_zero (Ex.treeDims_ne c)) (by decide +kernel)
  refine ⟨p, r, h1, h2, y, m, y1, hm, ?_⟩
  rw [hm] at y3
  exact y3

/-- Eighths in double precision. -/
example : ∃ p r, EinsumPath.fromPath HashOrd.reversed (.pairs Ex.balanced) = .ok p ∧
    p.contractOperands (Alloc.fused F64) ([Ex.m23, Ex.m32, Ex.m23, Ex.m32].map (View.map Ex.eighth)) = .ok r ∧
    ∃ y, r.read [0, 0] = .ok y ∧ F64.Finite y := by
  obtain ⟨p, r, h0, h1, -, -, h2⟩ := C74_floating F64.floating HashOrd.reversed UniformAlloc.fused _ _ _ _ _ _
    Ex.contracts_tree (Ex.sized_tree_map _) (forall₂_map Ex.eighth (forall₂_elem Ex.wf_tree))
    (fun c _ => Ex.treeDims_ne c) Ex.balanced_pos (Ex.of_map Ex.eighth_finite _)
  obtain ⟨y, y1, y2, -⟩ := h2 (fun _ => 0) (fun c _ => Nat.pos_of_ne_zero (Ex.treeDims_ne c)) (by decide +kernel)
  exact ⟨p, r, h0, h1, y, y1, y2⟩

end Einsum
