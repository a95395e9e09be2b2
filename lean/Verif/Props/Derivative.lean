import Verif.Props.Main
import Verif.SpecOnce
import Mathlib.Algebra.DualNumber
import Mathlib.Analysis.Calculus.Deriv.Mul
import Mathlib.Analysis.Calculus.Deriv.Add

/-!
# Property C94: the product rule
-/

namespace Einsum

open Spec Function

/-! ## Replacing one operand -/

theorem replacedOnce_elements {A : Type} {values tangents : List (View A)} {ts ts' : List (List Nat → A)}
    (hv : List.Forall₂ Elements values ts) (ht : List.Forall₂ Elements tangents ts') :
    List.Forall₂ (List.Forall₂ Elements) (replacedOnce values tangents) (replacedOnce ts ts') := by
  induction hv generalizing tangents ts' with
  | nil => simp [replacedOnce]
  | cons h hr ih =>
    cases ht with
    | nil => simp [replacedOnce]
    | cons h' hr' =>
      rw [replacedOnce, replacedOnce]
      refine .cons (.cons h' hr) ?_
      rw [List.forall₂_map_left_iff, List.forall₂_map_right_iff]
      exact (ih hr').imp fun _ _ h2 => .cons h h2

theorem replacedOnce_shapes {A : Type} {values tangents : List (View A)}
    (h : tangents.map View.shape = values.map View.shape) :
    ∀ us ∈ replacedOnce values tangents, us.map View.shape = values.map View.shape := by
  induction values generalizing tangents with
  | nil => simp [replacedOnce]
  | cons v vs ih =>
    cases tangents with
    | nil => simp [replacedOnce]
    | cons w ws =>
      simp only [List.map_cons, List.cons.injEq] at h
      intro us hus
      rw [replacedOnce, List.mem_cons, List.mem_map] at hus
      rcases hus with rfl | ⟨us, hus, rfl⟩
      · simp [h.1]
      · simp [ih h.2 us hus]

/-- The calls with one operand replaced are calls. -/
theorem replacedOnce_calls {A : Type} {s : String} {values tangents : List (View A)} {inputs : List (List Char)}
    {out : List Char} {dims : Char → Nat} {ts ts' : List (List Nat → A)} (hc : Call s values inputs out dims ts)
    (ht : List.Forall₂ Elements tangents ts') (hsh : tangents.map View.shape = values.map View.shape) :
    List.Forall₂ (fun us t => Call s us inputs out dims t) (replacedOnce values tangents) (replacedOnce ts ts') := by
  have h1 := replacedOnce_elements hc.elements ht
  have h2 := replacedOnce_shapes hsh
  generalize replacedOnce values tangents = L at h1 h2 ⊢
  generalize replacedOnce ts ts' = K at h1 ⊢
  induction h1 with
  | nil => exact .nil
  | cons h _ ih =>
    refine .cons ⟨hc.denotes, ?_, h⟩ (ih fun us hus => h2 us (by simp [hus]))
    rw [h2 _ (by simp)]
    exact hc.sized

section
variable {A : Type} [CommSemiring A]

/-- What the calls with one operand replaced return, at one position. -/
theorem replacedOnce_reads {s : String} {inputs : List (List Char)} {out : List Char} {dims : Char → Nat}
    {us : List (List (View A))} {ks : List (List (List Nat → A))} {qs : List (View A)}
    (hc : List.Forall₂ (fun us t => Call s us inputs out dims t) us ks)
    (hq : List.Forall₂ (fun us q => ∃ h al, einsum h al s us = .ok (.ok q)) us qs) {σ : Char → Nat}
    (hσ : InRange dims out σ) :
    List.Forall₂ (fun (q : View A) y => q.read (out.map σ) = .ok y) qs
      (ks.map fun k => Spec.einsum dims inputs k out σ) := by
  induction hc generalizing qs with
  | nil => cases hq; exact .nil
  | cons h1 _ ih =>
    cases hq with
    | cons h2 h3 =>
      obtain ⟨h, al, h2⟩ := h2
      exact .cons ((isEinsum_of_returned h1 h2).2.2 σ hσ) (ih h3)

theorem replacedOnce_return {s : String} {inputs : List (List Char)} {out : List Char} {dims : Char → Nat}
    {us : List (List (View A))} {ks : List (List (List Nat → A))}
    (hc : List.Forall₂ (fun us t => Call s us inputs out dims t) us ks) (hn : NoEmptyDiagonal dims inputs)
    (h : HashOrd) (al : Alloc A) : ∃ qs, List.Forall₂ (fun us q => einsum h al s us = .ok (.ok q)) us qs := by
  induction hc with
  | nil => exact ⟨[], .nil⟩
  | cons h1 _ ih =>
    obtain ⟨qs, hq⟩ := ih
    obtain ⟨r, hr, -⟩ := C13_einsum h al s _ _ _ _ _ h1 hn
    exact ⟨r :: qs, .cons hr hq⟩

theorem sumOver_list {ι α : Type} [DecidableEq ι] (dims : ι → Nat) (cs : List ι) (l : List α) (f : α → (ι → Nat) → A)
    (σ : ι → Nat) :
    sumOver dims cs (fun σ => (l.map fun a => f a σ).sum) σ = (l.map fun a => sumOver dims cs (f a) σ).sum := by
  induction l with
  | nil => simp [sumOver_zero]
  | cons a l ih => simp only [List.map_cons, List.sum_cons, sumOver_add, ih]

theorem term_replaced_cons {ι : Type} (ix : List ι) (inputs : List (List ι)) (t t' : List Nat → A)
    (ts ts' : List (List Nat → A)) (σ : ι → Nat) :
    ((replacedOnce (t :: ts) (t' :: ts')).map fun k => term (ix :: inputs) k σ).sum =
      t' (ix.map σ) * term inputs ts σ + t (ix.map σ) * ((replacedOnce ts ts').map fun k => term inputs k σ).sum := by
  simp only [replacedOnce, List.map_cons, List.sum_cons, term_cons, List.map_map, Function.comp_def,
    List.sum_map_mul_left]

end

/-! ## Dual numbers -/

section
variable {A : Type} [CommSemiring A]

theorem fst_term {ι : Type} (inputs : List (List ι)) (ts : List (List Nat → DualNumber A)) (σ : ι → Nat) :
    (term inputs ts σ).fst = term inputs (ts.map fun t idx => (t idx).fst) σ := by
  induction inputs generalizing ts with
  | nil => simp [term]
  | cons ix inputs ih =>
    cases ts with
    | nil => simp [term]
    | cons t ts => rw [List.map_cons, term_cons, term_cons, TrivSqZeroExt.fst_mul, ih]

theorem snd_term {ι : Type} (inputs : List (List ι)) (ts : List (List Nat → DualNumber A))
    (hl : inputs.length = ts.length) (σ : ι → Nat) :
    (term inputs ts σ).snd = ((replacedOnce (ts.map fun t idx => (t idx).fst) (ts.map fun t idx => (t idx).snd)).map
      fun k => term inputs k σ).sum := by
  induction inputs generalizing ts with
  | nil =>
    obtain rfl : ts = [] := by simpa using hl.symm
    simp [term, replacedOnce]
  | cons ix inputs ih =>
    cases ts with
    | nil => simp at hl
    | cons t ts =>
      rw [List.map_cons, List.map_cons, term_replaced_cons, term_cons, TrivSqZeroExt.snd_mul,
        ih _ (by simpa using hl), fst_term]
      simp only [smul_eq_mul, MulOpposite.smul_eq_mul_unop, MulOpposite.unop_op]
      exact add_comm _ _

theorem fst_sumOver {ι : Type} [DecidableEq ι] (dims : ι → Nat) (cs : List ι) (f : (ι → Nat) → DualNumber A)
    (σ : ι → Nat) : (sumOver dims cs f σ).fst = sumOver dims cs (fun σ => (f σ).fst) σ := by
  induction cs generalizing σ with
  | nil => rfl
  | cons c cs ih => rw [sumOver_cons, sumOver_cons, TrivSqZeroExt.fst_sum]; simp only [ih]

theorem snd_sumOver {ι : Type} [DecidableEq ι] (dims : ι → Nat) (cs : List ι) (f : (ι → Nat) → DualNumber A)
    (σ : ι → Nat) : (sumOver dims cs f σ).snd = sumOver dims cs (fun σ => (f σ).snd) σ := by
  induction cs generalizing σ with
  | nil => rfl
  | cons c cs ih => rw [sumOver_cons, sumOver_cons, TrivSqZeroExt.snd_sum]; simp only [ih]

/-- C94: on dual numbers the first part of the result is the result on the first parts, and the second part is the sum of
the results with one operand replaced by its second parts and the others by their first, whenever the calls return. -/
theorem C94_dual_returned (h h' : HashOrd) (al : Alloc (DualNumber A)) (al' : Alloc A) (s : String)
    (operands : List (View (DualNumber A))) (values tangents : List (View A)) (inputs : List (List Char))
    (out : List Char) (dims : Char → Nat) (ts : List (List Nat → DualNumber A))
    (hc : Call s operands inputs out dims ts)
    (hv : Call s values inputs out dims (ts.map fun t idx => (t idx).fst))
    (ht : List.Forall₂ Elements tangents (ts.map fun t idx => (t idx).snd))
    (hsh : tangents.map View.shape = values.map View.shape)
    (r : View (DualNumber A)) (hr : einsum h al s operands = .ok (.ok r))
    (q : View A) (hq : einsum h' al' s values = .ok (.ok q)) (qs : List (View A))
    (hqs : List.Forall₂ (fun us q => ∃ h al, einsum h al s us = .ok (.ok q)) (replacedOnce values tangents) qs)
    (σ : Char → Nat) (hσ : InRange dims out σ) :
    ∃ z ys, r.read (out.map σ) = .ok z ∧ q.read (out.map σ) = .ok z.fst ∧
      List.Forall₂ (fun (q : View A) y => q.read (out.map σ) = .ok y) qs ys ∧ z.snd = ys.sum := by
  have hl : inputs.length = ts.length := by
    have h1 := hc.elements.length_eq
    have h2 := hc.sized.length_eq
    simp only [List.length_map] at h2
    omega
  refine ⟨_, _, (isEinsum_of_returned hc hr).2.2 σ hσ, ?_, replacedOnce_reads (replacedOnce_calls hv ht hsh) hqs hσ, ?_⟩
  · rw [(isEinsum_of_returned hv hq).2.2 σ hσ, Spec.einsum, Spec.einsum, fst_sumOver]
    simp only [fst_term]
  · rw [Spec.einsum, snd_sumOver]
    simp only [snd_term _ _ hl, Spec.einsum]
    rw [sumOver_list]

/-- C94: where no operand has both a repeated letter and an empty axis, all these calls return. -/
theorem C94_dual (h h' : HashOrd) (al : Alloc (DualNumber A)) (al' : Alloc A) (s : String)
    (operands : List (View (DualNumber A))) (values tangents : List (View A)) (inputs : List (List Char))
    (out : List Char) (dims : Char → Nat) (ts : List (List Nat → DualNumber A))
    (hc : Call s operands inputs out dims ts)
    (hv : Call s values inputs out dims (ts.map fun t idx => (t idx).fst))
    (ht : List.Forall₂ Elements tangents (ts.map fun t idx => (t idx).snd))
    (hsh : tangents.map View.shape = values.map View.shape) (hn : NoEmptyDiagonal dims inputs) :
    ∃ r q qs, einsum h al s operands = .ok (.ok r) ∧ einsum h' al' s values = .ok (.ok q) ∧
      List.Forall₂ (fun us q => einsum h' al' s us = .ok (.ok q)) (replacedOnce values tangents) qs ∧
      ∀ σ, InRange dims out σ → ∃ z ys, r.read (out.map σ) = .ok z ∧ q.read (out.map σ) = .ok z.fst ∧
        List.Forall₂ (fun (q : View A) y => q.read (out.map σ) = .ok y) qs ys ∧ z.snd = ys.sum := by
  obtain ⟨r, hr, -⟩ := C13_einsum h al s _ _ _ _ _ hc hn
  obtain ⟨q, hq, -⟩ := C13_einsum h' al' s _ _ _ _ _ hv hn
  obtain ⟨qs, hqs⟩ := replacedOnce_return (replacedOnce_calls hv ht hsh) hn h' al'
  exact ⟨r, q, qs, hr, hq, hqs, C94_dual_returned h h' al al' s operands values tangents inputs out dims ts hc hv ht hsh
    r hr q hq qs (hqs.imp fun _ _ h1 => ⟨h', al', h1⟩)⟩

end

theorem Ex.denotes_dot : Denotes "i,i->" [['i'], ['i']] [] :=
  .inl ⟨by decide, ⟨by simp, by simp [Letter], by simp [Letter]⟩, by simp [OutputOk, Used]⟩

/-- A vector of two elements. -/
def Ex.twoVec {A : Type} (a b : A) : View A := ⟨[a, b], 0, [2], [1]⟩

theorem Ex.elements_twoVec {A : Type} (a b : A) : Elements (Ex.twoVec a b) (fun idx => [a, b].getD (idx.headD 0) a) :=
  elements_of rfl (by
    intro idx hi
    obtain ⟨i, hi, rfl⟩ : ∃ i, i < 2 ∧ idx = [i] := by
      have := mem_allIdx.1 hi
      match idx, this with
      | [i], h => exact ⟨i, by simpa [Ex.twoVec, InB] using h, rfl⟩
      | [], h => simp [Ex.twoVec] at h
      | _ :: _ :: _, h => simp [Ex.twoVec, InB] at h
    match i, hi with
    | 0, _ => rfl
    | 1, _ => rfl)

theorem Ex.call_dot {A : Type} (a b c d : A) : Call "i,i->" [Ex.twoVec a b, Ex.twoVec c d] [['i'], ['i']] [] (fun _ => 2)
    [fun idx => [a, b].getD (idx.headD 0) a, fun idx => [c, d].getD (idx.headD 0) c] :=
  ⟨Ex.denotes_dot, by simp [Sized, Ex.twoVec], .cons (Ex.elements_twoVec a b) (.cons (Ex.elements_twoVec c d) .nil)⟩

/-- The dual numbers `3 + 5e` and so on. -/
abbrev Ex.dual (x y : Int) : DualNumber Int := (x, y)

theorem Ex.parts {A B : Type} (f : A → B) (a b : A) :
    (fun idx : List Nat => f ([a, b].getD (idx.headD 0) a)) = fun idx => [f a, f b].getD (idx.headD 0) (f a) := by
  funext idx
  match idx.headD 0 with
  | 0 => rfl
  | 1 => rfl
  | _ + 2 => rfl

example : ∃ r q qs, einsum .insertion (Alloc.rowMajor _) "i,i->"
      [Ex.twoVec (Ex.dual 3 5) (Ex.dual 1 7), Ex.twoVec (Ex.dual 2 4) (Ex.dual 6 8)] = .ok (.ok r) ∧
    einsum .reversed (Alloc.colMajor Int) "i,i->" [Ex.twoVec 3 1, Ex.twoVec 2 6] = .ok (.ok q) ∧
    List.Forall₂ (fun us q => einsum .reversed (Alloc.colMajor Int) "i,i->" us = .ok (.ok q))
      [[Ex.twoVec 5 7, Ex.twoVec 2 6], [Ex.twoVec 3 1, Ex.twoVec 4 8]] qs ∧
    ∀ σ : Char → Nat, InRange (fun _ => 2) [] σ → ∃ z ys, r.read [] = .ok z ∧ q.read [] = .ok z.fst ∧
      List.Forall₂ (fun (q : View Int) y => q.read [] = .ok y) qs ys ∧ z.snd = ys.sum := by
  refine C94_dual .insertion .reversed (Alloc.rowMajor _) (Alloc.colMajor Int) "i,i->" _ _ [Ex.twoVec 5 7, Ex.twoVec 4 8]
    _ _ _ _ (Ex.call_dot (Ex.dual 3 5) (Ex.dual 1 7) (Ex.dual 2 4) (Ex.dual 6 8)) ?_ ?_ rfl (by simp [NoEmptyDiagonal])
  · simp only [List.map_cons, List.map_nil, Ex.parts TrivSqZeroExt.fst]
    exact Ex.call_dot 3 1 2 6
  · simp only [List.map_cons, List.map_nil, Ex.parts TrivSqZeroExt.snd]
    exact .cons (Ex.elements_twoVec 5 7) (.cons (Ex.elements_twoVec 4 8) .nil)

/-! ## Derivatives -/

section
variable {𝕜 : Type} [NontriviallyNormedField 𝕜]

theorem hasDerivAt_sumOver {ι : Type} [DecidableEq ι] (dims : ι → Nat) (cs : List ι) (f : 𝕜 → (ι → Nat) → 𝕜)
    (f' : (ι → Nat) → 𝕜) (t₀ : 𝕜) (σ : ι → Nat)
    (h : ∀ σ', (∀ c, c ∉ cs → σ' c = σ c) → InRange dims cs σ' → HasDerivAt (fun t => f t σ') (f' σ') t₀) :
    HasDerivAt (fun t => sumOver dims cs (f t) σ) (sumOver dims cs f' σ) t₀ := by
  induction cs generalizing σ with
  | nil => exact h σ (fun _ _ => rfl) (by simp [InRange])
  | cons c cs ih =>
    simp only [sumOver_cons]
    refine HasDerivAt.fun_sum fun v hv => ih _ fun σ' h1 h2 => h σ' ?_ ?_
    · intro d hd
      simp only [List.mem_cons, not_or] at hd
      rw [h1 d hd.2, update_of_ne hd.1]
    · intro d hd
      by_cases hdc : d ∈ cs
      · exact h2 d hdc
      · obtain rfl : d = c := by simpa [hdc] using hd
        rw [h1 d hdc, update_self]
        exact Finset.mem_range.1 hv

theorem hasDerivAt_term (dims : Char → Nat) (inputs : List (List Char)) (fs : List (𝕜 → List Nat → 𝕜))
    (ts' : List (List Nat → 𝕜)) (t₀ : 𝕜) (σ : Char → Nat)
    (hl : inputs.length = fs.length) (hl' : inputs.length = ts'.length)
    (hd : ∀ (k : Nat) ix f t', inputs[k]? = some ix → fs[k]? = some f → ts'[k]? = some t' →
      ∀ idx, InB (ix.map dims) idx → HasDerivAt (fun t => f t idx) (t' idx) t₀)
    (hσ : InRange dims inputs.flatten σ) :
    HasDerivAt (fun t => term inputs (fs.map fun f => f t) σ)
      ((replacedOnce (fs.map fun f => f t₀) ts').map fun k => term inputs k σ).sum t₀ := by
  induction inputs generalizing fs ts' with
  | nil =>
    obtain rfl : fs = [] := by simpa using hl.symm
    simpa [term, replacedOnce] using hasDerivAt_const t₀ (1 : 𝕜)
  | cons ix inputs ih =>
    cases fs with
    | nil => simp at hl
    | cons f fs =>
      cases ts' with
      | nil => simp at hl'
      | cons t' ts' =>
        simp only [List.map_cons, term_cons]
        rw [term_replaced_cons]
        refine HasDerivAt.fun_mul (hd 0 ix f t' rfl rfl rfl _ (InB_map.2 fun c hc => hσ c (by simp [hc]))) ?_
        refine ih fs ts' (by simpa using hl) (by simpa using hl') (fun k ix f t' h1 h2 h3 => ?_)
          fun c hc => hσ c (by rw [List.flatten_cons]; exact List.mem_append_right _ hc)
        exact hd (k + 1) ix f t' (by simpa using h1) (by simpa using h2) (by simpa using h3)

/-- C94: if the elements of the operands are differentiable functions of a parameter, then so are those of the result;
their derivatives are the sums of the results with one operand replaced by its derivative, whenever the calls return. -/
theorem C94_deriv_returned (h : 𝕜 → HashOrd) (al : 𝕜 → Alloc 𝕜) (s : String) (operands : 𝕜 → List (View 𝕜))
    (tangents : List (View 𝕜)) (inputs : List (List Char)) (out : List Char) (dims : Char → Nat)
    (fs : List (𝕜 → List Nat → 𝕜)) (ts' : List (List Nat → 𝕜)) (t₀ : 𝕜)
    (hc : ∀ t, Call s (operands t) inputs out dims (fs.map fun f => f t))
    (ht : List.Forall₂ Elements tangents ts')
    (hsh : tangents.map View.shape = (operands t₀).map View.shape)
    (hd : ∀ (k : Nat) ix f t', inputs[k]? = some ix → fs[k]? = some f → ts'[k]? = some t' →
      ∀ idx, InB (ix.map dims) idx → HasDerivAt (fun t => f t idx) (t' idx) t₀)
    (r : 𝕜 → View 𝕜) (hr : ∀ t, einsum (h t) (al t) s (operands t) = .ok (.ok (r t))) (qs : List (View 𝕜))
    (hqs : List.Forall₂ (fun us q => ∃ h al, einsum h al s us = .ok (.ok q)) (replacedOnce (operands t₀) tangents) qs)
    (σ : Char → Nat) (hσ : InRange dims out σ) :
    ∃ (z : 𝕜 → 𝕜) (ys : List 𝕜), (∀ t, (r t).read (out.map σ) = .ok (z t)) ∧
      List.Forall₂ (fun (q : View 𝕜) y => q.read (out.map σ) = .ok y) qs ys ∧ HasDerivAt z ys.sum t₀ := by
  have hlen : ∀ t, inputs.length = (operands t).length := fun t => by
    have h2 := (hc t).sized.length_eq
    simpa only [List.length_map] using h2
  have hl : inputs.length = fs.length := by
    have h1 := (hc t₀).elements.length_eq
    rw [List.length_map] at h1
    exact (hlen t₀).trans h1
  have hl' : inputs.length = ts'.length := by
    have h1 := ht.length_eq
    have h2 := congrArg List.length hsh
    simp only [List.length_map] at h2
    exact (hlen t₀).trans (h2.symm.trans h1)
  refine ⟨_, _, fun t => (isEinsum_of_returned (hc t) (hr t)).2.2 σ hσ,
    replacedOnce_reads (replacedOnce_calls (hc t₀) ht hsh) hqs hσ, ?_⟩
  simp only [Spec.einsum]
  rw [← sumOver_list]
  refine hasDerivAt_sumOver _ _ _ _ _ _ fun σ' h1 h2 => hasDerivAt_term dims inputs fs ts' t₀ σ' hl hl' hd fun c hc => ?_
  by_cases ho : c ∈ out
  · rw [h1 c fun h => (mem_summed.1 h).2 ho]
    exact hσ c ho
  · exact h2 c (mem_summed.2 ⟨hc, ho⟩)

/-- C94: where no operand has both a repeated letter and an empty axis, all these calls return. -/
theorem C94_deriv (h : 𝕜 → HashOrd) (al : 𝕜 → Alloc 𝕜) (h' : HashOrd) (al' : Alloc 𝕜) (s : String)
    (operands : 𝕜 → List (View 𝕜))
    (tangents : List (View 𝕜)) (inputs : List (List Char)) (out : List Char) (dims : Char → Nat)
    (fs : List (𝕜 → List Nat → 𝕜)) (ts' : List (List Nat → 𝕜)) (t₀ : 𝕜)
    (hc : ∀ t, Call s (operands t) inputs out dims (fs.map fun f => f t))
    (ht : List.Forall₂ Elements tangents ts')
    (hsh : tangents.map View.shape = (operands t₀).map View.shape)
    (hd : ∀ (k : Nat) ix f t', inputs[k]? = some ix → fs[k]? = some f → ts'[k]? = some t' →
      ∀ idx, InB (ix.map dims) idx → HasDerivAt (fun t => f t idx) (t' idx) t₀) (hn : NoEmptyDiagonal dims inputs) :
    ∃ (r : 𝕜 → View 𝕜) (qs : List (View 𝕜)), (∀ t, einsum (h t) (al t) s (operands t) = .ok (.ok (r t))) ∧
      List.Forall₂ (fun us q => einsum h' al' s us = .ok (.ok q)) (replacedOnce (operands t₀) tangents) qs ∧
      ∀ σ, InRange dims out σ → ∃ (z : 𝕜 → 𝕜) (ys : List 𝕜), (∀ t, (r t).read (out.map σ) = .ok (z t)) ∧
        List.Forall₂ (fun (q : View 𝕜) y => q.read (out.map σ) = .ok y) qs ys ∧ HasDerivAt z ys.sum t₀ := by
  choose r hr _ using fun t => C13_einsum (h t) (al t) s _ _ _ _ _ (hc t) hn
  obtain ⟨qs, hqs⟩ := replacedOnce_return (replacedOnce_calls (hc t₀) ht hsh) hn h' al'
  exact ⟨r, qs, hr, hqs, C94_deriv_returned h al s operands tangents inputs out dims fs ts' t₀ hc ht hsh hd r hr qs
    (hqs.imp fun _ _ h1 => ⟨h', al', h1⟩)⟩

example (t₀ : 𝕜) : ∃ (r : 𝕜 → View 𝕜) (qs : List (View 𝕜)),
    (∀ t, einsum .insertion (Alloc.rowMajor 𝕜) "i,i->" [Ex.twoVec (t * t) 1, Ex.twoVec t t] = .ok (.ok (r t))) ∧
    List.Forall₂ (fun us q => einsum .reversed (Alloc.colMajor 𝕜) "i,i->" us = .ok (.ok q))
      [[Ex.twoVec (t₀ + t₀) 0, Ex.twoVec t₀ t₀], [Ex.twoVec (t₀ * t₀) 1, Ex.twoVec 1 1]] qs ∧
    ∀ σ : Char → Nat, InRange (fun _ => 2) [] σ → ∃ (z : 𝕜 → 𝕜) (ys : List 𝕜), (∀ t, (r t).read [] = .ok (z t)) ∧
      List.Forall₂ (fun (q : View 𝕜) y => q.read [] = .ok y) qs ys ∧ HasDerivAt z ys.sum t₀ := by
  refine C94_deriv (fun _ => .insertion) (fun _ => Alloc.rowMajor 𝕜) .reversed (Alloc.colMajor 𝕜) "i,i->"
    (fun t => [Ex.twoVec (t * t) 1, Ex.twoVec t t]) [Ex.twoVec (t₀ + t₀) 0, Ex.twoVec 1 1] [['i'], ['i']] [] _
    [fun t idx => [t * t, 1].getD (idx.headD 0) (t * t), fun t idx => [t, t].getD (idx.headD 0) t] _ t₀
    (fun t => Ex.call_dot (t * t) 1 t t) (.cons (Ex.elements_twoVec _ _) (.cons (Ex.elements_twoVec _ _) .nil)) rfl ?_
    (by simp [NoEmptyDiagonal])
  have hm : HasDerivAt (fun t : 𝕜 => t * t) (t₀ + t₀) t₀ := by
    simpa using (hasDerivAt_id t₀).fun_mul (hasDerivAt_id t₀)
  intro k ix f t' _ h2 h3 idx _
  match k with
  | 0 =>
    simp only [List.getElem?_cons_zero, Option.some.injEq] at h2 h3
    subst h2 h3
    beta_reduce
    generalize idx.headD 0 = i
    match i with
    | 0 => exact hm
    | 1 => exact hasDerivAt_const t₀ (1 : 𝕜)
    | _ + 2 => exact hm
  | 1 =>
    simp only [List.getElem?_cons_succ, List.getElem?_cons_zero, Option.some.injEq] at h2 h3
    subst h2 h3
    beta_reduce
    generalize idx.headD 0 = i
    match i with
    | 0 => exact hasDerivAt_id t₀
    | 1 => exact hasDerivAt_id t₀
    | _ + 2 => exact hasDerivAt_id t₀
  | _ + 2 => simp at h2

end

end Einsum
