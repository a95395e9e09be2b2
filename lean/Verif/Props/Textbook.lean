import Verif.SpecSum
import Verif.Props.Trees

/-!
# The textbook formula: C76
-/

namespace Einsum

open Spec

/-! ## One sum instead of one sum for each label -/

theorem sumOver_points {ι A : Type} [DecidableEq ι] [AddCommMonoid A] (dims : ι → Nat) (cs : List ι) (hn : cs.Nodup)
    (f : (ι → Nat) → A) (σ : ι → Nat) (S : Finset (ι → Nat))
    (hS : ∀ τ, τ ∈ S ↔ (∀ c ∈ cs, τ c < dims c) ∧ ∀ c, c ∉ cs → τ c = σ c) :
    sumOver dims cs f σ = ∑ τ ∈ S, f τ := by
  induction cs generalizing σ S with
  | nil =>
    have : S = {σ} := by
      ext τ
      rw [hS, Finset.mem_singleton]
      exact ⟨fun h => funext fun c => h.2 c (by simp), fun h => ⟨by simp, fun c _ => by rw [h]⟩⟩
    rw [this, Finset.sum_singleton]
    rfl
  | cons c cs ih =>
    rw [List.nodup_cons] at hn
    rw [sumOver_cons, ← Finset.sum_fiberwise_of_maps_to (s := S) (t := Finset.range (dims c)) (g := fun τ => τ c)
      (fun τ hτ => Finset.mem_range.2 (((hS τ).1 hτ).1 c (by simp)))]
    refine Finset.sum_congr rfl fun v hv => ih hn.2 _ _ fun τ => ?_
    rw [Finset.mem_filter, hS]
    rw [Finset.mem_range] at hv
    constructor
    · rintro ⟨⟨h1, h2⟩, h3⟩
      refine ⟨fun d hd => h1 d (by simp [hd]), fun d hd => ?_⟩
      by_cases hdc : d = c
      · rw [hdc, h3, Function.update_self]
      · rw [Function.update_of_ne hdc]
        exact h2 d (by simp [hd, hdc])
    · rintro ⟨h1, h2⟩
      have hc : τ c = v := by rw [h2 c hn.1, Function.update_self]
      refine ⟨⟨fun d hd => ?_, fun d hd => ?_⟩, hc⟩
      · rcases List.mem_cons.1 hd with rfl | hd
        · rw [hc]; exact hv
        · exact h1 d hd
      · simp only [List.mem_cons, not_or] at hd
        rw [h2 d hd.2, Function.update_of_ne hd.1]

theorem Spec.Assignment.pos_of_mem {dims : Char → Nat} {inputs : List (List Char)} (τ : Assignment dims inputs) {c : Char}
    (h : c ∈ inputs.flatten) : τ.pos c = τ ⟨c, h⟩ := dif_pos h

theorem Spec.Assignment.pos_lt {dims : Char → Nat} {inputs : List (List Char)} (τ : Assignment dims inputs) {c : Char}
    (h : c ∈ inputs.flatten) : τ.pos c < dims c := by rw [τ.pos_of_mem h]; exact (τ _).2

theorem Spec.Assignment.pos_inj {dims : Char → Nat} {inputs : List (List Char)} {τ τ' : Assignment dims inputs}
    (h : τ.pos = τ'.pos) : τ = τ' := by
  funext ⟨c, hc⟩
  have := congrFun h c
  rw [τ.pos_of_mem hc, τ'.pos_of_mem hc] at this
  exact Fin.ext this

theorem zip_prod {A : Type} [CommMonoid A] (inputs : List (List Char)) (ts : List (List Nat → A)) (σ : Char → Nat) :
    ((ts.zip inputs).map fun x => x.1 (x.2.map σ)).prod = term inputs ts σ := by
  unfold term
  rw [List.zip, List.map_zipWith, List.zipWith_comm]

theorem textbook_eq {A : Type} [CommSemiring A] {dims : Char → Nat} {inputs : List (List Char)} {out : List Char}
    (hsub : ∀ c ∈ out, c ∈ inputs.flatten) (ts : List (List Nat → A)) {σ : Char → Nat} (hσ : InRange dims out σ)
    (h0 : ∀ c, c ∉ out → σ c = 0) :
    Spec.einsum dims inputs ts out σ = textbook dims inputs ts out (out.map σ) := by
  classical
  unfold Spec.einsum textbook
  rw [sumOver_points dims _ (summed_nodup inputs out) _ σ
    ((Finset.univ.filter fun τ : Assignment dims inputs => out.map τ.pos = out.map σ).image Assignment.pos),
    Finset.sum_image fun _ _ _ _ h => Assignment.pos_inj h, Finset.sum_filter]
  · simp only [zip_prod]
  intro τ
  simp only [Finset.mem_image, Finset.mem_filter, Finset.mem_univ, true_and, mem_summed]
  constructor
  · rintro ⟨a, ha, rfl⟩
    refine ⟨fun c hc => a.pos_lt hc.1, fun c hc => ?_⟩
    by_cases hco : c ∈ out
    · exact List.map_inj_left.1 ha c hco
    · rw [h0 c hco]
      exact dif_neg fun hf => hc ⟨hf, hco⟩
  · rintro ⟨h1, h2⟩
    have hlt : ∀ c ∈ inputs.flatten, τ c < dims c := fun c hc => by
      by_cases hco : c ∈ out
      · rw [h2 c fun h => h.2 hco]
        exact hσ c hco
      · exact h1 c ⟨hc, hco⟩
    have hpos : Assignment.pos (fun c : LetterOf inputs => (⟨τ c, hlt c c.2⟩ : Fin (dims c))) = τ := by
      funext c
      by_cases hc : c ∈ inputs.flatten
      · rw [Assignment.pos_of_mem _ hc]
      · rw [Assignment.pos, dif_neg hc, h2 c fun h => hc h.1, h0 c fun h => hc (hsub c h)]
    refine ⟨_, ?_, hpos⟩
    rw [hpos]
    exact List.map_inj_left.2 fun c hc => h2 c fun h => h.2 hc

theorem Spec.IsEinsum.textbook {A : Type} [CommSemiring A] {dims : Char → Nat} {inputs : List (List Char)}
    {ts : List (List Nat → A)} {out : List Char} {r : View A} (h : IsEinsum dims inputs ts out r) (hn : out.Nodup)
    (hsub : ∀ c ∈ out, c ∈ inputs.flatten) {idx : List Nat} (hi : InB r.shape idx) :
    r.read idx = .ok (Spec.textbook dims inputs ts out idx) := by
  rw [h.2.1] at hi
  obtain ⟨σ, h1, rfl⟩ := exists_assign hn hi
  have e : out.map σ = out.map fun c => if c ∈ out then σ c else 0 :=
    List.map_congr_left fun c hc => by rw [if_pos hc]
  have hr : InRange dims out fun c => if c ∈ out then σ c else 0 := fun c hc => by
    simp only [if_pos hc]
    exact h1 c hc
  rw [e, h.2.2 _ hr, textbook_eq hsub ts hr fun c hc => if_neg hc]

theorem Spec.Denotes.sub {s : String} {inputs : List (List Char)} {out : List Char} (hd : Denotes s inputs out) :
    ∀ c ∈ out, c ∈ inputs.flatten := fun c hc => by
  obtain ⟨p, hp, hcp⟩ := hd.outputOk.2 c hc
  exact List.mem_flatten.2 ⟨p, hp, hcp⟩

theorem Spec.Contracts.sub {dims : Char → Nat} {out : List Char} {k : Nat}
    {pending : List (OperandNumber × List Char)} {steps : List PairStep} (hc : Contracts dims out k pending steps) :
    ∀ c ∈ out, ∃ x ∈ pending, c ∈ x.2 := by
  induction hc with
  | done k => exact fun c hc => ⟨_, List.mem_singleton.2 rfl, hc⟩
  | @step k pending rest l r L R O st steps hp hn hops hO hsz hok hkeep hc ih =>
    intro c hc
    obtain ⟨x, hx, hcx⟩ := ih c hc
    rcases List.mem_cons.1 hx with rfl | hx
    · obtain ⟨p, hp', hcp⟩ := hok.2 c hcx
      simp only [List.mem_cons, List.not_mem_nil, or_false] at hp'
      rcases hp' with rfl | rfl
      · exact ⟨(l, p), hp.mem_iff.2 (by simp), hcp⟩
      · exact ⟨(r, p), hp.mem_iff.2 (by simp), hcp⟩
    · exact ⟨x, hp.mem_iff.2 (by simp [hx]), hcx⟩

theorem Spec.Contracts.sub_flatten {dims : Char → Nat} {out : List Char} {inputs : List (List Char)}
    {steps : List PairStep} (hc : Contracts dims out 0 (numbered inputs) steps) : ∀ c ∈ out, c ∈ inputs.flatten := by
  intro c hco
  obtain ⟨x, hx, hcx⟩ := hc.sub c hco
  obtain ⟨i, hi, rfl⟩ := List.mem_map.1 hx
  rw [List.mem_range] at hi
  simp only [List.getD_eq_getElem?_getD, List.getElem?_eq_getElem hi, Option.getD_some] at hcx
  exact List.mem_flatten.2 ⟨_, List.getElem_mem hi, hcx⟩

/-! ## C76 -/

variable {A : Type} [CommSemiring A]

/-- C76: `einsum` returns the array of the textbook formula. -/
theorem C76_einsum (h : HashOrd) (al : Alloc A) (s : String) (operands : List (View A))
    (inputs : List (List Char)) (out : List Char) (dims : Char → Nat) (ts : List (List Nat → A))
    (hc : Call s operands inputs out dims ts) (hn : NoEmptyDiagonal dims inputs) :
    ∃ r, einsum h al s operands = .ok (.ok r) ∧ r.shape = out.map dims ∧
      ∀ idx, InB (out.map dims) idx → r.read idx = .ok (textbook dims inputs ts out idx) := by
  obtain ⟨r, h1, h2⟩ := C13_einsum h al s operands inputs out dims ts hc hn
  exact ⟨r, h1, h2.2.1, fun idx hi => h2.textbook hc.denotes.outputOk.1 hc.denotes.sub (h2.2.1.symm ▸ hi)⟩

example : ∃ r, einsum HashOrd.reversed (Alloc.colMajor Int) "ij,jjk,kj->ij" [Ex.m23, Ex.m332, Ex.m23] = .ok (.ok r) ∧
    r.read [1, 2] = .ok (textbook Ex.dims [['i', 'j'], ['j', 'j', 'k'], ['k', 'j']]
      [Ex.elems Ex.m23, Ex.elems Ex.m332, Ex.elems Ex.m23] ['i', 'j'] [1, 2]) := by
  obtain ⟨r, h1, -, h3⟩ := C76_einsum HashOrd.reversed (Alloc.colMajor Int) _ _ _ _ _ _ Ex.call_three Ex.ned_three
  exact ⟨r, h1, h3 _ (by decide)⟩

/-- C76: so does a compiled path. -/
theorem C76_path (h : HashOrd) (al : Alloc A) (s : String) (operands : List (View A))
    (inputs : List (List Char)) (out : List Char) (dims : Char → Nat) (ts : List (List Nat → A))
    (m : OptimizationMethod) (hm : m = .naive ∨ m = .reverse)
    (hc : Call s operands inputs out dims ts) (hn : NoEmptyDiagonal dims inputs) :
    ∃ p r, einsumPath h s operands m = .ok (.ok p) ∧ p.contractOperands al operands = .ok r ∧ r.shape = out.map dims ∧
      ∀ idx, InB (out.map dims) idx → r.read idx = .ok (textbook dims inputs ts out idx) := by
  obtain ⟨p, p1, p2⟩ := einsumPath_ok hc.denotes hc.sized h hm
  obtain ⟨r, h1, h2⟩ := (p2.outcome hc.denotes.outputOk.1 hc.sized hc.elements al).1 (not_emptyDiagonal hn)
  exact ⟨p, r, p1, h1, h2.2.1, fun idx hi => h2.textbook hc.denotes.outputOk.1 hc.denotes.sub (h2.2.1.symm ▸ hi)⟩

example : ∃ p r, einsumPath HashOrd.insertion "ij,jk->ik" [Ex.m23, Ex.m32] .reverse = .ok (.ok p) ∧
    p.contractOperands (Alloc.rowMajor Int) [Ex.m23, Ex.m32] = .ok r ∧
    r.read [1, 0] = .ok (textbook Ex.dims [['i', 'j'], ['j', 'k']] [Ex.elems Ex.m23, Ex.elems Ex.m32] ['i', 'k'] [1, 0]) := by
  obtain ⟨p, r, h1, h2, -, h3⟩ := C76_path HashOrd.insertion (Alloc.rowMajor Int) _ _ _ _ _ _ .reverse (.inr rfl)
    Ex.call_matmul Ex.ned_matmul
  exact ⟨p, r, h1, h2, h3 _ (by decide)⟩

/-- C76: so does every contraction tree. -/
theorem C76_tree (h : HashOrd) (al : Alloc A) (steps : List PairStep)
    (inputs : List (List Char)) (out : List Char) (dims : Char → Nat) (operands : List (View A))
    (ts : List (List Nat → A)) (hc : Contracts dims out 0 (numbered inputs) steps)
    (hs : Sized dims inputs (operands.map View.shape)) (he : List.Forall₂ Elements operands ts)
    (hn : NoEmptyDiagonal dims inputs) :
    ∃ p r, EinsumPath.fromPath h (.pairs steps) = .ok p ∧ p.contractOperands al operands = .ok r ∧
      r.shape = out.map dims ∧
      ∀ idx, InB (out.map dims) idx → r.read idx = .ok (textbook dims inputs ts out idx) := by
  obtain ⟨p, r, p1, h1, h2⟩ := C72_order h al steps inputs out dims operands ts hc hs he hn
  exact ⟨p, r, p1, h1, h2.2.1, fun idx hi => h2.textbook (hc.out_nodup hc.ne_nil) hc.sub_flatten (h2.2.1.symm ▸ hi)⟩

example : ∃ p r, EinsumPath.fromPath HashOrd.reversed (.pairs Ex.balanced) = .ok p ∧
    p.contractOperands (Alloc.colMajor Int) [Ex.m23, Ex.m32, Ex.m23, Ex.m32] = .ok r ∧
    r.read [1, 1] = .ok (textbook Ex.treeDims Ex.treeInputs ([Ex.m23, Ex.m32, Ex.m23, Ex.m32].map View.elem)
      ['i', 'm'] [1, 1]) := by
  obtain ⟨p, r, h1, h2, -, h3⟩ := C76_tree HashOrd.reversed (Alloc.colMajor Int) _ _ _ _ _ _ Ex.contracts_tree Ex.sized_tree
    (forall₂_elem Ex.wf_tree) Ex.ned_tree
  exact ⟨p, r, h1, h2, h3 _ (by decide)⟩

theorem term_units {inputs : List (List Char)} {es : List (List Nat)} (hl : es.length = inputs.length)
    (σ : Char → Nat) :
    (((es.map (Spec.unit (A := A))).zip inputs).map fun x => x.1 (x.2.map σ)).prod =
      if inputs.map (fun ix => ix.map σ) = es then 1 else 0 := by
  induction inputs generalizing es with
  | nil =>
    cases es with
    | nil => simp
    | cons => simp at hl
  | cons ix inputs ih =>
    cases es with
    | nil => simp at hl
    | cons e es =>
      simp only [List.map_cons, List.zip_cons_cons, List.prod_cons, ih (es := es) (by simpa using hl), List.cons.injEq]
      by_cases h1 : ix.map σ = e <;> simp [Spec.unit, h1]

/-- The value of the formula for unit operands. -/
theorem textbook_units {dims : Char → Nat} {inputs : List (List Char)} {es : List (List Nat)} (out : List Char)
    (hl : es.length = inputs.length) (idx : List Nat) :
    ((∃ τ : Assignment dims inputs, inputs.map (fun ix => ix.map τ.pos) = es ∧ out.map τ.pos = idx) →
      textbook dims inputs (es.map (Spec.unit (A := A))) out idx = 1) ∧
    ((¬ ∃ τ : Assignment dims inputs, inputs.map (fun ix => ix.map τ.pos) = es ∧ out.map τ.pos = idx) →
      textbook dims inputs (es.map (Spec.unit (A := A))) out idx = 0) := by
  unfold textbook
  simp only [term_units hl]
  constructor
  · rintro ⟨τ, h1, h2⟩
    rw [Finset.sum_eq_single τ]
    · rw [if_pos h2, if_pos h1]
    · intro τ' _ hne
      by_cases h3 : inputs.map (fun ix => ix.map τ'.pos) = es
      · refine absurd (Assignment.pos_inj (funext fun c => ?_)) hne
        by_cases hc : c ∈ inputs.flatten
        · obtain ⟨ix, hix, hcx⟩ := List.mem_flatten.1 hc
          exact List.map_inj_left.1 (List.map_inj_left.1 (h3.trans h1.symm) ix hix) c hcx
        · rw [Assignment.pos, Assignment.pos, dif_neg hc, dif_neg hc]
      · rw [if_neg h3, ite_self]
    · simp
  · intro hne
    refine Finset.sum_eq_zero fun τ _ => ?_
    by_cases h2 : out.map τ.pos = idx
    · rw [if_pos h2, if_neg fun h1 => hne ⟨τ, h1, h2⟩]
    · rw [if_neg h2]

/-- C76: unit operands give a one where an assignment of positions to letters fits all the ones, and zeros elsewhere. -/
theorem C76_units (h : HashOrd) (al : Alloc A) (s : String) (operands : List (View A))
    (inputs : List (List Char)) (out : List Char) (dims : Char → Nat) (es : List (List Nat))
    (hc : Call s operands inputs out dims (es.map Spec.unit)) (hn : NoEmptyDiagonal dims inputs) :
    ∃ r, einsum h al s operands = .ok (.ok r) ∧ r.shape = out.map dims ∧
      ∀ idx, InB (out.map dims) idx →
        ((∃ τ : Char → Nat, InRange dims inputs.flatten τ ∧ inputs.map (fun ix => ix.map τ) = es ∧ out.map τ = idx) →
          r.read idx = .ok 1) ∧
        ((¬ ∃ τ : Char → Nat, InRange dims inputs.flatten τ ∧ inputs.map (fun ix => ix.map τ) = es ∧ out.map τ = idx) →
          r.read idx = .ok 0) := by
  obtain ⟨r, h1, h2, h3⟩ := C76_einsum h al s operands inputs out dims _ hc hn
  have hl : es.length = inputs.length := by
    have e1 := hc.elements.length_eq
    have e2 := hc.sized.length_eq
    simp only [List.length_map] at e1 e2
    omega
  refine ⟨r, h1, h2, fun idx hi => ?_⟩
  rw [h3 idx hi]
  have key := textbook_units (A := A) (dims := dims) out hl idx
  refine ⟨fun ⟨τ, t1, t2, t3⟩ => congrArg _ (key.1 ⟨fun c => ⟨τ c, t1 c c.2⟩, ?_⟩), fun hne => congrArg _ (key.2 ?_)⟩
  · have hp : ∀ c ∈ inputs.flatten,
        Assignment.pos (inputs := inputs) (fun c : LetterOf inputs => (⟨τ c, t1 c c.2⟩ : Fin (dims c))) c = τ c :=
      fun c hc => by rw [Assignment.pos_of_mem _ hc]
    refine ⟨?_, ?_⟩
    · rw [← t2]
      exact List.map_congr_left fun ix hix => List.map_congr_left fun c hc => hp c (List.mem_flatten.2 ⟨ix, hix, hc⟩)
    · rw [← t3]
      exact List.map_congr_left fun c hco => hp c (hc.denotes.sub c hco)
  · rintro ⟨τ, t1, t2⟩
    exact hne ⟨τ.pos, fun c hc => τ.pos_lt hc, t1, t2⟩

/-- A one in row 1, column 2. -/
def Ex.unit23 : View Int := ⟨[0, 0, 0, 0, 0, 1], 0, [2, 3], [3, 1]⟩

/-- A one in row 2, column 0, stored column-major. -/
def Ex.unit32 : View Int := ⟨[0, 0, 1, 0, 0, 0], 0, [3, 2], [1, 3]⟩

theorem Ex.call_units : Call "ij,jk->ik" [Ex.unit23, Ex.unit32] [['i', 'j'], ['j', 'k']] ['i', 'k'] Ex.dims
    ([[1, 2], [2, 0]].map Spec.unit) :=
  ⟨Ex.denotes_matmul, .cons (by decide) (.cons (by decide) .nil),
    .cons (elements_of rfl (by decide)) (.cons (elements_of rfl (by decide)) .nil)⟩

/-- Two unit matrices: the product is a unit matrix. -/
example : ∃ r, einsum HashOrd.insertion (Alloc.rowMajor Int) "ij,jk->ik" [Ex.unit23, Ex.unit32] = .ok (.ok r) ∧
    r.read [1, 0] = .ok 1 ∧ r.read [0, 0] = .ok 0 := by
  obtain ⟨r, h1, -, h3⟩ := C76_units HashOrd.insertion (Alloc.rowMajor Int) _ _ _ _ _ _ Ex.call_units Ex.ned_matmul
  refine ⟨r, h1, (h3 [1, 0] (by decide)).1 ⟨fun c => if c = 'i' then 1 else if c = 'j' then 2 else 0, ?_, ?_, ?_⟩,
    (h3 [0, 0] (by decide)).2 ?_⟩
  · simp [InRange, Ex.dims]
  · decide
  · decide
  · rintro ⟨τ, -, t2, t3⟩
    simp only [List.map_cons, List.map_nil, List.cons.injEq, and_true] at t2 t3
    omega

end Einsum
