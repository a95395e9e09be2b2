import Verif.SpecIndex
import Verif.Props.Algebra

/-!
# Properties C89 - C92: positions, merged letters, independent groups, symmetries
-/

namespace Einsum

open Spec Function

variable {A : Type} [CommSemiring A]

/-! ## Terms -/

/-- Two terms with equal factors. -/
theorem term_eq {inputs inputs' : List (List Char)} {operands operands' : List (View A)} {σ τ : Char → Nat}
    (h1 : inputs.length = operands.length) (h2 : inputs'.length = inputs.length)
    (h3 : operands'.length = operands.length)
    (h : ∀ (k : Nat) ix ix' (v w : View A), inputs[k]? = some ix → inputs'[k]? = some ix' → operands[k]? = some v →
      operands'[k]? = some w → w.elem (ix'.map τ) = v.elem (ix.map σ)) :
    term inputs' (operands'.map View.elem) τ = term inputs (operands.map View.elem) σ := by
  unfold term
  congr 1
  refine List.ext_getElem (by simp [h1, h2, h3]) fun k hk hk' => ?_
  simp only [List.length_zipWith, List.length_map, lt_min_iff] at hk hk'
  simp only [List.getElem_zipWith, List.getElem_map]
  exact h k _ _ _ _ (List.getElem?_eq_getElem hk'.1) (List.getElem?_eq_getElem hk.1)
    (List.getElem?_eq_getElem hk'.2) (List.getElem?_eq_getElem hk.2)

omit [CommSemiring A] in
theorem elem_eq [Zero A] {v w : View A} {i j : List Nat} (h : w.read i = v.read j) : w.elem i = v.elem j := by
  unfold View.elem
  rw [h]

omit [CommSemiring A] in
/-- Shapes, operand by operand. -/
theorem sized_of {dims : Char → Nat} {inputs : List (List Char)} {operands : List (View A)}
    (hl : inputs.length = operands.length)
    (h : ∀ (k : Nat) (ix : List Char) (v : View A), inputs[k]? = some ix → operands[k]? = some v → v.shape = ix.map dims) :
    Sized dims inputs (operands.map View.shape) := by
  unfold Sized
  rw [List.forall₂_map_right_iff, List.forall₂_iff_get]
  refine ⟨hl, fun k h1 h2 => ?_⟩
  exact h k _ _ (List.getElem?_eq_getElem h1) (List.getElem?_eq_getElem h2)

omit [CommSemiring A] in
/-- Validity and shapes of operands described one by one. -/
theorem described {dims : Char → Nat} {inputs inputs' : List (List Char)} {operands operands' : List (View A)}
    (hl0 : inputs.length = operands.length) (hl : operands'.length = operands.length)
    (hl' : inputs'.length = inputs.length)
    (h : ∀ (k : Nat) ix v ix' w, inputs[k]? = some ix → operands[k]? = some v → inputs'[k]? = some ix' →
      operands'[k]? = some w → w.Wf ∧ w.shape = List.map dims ix') :
    (∀ w ∈ operands', w.Wf) ∧ Sized dims inputs' (operands'.map View.shape) := by
  have key : ∀ (k : Nat) ix' w, inputs'[k]? = some ix' → operands'[k]? = some w →
      w.Wf ∧ w.shape = List.map dims ix' := by
    intro k ix' w h1 h2
    have hk := (List.getElem?_eq_some_iff.1 h2).1
    exact h k _ _ ix' w (List.getElem?_eq_getElem (by omega)) (List.getElem?_eq_getElem (by omega)) h1 h2
  refine ⟨fun w hm => ?_, sized_of (by omega) fun k ix w h1 h2 => (key k ix w h1 h2).2⟩
  obtain ⟨k, hk⟩ := List.mem_iff_getElem?.1 hm
  have hk' := (List.getElem?_eq_some_iff.1 hk).1
  exact (key k _ w (List.getElem?_eq_getElem (by omega)) hk).1

/-! ## C89 -/

theorem sumOver_reindex {B : Type} [AddCommMonoid B] {dims dims' : Char → Nat} {f : Char → Nat → Nat} {S : List Char}
    {F G : (Char → Nat) → B} {cs : List Char}
    (hb : ∀ c ∈ cs, (∀ i < dims' c, f c i < dims c) ∧ (∀ i < dims' c, ∀ j < dims' c, f c i = f c j → i = j) ∧
      ∀ j < dims c, ∃ i < dims' c, f c i = j)
    (hFG : ∀ σ τ, InRange dims' S τ → (∀ c ∈ S, σ c = f c (τ c)) → G τ = F σ) {σ τ : Char → Nat}
    (hr : ∀ c ∈ S, c ∉ cs → τ c < dims' c) (h : ∀ c ∈ S, c ∉ cs → σ c = f c (τ c)) :
    sumOver dims' cs G τ = sumOver dims cs F σ := by
  induction cs generalizing σ τ with
  | nil => exact hFG σ τ (fun c hc => hr c hc (by simp)) fun c hc => h c hc (by simp)
  | cons c cs ih =>
    obtain ⟨h1, h2, h3⟩ := hb c (by simp)
    rw [sumOver_cons, sumOver_cons]
    refine Finset.sum_bij (fun i _ => f c i) (fun i hi => ?_) (fun i hi j hj e => ?_) (fun j hj => ?_) fun i hi => ?_
    · exact Finset.mem_range.2 (h1 i (Finset.mem_range.1 hi))
    · exact h2 i (Finset.mem_range.1 hi) j (Finset.mem_range.1 hj) e
    · obtain ⟨i, hi, e⟩ := h3 j (Finset.mem_range.1 hj)
      exact ⟨i, Finset.mem_range.2 hi, e⟩
    · refine ih (fun d hd => hb d (by simp [hd])) (fun d hd hn => ?_) fun d hd hn => ?_
      · by_cases e : d = c
        · subst e; simpa using hi
        · rw [update_of_ne e]; exact hr d hd (by simp [e, hn])
      · by_cases e : d = c
        · subst e; simp
        · rw [update_of_ne e, update_of_ne e]; exact h d hd (by simp [e, hn])

/-- C89: whenever both calls return, the result of the operands with positions taken is the result of the whole
operands with the positions of its letters taken.  For a letter that is summed over, every position must be taken
exactly once. -/
theorem C89_returned (f : Char → Nat → Nat) (h h' : HashOrd) (al al' : Alloc A) (s s' : String)
    (operands operands' : List (View A)) (inputs : List (List Char)) (out : List Char) (dims dims' : Char → Nat)
    (r q : View A) (hd : Denotes s inputs out) (hd' : Denotes s' inputs out)
    (hs : Sized dims inputs (operands.map View.shape)) (hw : ∀ v ∈ operands, v.Wf)
    (hl : operands'.length = operands.length)
    (hsel : ∀ (k : Nat) ix v w, inputs[k]? = some ix → operands[k]? = some v → operands'[k]? = some w →
      Selects f dims' ix v w)
    (hf : ∀ c, Used inputs c → ∀ i < dims' c, f c i < dims c)
    (hb : ∀ c, Used inputs c → c ∉ out →
      (∀ i < dims' c, ∀ j < dims' c, f c i = f c j → i = j) ∧ ∀ j < dims c, ∃ i < dims' c, f c i = j)
    (hr : einsum h al s operands = .ok (.ok r)) (hq : einsum h' al' s' operands' = .ok (.ok q)) :
    Selects f dims' out r q := by
  have hl0 : inputs.length = operands.length := by simpa using hs.length_eq
  obtain ⟨hw', hs'⟩ := described (dims := dims') hl0 hl (rfl : inputs.length = _) fun k ix v ix' w e1 e2 e3 e4 => by
    obtain rfl : ix = ix' := by simpa [e1] using e3
    exact ⟨(hsel k ix v w e1 e2 e4).1, (hsel k ix v w e1 e2 e4).2.1⟩
  have i1 := isEinsum_of_returned ⟨hd, hs, forall₂_elem hw⟩ hr
  have i2 := isEinsum_of_returned ⟨hd', hs', forall₂_elem hw'⟩ hq
  refine ⟨i2.1, i2.2.1, fun τ hτ => ?_⟩
  have ho := hd.outputOk
  rw [i2.2.2 τ hτ, i1.2.2 (fun c => f c (τ c)) fun c hc => hf c (ho.2 c hc) _ (hτ c hc)]
  congr 1
  unfold Spec.einsum
  refine sumOver_reindex (S := inputs.flatten) (f := f) (fun c hc => ?_) (fun σ τ hr he => ?_) (fun c hc hn => ?_)
    fun c _ _ => rfl
  · obtain ⟨h1, h2⟩ := mem_summed.1 hc
    exact ⟨hf c (used_iff.2 h1), hb c (used_iff.2 h1) h2⟩
  · refine term_eq hl0 rfl hl fun k ix ix' v w h1 h2 h3 h4 => ?_
    obtain rfl : ix = ix' := by simpa [h1] using h2
    have hin : ∀ c ∈ ix, c ∈ inputs.flatten := fun c hc => List.mem_flatten.2 ⟨ix, List.mem_of_getElem? h1, hc⟩
    refine elem_eq ?_
    rw [(hsel k ix v w h1 h3 h4).2.2 τ fun c hc => hr c (hin c hc)]
    congr 1
    exact List.map_congr_left fun c hc => (he c (hin c hc)).symm
  · exact hτ c (by
      by_contra hno
      exact hn (mem_summed.2 ⟨hc, hno⟩))

/-- C89: without a repeated letter on an empty operand, both calls return. -/
theorem C89_selection (f : Char → Nat → Nat) (h h' : HashOrd) (al al' : Alloc A) (s s' : String)
    (operands operands' : List (View A)) (inputs : List (List Char)) (out : List Char) (dims dims' : Char → Nat)
    (hd : Denotes s inputs out) (hd' : Denotes s' inputs out)
    (hs : Sized dims inputs (operands.map View.shape)) (hw : ∀ v ∈ operands, v.Wf)
    (hl : operands'.length = operands.length)
    (hsel : ∀ (k : Nat) ix v w, inputs[k]? = some ix → operands[k]? = some v → operands'[k]? = some w →
      Selects f dims' ix v w)
    (hf : ∀ c, Used inputs c → ∀ i < dims' c, f c i < dims c)
    (hb : ∀ c, Used inputs c → c ∉ out →
      (∀ i < dims' c, ∀ j < dims' c, f c i = f c j → i = j) ∧ ∀ j < dims c, ∃ i < dims' c, f c i = j)
    (hn : NoEmptyDiagonal dims inputs) (hn' : NoEmptyDiagonal dims' inputs) :
    ∃ r q, einsum h al s operands = .ok (.ok r) ∧ einsum h' al' s' operands' = .ok (.ok q) ∧
      Selects f dims' out r q := by
  have hl0 : inputs.length = operands.length := by simpa using hs.length_eq
  obtain ⟨hw', hs'⟩ := described (dims := dims') hl0 hl (rfl : inputs.length = _) fun k ix v ix' w e1 e2 e3 e4 => by
    obtain rfl : ix = ix' := by simpa [e1] using e3
    exact ⟨(hsel k ix v w e1 e2 e4).1, (hsel k ix v w e1 e2 e4).2.1⟩
  obtain ⟨r, h1, -⟩ := C13_einsum h al s _ _ out dims _ ⟨hd, hs, forall₂_elem hw⟩ hn
  obtain ⟨q, h2, -⟩ := C13_einsum h' al' s' _ _ out dims' _ ⟨hd', hs', forall₂_elem hw'⟩ hn'
  exact ⟨r, q, h1, h2, C89_returned f h h' al al' s s' operands operands' inputs out dims dims' r q hd hd' hs hw hl hsel
    hf hb h1 h2⟩

/-! ## C90 -/

/-- C90: transposing operands together with their letters changes nothing. -/
theorem C90_transposed_returned (h h' : HashOrd) (al al' : Alloc A) (s s' : String) (operands operands' : List (View A))
    (inputs inputs' : List (List Char)) (out : List Char) (dims : Char → Nat) (r q : View A)
    (hd : Denotes s inputs out) (hd' : Denotes s' inputs' out)
    (hs : Sized dims inputs (operands.map View.shape)) (hw : ∀ v ∈ operands, v.Wf)
    (hl : operands'.length = operands.length) (hl' : inputs'.length = inputs.length)
    (ht : ∀ (k : Nat) ix v ix' w, inputs[k]? = some ix → operands[k]? = some v → inputs'[k]? = some ix' →
      operands'[k]? = some w → Transposes dims ix v ix' w)
    (hr : einsum h al s operands = .ok (.ok r)) (hq : einsum h' al' s' operands' = .ok (.ok q)) :
    SameArray r q := by
  have hl0 : inputs.length = operands.length := by simpa using hs.length_eq
  obtain ⟨hw', hs'⟩ := described (dims := dims) hl0 hl hl' fun k ix v ix' w e1 e2 e3 e4 =>
    ⟨(ht k ix v ix' w e1 e2 e3 e4).2.1, (ht k ix v ix' w e1 e2 e3 e4).2.2.1⟩
  have get : ∀ (k : Nat) ix', inputs'[k]? = some ix' → ∃ ix, inputs[k]? = some ix ∧ ix'.Perm ix := by
    intro k ix' hi
    have hk' := (List.getElem?_eq_some_iff.1 hi).1
    have e1 : inputs[k]? = some (inputs[k]'(by omega)) := List.getElem?_eq_getElem (by omega)
    exact ⟨_, e1, (ht k _ _ _ _ e1 (List.getElem?_eq_getElem (by omega)) hi (List.getElem?_eq_getElem (by omega))).1⟩
  have hfl : ∀ c, c ∈ inputs'.flatten ↔ c ∈ inputs.flatten := by
    intro c
    rw [List.mem_flatten, List.mem_flatten]
    constructor
    · rintro ⟨ix', hm, hc⟩
      obtain ⟨k, hk⟩ := List.mem_iff_getElem?.1 hm
      obtain ⟨ix, h1, h2⟩ := get k ix' hk
      exact ⟨ix, List.mem_of_getElem? h1, h2.mem_iff.1 hc⟩
    · rintro ⟨ix, hm, hc⟩
      obtain ⟨k, hk⟩ := List.mem_iff_getElem?.1 hm
      have hk' := (List.getElem?_eq_some_iff.1 hk).1
      have e : inputs'[k]? = some (inputs'[k]'(by omega)) := List.getElem?_eq_getElem (by omega)
      obtain ⟨ix', h1, h2⟩ := get k _ e
      obtain rfl : ix' = ix := by simpa [h1] using hk
      exact ⟨_, List.mem_of_getElem? e, h2.mem_iff.2 hc⟩
  have i1 := isEinsum_of_returned ⟨hd, hs, forall₂_elem hw⟩ hr
  have i2 := isEinsum_of_returned ⟨hd', hs', forall₂_elem hw'⟩ hq
  refine ⟨i1.1, i2.1, i1.2.1.trans i2.2.1.symm, fun idx hi => ?_⟩
  rw [i1.2.1] at hi
  obtain ⟨σ, hσ, rfl⟩ := exists_assign hd.outputOk.1 hi
  rw [i1.2.2 σ hσ, i2.2.2 σ hσ]
  congr 1
  unfold Spec.einsum
  have hp : (summed inputs' out).Perm (summed inputs out) :=
    perm_of_nodup (summed_nodup _ _) (summed_nodup _ _) fun c => by rw [mem_summed, mem_summed, hfl c]
  rw [sumOver_perm hp]
  refine sumOver_congr fun σ' h1 h2 => (term_eq hl0 hl' hl fun k ix ix' v w e1 e2 e3 e4 => elem_eq ?_).symm
  have hin : ∀ c ∈ ix, c ∈ inputs.flatten := fun c hc => List.mem_flatten.2 ⟨ix, List.mem_of_getElem? e1, hc⟩
  refine (ht k ix v ix' w e1 e3 e2 e4).2.2.2 σ' fun c hc => ?_
  by_cases ho : c ∈ out
  · rw [h1 c fun hx => (mem_summed.1 hx).2 ho]
    exact hσ c ho
  · exact h2 c (mem_summed.2 ⟨hin c hc, ho⟩)

/-- C90: without a repeated letter on an empty operand, both calls return. -/
theorem C90_transposed (h h' : HashOrd) (al al' : Alloc A) (s s' : String) (operands operands' : List (View A))
    (inputs inputs' : List (List Char)) (out : List Char) (dims : Char → Nat)
    (hd : Denotes s inputs out) (hd' : Denotes s' inputs' out)
    (hs : Sized dims inputs (operands.map View.shape)) (hw : ∀ v ∈ operands, v.Wf)
    (hl : operands'.length = operands.length) (hl' : inputs'.length = inputs.length)
    (ht : ∀ (k : Nat) ix v ix' w, inputs[k]? = some ix → operands[k]? = some v → inputs'[k]? = some ix' →
      operands'[k]? = some w → Transposes dims ix v ix' w) (hn : NoEmptyDiagonal dims inputs) :
    ∃ r q, einsum h al s operands = .ok (.ok r) ∧ einsum h' al' s' operands' = .ok (.ok q) ∧ SameArray r q := by
  have hl0 : inputs.length = operands.length := by simpa using hs.length_eq
  obtain ⟨hw', hs'⟩ := described (dims := dims) hl0 hl hl' fun k ix v ix' w e1 e2 e3 e4 =>
    ⟨(ht k ix v ix' w e1 e2 e3 e4).2.1, (ht k ix v ix' w e1 e2 e3 e4).2.2.1⟩
  have hn' : NoEmptyDiagonal dims inputs' := by
    intro ix' hm
    obtain ⟨k, hk⟩ := List.mem_iff_getElem?.1 hm
    have hk' := (List.getElem?_eq_some_iff.1 hk).1
    have e1 : inputs[k]? = some (inputs[k]'(by omega)) := List.getElem?_eq_getElem (by omega)
    have hp := (ht k _ _ _ _ e1 (List.getElem?_eq_getElem (by omega)) hk (List.getElem?_eq_getElem (by omega))).1
    exact (hn _ (List.mem_of_getElem? e1)).imp hp.nodup_iff.2 fun hx c hc => hx c (hp.mem_iff.1 hc)
  obtain ⟨r, h1, -⟩ := C13_einsum h al s _ _ out dims _ ⟨hd, hs, forall₂_elem hw⟩ hn
  obtain ⟨q, h2, -⟩ := C13_einsum h' al' s' _ _ out dims _ ⟨hd', hs', forall₂_elem hw'⟩ hn'
  exact ⟨r, q, h1, h2, C90_transposed_returned h h' al al' s s' operands operands' inputs inputs' out dims r q hd hd' hs
    hw hl hl' ht h1 h2⟩

/-- The double sum over two letters is one sum over their combinations. -/
theorem sum_range_mul {B : Type} [AddCommMonoid B] (g : Nat → B) (m n : Nat) :
    ∑ v ∈ Finset.range (m * n), g v = ∑ i ∈ Finset.range m, ∑ j ∈ Finset.range n, g (i * n + j) := by
  induction m with
  | zero => simp
  | succ m ih => rw [Nat.succ_mul, Finset.sum_range_add, ih, Finset.sum_range_succ]

theorem mem_split {x y z c : Char} {ix : List Char} :
    c ∈ split x y z ix ↔ (z ∈ ix ∧ (c = x ∨ c = y)) ∨ (c ≠ z ∧ c ∈ ix) := by
  unfold split
  rw [List.mem_flatMap]
  constructor
  · rintro ⟨a, ha, hc⟩
    by_cases e : a = z
    · subst e
      simp only [if_true, List.mem_cons, List.not_mem_nil, or_false] at hc
      exact .inl ⟨ha, hc⟩
    · rw [if_neg e, List.mem_singleton] at hc
      subst hc
      exact .inr ⟨e, ha⟩
  · rintro (⟨hz, hc⟩ | ⟨h1, h2⟩)
    · exact ⟨z, hz, by simpa using hc⟩
    · exact ⟨c, h2, by simp [h1]⟩

theorem mem_split_flatten {x y z c : Char} {inputs : List (List Char)} :
    c ∈ (inputs.map (split x y z)).flatten ↔
      (z ∈ inputs.flatten ∧ (c = x ∨ c = y)) ∨ (c ≠ z ∧ c ∈ inputs.flatten) := by
  have : (inputs.map (split x y z)).flatten = split x y z inputs.flatten := by
    unfold split
    induction inputs with
    | nil => rfl
    | cons ix inputs ih => simp [ih]
  rw [this, mem_split]

theorem sumOver_dims_congr {B : Type} [AddCommMonoid B] {dims dims' : Char → Nat} {cs : List Char}
    (h : ∀ c ∈ cs, dims' c = dims c) (F : (Char → Nat) → B) (σ : Char → Nat) :
    sumOver dims' cs F σ = sumOver dims cs F σ := by
  induction cs generalizing σ with
  | nil => rfl
  | cons c cs ih =>
    rw [sumOver_cons, sumOver_cons, h c (by simp)]
    exact Finset.sum_congr rfl fun v _ => ih (fun d hd => h d (by simp [hd])) _

/-- Summing over other letters commutes with putting the combined position of `x` and `y` at `z`. -/
theorem sumOver_combine {B : Type} [AddCommMonoid B] {dims : Char → Nat} {x y z : Char} {n : Nat} {cs : List Char}
    (hx : x ∉ cs) (hy : y ∉ cs) (hz : z ∉ cs) (G : (Char → Nat) → B) (τ : Char → Nat) :
    sumOver dims cs G (update τ z (τ x * n + τ y)) =
      sumOver dims cs (fun τ => G (update τ z (τ x * n + τ y))) τ := by
  induction cs generalizing τ with
  | nil => rfl
  | cons c cs ih =>
    simp only [List.mem_cons, not_or] at hx hy hz
    rw [sumOver_cons, sumOver_cons]
    refine Finset.sum_congr rfl fun v _ => ?_
    rw [← ih hx.2 hy.2 hz.2, update_of_ne hx.1, update_of_ne hy.1, update_comm hz.1]

/-- C90: if two letters `x` and `y` occur only as `xy`, they can be replaced by one letter `z` for their combinations:
whenever both calls return, the result is the original one with its axes `xy` made one. -/
theorem C90_merged_returned (x y z : Char) (h h' : HashOrd) (al al' : Alloc A) (s s' : String)
    (operands operands' : List (View A)) (inputs : List (List Char)) (out : List Char) (dims : Char → Nat) (r q : View A)
    (hxy : x ≠ y) (hx : ¬ Used inputs x) (hy : ¬ Used inputs y)
    (hd : Denotes s (inputs.map (split x y z)) (split x y z out)) (hd' : Denotes s' inputs out)
    (hs : Sized dims (inputs.map (split x y z)) (operands.map View.shape)) (hw : ∀ v ∈ operands, v.Wf)
    (hl : operands'.length = operands.length)
    (hm : ∀ (k : Nat) ix v w, inputs[k]? = some ix → operands[k]? = some v → operands'[k]? = some w →
      Merges x y z dims ix v w)
    (hr : einsum h al s operands = .ok (.ok r)) (hq : einsum h' al' s' operands' = .ok (.ok q)) :
    Merges x y z dims out r q := by
  have hl0 : inputs.length = operands.length := by simpa using hs.length_eq
  obtain ⟨hw', hs'⟩ := described (dims := mergedDims x y z dims) hl0 hl (rfl : inputs.length = _)
    fun k ix v ix' w e1 e2 e3 e4 => by
      obtain rfl : ix = ix' := by simpa [e1] using e3
      exact ⟨(hm k ix v w e1 e2 e4).1, (hm k ix v w e1 e2 e4).2.1⟩
  have i1 := isEinsum_of_returned ⟨hd, hs, forall₂_elem hw⟩ hr
  have i2 := isEinsum_of_returned ⟨hd', hs', forall₂_elem hw'⟩ hq
  rw [used_iff] at hx hy
  have hou : ∀ c ∈ out, c ∈ inputs.flatten := fun c hc => used_iff.1 (hd'.outputOk.2 c hc)
  have hxo : x ∉ out := fun hc => hx (hou x hc)
  have hyo : y ∉ out := fun hc => hy (hou y hc)
  refine ⟨i2.1, i2.2.1, fun τ hτ => ?_⟩
  -- the factors agree
  have hterm : ∀ τ, InRange dims (inputs.map (split x y z)).flatten τ →
      term inputs (operands'.map View.elem) (update τ z (τ x * dims y + τ y)) =
        term (inputs.map (split x y z)) (operands.map View.elem) τ := by
    intro τ hr
    refine term_eq (by simpa using hl0) (by simp) hl fun k ix ix' v w e1 e2 e3 e4 => elem_eq ?_
    rw [List.getElem?_map, Option.map_eq_some_iff] at e1
    obtain ⟨jx, e1, rfl⟩ := e1
    obtain rfl : jx = ix' := by simpa [e1] using e2
    exact (hm k jx v w e1 e3 e4).2.2 τ fun c hc =>
      hr c (List.mem_flatten.2 ⟨_, List.mem_map.2 ⟨jx, List.mem_of_getElem? e1, rfl⟩, hc⟩)
  have hin : InRange (mergedDims x y z dims) out (update τ z (τ x * dims y + τ y)) := by
    intro c hc
    unfold mergedDims
    by_cases e : c = z
    · subst e
      have h1 : τ x < dims x := hτ x (mem_split.2 (.inl ⟨hc, .inl rfl⟩))
      have h2 : τ y < dims y := hτ y (mem_split.2 (.inl ⟨hc, .inr rfl⟩))
      rw [update_self, update_self]
      calc τ x * dims y + τ y < τ x * dims y + dims y := by omega
        _ = (τ x + 1) * dims y := by ring
        _ ≤ dims x * dims y := Nat.mul_le_mul_right _ h1
    · rw [update_of_ne e, update_of_ne e]
      exact hτ c (mem_split.2 (.inr ⟨e, hc⟩))
  rw [i1.2.2 τ hτ, i2.2.2 _ hin]
  congr 1
  unfold Spec.einsum
  by_cases hz : z ∈ summed inputs out
  · obtain ⟨hzi, hzo⟩ := mem_summed.1 hz
    set rest := (summed inputs out).erase z with hrest
    have hnd := summed_nodup inputs out
    have hmr : ∀ c, c ∈ rest ↔ c ≠ z ∧ c ∈ inputs.flatten ∧ c ∉ out := fun c => by
      rw [hrest, hnd.mem_erase_iff, mem_summed]
    have hxr : x ∉ rest := fun hc => hx ((hmr x).1 hc).2.1
    have hyr : y ∉ rest := fun hc => hy ((hmr y).1 hc).2.1
    have hzr : z ∉ rest := fun hc => ((hmr z).1 hc).1 rfl
    have p1 : (summed inputs out).Perm (rest ++ [z]) :=
      (List.perm_cons_erase hz).trans (List.perm_append_singleton z rest).symm
    have p2 : (summed (inputs.map (split x y z)) (split x y z out)).Perm (rest ++ [x, y]) := by
      refine perm_of_nodup (summed_nodup _ _) ?_ fun c => ?_
      · rw [List.nodup_append']
        refine ⟨hnd.erase z, by simp [hxy], ?_⟩
        intro c h1 h2
        simp only [List.mem_cons, List.not_mem_nil, or_false] at h2
        rcases h2 with rfl | rfl
        · exact hxr h1
        · exact hyr h1
      · rw [mem_summed, mem_split_flatten, mem_split, List.mem_append, hmr]
        simp only [List.mem_cons, List.not_mem_nil, or_false]
        constructor
        · rintro ⟨⟨-, h1⟩ | ⟨h1, h2⟩, h3⟩
          · exact .inr h1
          · exact .inl ⟨h1, h2, fun h4 => h3 (.inr ⟨h1, h4⟩)⟩
        · rintro (⟨h1, h2, h3⟩ | h1)
          · exact ⟨.inr ⟨h1, h2⟩, fun h4 => h4.elim (fun h5 => hzo h5.1) fun h5 => h3 h5.2⟩
          · refine ⟨.inl ⟨hzi, h1⟩, fun h4 => h4.elim (fun h5 => hzo h5.1) fun h5 => ?_⟩
            rcases h1 with rfl | rfl
            · exact hxo h5.2
            · exact hyo h5.2
    rw [sumOver_perm p1, sumOver_perm p2, sumOver_append, sumOver_append, sumOver_combine hxr hyr hzr,
      sumOver_dims_congr (dims := dims) fun c hc => by
        unfold mergedDims; rw [update_of_ne ((hmr c).1 hc).1]]
    refine sumOver_congr fun σ h1 h2 => ?_
    simp only [sumOver]
    unfold mergedDims
    rw [update_self, sum_range_mul]
    refine Finset.sum_congr rfl fun i hi => Finset.sum_congr rfl fun j hj => ?_
    rw [Finset.mem_range] at hi hj
    rw [update_idem, ← hterm]
    · rw [update_self, update_of_ne hxy, update_self]
      refine dependsOn_term inputs _ _ _ fun c hc => ?_
      have c1 : c ≠ x := fun e => hx (e ▸ hc)
      have c2 : c ≠ y := fun e => hy (e ▸ hc)
      by_cases e : c = z
      · subst e; simp
      · rw [update_of_ne e, update_of_ne e, update_of_ne c2, update_of_ne c1]
    · intro c hc
      by_cases ey : c = y
      · subst ey; rwa [update_self]
      by_cases ex : c = x
      · subst ex; rwa [update_of_ne hxy, update_self]
      rw [update_of_ne ey, update_of_ne ex]
      rcases mem_split_flatten.1 hc with ⟨-, h3 | h3⟩ | ⟨h3, h4⟩
      · exact absurd h3 ex
      · exact absurd h3 ey
      · by_cases ho : c ∈ out
        · rw [h1 c fun hcr => ((hmr c).1 hcr).2.2 ho]
          exact hτ c (mem_split.2 (.inr ⟨h3, ho⟩))
        · exact h2 c ((hmr c).2 ⟨h3, h4, ho⟩)
  · have hzz : z ∈ inputs.flatten → z ∈ out := fun hc => by
      by_contra hno
      exact hz (mem_summed.2 ⟨hc, hno⟩)
    have hxs : x ∉ summed inputs out := fun hc => hx (mem_summed.1 hc).1
    have hys : y ∉ summed inputs out := fun hc => hy (mem_summed.1 hc).1
    have p : (summed (inputs.map (split x y z)) (split x y z out)).Perm (summed inputs out) := by
      refine perm_of_nodup (summed_nodup _ _) (summed_nodup _ _) fun c => ?_
      rw [mem_summed, mem_summed, mem_split_flatten, mem_split]
      constructor
      · rintro ⟨⟨h1, h2⟩ | ⟨h1, h2⟩, h3⟩
        · exact absurd (.inl ⟨hzz h1, h2⟩) h3
        · exact ⟨h2, fun h4 => h3 (.inr ⟨h1, h4⟩)⟩
      · rintro ⟨h1, h2⟩
        have h3 : c ≠ z := fun e => h2 (e ▸ hzz (e ▸ h1))
        refine ⟨.inr ⟨h3, h1⟩, fun h4 => h4.elim (fun h5 => ?_) fun h5 => h2 h5.2⟩
        rcases h5.2 with rfl | rfl
        · exact hx h1
        · exact hy h1
    rw [sumOver_perm p, sumOver_combine hxs hys hz, sumOver_dims_congr (dims := dims) fun c hc => by
      unfold mergedDims; rw [update_of_ne fun e : c = z => hz (e ▸ hc)]]
    refine sumOver_congr fun σ h1 h2 => hterm σ fun c hc => ?_
    by_cases ho : c ∈ split x y z out
    · rw [h1 c fun hcs => ?_]
      · exact hτ c ho
      · exact (mem_summed.1 (p.mem_iff.2 hcs)).2 ho
    · exact h2 c (p.mem_iff.1 (mem_summed.2 ⟨hc, ho⟩))

/-- C90: without a repeated letter on an empty operand, both calls return. -/
theorem C90_merged (x y z : Char) (h h' : HashOrd) (al al' : Alloc A) (s s' : String)
    (operands operands' : List (View A)) (inputs : List (List Char)) (out : List Char) (dims : Char → Nat)
    (hxy : x ≠ y) (hx : ¬ Used inputs x) (hy : ¬ Used inputs y)
    (hd : Denotes s (inputs.map (split x y z)) (split x y z out)) (hd' : Denotes s' inputs out)
    (hs : Sized dims (inputs.map (split x y z)) (operands.map View.shape)) (hw : ∀ v ∈ operands, v.Wf)
    (hl : operands'.length = operands.length)
    (hm : ∀ (k : Nat) ix v w, inputs[k]? = some ix → operands[k]? = some v → operands'[k]? = some w →
      Merges x y z dims ix v w) (hn : NoEmptyDiagonal dims (inputs.map (split x y z))) :
    ∃ r q, einsum h al s operands = .ok (.ok r) ∧ einsum h' al' s' operands' = .ok (.ok q) ∧
      Merges x y z dims out r q := by
  have hl0 : inputs.length = operands.length := by simpa using hs.length_eq
  obtain ⟨hw', hs'⟩ := described (dims := mergedDims x y z dims) hl0 hl (rfl : inputs.length = _)
    fun k ix v ix' w e1 e2 e3 e4 => by
      obtain rfl : ix = ix' := by simpa [e1] using e3
      exact ⟨(hm k ix v w e1 e2 e4).1, (hm k ix v w e1 e2 e4).2.1⟩
  have hn' : NoEmptyDiagonal (mergedDims x y z dims) inputs := by
    intro ix hi
    rcases hn _ (List.mem_map.2 ⟨ix, hi, rfl⟩) with h1 | h1
    · refine .inl (List.nodup_iff_count_le_one.2 fun c => ?_)
      have : ∀ l : List Char, l.count c ≤ (split x y z l).count (if c = z then x else c) := by
        intro l
        induction l with
        | nil => simp
        | cons a l ih =>
          unfold split at ih ⊢
          rw [List.flatMap_cons, List.count_append, List.count_cons]
          by_cases e : a = z
          · by_cases ec : c = z
            · subst e; subst ec
              simp only [if_true, List.count_cons, beq_self_eq_true] at ih ⊢
              omega
            · have : (z == c) = false := by simpa using fun e' => ec e'.symm
              simp only [e, this, if_true, ec, if_false, List.count_cons, Bool.false_eq_true] at ih ⊢
              omega
          · by_cases ec : c = z
            · have : (a == z) = false := by simpa using e
              simp only [ec, this, if_true, e, if_false, Bool.false_eq_true] at ih ⊢
              omega
            · simp only [e, ec, if_false, List.count_cons, List.count_nil] at ih ⊢
              omega
      exact (this ix).trans (List.nodup_iff_count_le_one.1 h1 _)
    · refine .inr fun c hc => ?_
      unfold mergedDims
      by_cases e : c = z
      · subst e
        rw [update_self]
        exact Nat.mul_ne_zero (h1 x (mem_split.2 (.inl ⟨hc, .inl rfl⟩))) (h1 y (mem_split.2 (.inl ⟨hc, .inr rfl⟩)))
      · rw [update_of_ne e]
        exact h1 c (mem_split.2 (.inr ⟨e, hc⟩))
  obtain ⟨r, h1, -⟩ := C13_einsum h al s _ _ _ dims _ ⟨hd, hs, forall₂_elem hw⟩ hn
  obtain ⟨q, h2, -⟩ := C13_einsum h' al' s' _ _ out _ _ ⟨hd', hs', forall₂_elem hw'⟩ hn'
  exact ⟨r, q, h1, h2, C90_merged_returned x y z h h' al al' s s' operands operands' inputs out dims r q hxy hx hy hd hd'
    hs hw hl hm h1 h2⟩

/-! ### Reshaping -/

theorem split_prod {x y z : Char} (dims : Char → Nat) (ix : List Char) :
    ((split x y z ix).map dims).prod = (ix.map (mergedDims x y z dims)).prod := by
  unfold split
  induction ix with
  | nil => rfl
  | cons c ix ih =>
    rw [List.flatMap_cons, List.map_append, List.prod_append, ih, List.map_cons, List.prod_cons]
    congr 1
    unfold mergedDims
    by_cases e : c = z
    · subst e; simp
    · simp [e]

theorem split_ravel {x y z : Char} (dims : Char → Nat) (ix : List Char) (τ : Char → Nat) :
    ravel ((split x y z ix).map dims) ((split x y z ix).map τ) =
      ravel (ix.map (mergedDims x y z dims)) (ix.map (update τ z (τ x * dims y + τ y))) := by
  induction ix with
  | nil => rfl
  | cons c ix ih =>
    have e0 : split x y z (c :: ix) = (if c = z then [x, y] else [c]) ++ split x y z ix := by simp [split]
    rw [e0, List.map_append, List.map_append, ravel_append (by simp), ih, split_prod, List.map_cons, List.map_cons,
      ravel_cons]
    congr 2
    by_cases e : c = z
    · subst e; simp
    · simp [e]

omit [CommSemiring A] in
/-- Equal elements in row-major order are equal elements at equal row-major positions. -/
theorem toVec_read {v w : View A} (hv : v.Wf) (h : w.toVec = v.toVec) {i j : List Nat}
    (hi : InB v.shape i) (hj : InB w.shape j) (he : ravel w.shape j = ravel v.shape i) : w.read j = v.read i := by
  obtain ⟨l, hl⟩ := mapE_exists (f := v.read) (l := allIdx v.shape) fun a ha => hv.2 a (mem_allIdx.1 ha)
  have hl' : w.toVec = .ok l := h.trans hl
  have key : ∀ (u : View A), u.toVec = .ok l → ∀ {k}, InB u.shape k →
      ∃ a, l[ravel u.shape k]? = some a ∧ u.read k = .ok a := by
    intro u hu k hk
    have hf := mapE_eq_ok.1 (hu : mapE u.read (allIdx u.shape) = .ok l)
    have hn := ravel_lt hk
    have h1 : ravel u.shape k < l.length := by rw [← hf.length_eq, allIdx_length]; exact hn
    have := (List.forall₂_iff_get.1 hf).2 _ (by rw [allIdx_length]; exact hn) h1
    refine ⟨_, List.getElem?_eq_getElem h1, ?_⟩
    have e : (allIdx u.shape).get ⟨ravel u.shape k, by rw [allIdx_length]; exact hn⟩ = k := by
      have := allIdx_getElem? hn
      rw [unravel_ravel hk, List.getElem?_eq_some_iff] at this
      exact this.2
    rw [e] at this
    exact this
  obtain ⟨a, h1, h2⟩ := key v hl hi
  obtain ⟨b, h3, h4⟩ := key w hl' hj
  rw [he, h1] at h3
  rw [h2, h4, Option.some.inj h3]

omit [CommSemiring A] in
theorem inB_map {dims : Char → Nat} {ix : List Char} {σ : Char → Nat} (h : InRange dims ix σ) :
    InB (ix.map dims) (ix.map σ) := by
  induction ix with
  | nil => trivial
  | cons c ix ih => exact ⟨h c (by simp), ih fun d hd => h d (by simp [hd])⟩

omit [CommSemiring A] in
/-- A reshape (equal elements in row-major order) makes the axes `xy` one. -/
theorem merges_of_toVec {x y z : Char} {dims : Char → Nat} {ix : List Char} {v w : View A} (hv : v.Wf) (hw : w.Wf)
    (hvs : v.shape = (split x y z ix).map dims) (hws : w.shape = ix.map (mergedDims x y z dims))
    (h : w.toVec = v.toVec) : Merges x y z dims ix v w := by
  refine ⟨hw, hws, fun τ hτ => toVec_read hv h (hvs ▸ inB_map hτ) ?_ ?_⟩
  · rw [hws]
    refine inB_map fun c hc => ?_
    unfold mergedDims
    by_cases e : c = z
    · subst e
      have h1 : τ x < dims x := hτ x (mem_split.2 (.inl ⟨hc, .inl rfl⟩))
      have h2 : τ y < dims y := hτ y (mem_split.2 (.inl ⟨hc, .inr rfl⟩))
      rw [update_self, update_self]
      calc τ x * dims y + τ y < τ x * dims y + dims y := by omega
        _ = (τ x + 1) * dims y := by ring
        _ ≤ dims x * dims y := Nat.mul_le_mul_right _ h1
    · rw [update_of_ne e, update_of_ne e]
      exact hτ c (mem_split.2 (.inr ⟨e, hc⟩))
  · rw [hws, hvs, split_ravel]

omit [CommSemiring A] in
/-- Without repeated letters, making the axes `xy` one is a reshape. -/
theorem toVec_of_merges {x y z : Char} {dims : Char → Nat} {ix : List Char} {v w : View A}
    (hvs : v.shape = (split x y z ix).map dims) (hn : (split x y z ix).Nodup)
    (h : Merges x y z dims ix v w) : w.toVec = v.toVec := by
  have e : w.shape.prod = v.shape.prod := by rw [h.2.1, hvs, split_prod]
  unfold View.toVec
  rw [allIdx_eq, allIdx_eq, e]
  have key : ∀ n ∈ List.range v.shape.prod, w.read (unravel w.shape n) = v.read (unravel v.shape n) := by
    intro n hm
    have hlt : n < v.shape.prod := List.mem_range.1 hm
    have hb := InB_unravel hlt
    rw [hvs] at hb
    obtain ⟨τ, hτ, he⟩ := exists_assign hn hb
    have hr := h.2.2 τ hτ
    rw [he, ← hvs] at hr
    have hj : InB w.shape (ix.map (update τ z (τ x * dims y + τ y))) := by
      rw [h.2.1]
      refine inB_map fun c hc => ?_
      unfold mergedDims
      by_cases ec : c = z
      · subst ec
        have h1 : τ x < dims x := hτ x (mem_split.2 (.inl ⟨hc, .inl rfl⟩))
        have h2 : τ y < dims y := hτ y (mem_split.2 (.inl ⟨hc, .inr rfl⟩))
        rw [update_self, update_self]
        calc τ x * dims y + τ y < τ x * dims y + dims y := by omega
          _ = (τ x + 1) * dims y := by ring
          _ ≤ dims x * dims y := Nat.mul_le_mul_right _ h1
      · rw [update_of_ne ec, update_of_ne ec]
        exact hτ c (mem_split.2 (.inr ⟨ec, hc⟩))
    have hn' : ravel w.shape (ix.map (update τ z (τ x * dims y + τ y))) = n := by
      rw [h.2.1, ← split_ravel, he, ← hvs, ravel_unravel hlt]
    rw [← hr, ← hn', unravel_ravel hj]
  clear hvs h e
  revert key
  generalize List.range v.shape.prod = l
  intro key
  induction l with
  | nil => rfl
  | cons n l ih =>
    simp only [List.map_cons, mapE, key n (by simp), ih fun m hm => key m (by simp [hm])]

/-- C90: in terms of reshapes: operands with the same elements in row-major order, the axes `xy` made one axis `z`,
give a result with the same elements in row-major order. -/
theorem C90_reshaped (x y z : Char) (h h' : HashOrd) (al al' : Alloc A) (s s' : String)
    (operands operands' : List (View A)) (inputs : List (List Char)) (out : List Char) (dims : Char → Nat) (r q : View A)
    (hxy : x ≠ y) (hx : ¬ Used inputs x) (hy : ¬ Used inputs y)
    (hd : Denotes s (inputs.map (split x y z)) (split x y z out)) (hd' : Denotes s' inputs out)
    (hs : Sized dims (inputs.map (split x y z)) (operands.map View.shape)) (hw : ∀ v ∈ operands, v.Wf)
    (hw' : ∀ w ∈ operands', w.Wf)
    (hs' : Sized (mergedDims x y z dims) inputs (operands'.map View.shape))
    (hv : operands'.map View.toVec = operands.map View.toVec)
    (hr : einsum h al s operands = .ok (.ok r)) (hq : einsum h' al' s' operands' = .ok (.ok q)) :
    q.shape = out.map (mergedDims x y z dims) ∧ q.toVec = r.toVec := by
  have hl : operands'.length = operands.length := by simpa using congrArg List.length hv
  have hm := C90_merged_returned x y z h h' al al' s s' operands operands' inputs out dims r q hxy hx hy hd hd' hs hw hl
    (fun k ix v w e1 e2 e3 => ?_) hr hq
  · have i1 := isEinsum_of_returned ⟨hd, hs, forall₂_elem hw⟩ hr
    exact ⟨hm.2.1, toVec_of_merges i1.2.1 hd.outputOk.1 hm⟩
  · refine merges_of_toVec (hw v (List.mem_of_getElem? e2)) (hw' w (List.mem_of_getElem? e3)) ?_ ?_ ?_
    · have := (List.forall₂_iff_get.1 hs).2 k (by simpa using (List.getElem?_eq_some_iff.1 e1).1)
        (by simpa using (List.getElem?_eq_some_iff.1 e2).1)
      obtain ⟨a1, b1⟩ := List.getElem?_eq_some_iff.1 e1
      obtain ⟨a2, b2⟩ := List.getElem?_eq_some_iff.1 e2
      simpa [b1, b2] using this
    · have := (List.forall₂_iff_get.1 hs').2 k (by simpa using (List.getElem?_eq_some_iff.1 e1).1)
        (by simpa using (List.getElem?_eq_some_iff.1 e3).1)
      obtain ⟨a1, b1⟩ := List.getElem?_eq_some_iff.1 e1
      obtain ⟨a2, b2⟩ := List.getElem?_eq_some_iff.1 e3
      simpa [b1, b2] using this
    · have := congrArg (fun l => l[k]?) hv
      simpa [e2, e3] using this

/-! ## C91 -/

/-- C91: if every letter that two groups of operands share is in the output, the result is the product of the results
of the two groups, along the output letters each has. -/
theorem C91_groups (h h₁ h₂ : HashOrd) (al al₁ al₂ : Alloc A) (s s₁ s₂ : String) (operands ops₁ ops₂ : List (View A))
    (inputs in₁ in₂ : List (List Char)) (out out₁ out₂ : List Char) (dims : Char → Nat) (r r₁ r₂ : View A)
    (hd : Denotes s inputs out) (hd₁ : Denotes s₁ in₁ out₁) (hd₂ : Denotes s₂ in₂ out₂)
    (hs : Sized dims inputs (operands.map View.shape)) (hw : ∀ v ∈ operands, v.Wf)
    (hl₁ : in₁.length = ops₁.length) (hl₂ : in₂.length = ops₂.length)
    (hp : (in₁.zip ops₁ ++ in₂.zip ops₂).Perm (inputs.zip operands))
    (hshared : ∀ c, Used in₁ c → Used in₂ c → c ∈ out)
    (ho₁ : ∀ c, c ∈ out₁ ↔ c ∈ out ∧ Used in₁ c) (ho₂ : ∀ c, c ∈ out₂ ↔ c ∈ out ∧ Used in₂ c)
    (hr : einsum h al s operands = .ok (.ok r)) (hr₁ : einsum h₁ al₁ s₁ ops₁ = .ok (.ok r₁))
    (hr₂ : einsum h₂ al₂ s₂ ops₂ = .ok (.ok r₂)) :
    ∀ σ, InRange dims out σ → ∃ a b, r₁.read (out₁.map σ) = .ok a ∧ r₂.read (out₂.map σ) = .ok b ∧
      r.read (out.map σ) = .ok (a * b) := by
  have hl0 : inputs.length = operands.length := by simpa using hs.length_eq
  have hz : in₁.zip ops₁ ++ in₂.zip ops₂ = (in₁ ++ in₂).zip (ops₁ ++ ops₂) := (List.zip_append hl₁).symm
  rw [hz] at hp
  have hl12 : (in₁ ++ in₂).length = (ops₁ ++ ops₂).length := by simp [hl₁, hl₂]
  have p1 : (in₁ ++ in₂).Perm inputs := by
    have := hp.map Prod.fst
    rwa [List.map_fst_zip (by omega), List.map_fst_zip (by omega)] at this
  have p2 : (ops₁ ++ ops₂).Perm operands := by
    have := hp.map Prod.snd
    rwa [List.map_snd_zip (by omega), List.map_snd_zip (by omega)] at this
  have hw₁ : ∀ v ∈ ops₁, v.Wf := fun v hv => hw v (p2.mem_iff.1 (by simp [hv]))
  have hw₂ : ∀ v ∈ ops₂, v.Wf := fun v hv => hw v (p2.mem_iff.1 (by simp [hv]))
  have hall : ∀ p ∈ inputs.zip operands, p.2.shape = p.1.map dims := by
    unfold Sized at hs
    rw [List.forall₂_map_right_iff, List.forall₂_iff_zip] at hs
    exact fun p hm => hs.2 hm
  have hs₁ : Sized dims in₁ (ops₁.map View.shape) := by
    unfold Sized
    rw [List.forall₂_map_right_iff, List.forall₂_iff_zip]
    exact ⟨hl₁, fun hm => hall (_, _) (hp.mem_iff.1 (hz ▸ List.mem_append_left _ hm))⟩
  have hs₂ : Sized dims in₂ (ops₂.map View.shape) := by
    unfold Sized
    rw [List.forall₂_map_right_iff, List.forall₂_iff_zip]
    exact ⟨hl₂, fun hm => hall (_, _) (hp.mem_iff.1 (hz ▸ List.mem_append_right _ hm))⟩
  have i0 := isEinsum_of_returned ⟨hd, hs, forall₂_elem hw⟩ hr
  have i1 := isEinsum_of_returned ⟨hd₁, hs₁, forall₂_elem hw₁⟩ hr₁
  have i2 := isEinsum_of_returned ⟨hd₂, hs₂, forall₂_elem hw₂⟩ hr₂
  intro σ hσ
  refine ⟨_, _, i1.2.2 σ fun c hc => hσ c ((ho₁ c).1 hc).1, i2.2.2 σ fun c hc => hσ c ((ho₂ c).1 hc).1, ?_⟩
  rw [i0.2.2 σ hσ]
  congr 1
  simp only [used_iff] at hshared ho₁ ho₂
  have hf : ∀ c, c ∈ inputs.flatten ↔ c ∈ in₁.flatten ∨ c ∈ in₂.flatten := fun c => by
    rw [← p1.flatten.mem_iff, List.flatten_append, List.mem_append]
  have m1 : ∀ c, c ∈ summed in₁ out₁ ↔ c ∈ in₁.flatten ∧ c ∉ out := fun c => by
    rw [mem_summed, ho₁]
    exact ⟨fun ⟨g1, g2⟩ => ⟨g1, fun g3 => g2 ⟨g3, g1⟩⟩, fun ⟨g1, g2⟩ => ⟨g1, fun g3 => g2 g3.1⟩⟩
  have m2 : ∀ c, c ∈ summed in₂ out₂ ↔ c ∈ in₂.flatten ∧ c ∉ out := fun c => by
    rw [mem_summed, ho₂]
    exact ⟨fun ⟨g1, g2⟩ => ⟨g1, fun g3 => g2 ⟨g3, g1⟩⟩, fun ⟨g1, g2⟩ => ⟨g1, fun g3 => g2 g3.1⟩⟩
  have p : (summed inputs out).Perm (summed in₁ out₁ ++ summed in₂ out₂) := by
    refine perm_of_nodup (summed_nodup _ _) ?_ fun c => ?_
    · rw [List.nodup_append']
      exact ⟨summed_nodup _ _, summed_nodup _ _, fun c g1 g2 =>
        ((m1 c).1 g1).2 (hshared c ((m1 c).1 g1).1 ((m2 c).1 g2).1)⟩
    · rw [mem_summed, hf, List.mem_append, m1, m2, or_and_right]
  unfold Spec.einsum
  rw [sumOver_perm p, sumOver_append]
  have d1 := dependsOn_term in₁ (ops₁.map View.elem)
  have d2 := dependsOn_term in₂ (ops₂.map View.elem)
  have e1 : sumOver dims (summed in₂ out₂) (term inputs (operands.map View.elem)) =
      fun σ => term in₁ (ops₁.map View.elem) σ * sumOver dims (summed in₂ out₂) (term in₂ (ops₂.map View.elem)) σ := by
    funext τ
    rw [← sumOver_mul_left d1 fun c g1 g2 => ((m2 c).1 g2).2 (hshared c g1 ((m2 c).1 g2).1)]
    congr 1
    funext τ
    rw [← term_append _ _ _ _ (by simpa using hl₁.symm), ← List.map_append, term_zip, term_zip, (hp.map _).prod_eq]
  rw [e1]
  exact sumOver_mul_right (DependsOn.sumOver (L' := in₂.flatten) d2 fun c hc => .inl hc)
    (fun c g1 g2 => ((m1 c).1 g2).2 (hshared c ((m1 c).1 g2).1 g1)) σ

/-! ## C92 -/

theorem sumOver_permute {B : Type} [AddCommMonoid B] {dims : Char → Nat} {π : Char → Char} {S : List Char}
    (hinj : ∀ a ∈ S, ∀ b ∈ S, π a = π b → a = b) (hdim : ∀ c ∈ S, dims (π c) = dims c) {F G : (Char → Nat) → B}
    (hFG : ∀ σ τ, InRange dims S τ → (∀ c ∈ S, τ (π c) = σ c) → G τ = F σ) {cs : List Char} (hcs : ∀ c ∈ cs, c ∈ S)
    {σ τ : Char → Nat} (hr : ∀ c ∈ S, c ∉ cs.map π → τ c < dims c) (h : ∀ c ∈ S, τ (π c) = σ c) :
    sumOver dims (cs.map π) G τ = sumOver dims cs F σ := by
  induction cs generalizing σ τ with
  | nil => exact hFG σ τ (fun c hc => hr c hc (by simp)) h
  | cons c cs ih =>
    have hc := hcs c (by simp)
    rw [List.map_cons, sumOver_cons, sumOver_cons, hdim c hc]
    refine Finset.sum_congr rfl fun v hv => ih (fun c hc => hcs c (by simp [hc])) (fun a ha hn => ?_) fun a ha => ?_
    · by_cases e : a = π c
      · subst e
        rw [update_self, hdim c hc]
        exact Finset.mem_range.1 hv
      · rw [update_of_ne e]
        exact hr a ha (by simp only [List.map_cons, List.mem_cons, not_or]; exact ⟨e, hn⟩)
    · by_cases hac : a = c
      · subst hac; simp
      · rw [update_of_ne hac, update_of_ne fun e => hac (hinj a ha c hc e), h a ha]

omit [CommSemiring A] in
/-- An injection of a finite list into itself is a permutation of it. -/
theorem map_perm_self {π : Char → Char} {l : List Char} (hn : l.Nodup) (hinj : ∀ a ∈ l, ∀ b ∈ l, π a = π b → a = b)
    (hm : ∀ c ∈ l, π c ∈ l) : (l.map π).Perm l := by
  refine (List.Nodup.subperm (hn.map_on hinj) fun c hc => ?_).perm_of_length_le (by simp)
  obtain ⟨b, hb, rfl⟩ := List.mem_map.1 hc
  exact hm b hb

/-- C92: a permutation `π` of the letters that keeps lengths, carries output letters to output letters and each operand
to an operand of the call leaves the result as it is when its axes are permuted accordingly. -/
theorem C92_symmetric (h : HashOrd) (al : Alloc A) (s : String) (operands operands' : List (View A))
    (inputs inputs' : List (List Char)) (out : List Char) (dims : Char → Nat) (π : Char → Char) (r : View A)
    (hd : Denotes s inputs out) (hs : Sized dims inputs (operands.map View.shape)) (hw : ∀ v ∈ operands, v.Wf)
    (hinj : ∀ a b, Used inputs a → Used inputs b → π a = π b → a = b) (hu : ∀ c, Used inputs c → Used inputs (π c))
    (ho : ∀ c ∈ out, π c ∈ out) (hdim : ∀ c, Used inputs c → dims (π c) = dims c)
    (hl : inputs'.length = operands'.length) (hp : (inputs'.zip operands').Perm (inputs.zip operands))
    (hsym : ∀ (k : Nat) ix v jx w, inputs[k]? = some ix → operands[k]? = some v → inputs'[k]? = some jx →
      operands'[k]? = some w →
      ∀ σ, InRange dims jx σ → v.read (ix.map fun c => σ (π c)) = w.read (jx.map σ))
    (hr : einsum h al s operands = .ok (.ok r)) :
    ∀ σ, InRange dims out σ → r.read (out.map fun c => σ (π c)) = r.read (out.map σ) := by
  intro σ hσ
  have hl0 : inputs.length = operands.length := by simpa using hs.length_eq
  have p1 : inputs'.Perm inputs := by
    have := hp.map Prod.fst
    rwa [List.map_fst_zip (by omega), List.map_fst_zip (by omega)] at this
  have i0 := isEinsum_of_returned ⟨hd, hs, forall₂_elem hw⟩ hr
  have hou := hd.outputOk
  have hrange : InRange dims out fun c => σ (π c) := fun c hc => by
    have := hσ (π c) (ho c hc)
    rwa [hdim c (hou.2 c hc)] at this
  rw [i0.2.2 σ hσ, i0.2.2 _ hrange]
  congr 1
  simp only [used_iff] at hinj hu hdim
  have hin : ∀ c ∈ out, c ∈ inputs.flatten := fun c hc => used_iff.1 (hou.2 c hc)
  have po : (out.map π).Perm out :=
    map_perm_self hou.1 (fun a ha b hb => hinj a b (hin a ha) (hin b hb)) ho
  have ps : ((summed inputs out).map π).Perm (summed inputs out) := by
    refine map_perm_self (summed_nodup _ _)
      (fun a ha b hb => hinj a b (mem_summed.1 ha).1 (mem_summed.1 hb).1) fun c hc => ?_
    obtain ⟨h1, h2⟩ := mem_summed.1 hc
    refine mem_summed.2 ⟨hu c h1, fun h3 => ?_⟩
    obtain ⟨b, hb, e⟩ := List.mem_map.1 (po.mem_iff.2 h3)
    exact h2 (hinj b c (hin b hb) h1 e ▸ hb)
  unfold Spec.einsum
  rw [← sumOver_perm ps (term inputs (operands.map View.elem))]
  conv_lhs => rw [sumOver_perm ps]
  symm
  refine sumOver_permute (S := inputs.flatten) (fun a ha b hb => hinj a b ha hb) hdim (fun σ τ hr he => ?_)
    (fun c hc => (mem_summed.1 hc).1) (fun c hc hn => ?_) fun c _ => rfl
  · have hl1 : operands'.length = operands.length := by
      have := hp.length_eq
      simp only [List.length_zip] at this
      omega
    rw [term_zip inputs operands τ, ← (hp.map _).prod_eq, ← term_zip]
    refine term_eq hl0 p1.length_eq hl1 fun k ix jx v w e1 e2 e3 e4 => elem_eq ?_
    have hi1 : ∀ c ∈ ix, c ∈ inputs.flatten := fun c hc => List.mem_flatten.2 ⟨ix, List.mem_of_getElem? e1, hc⟩
    have hi2 : ∀ c ∈ jx, c ∈ inputs.flatten := fun c hc =>
      p1.flatten.mem_iff.1 (List.mem_flatten.2 ⟨jx, List.mem_of_getElem? e2, hc⟩)
    rw [← hsym k ix v jx w e1 e3 e2 e4 τ fun c hc => hr c (hi2 c hc)]
    congr 1
    exact List.map_congr_left fun c hc => he c (hi1 c hc)
  · by_cases hco : c ∈ out
    · exact hσ c hco
    · exact absurd (ps.mem_iff.2 (mem_summed.2 ⟨hc, hco⟩)) hn

/-- C92: `"ij,ik->jk"` of an array with itself is a symmetric matrix. -/
theorem C92_gram (h : HashOrd) (al : Alloc A) (v r : View A) (m n : Nat) (hv : v.Wf) (hs : v.shape = [m, n])
    (hr : einsum h al "ij,ik->jk" [v, v] = .ok (.ok r)) :
    r.shape = [n, n] ∧ ∀ j k, j < n → k < n → r.read [k, j] = r.read [j, k] := by
  have hd : Denotes "ij,ik->jk" [['i', 'j'], ['i', 'k']] ['j', 'k'] :=
    .inl ⟨by decide, ⟨by simp, by simp [Letter], by simp [Letter]⟩, by simp [OutputOk, Used]⟩
  let dims : Char → Nat := fun c => if c = 'i' then m else n
  let π : Char → Char := fun c => if c = 'j' then 'k' else if c = 'k' then 'j' else c
  have hsz : Sized dims [['i', 'j'], ['i', 'k']] ([v, v].map View.shape) :=
    .cons (by simp [dims, hs]) (.cons (by simp [dims, hs]) .nil)
  have hw : ∀ u ∈ [v, v], u.Wf := by simp [hv]
  refine ⟨by simpa [dims] using (isEinsum_of_returned ⟨hd, hsz, forall₂_elem hw⟩ hr).2.1, fun j k hj hk => ?_⟩
  have hu : ∀ c, Used [['i', 'j'], ['i', 'k']] c → c = 'i' ∨ c = 'j' ∨ c = 'k' := by
    intro c hc
    simp only [Used, List.mem_cons, List.not_mem_nil, or_false, exists_eq_or_imp, exists_eq_left] at hc
    rcases hc with (rfl | rfl) | rfl | rfl <;> simp
  have := C92_symmetric h al "ij,ik->jk" [v, v] [v, v] [['i', 'j'], ['i', 'k']] [['i', 'k'], ['i', 'j']] ['j', 'k'] dims π r
    hd hsz hw (fun a b ha hb => by
      rcases hu a ha with rfl | rfl | rfl <;> rcases hu b hb with rfl | rfl | rfl <;> simp [π])
    (fun c hc => by rcases hu c hc with rfl | rfl | rfl <;> simp [π, Used])
    (by simp [π]) (fun c hc => by rcases hu c hc with rfl | rfl | rfl <;> simp [π, dims]) rfl (.swap _ _ _)
    (fun i ix u jx w e1 e2 e3 e4 σ _ => by
      match i with
      | 0 =>
        simp only [List.getElem?_cons_zero, Option.some.injEq] at e1 e2 e3 e4
        subst e1 e2 e3 e4
        simp [π]
      | 1 =>
        simp only [List.getElem?_cons_zero, List.getElem?_cons_succ, Option.some.injEq] at e1 e2 e3 e4
        subst e1 e2 e3 e4
        simp [π]
      | i + 2 => simp at e1) hr
    (fun c => if c = 'j' then j else k) (by simp [InRange, dims, hj, hk])
  simpa [π] using this

/-! ## Examples -/

namespace Ex

/-- `m23` with its rows in reverse order and its columns rotated by one. -/
def m23sel : View Int := ⟨[5, 6, 4, 2, 3, 1], 0, [2, 3], [3, 1]⟩

/-- The last column of `m32`, its rows rotated by one. -/
def m32sel : View Int := ⟨[3, 1, 5], 0, [3, 1], [1, 1]⟩

/-- Rows reversed, summed positions rotated, the last column only. -/
def sel (c : Char) (i : Nat) : Nat := if c = 'i' then 1 - i else if c = 'j' then (i + 1) % 3 else 1

def selDims (c : Char) : Nat := if c = 'j' then 3 else if c = 'k' then 1 else 2

theorem wf23sel : m23sel.Wf := (elements_of (t := elems m23sel) rfl (by decide)).1
theorem wf32sel : m32sel.Wf := (elements_of (t := elems m32sel) rfl (by decide)).1

theorem used_matmul {c : Char} (h : Used [['i', 'j'], ['j', 'k']] c) : c = 'i' ∨ c = 'j' ∨ c = 'k' := by
  simp only [Used, List.mem_cons, List.not_mem_nil, or_false, exists_eq_or_imp, exists_eq_left] at h
  rcases h with (rfl | rfl) | rfl | rfl <;> simp

end Ex

/-- A reversed, a rotated and a selected axis: the result has its rows reversed and only the last column. -/
example : ∃ r q, einsum .insertion (Alloc.rowMajor Int) "ij,jk->ik" [Ex.m23, Ex.m32] = .ok (.ok r) ∧
    einsum .reversed (Alloc.colMajor Int) "ij,jk->ik" [Ex.m23sel, Ex.m32sel] = .ok (.ok q) ∧
      Selects Ex.sel Ex.selDims ['i', 'k'] r q := by
  refine C89_selection Ex.sel _ _ _ _ _ _ _ _ [['i', 'j'], ['j', 'k']] _ Ex.dims Ex.selDims Ex.denotes_matmul
    Ex.denotes_matmul Ex.call_matmul.sized (wf_of_elements Ex.call_matmul.elements) rfl ?_ ?_ ?_ Ex.ned_matmul
    (by simp [NoEmptyDiagonal])
  · intro k ix v w e1 e2 e3
    match k with
    | 0 =>
      simp only [List.getElem?_cons_zero, Option.some.injEq] at e1 e2 e3
      subst e1 e2 e3
      refine ⟨Ex.wf23sel, rfl, fun τ hτ => ?_⟩
      have := (by decide : ∀ i < 2, ∀ j < 3, Ex.m23sel.read [i, j] = Ex.m23.read [1 - i, (j + 1) % 3])
      exact this _ (hτ 'i' (by simp)) _ (hτ 'j' (by simp))
    | 1 =>
      simp only [List.getElem?_cons_zero, List.getElem?_cons_succ, Option.some.injEq] at e1 e2 e3
      subst e1 e2 e3
      refine ⟨Ex.wf32sel, rfl, fun τ hτ => ?_⟩
      have := (by decide : ∀ j < 3, ∀ k < 1, Ex.m32sel.read [j, k] = Ex.m32.read [(j + 1) % 3, 1])
      exact this _ (hτ 'j' (by simp)) _ (hτ 'k' (by simp))
    | k + 2 => simp at e1
  · intro c hc
    rcases Ex.used_matmul hc with rfl | rfl | rfl <;> decide
  · intro c hc hn
    rcases Ex.used_matmul hc with rfl | rfl | rfl
    · simp at hn
    · decide
    · simp at hn

/-- `m23` transposed. -/
def Ex.m23t : View Int := ⟨[1, 2, 3, 4, 5, 6], 0, [3, 2], [1, 3]⟩

example : ∃ r q, einsum .insertion (Alloc.rowMajor Int) "ij,jk->ik" [Ex.m23, Ex.m32] = .ok (.ok r) ∧
    einsum .reversed (Alloc.colMajor Int) "ji,jk->ik" [Ex.m23t, Ex.m32] = .ok (.ok q) ∧ SameArray r q := by
  refine C90_transposed _ _ _ _ _ _ _ _ _ [['j', 'i'], ['j', 'k']] _ Ex.dims Ex.denotes_matmul
    (.inl ⟨by decide, ⟨by simp, by simp [Letter], by simp [Letter]⟩, by simp [OutputOk, Used]⟩) Ex.call_matmul.sized
    (wf_of_elements Ex.call_matmul.elements) rfl rfl ?_ Ex.ned_matmul
  intro k ix v ix' w e1 e2 e3 e4
  match k with
  | 0 =>
    simp only [List.getElem?_cons_zero, Option.some.injEq] at e1 e2 e3 e4
    subst e1 e2 e3 e4
    refine ⟨.swap _ _ _, (elements_of (t := Ex.elems Ex.m23t) rfl (by decide)).1, rfl, fun σ hσ => ?_⟩
    have := (by decide : ∀ i < 2, ∀ j < 3, Ex.m23t.read [j, i] = Ex.m23.read [i, j])
    exact this _ (hσ 'i' (by simp)) _ (hσ 'j' (by simp))
  | 1 =>
    simp only [List.getElem?_cons_zero, List.getElem?_cons_succ, Option.some.injEq] at e1 e2 e3 e4
    subst e1 e2 e3 e4
    exact ⟨.refl _, Ex.e32.1, rfl, fun σ _ => rfl⟩
  | k + 2 => simp at e1

/-- A 2 by 2 by 3 array stored column-major, and the same array as a 4 by 3 matrix. -/
def Ex.m223c : View Int := ⟨[0, 6, 3, 9, 1, 7, 4, 10, 2, 8, 5, 11], 0, [2, 2, 3], [1, 2, 4]⟩
def Ex.m43 : View Int := ⟨[0, 1, 2, 3, 4, 5, 6, 7, 8, 9, 10, 11], 0, [4, 3], [3, 1]⟩

theorem Ex.wf223c : Ex.m223c.Wf := (elements_of (t := Ex.elems Ex.m223c) rfl (by decide)).1
theorem Ex.wf43 : Ex.m43.Wf := (elements_of (t := Ex.elems Ex.m43) rfl (by decide)).1

/-- Two kept letters as one. -/
example (r q : View Int) (hr : einsum .insertion (Alloc.rowMajor Int) "xyj,jk->xyk" [Ex.m223c, Ex.m32] = .ok (.ok r))
    (hq : einsum .reversed (Alloc.colMajor Int) "zj,jk->zk" [Ex.m43, Ex.m32] = .ok (.ok q)) :
    q.shape = [4, 2] ∧ q.toVec = r.toVec :=
  C90_reshaped 'x' 'y' 'z' _ _ _ _ _ _ [Ex.m223c, Ex.m32] [Ex.m43, Ex.m32] [['z', 'j'], ['j', 'k']] ['z', 'k'] Ex.dims r q (by decide) (by simp [Used])
    (by simp [Used])
    (.inl ⟨by decide, ⟨by simp, by simp [split, Letter], by simp [split, Letter]⟩, by simp [split, OutputOk, Used]⟩)
    (.inl ⟨by decide, ⟨by simp, by simp [Letter], by simp [Letter]⟩, by simp [OutputOk, Used]⟩)
    (.cons (by decide) (.cons (by decide) .nil)) (by simp [Ex.wf223c, Ex.e32.1]) (by simp [Ex.wf43, Ex.e32.1])
    (.cons (by decide) (.cons (by decide) .nil)) (by decide) hr hq

/-- Two summed letters as one; both calls return. -/
example : ∃ r q, einsum .insertion (Alloc.rowMajor Int) "xyj->j" [Ex.m223c] = .ok (.ok r) ∧
    einsum .reversed (Alloc.colMajor Int) "zj->j" [Ex.m43] = .ok (.ok q) ∧ Merges 'x' 'y' 'z' Ex.dims ['j'] r q := by
  refine C90_merged 'x' 'y' 'z' _ _ _ _ _ _ _ _ [['z', 'j']] ['j'] Ex.dims (by decide) (by simp [Used]) (by simp [Used])
    (.inl ⟨by decide, ⟨by simp, by simp [split, Letter], by simp [split, Letter]⟩, by simp [split, OutputOk, Used]⟩)
    (.inl ⟨by decide, ⟨by simp, by simp [Letter], by simp [Letter]⟩, by simp [OutputOk, Used]⟩)
    (.cons (by decide) .nil) (by simp [Ex.wf223c]) rfl ?_ (by simp [split, NoEmptyDiagonal])
  intro k ix v w e1 e2 e3
  match k with
  | 0 =>
    simp only [List.getElem?_cons_zero, Option.some.injEq] at e1 e2 e3
    subst e1 e2 e3
    exact merges_of_toVec Ex.wf223c Ex.wf43 (by decide) (by decide) (by decide)
  | k + 1 => simp at e1

/-- A matrix product and row sums. -/
theorem Ex.groups (r r₁ r₂ : View Int)
    (hr : einsum .insertion (Alloc.rowMajor Int) "ij,jk,ml->ikm" [Ex.m23, Ex.m32, Ex.m32] = .ok (.ok r))
    (h₁ : einsum .insertion (Alloc.rowMajor Int) "ij,jk->ik" [Ex.m23, Ex.m32] = .ok (.ok r₁))
    (h₂ : einsum .insertion (Alloc.rowMajor Int) "ml->m" [Ex.m32] = .ok (.ok r₂)) :
    ∃ a b, r₁.read [1, 0] = .ok a ∧ r₂.read [2] = .ok b ∧ r.read [1, 0, 2] = .ok (a * b) :=
  C91_groups _ _ _ _ _ _ _ _ _ [Ex.m23, Ex.m32, Ex.m32] [Ex.m23, Ex.m32] [Ex.m32] [['i', 'j'], ['j', 'k'], ['m', 'l']] [['i', 'j'], ['j', 'k']]
    [['m', 'l']] ['i', 'k', 'm'] ['i', 'k'] ['m'] (fun c => if c = 'j' ∨ c = 'm' then 3 else 2) r r₁ r₂
    (.inl ⟨by decide, ⟨by simp, by simp [Letter], by simp [Letter]⟩, by simp [OutputOk, Used]⟩) Ex.denotes_matmul
    (.inl ⟨by decide, ⟨by simp, by simp [Letter], by simp [Letter]⟩, by simp [OutputOk, Used]⟩)
    (.cons (by decide) (.cons (by decide) (.cons (by decide) .nil))) (by simp [Ex.e23.1, Ex.e32.1]) rfl rfl (.refl _)
    (by
      intro c h1 h2
      rcases Ex.used_matmul h1 with rfl | rfl | rfl <;> simp [Used] at h2)
    (by
      intro c
      constructor
      · intro hc
        simp only [List.mem_cons, List.not_mem_nil, or_false] at hc
        rcases hc with rfl | rfl <;> simp [Used]
      · rintro ⟨h1, hc⟩
        rcases Ex.used_matmul hc with rfl | rfl | rfl <;> simp at h1 ⊢)
    (by
      intro c
      constructor
      · intro hc
        rw [List.mem_singleton] at hc
        subst hc
        simp [Used]
      · rintro ⟨h1, hc⟩
        simp only [Used, List.mem_cons, List.not_mem_nil, or_false, exists_eq_left] at hc
        rcases hc with rfl | rfl <;> simp at h1 ⊢) hr h₁ h₂ (fun c => if c = 'i' then 1 else if c = 'm' then 2 else 0)
    (by simp [InRange])

theorem Ex.call_groups : Call "ij,jk,ml->ikm" [Ex.m23, Ex.m32, Ex.m32] [['i', 'j'], ['j', 'k'], ['m', 'l']] ['i', 'k', 'm']
    (fun c => if c = 'j' ∨ c = 'm' then 3 else 2) [Ex.elems Ex.m23, Ex.elems Ex.m32, Ex.elems Ex.m32] :=
  ⟨.inl ⟨by decide, ⟨by simp, by simp [Letter], by simp [Letter]⟩, by simp [OutputOk, Used]⟩,
    .cons (by decide) (.cons (by decide) (.cons (by decide) .nil)), .cons Ex.e23 (.cons Ex.e32 (.cons Ex.e32 .nil))⟩

theorem Ex.call_sums : Call "ml->m" [Ex.m32] [['m', 'l']] ['m'] (fun c => if c = 'j' ∨ c = 'm' then 3 else 2)
    [Ex.elems Ex.m32] :=
  ⟨.inl ⟨by decide, ⟨by simp, by simp [Letter], by simp [Letter]⟩, by simp [OutputOk, Used]⟩,
    .cons (by decide) .nil, .cons Ex.e32 .nil⟩

/-- The three calls return. -/
example : ∃ r r₁ r₂, einsum .insertion (Alloc.rowMajor Int) "ij,jk,ml->ikm" [Ex.m23, Ex.m32, Ex.m32] = .ok (.ok r) ∧
    einsum .insertion (Alloc.rowMajor Int) "ij,jk->ik" [Ex.m23, Ex.m32] = .ok (.ok r₁) ∧
    einsum .insertion (Alloc.rowMajor Int) "ml->m" [Ex.m32] = .ok (.ok r₂) ∧
    ∃ a b, r₁.read [1, 0] = .ok a ∧ r₂.read [2] = .ok b ∧ r.read [1, 0, 2] = .ok (a * b) := by
  obtain ⟨r, hr, -⟩ := C13_einsum .insertion (Alloc.rowMajor Int) _ _ _ _ _ _ Ex.call_groups (by simp [NoEmptyDiagonal])
  obtain ⟨r₁, h₁, -⟩ := C13_einsum .insertion (Alloc.rowMajor Int) _ _ _ _ _ _ Ex.call_matmul Ex.ned_matmul
  obtain ⟨r₂, h₂, -⟩ := C13_einsum .insertion (Alloc.rowMajor Int) _ _ _ _ _ _ Ex.call_sums (by simp [NoEmptyDiagonal])
  exact ⟨r, r₁, r₂, hr, h₁, h₂, Ex.groups r r₁ r₂ hr h₁ h₂⟩

/-- The Gram matrix of the columns of `m23` exists and is symmetric. -/
example : ∃ r, einsum .reversed (Alloc.colMajor Int) "ij,ik->jk" [Ex.m23, Ex.m23] = .ok (.ok r) ∧
    ∀ j k, j < 3 → k < 3 → r.read [k, j] = r.read [j, k] := by
  obtain ⟨r, hr, -⟩ := C13_einsum .reversed (Alloc.colMajor Int) "ij,ik->jk" [Ex.m23, Ex.m23] [['i', 'j'], ['i', 'k']]
    ['j', 'k'] (fun c => if c = 'i' then 2 else 3) [Ex.elems Ex.m23, Ex.elems Ex.m23]
    ⟨.inl ⟨by decide, ⟨by simp, by simp [Letter], by simp [Letter]⟩, by simp [OutputOk, Used]⟩,
      .cons (by decide) (.cons (by decide) .nil), .cons Ex.e23 (.cons Ex.e23 .nil)⟩ (by simp [NoEmptyDiagonal])
  exact ⟨r, hr, (C92_gram _ _ Ex.m23 r 2 3 Ex.e23.1 rfl hr).2⟩

end Einsum
