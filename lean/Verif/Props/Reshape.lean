import Verif.SpecReshape
import Verif.Props.Kronecker

/-!
# C112: several axes as one
-/

namespace Einsum
open Spec Function

theorem flatIndex_eq (s i : List Nat) : flatIndex s i = ravel s i := by
  induction s generalizing i with
  | nil => rfl
  | cons d ds ih =>
    cases i with
    | nil => rfl
    | cons j is => simp only [flatIndex, ravel, ih]

section
variable {A : Type} {d : Char → Nat} {word : Char → List Char}

/-- The length of the axis that a word stands for. -/
def wordLen (d : Char → Nat) (word : Char → List Char) (c : Char) : Nat := ((word c).map d).prod

/-- The position along that axis. -/
def wordPos (d : Char → Nat) (word : Char → List Char) (σ : Char → Nat) (c : Char) : Nat :=
  ravel ((word c).map d) ((word c).map σ)

theorem spell_len (l : List Char) : (l.map (wordLen d word)).prod = ((spell word l).map d).prod := by
  induction l with
  | nil => rfl
  | cons c l ih => simp only [spell, List.flatMap_cons, List.map_append, List.prod_append, List.map_cons, List.prod_cons,
      wordLen] at ih ⊢; rw [ih]

theorem spell_pos (l : List Char) (σ : Char → Nat) :
    ravel (l.map (wordLen d word)) (l.map (wordPos d word σ)) = ravel ((spell word l).map d) ((spell word l).map σ) := by
  induction l with
  | nil => rfl
  | cons c l ih =>
    simp only [spell, List.flatMap_cons, List.map_append, List.map_cons, ravel_cons]
    rw [ravel_append (by simp), ih, spell_len]
    rfl

theorem wordPos_lt {σ : Char → Nat} {c : Char} (h : InRange d (word c) σ) : wordPos d word σ c < wordLen d word c :=
  ravel_lt (InB_map.2 h)

theorem wordPos_congr {σ σ' : Char → Nat} {c : Char} (h : ∀ x ∈ word c, σ' x = σ x) :
    wordPos d word σ' c = wordPos d word σ c := by
  unfold wordPos
  rw [List.map_congr_left h]

/-- A sum over the positions along a word. -/
theorem word_sum [AddCommMonoid A] {l : List Char} (hn : l.Nodup) (f : Nat → A) (σ : Char → Nat) :
    ∑ v ∈ Finset.range (l.map d).prod, f v = sumOver d l (fun σ' => f (ravel (l.map d) (l.map σ'))) σ := by
  induction l generalizing f σ with
  | nil => simp [sumOver]
  | cons x l ih =>
    rw [List.map_cons, List.prod_cons, range_mul_sum, sumOver_cons]
    refine Finset.sum_congr rfl fun i _ => ?_
    rw [ih (List.nodup_cons.1 hn).2 (fun j => f (i * (l.map d).prod + j)) (update σ x i)]
    refine sumOver_congr fun σ' h1 _ => ?_
    have : σ' x = i := by rw [h1 x (List.nodup_cons.1 hn).1, update_self]
    simp only [List.map_cons, ravel_cons, this]

/-- A sum over the positions along several words. -/
theorem words_sum [AddCommMonoid A] {labels S : List Char} (hw : Words word labels) (hS : ∀ c ∈ S, c ∈ labels)
    {F G : (Char → Nat) → A} {τ σ : Char → Nat} (ht : ∀ c ∈ labels, τ c = wordPos d word σ c)
    (h : ∀ τ' σ', (∀ c ∈ labels, τ' c = wordPos d word σ' c) → (∀ x, x ∉ spell word S → σ' x = σ x) →
      InRange d (spell word S) σ' → F τ' = G σ') :
    sumOver (wordLen d word) S F τ = sumOver d (spell word S) G σ := by
  induction S generalizing τ σ with
  | nil => exact h τ σ ht (fun _ _ => rfl) (by simp [InRange, spell])
  | cons c S ih =>
    have hc := hS c (by simp)
    have e : spell word (c :: S) = word c ++ spell word S := by simp [spell]
    rw [e, sumOver_append, sumOver_cons]
    refine (word_sum (hw.nodup c hc) (fun v => sumOver (wordLen d word) S F (update τ c v)) σ).trans ?_
    refine sumOver_congr fun σ' h1 h2 => ?_
    refine ih (fun x hx => hS x (by simp [hx])) (fun c' hc' => ?_) fun τ' σ'' k1 k2 k3 =>
      h τ' σ'' k1 (fun x hx => ?_) fun x hx => ?_
    · by_cases he : c' = c
      · subst he; rw [update_self]; rfl
      · rw [update_of_ne he, ht c' hc']
        exact (wordPos_congr fun x hx => h1 x (hw.disjoint c' hc' c hc he x hx)).symm
    · rw [e, List.mem_append, not_or] at hx
      rw [k2 x hx.2, h1 x hx.1]
    · rw [e, List.mem_append] at hx
      by_cases hs : x ∈ spell word S
      · exact k3 x hs
      · rw [k2 x hs]
        exact h2 x (hx.resolve_right hs)

theorem mem_spell {l : List Char} {x : Char} : x ∈ spell word l ↔ ∃ c ∈ l, x ∈ word c := by
  simp [spell, List.mem_flatMap]

theorem spell_nodup {labels l : List Char} (hw : Words word labels) (hl : ∀ c ∈ l, c ∈ labels) (hn : l.Nodup) :
    (spell word l).Nodup := by
  induction l with
  | nil => simp [spell]
  | cons c l ih =>
    have e : spell word (c :: l) = word c ++ spell word l := by simp [spell]
    rw [e]
    refine List.nodup_append'.2 ⟨hw.nodup c (hl c (by simp)), ih (fun x hx => hl x (by simp [hx]))
      (List.nodup_cons.1 hn).2, fun x hx hx' => ?_⟩
    obtain ⟨c', h1, h2⟩ := mem_spell.1 hx'
    exact hw.disjoint c (hl c (by simp)) c' (hl c' (by simp [h1])) (fun e => (List.nodup_cons.1 hn).1 (e ▸ h1)) x hx h2

theorem spell_summed {inputs : List (List Char)} {out : List Char} (hw : Words word inputs.flatten)
    (ho : ∀ c ∈ out, c ∈ inputs.flatten) :
    (summed (inputs.map (spell word)) (spell word out)).Perm (spell word (summed inputs out)) := by
  have hm : ∀ c ∈ summed inputs out, c ∈ inputs.flatten := fun c hc => (mem_summed.1 hc).1
  refine (List.perm_ext_iff_of_nodup (((List.nodup_dedup _).filter _)) (spell_nodup hw hm
    ((List.nodup_dedup _).filter _))).2 fun x => ?_
  show x ∈ summed _ _ ↔ _
  rw [mem_summed, mem_spell (l := summed inputs out)]
  constructor
  · rintro ⟨h1, h2⟩
    obtain ⟨l, hl, hx⟩ := List.mem_flatten.1 h1
    obtain ⟨ix, hix, rfl⟩ := List.mem_map.1 hl
    obtain ⟨c, hc, hx⟩ := mem_spell.1 hx
    exact ⟨c, mem_summed.2 ⟨List.mem_flatten.2 ⟨ix, hix, hc⟩, fun hco => h2 (mem_spell.2 ⟨c, hco, hx⟩)⟩, hx⟩
  · rintro ⟨c, hc, hx⟩
    obtain ⟨h1, h2⟩ := mem_summed.1 hc
    obtain ⟨ix, hix, hcx⟩ := List.mem_flatten.1 h1
    refine ⟨List.mem_flatten.2 ⟨_, List.mem_map_of_mem hix, mem_spell.2 ⟨c, hcx, hx⟩⟩, fun hxo => ?_⟩
    obtain ⟨c', hc', hx'⟩ := mem_spell.1 hxo
    exact hw.disjoint c h1 c' (ho c' hc') (fun e => h2 (e ▸ hc')) x hx hx'

variable [CommSemiring A]

theorem reshaped_term {inputs : List (List Char)} {vs ws : List (View A)}
    (h1 : Sized d (inputs.map (spell word)) (vs.map View.shape)) (h2 : Sized (wordLen d word) inputs (ws.map View.shape))
    (hr : List.Forall₂ Reshaped vs ws) {τ σ : Char → Nat} (ht : ∀ c ∈ inputs.flatten, τ c = wordPos d word σ c)
    (hσ : InRange d (spell word inputs.flatten) σ) :
    term inputs (ws.map View.elem) τ = term (inputs.map (spell word)) (vs.map View.elem) σ := by
  induction hr generalizing inputs with
  | nil => cases inputs <;> simp [term]
  | @cons v w vs ws hv hr ih =>
    cases inputs with
    | nil => simp [term]
    | cons ix inputs =>
      obtain ⟨a1, a2⟩ := List.forall₂_cons.1 h1
      obtain ⟨b1, b2⟩ := List.forall₂_cons.1 h2
      have ih := ih a2 b2 (fun c hc => ht c (by simp only [List.flatten_cons, List.mem_append]; exact .inr hc))
        fun x hx => hσ x (by
          obtain ⟨c, h3, h4⟩ := mem_spell.1 hx
          exact mem_spell.2 ⟨c, by simp only [List.flatten_cons, List.mem_append]; exact .inr h3, h4⟩)
      have hτ : ix.map τ = ix.map (wordPos d word σ) := List.map_congr_left fun c hc => ht c (by simp [hc])
      have hin : ∀ c ∈ ix, InRange d (word c) σ := fun c hc x hx => hσ x (mem_spell.2 ⟨c, by simp [hc], hx⟩)
      have hread := hv.read ((spell word ix).map σ) (ix.map τ)
        (by
          rw [a1]
          refine InB_map.2 fun x hx => ?_
          obtain ⟨c, h3, h4⟩ := mem_spell.1 hx
          exact hin c h3 x h4)
        (by rw [b1, hτ]; exact InB_map.2 fun c hc => wordPos_lt (hin c hc))
        (by rw [flatIndex_eq, flatIndex_eq, a1, b1, hτ, spell_pos])
      unfold term at ih ⊢
      simp only [List.map_cons, List.zipWith_cons_cons, List.prod_cons]
      rw [ih]
      simp only [View.elem, hread]

/-- C112: whenever the two calls return, the results are reshapes of each other. -/
theorem C112_returned (h h' : HashOrd) (al al' : Alloc A) (s s' : String) (inputs : List (List Char)) (out : List Char)
    (hd : Denotes s inputs out) (hd' : Denotes s' (inputs.map (spell word)) (spell word out))
    (hw : Words word inputs.flatten) (vs ws : List (View A)) (hr : List.Forall₂ Reshaped vs ws) (d : Char → Nat)
    (h1 : Sized d (inputs.map (spell word)) (vs.map View.shape))
    (h2 : Sized (fun c => ((word c).map d).prod) inputs (ws.map View.shape)) (r r' : View A)
    (e1 : einsum h al s' vs = .ok (.ok r)) (e2 : einsum h' al' s ws = .ok (.ok r')) : Reshaped r r' := by
  have w1 : ∀ v ∈ vs, v.Wf := fun v hv => by
    obtain ⟨i, hi, rfl⟩ := List.mem_iff_getElem.1 hv
    exact ((List.forall₂_iff_get.1 hr).2 i hi (by rw [← hr.length_eq]; exact hi)).wf.1
  have w2 : ∀ w ∈ ws, w.Wf := fun w hw => by
    obtain ⟨i, hi, rfl⟩ := List.mem_iff_getElem.1 hw
    exact ((List.forall₂_iff_get.1 hr).2 i (by rw [hr.length_eq]; exact hi) hi).wf.2
  have h2 : Sized (wordLen d word) inputs (ws.map View.shape) := h2
  have i1 := isEinsum_of_returned ⟨hd', h1, forall₂_elem w1⟩ e1
  have i2 := isEinsum_of_returned ⟨hd, h2, forall₂_elem w2⟩ e2
  have ho : ∀ c ∈ out, c ∈ inputs.flatten := fun c hc => used_iff.1 (hd.outputOk.2 c hc)
  refine ⟨⟨i1.1, i2.1⟩, by rw [i1.2.1, i2.2.1, spell_len], fun i j hi hj hp => ?_⟩
  rw [i1.2.1] at hi hp
  rw [i2.2.1] at hj hp
  obtain ⟨σ, hσ, rfl⟩ := exists_assign hd'.outputOk.1 hi
  have hin : ∀ c ∈ out, InRange d (word c) σ := fun c hc x hx => hσ x (mem_spell.2 ⟨c, hc, hx⟩)
  have hlt : ∀ c ∈ out, wordPos d word σ c < wordLen d word c := fun c hc => wordPos_lt (hin c hc)
  rw [flatIndex_eq, flatIndex_eq, ← spell_pos] at hp
  obtain rfl := ravel_inj (InB_map.2 hlt) hj hp
  rw [i1.2.2 σ hσ, i2.2.2 _ hlt]
  refine congrArg _ ?_
  show sumOver d (summed (inputs.map (spell word)) (spell word out)) _ σ = _
  rw [sumOver_perm (spell_summed hw ho)]
  refine (words_sum hw (fun c hc => (mem_summed.1 hc).1) (fun _ _ => rfl) fun τ' σ' k1 k2 k3 =>
    reshaped_term h1 h2 hr k1 fun x hx => ?_).symm
  by_cases hs : x ∈ spell word (summed inputs out)
  · exact k3 x hs
  · rw [k2 x hs]
    obtain ⟨c, hc, hxc⟩ := mem_spell.1 hx
    have : c ∈ out := by_contra fun hno => hs (mem_spell.2 ⟨c, mem_summed.2 ⟨hc, hno⟩, hxc⟩)
    exact hin c this x hxc

/-- C112: axes that occur next to each other everywhere can be treated as one axis. Each letter of `s` stands for a word of
letters in `s'` (an empty word stands for an axis of length one); if the operands of `s` are those of `s'`, reshaped, so is
the result. -/
theorem C112_reshape (h h' : HashOrd) (al al' : Alloc A) (s s' : String) (inputs : List (List Char)) (out : List Char)
    (hd : Denotes s inputs out) (hd' : Denotes s' (inputs.map (spell word)) (spell word out))
    (hw : Words word inputs.flatten) (vs ws : List (View A)) (hr : List.Forall₂ Reshaped vs ws) (d : Char → Nat)
    (h1 : Sized d (inputs.map (spell word)) (vs.map View.shape))
    (h2 : Sized (fun c => ((word c).map d).prod) inputs (ws.map View.shape))
    (hn : NoEmptyDiagonal (fun c => ((word c).map d).prod) inputs) :
    ∃ r r', einsum h al s' vs = .ok (.ok r) ∧ einsum h' al' s ws = .ok (.ok r') ∧ Reshaped r r' := by
  have w1 : ∀ v ∈ vs, v.Wf := fun v hv => by
    obtain ⟨i, hi, rfl⟩ := List.mem_iff_getElem.1 hv
    exact ((List.forall₂_iff_get.1 hr).2 i hi (by rw [← hr.length_eq]; exact hi)).wf.1
  have w2 : ∀ w ∈ ws, w.Wf := fun w hw => by
    obtain ⟨i, hi, rfl⟩ := List.mem_iff_getElem.1 hw
    exact ((List.forall₂_iff_get.1 hr).2 i (by rw [hr.length_eq]; exact hi) hi).wf.2
  have hn' : NoEmptyDiagonal d (inputs.map (spell word)) := fun l hl => by
    obtain ⟨ix, hix, rfl⟩ := List.mem_map.1 hl
    rcases hn ix hix with hx | hx
    · exact .inl (spell_nodup hw (fun c hc => List.mem_flatten.2 ⟨ix, hix, hc⟩) hx)
    · refine .inr fun x hx' h0 => ?_
      obtain ⟨c, hc, hxc⟩ := mem_spell.1 hx'
      exact hx c hc (List.prod_eq_zero (List.mem_map.2 ⟨x, hxc, h0⟩))
  obtain ⟨r, e1, -⟩ := einsum_ok ⟨hd', h1, forall₂_elem w1⟩ hn' h al
  obtain ⟨r', e2, -⟩ := einsum_ok ⟨hd, h2, forall₂_elem w2⟩ hn h' al'
  exact ⟨r, r', e1, e2, C112_returned h h' al al' s s' inputs out hd hd' hw vs ws hr d h1 h2 r r' e1 e2⟩

end

/-! ## Example -/

/-- The same elements in row-major order. -/
theorem Ex.reshaped {A : Type} {sh sh' : List Nat} {data : List A} (h : data.length = sh.prod)
    (h' : data.length = sh'.prod) : Reshaped (rowMajor sh data) (rowMajor sh' data) := by
  refine ⟨⟨(rowMajor_ok h).1, (rowMajor_ok h').1⟩, h.symm.trans h', fun i j hi hj hp => ?_⟩
  have hi' : InB sh i := hi
  have hj' : InB sh' j := hj
  rw [flatIndex_eq, flatIndex_eq] at hp
  have hp : ravel sh i = ravel sh' j := hp
  rw [View.read, if_pos hi, View.read, if_pos hj]
  simp only [rowMajor, dotI_default hi', dotI_default hj', hp]

def Ex.wordOf (c : Char) : List Char := if c = 'i' then ['a'] else if c = 'j' then ['b', 'c'] else if c = 'k' then ['d'] else []

/-- A contraction of two axes as a matrix product, and `l` an axis of length one that is left out. -/
example : ∃ r r', einsum HashOrd.insertion (Alloc.rowMajor Int) "abc,bcd->da"
      [rowMajor [2, 1, 3] [1, 2, 3, 4, 5, 6], rowMajor [1, 3, 2] [0, -1, 2, 7, 1, 1]] = .ok (.ok r) ∧
    einsum HashOrd.reversed (Alloc.colMajor Int) "ijl,jk->lki"
      [rowMajor [2, 3, 1] [1, 2, 3, 4, 5, 6], rowMajor [3, 2] [0, -1, 2, 7, 1, 1]] = .ok (.ok r') ∧ Reshaped r r' :=
  C112_reshape (word := Ex.wordOf) _ _ _ _ _ _ [['i', 'j', 'l'], ['j', 'k']] ['l', 'k', 'i']
    (.inl ⟨by decide, ⟨by simp, by simp [Letter], by simp [Letter]⟩, by simp [OutputOk, Used]⟩)
    (.inl ⟨by decide, ⟨by simp, by simp [Letter, spell, Ex.wordOf], by simp [Letter, spell, Ex.wordOf]⟩,
      by simp [OutputOk, Used, spell, Ex.wordOf]⟩)
    ⟨by decide, by decide⟩ _ _ (.cons (Ex.reshaped rfl rfl) (.cons (Ex.reshaped rfl rfl) .nil))
    (fun c => if c = 'a' then 2 else if c = 'c' then 3 else if c = 'd' then 2 else 1) (.cons rfl (.cons rfl .nil))
    (.cons rfl (.cons rfl .nil)) (fun ix hix => .inl (by revert ix; decide))

end Einsum
