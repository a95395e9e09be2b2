import Mathlib.Data.BitVec
import Verif.Props.Main

/-!
# Properties C27 - C33, C35: algebraic laws of einsum
-/

namespace Einsum

open Spec Function

variable {A : Type} [CommSemiring A]

/-! ## All valid calls

The laws hold for every valid call, also where C14 makes a panic possible: where both sides have operands of the same
layout they panic together, otherwise the law holds whenever the calls return. -/

/-- Two valid calls that panic on the same condition panic together or return together. -/
theorem both_calls {s s' : String} {operands operands' : List (View A)} {inputs inputs' : List (List Char)}
    {out out' : List Char} {dims dims' : Char → Nat} {ts ts' : List (List Nat → A)}
    (hc : Call s operands inputs out dims ts) (hc' : Call s' operands' inputs' out' dims' ts')
    (he : EmptyDiagonal dims inputs out operands ↔ EmptyDiagonal dims' inputs' out' operands')
    {R : View A → View A → Prop}
    (hR : ∀ r r', IsEinsum dims inputs ts out r → IsEinsum dims' inputs' ts' out' r' → R r r')
    (h h' : HashOrd) (al al' : Alloc A) :
    ((∃ k, einsum h al s operands = panic k) ∧ ∃ k, einsum h' al' s' operands' = panic k) ∨
      ∃ r r', einsum h al s operands = .ok (.ok r) ∧ einsum h' al' s' operands' = .ok (.ok r') ∧ R r r' := by
  by_cases hx : EmptyDiagonal dims inputs out operands
  · exact .inl ⟨(C14_iff h al s _ _ _ _ _ hc).2 hx, (C14_iff h' al' s' _ _ _ _ _ hc').2 (he.1 hx)⟩
  · obtain ⟨r, h1, h2⟩ := (C14_otherwise h al s _ _ _ _ _ hc).1 hx
    obtain ⟨r', h3, h4⟩ := (C14_otherwise h' al' s' _ _ _ _ _ hc').1 fun hy => hx (he.2 hy)
    exact .inr ⟨r, r', h1, h3, hR r r' h2 h4⟩

/-- Where no panic is possible, both return. -/
theorem both_return {s s' : String} {operands operands' : List (View A)} {inputs : List (List Char)}
    {out : List Char} {dims : Char → Nat} {R : View A → View A → Prop} {h h' : HashOrd} {al al' : Alloc A}
    (hb : ((∃ k, einsum h al s operands = panic k) ∧ ∃ k, einsum h' al' s' operands' = panic k) ∨
      ∃ r r', einsum h al s operands = .ok (.ok r) ∧ einsum h' al' s' operands' = .ok (.ok r') ∧ R r r')
    (hd : Denotes s inputs out) (hs : Sized dims inputs (operands.map View.shape)) (hw : ∀ v ∈ operands, v.Wf)
    (hn : NoEmptyDiagonal dims inputs) :
    ∃ r r', einsum h al s operands = .ok (.ok r) ∧ einsum h' al' s' operands' = .ok (.ok r') ∧ R r r' := by
  rcases hb with ⟨⟨k, hk⟩, -⟩ | hb
  · obtain ⟨r, h1, -⟩ := einsum_ok ⟨hd, hs, forall₂_elem hw⟩ hn h al
    rw [h1] at hk
    simp [panic] at hk
  · exact hb

omit [CommSemiring A] in
/-- The condition for a panic does not depend on positions. -/
theorem emptyDiagonal_iff {dims : Char → Nat} {inputs : List (List Char)} {out : List Char}
    {operands : List (View A)} (hl : inputs.length = operands.length) :
    EmptyDiagonal dims inputs out operands ↔ ∃ p rest, (inputs.zip operands).Perm (p :: rest) ∧ ¬ p.1.Nodup ∧
      (∃ c ∈ p.1, dims c = 0) ∧ (UnitRow p.2 → ∀ c ∈ p.1, c ∈ out ∨ ∃ q ∈ rest, c ∈ q.1) := by
  constructor
  · rintro ⟨k, ix, v, e1, e2, e3, e4, e5⟩
    have hz : (inputs.zip operands)[k]? = some (ix, v) := by rw [List.getElem?_zip_eq_some]; exact ⟨e1, e2⟩
    obtain ⟨hk, hz'⟩ := List.getElem?_eq_some_iff.1 hz
    refine ⟨(ix, v), (inputs.zip operands).eraseIdx k, ?_, e3, e4, fun hu c hc => ?_⟩
    · rw [← hz']
      exact (List.getElem_cons_eraseIdx_perm hk).symm
    · refine (e5 hu c hc).imp id ?_
      rintro ⟨j, jx, h1, h2, h3⟩
      have hj : j < operands.length := hl ▸ (List.getElem?_eq_some_iff.1 h2).1
      refine ⟨(jx, operands[j]), List.mem_eraseIdx_iff_getElem?.2 ⟨j, h1, ?_⟩, h3⟩
      rw [List.getElem?_zip_eq_some]
      exact ⟨h2, List.getElem?_eq_getElem hj⟩
  · rintro ⟨⟨ix, v⟩, rest, h1, e3, e4, e5⟩
    obtain ⟨k, hk, hz⟩ := List.mem_iff_getElem.1 (h1.mem_iff.2 (List.mem_cons_self ..))
    have hz' := List.getElem?_eq_some_iff.2 ⟨hk, hz⟩
    rw [List.getElem?_zip_eq_some] at hz'
    refine ⟨k, ix, v, hz'.1, hz'.2, e3, e4, fun hu c hc => (e5 hu c hc).imp id ?_⟩
    rintro ⟨q, hq, hcq⟩
    have hp := (List.getElem_cons_eraseIdx_perm hk).symm.symm.trans h1
    rw [hz] at hp
    have hq' := hp.cons_inv.mem_iff.2 hq
    rw [List.mem_eraseIdx_iff_getElem?] at hq'
    obtain ⟨j, hj, hq'⟩ := hq'
    rw [List.getElem?_zip_eq_some] at hq'
    exact ⟨j, q.1, hj, hq'.1, hcq⟩

/-! ## C27 -/

theorem term_zip (inputs : List (List Char)) (operands : List (View A)) (σ : Char → Nat) :
    term inputs (operands.map View.elem) σ =
      ((inputs.zip operands).map fun p => p.2.elem (p.1.map σ)).prod := by
  unfold term
  congr 1
  induction inputs generalizing operands with
  | nil => simp
  | cons ix inputs ih =>
    cases operands with
    | nil => simp
    | cons v operands => simp [ih]

/-- C27: permuting the operands together with their label lists does not change the outcome of any valid call. -/
theorem C27_all (h h' : HashOrd) (al al' : Alloc A) (s s' : String)
    (operands operands' : List (View A)) (inputs inputs' : List (List Char)) (out : List Char)
    (dims : Char → Nat) (hd : Denotes s inputs out) (hd' : Denotes s' inputs' out)
    (hs : Sized dims inputs (operands.map View.shape)) (hw : ∀ v ∈ operands, v.Wf)
    (hl : inputs'.length = operands'.length) (hp : (inputs'.zip operands').Perm (inputs.zip operands)) :
    ((∃ k, einsum h al s operands = panic k) ∧ ∃ k, einsum h' al' s' operands' = panic k) ∨
      ∃ r r', einsum h al s operands = .ok (.ok r) ∧ einsum h' al' s' operands' = .ok (.ok r') ∧
        SameArray r r' := by
  have hl0 : inputs.length = operands.length := by simpa using hs.length_eq
  have p1 : inputs'.Perm inputs := by
    have := hp.map Prod.fst
    rwa [List.map_fst_zip (by omega), List.map_fst_zip (by omega)] at this
  have p2 : operands'.Perm operands := by
    have := hp.map Prod.snd
    rwa [List.map_snd_zip (by omega), List.map_snd_zip (by omega)] at this
  have hw' : ∀ v ∈ operands', v.Wf := fun v hv => hw v (p2.mem_iff.1 hv)
  have hs' : Sized dims inputs' (operands'.map View.shape) := by
    unfold Sized at hs ⊢
    rw [List.forall₂_map_right_iff, List.forall₂_iff_zip] at hs ⊢
    exact ⟨hl, fun hm => hs.2 (hp.mem_iff.1 hm)⟩
  refine both_calls ⟨hd, hs, forall₂_elem hw⟩ ⟨hd', hs', forall₂_elem hw'⟩ ?_ (fun r r' h2 h4 => ?_) h h' al al'
  · rw [emptyDiagonal_iff hl0, emptyDiagonal_iff hl]
    exact ⟨fun ⟨p, rest, h1, h2⟩ => ⟨p, rest, hp.trans h1, h2⟩,
      fun ⟨p, rest, h1, h2⟩ => ⟨p, rest, hp.symm.trans h1, h2⟩⟩
  refine h2.same hd.outputOk.1 ?_
  have e : Spec.einsum dims inputs' (operands'.map View.elem) out =
      Spec.einsum dims inputs (operands.map View.elem) out := by
    funext σ
    unfold Spec.einsum
    rw [sumOver_perm (summed_perm p1 out)]
    congr 1
    funext σ
    rw [term_zip, term_zip, (hp.map _).prod_eq]
  refine ⟨h4.1, h4.2.1, fun σ hσ => ?_⟩
  rw [h4.2.2 σ hσ, e]

/-- C27: where no operand has both a repeated letter and an empty axis, both calls return. -/
theorem C27_operand_order (h h' : HashOrd) (al al' : Alloc A) (s s' : String)
    (operands operands' : List (View A)) (inputs inputs' : List (List Char)) (out : List Char)
    (dims : Char → Nat) (hd : Denotes s inputs out) (hd' : Denotes s' inputs' out)
    (hs : Sized dims inputs (operands.map View.shape)) (hw : ∀ v ∈ operands, v.Wf)
    (hn : NoEmptyDiagonal dims inputs) (hl : inputs'.length = operands'.length)
    (hp : (inputs'.zip operands').Perm (inputs.zip operands)) :
    ∃ r r', einsum h al s operands = .ok (.ok r) ∧ einsum h' al' s' operands' = .ok (.ok r') ∧
      SameArray r r' :=
  both_return (C27_all h h' al al' s s' operands operands' inputs inputs' out dims hd hd' hs hw hl hp) hd hs hw hn

theorem Ex.denotes_matmul' : Denotes "jk,ij->ik" [['j', 'k'], ['i', 'j']] ['i', 'k'] :=
  .inl ⟨by decide, ⟨by simp, by simp [Letter], by simp [Letter]⟩, by simp [OutputOk, Used]⟩

example : ∃ r r', einsum HashOrd.insertion (Alloc.rowMajor Int) "ij,jk->ik" [Ex.m23, Ex.m32] =
      .ok (.ok r) ∧
    einsum HashOrd.reversed (Alloc.colMajor Int) "jk,ij->ik" [Ex.m32, Ex.m23] = .ok (.ok r') ∧
      SameArray r r' :=
  C27_operand_order _ _ _ _ _ _ _ _ _ _ _ _ Ex.denotes_matmul Ex.denotes_matmul' Ex.call_matmul.sized
    (wf_of_elements Ex.call_matmul.elements) Ex.ned_matmul rfl (.swap _ _ _)

theorem Ex.denotes_empty' : Denotes "ii,ji->j" [['i', 'i'], ['j', 'i']] ['j'] :=
  .inl ⟨by decide, ⟨by simp, by simp [Letter], by simp [Letter]⟩, by simp [OutputOk, Used]⟩

/-- Both orders panic. -/
example : (∃ k, einsum .insertion (Alloc.rowMajor Int) "ji,ii->j" [Ex.m30, Ex.m00] = panic k) ∧
    ∃ k, einsum .reversed (Alloc.colMajor Int) "ii,ji->j" [Ex.m00, Ex.m30] = panic k := by
  rcases C27_all .insertion .reversed (Alloc.rowMajor Int) (Alloc.colMajor Int) _ "ii,ji->j" _ [Ex.m00, Ex.m30] _ _ _ _
    Ex.denotes_empty Ex.denotes_empty' Ex.call_empty.sized (wf_of_elements Ex.call_empty.elements) rfl (.swap _ _ _)
    with h | ⟨r, -, h, -⟩
  · exact h
  · obtain ⟨k, hk⟩ := (C14_iff .insertion (Alloc.rowMajor Int) _ _ _ _ _ _ Ex.call_empty).2 Ex.fed_empty
    rw [h] at hk
    simp [panic] at hk

/-! ## C28 -/

theorem sumOver_rename {ι κ B : Type} [DecidableEq ι] [DecidableEq κ] [AddCommMonoid B]
    {dims : ι → Nat} {dims' : κ → Nat} {f : ι → κ} {S : List ι}
    (hf : ∀ a ∈ S, ∀ b ∈ S, f a = f b → a = b) (hdim : ∀ c ∈ S, dims' (f c) = dims c)
    {F : (ι → Nat) → B} {G : (κ → Nat) → B}
    (hFG : ∀ σ τ, (∀ c ∈ S, τ (f c) = σ c) → G τ = F σ) {cs : List ι} (hcs : ∀ c ∈ cs, c ∈ S)
    {σ : ι → Nat} {τ : κ → Nat} (h : ∀ c ∈ S, τ (f c) = σ c) :
    sumOver dims' (cs.map f) G τ = sumOver dims cs F σ := by
  induction cs generalizing σ τ with
  | nil => exact hFG σ τ h
  | cons c cs ih =>
    have hc := hcs c (by simp)
    rw [List.map_cons, sumOver_cons, sumOver_cons, hdim c hc]
    refine Finset.sum_congr rfl fun v _ => ih (fun c hc => hcs c (by simp [hc])) fun a ha => ?_
    by_cases hac : a = c
    · subst hac; simp
    · rw [update_of_ne hac, update_of_ne fun e => hac (hf a ha c hc e), h a ha]

theorem Spec.Denotes.letter {s : String} {inputs : List (List Char)} {out : List Char}
    (hd : Denotes s inputs out) {c : Char} (hc : c ∈ inputs.flatten) : Letter c := by
  obtain ⟨p, hp, hcp⟩ := List.mem_flatten.1 hc
  exact (hd.inputs_ne.2 p hp).2 c hcp

/-- Renaming the letters, injectively on those that are used. -/
theorem renamed_calls (h h' : HashOrd) (al al' : Alloc A) (s s' : String) (operands : List (View A))
    (inputs : List (List Char)) (out : List Char) (dims : Char → Nat) (f : Char → Char)
    (hd : Denotes s inputs out) (hs : Sized dims inputs (operands.map View.shape))
    (hw : ∀ v ∈ operands, v.Wf) (hinj' : ∀ a ∈ inputs.flatten, ∀ b ∈ inputs.flatten, f a = f b → a = b)
    (hd' : Denotes s' (inputs.map fun ix => ix.map f) (out.map f)) :
    ((∃ k, einsum h al s operands = panic k) ∧ ∃ k, einsum h' al' s' operands = panic k) ∨
      ∃ r r', einsum h al s operands = .ok (.ok r) ∧ einsum h' al' s' operands = .ok (.ok r') ∧
        SameArray r r' := by
  classical
  have ho := hd.outputOk
  have hout : ∀ c ∈ out, c ∈ inputs.flatten := fun c hc => used_iff.1 (ho.2 c hc)
  let dims' : Char → Nat := fun c =>
    if hx : ∃ b ∈ inputs.flatten, f b = c then dims hx.choose else 0
  have hdim : ∀ c ∈ inputs.flatten, dims' (f c) = dims c := by
    intro c hc
    have hx : ∃ b ∈ inputs.flatten, f b = f c := ⟨c, hc, rfl⟩
    simp only [dims', dif_pos hx]
    rw [hinj' _ hx.choose_spec.1 c hc hx.choose_spec.2]
  have hmap : ∀ ix ∈ inputs, (ix.map f).map dims' = ix.map dims := by
    intro ix hi
    rw [List.map_map]
    exact List.map_congr_left fun c hc => hdim c (List.mem_flatten.2 ⟨ix, hi, hc⟩)
  have hsz : Sized dims' (inputs.map fun ix => ix.map f) (operands.map View.shape) := by
    unfold Sized at hs ⊢
    rw [List.forall₂_map_left_iff]
    rw [List.forall₂_iff_zip] at hs ⊢
    exact ⟨hs.1, fun hm => by rw [hmap _ (List.of_mem_zip hm).1]; exact hs.2 hm⟩
  refine both_calls ⟨hd, hs, forall₂_elem hw⟩ ⟨hd', hsz, forall₂_elem hw⟩ ?_ (fun r r' h2 h4 => ?_) h h' al al'
  · unfold EmptyDiagonal Elsewhere
    constructor
    · rintro ⟨k, ix, v, e1, e2, e3, ⟨c, hc, e4⟩, e5⟩
      have hi := List.mem_of_getElem? e1
      have hin : ∀ c ∈ ix, c ∈ inputs.flatten := fun c hc => List.mem_flatten.2 ⟨ix, hi, hc⟩
      refine ⟨k, ix.map f, v, by rw [List.getElem?_map, e1]; rfl, e2,
        fun hnd => e3 (List.Nodup.of_map f hnd), ⟨f c, List.mem_map.2 ⟨c, hc, rfl⟩, by rw [hdim c (hin c hc), e4]⟩,
        fun hu c hc => ?_⟩
      obtain ⟨b, hb, rfl⟩ := List.mem_map.1 hc
      rcases e5 hu b hb with hx | ⟨j, jx, h1, h2, h3⟩
      · exact .inl (List.mem_map.2 ⟨b, hx, rfl⟩)
      · exact .inr ⟨j, jx.map f, h1, by rw [List.getElem?_map, h2]; rfl, List.mem_map.2 ⟨b, h3, rfl⟩⟩
    · rintro ⟨k, ix', v, e1, e2, e3, ⟨c, hc, e4⟩, e5⟩
      rw [List.getElem?_map, Option.map_eq_some_iff] at e1
      obtain ⟨ix, e1, rfl⟩ := e1
      have hi := List.mem_of_getElem? e1
      have hin : ∀ c ∈ ix, c ∈ inputs.flatten := fun c hc => List.mem_flatten.2 ⟨ix, hi, hc⟩
      obtain ⟨b, hb, rfl⟩ := List.mem_map.1 hc
      refine ⟨k, ix, v, e1, e2, fun hnd => e3 (hnd.map_on fun a ha b hb => hinj' a (hin a ha) b (hin b hb)),
        ⟨b, hb, by rw [← hdim b (hin b hb), e4]⟩, fun hu c hc => ?_⟩
      rcases e5 hu (f c) (List.mem_map.2 ⟨c, hc, rfl⟩) with hx | ⟨j, jx', h1, h2, h3⟩
      · obtain ⟨a, ha, e⟩ := List.mem_map.1 hx
        exact .inl (hinj' a (hout a ha) c (hin c hc) e ▸ ha)
      · rw [List.getElem?_map, Option.map_eq_some_iff] at h2
        obtain ⟨jx, h2, rfl⟩ := h2
        obtain ⟨a, ha, e⟩ := List.mem_map.1 h3
        exact .inr ⟨j, jx, h1, h2,
          hinj' a (List.mem_flatten.2 ⟨jx, List.mem_of_getElem? h2, ha⟩) c (hin c hc) e ▸ ha⟩
  have hoe : (out.map f).map dims' = out.map dims := by
    rw [List.map_map]; exact List.map_congr_left fun c hc => hdim c (hout c hc)
  refine ⟨h2.1, h4.1, by rw [h2.2.1, h4.2.1, hoe], fun idx hi => ?_⟩
  rw [h2.2.1, ← hoe] at hi
  obtain ⟨τ, ht, rfl⟩ := exists_assign hd'.outputOk.1 hi
  rw [h4.2.2 τ ht, List.map_map, h2.2.2 (τ ∘ f) fun c hc => by
    have := ht (f c) (List.mem_map.2 ⟨c, hc, rfl⟩)
    rwa [hdim c (hout c hc)] at this]
  congr 1
  unfold Spec.einsum
  have hsum : (summed (inputs.map fun ix => ix.map f) (out.map f)).Perm
      ((summed inputs out).map f) := by
    refine perm_of_nodup (summed_nodup _ _) ((summed_nodup _ _).map_on fun a ha b hb =>
      hinj' a (mem_summed.1 ha).1 b (mem_summed.1 hb).1) fun c => ?_
    have e : (inputs.map fun ix => ix.map f).flatten = inputs.flatten.map f := (List.map_flatten).symm
    rw [mem_summed, e, List.mem_map, List.mem_map (l := summed inputs out)]
    constructor
    · rintro ⟨⟨b, hb, rfl⟩, hno⟩
      exact ⟨b, mem_summed.2 ⟨hb, fun hbo => hno (List.mem_map.2 ⟨b, hbo, rfl⟩)⟩, rfl⟩
    · rintro ⟨b, hb, rfl⟩
      obtain ⟨hb1, hb2⟩ := mem_summed.1 hb
      refine ⟨⟨b, hb1, rfl⟩, fun hx => ?_⟩
      obtain ⟨a, ha, e⟩ := List.mem_map.1 hx
      exact hb2 (hinj' a (hout a ha) b hb1 e ▸ ha)
  rw [sumOver_perm hsum]
  symm
  refine sumOver_rename (S := inputs.flatten) hinj' hdim (fun σ τ hστ => ?_)
    (fun c hc => (mem_summed.1 hc).1) fun c _ => rfl
  unfold term
  rw [List.zipWith_map_left]
  congr 1
  have : ∀ (is : List (List Char)) (ts : List (List Nat → A)), (∀ ix ∈ is, ix ∈ inputs) →
      List.zipWith (fun ix t => t ((ix.map f).map τ)) is ts =
        List.zipWith (fun ix t => t (ix.map σ)) is ts := by
    intro is
    induction is with
    | nil => simp
    | cons ix is ih =>
      intro ts hi
      cases ts with
      | nil => simp
      | cons t ts =>
        rw [List.zipWith_cons_cons, List.zipWith_cons_cons, ih ts fun j hj => hi j (by simp [hj]),
          List.map_map, List.map_congr_left (f := τ ∘ f) fun c hc =>
            hστ c (List.mem_flatten.2 ⟨ix, hi ix (by simp), hc⟩)]
  exact this inputs _ fun _ h => h

/-- C28: renaming the letters injectively (letters to letters) does not change the outcome of any valid call. -/
theorem C28_all (h h' : HashOrd) (al al' : Alloc A) (s s' : String) (operands : List (View A))
    (inputs : List (List Char)) (out : List Char) (dims : Char → Nat) (f : Char → Char)
    (hd : Denotes s inputs out) (hs : Sized dims inputs (operands.map View.shape))
    (hw : ∀ v ∈ operands, v.Wf)
    (hf : ∀ c, Letter c → Letter (f c))
    (hinj : ∀ a b, Letter a → Letter b → f a = f b → a = b)
    (hs' : s'.toList = render (inputs.map fun ix => ix.map f) (some (out.map f))) :
    ((∃ k, einsum h al s operands = panic k) ∧ ∃ k, einsum h' al' s' operands = panic k) ∨
      ∃ r r', einsum h al s operands = .ok (.ok r) ∧ einsum h' al' s' operands = .ok (.ok r') ∧
        SameArray r r' := by
  have hlet : ∀ c ∈ inputs.flatten, Letter c := fun c hc => hd.letter hc
  have ho := hd.outputOk
  have hout : ∀ c ∈ out, c ∈ inputs.flatten := fun c hc => used_iff.1 (ho.2 c hc)
  have hinj' : ∀ a ∈ inputs.flatten, ∀ b ∈ inputs.flatten, f a = f b → a = b :=
    fun a ha b hb => hinj a b (hlet a ha) (hlet b hb)
  have hd' : Denotes s' (inputs.map fun ix => ix.map f) (out.map f) := by
    refine .inl ⟨hs', ⟨by simpa using hd.inputs_ne.1, ?_, ?_⟩, ?_, ?_⟩
    · intro p hp
      obtain ⟨ix, hi, rfl⟩ := List.mem_map.1 hp
      refine ⟨by simpa using (hd.inputs_ne.2 ix hi).1, fun c hc => ?_⟩
      obtain ⟨b, hb, rfl⟩ := List.mem_map.1 hc
      exact hf b ((hd.inputs_ne.2 ix hi).2 b hb)
    · intro o e c hc
      simp only [Option.some.injEq] at e
      subst e
      obtain ⟨b, hb, rfl⟩ := List.mem_map.1 hc
      exact hf b (hlet b (hout b hb))
    · exact ho.1.map_on fun a ha b hb => hinj' a (hout a ha) b (hout b hb)
    · intro c hc
      obtain ⟨b, hb, rfl⟩ := List.mem_map.1 hc
      obtain ⟨p, hp, hbp⟩ := ho.2 b hb
      exact ⟨_, List.mem_map.2 ⟨p, hp, rfl⟩, List.mem_map.2 ⟨b, hbp, rfl⟩⟩
  exact renamed_calls h h' al al' s s' operands inputs out dims f hd hs hw hinj' hd'

/-- C28: where no operand has both a repeated letter and an empty axis, both calls return. -/
theorem C28_rename (h h' : HashOrd) (al al' : Alloc A) (s s' : String) (operands : List (View A))
    (inputs : List (List Char)) (out : List Char) (dims : Char → Nat) (f : Char → Char)
    (hd : Denotes s inputs out) (hs : Sized dims inputs (operands.map View.shape))
    (hw : ∀ v ∈ operands, v.Wf) (hn : NoEmptyDiagonal dims inputs)
    (hf : ∀ c, Letter c → Letter (f c))
    (hinj : ∀ a b, Letter a → Letter b → f a = f b → a = b)
    (hs' : s'.toList = render (inputs.map fun ix => ix.map f) (some (out.map f))) :
    ∃ r r', einsum h al s operands = .ok (.ok r) ∧ einsum h' al' s' operands = .ok (.ok r') ∧
      SameArray r r' :=
  both_return (C28_all h h' al al' s s' operands inputs out dims f hd hs hw hf hinj hs') hd hs hw hn

example : ∃ r r', einsum HashOrd.insertion (Alloc.rowMajor Int) "ij,jk->ik" [Ex.m23, Ex.m32] =
      .ok (.ok r) ∧
    einsum HashOrd.reversed (Alloc.colMajor Int) "ji,ik->jk" [Ex.m23, Ex.m32] = .ok (.ok r') ∧
      SameArray r r' :=
  C28_rename _ _ _ _ _ _ _ _ _ _ (fun c => if c = 'i' then 'j' else if c = 'j' then 'i' else c)
    Ex.denotes_matmul Ex.call_matmul.sized (wf_of_elements Ex.call_matmul.elements) Ex.ned_matmul
    (by
      intro c hc
      split
      · simp [Letter]
      · split
        · simp [Letter]
        · exact hc)
    (by
      intro a b _ _
      split_ifs <;> simp_all [eq_comm])
    (by decide)

/-! ## C29, C30 -/

theorem term_insert (pre post : List (List Char)) (ix : List Char) (tpre tpost : List (List Nat → A))
    (t : List Nat → A) (hl : tpre.length = pre.length) (σ : Char → Nat) :
    term (pre ++ ix :: post) (tpre ++ t :: tpost) σ =
      term pre tpre σ * t (ix.map σ) * term post tpost σ := by
  unfold term
  rw [List.zipWith_append hl.symm]
  simp [mul_assoc]

omit [CommSemiring A] in
theorem elements_replace {pre post : List (View A)} {u v : View A} {tpre tpost : List (List Nat → A)}
    {t t' : List Nat → A} (hl : tpre.length = pre.length)
    (h : List.Forall₂ Elements (pre ++ u :: post) (tpre ++ t :: tpost)) (hv : Elements v t') :
    List.Forall₂ Elements (pre ++ v :: post) (tpre ++ t' :: tpost) := by
  induction pre generalizing tpre with
  | nil =>
    cases tpre with
    | cons _ _ => simp at hl
    | nil => cases h with | cons _ h2 => exact .cons hv h2
  | cons x pre ih =>
    cases tpre with
    | nil => simp at hl
    | cons y tpre =>
      cases h with
      | cons h1 h2 => exact .cons h1 (ih (by simpa using hl) h2)

omit [CommSemiring A] in
/-- The operand list splits like the label list. -/
theorem split_inputs {dims : Char → Nat} {inputs : List (List Char)} {pre post : List (View A)}
    {v : View A} (hs : Sized dims inputs ((pre ++ v :: post).map View.shape)) :
    ∃ ipre ix ipost, inputs = ipre ++ ix :: ipost ∧ ipre.length = pre.length := by
  have hl : inputs.length = (pre ++ v :: post).length := by simpa using hs.length_eq
  have hk : pre.length < inputs.length := by rw [hl]; simp
  refine ⟨inputs.take pre.length, inputs[pre.length], inputs.drop (pre.length + 1), ?_, ?_⟩
  · rw [List.getElem_cons_drop, List.take_append_drop]
  · simp; omega

/-- C29: `einsum` is additive in each operand: if operand `v` is the elementwise sum of `u` and `w`, the
result for `v` is the elementwise sum of the results for `u` and `w`, whenever the three calls return. -/
theorem C29_returned (h h₁ h₂ : HashOrd) (al al₁ al₂ : Alloc A) (s : String)
    (pre post : List (View A)) (u w v : View A) (inputs : List (List Char)) (out : List Char)
    (dims : Char → Nat) (hd : Denotes s inputs out)
    (hs : Sized dims inputs ((pre ++ u :: post).map View.shape))
    (hwf : ∀ x ∈ pre ++ u :: post, x.Wf)
    (hwv : v.Wf) (hww : w.Wf) (hsv : v.shape = u.shape) (hsw : w.shape = u.shape)
    (hsum : ∀ idx, InB v.shape idx → ∃ x y, u.read idx = .ok x ∧ w.read idx = .ok y ∧
      v.read idx = .ok (x + y)) (ru rw rv : View A) (hru : einsum h₁ al₁ s (pre ++ u :: post) = .ok (.ok ru))
    (hrw : einsum h₂ al₂ s (pre ++ w :: post) = .ok (.ok rw)) (hrv : einsum h al s (pre ++ v :: post) = .ok (.ok rv)) :
    rv.shape = ru.shape ∧ rv.shape = rw.shape ∧
      ∀ idx, InB rv.shape idx → ∃ x y, ru.read idx = .ok x ∧ rw.read idx = .ok y ∧
        rv.read idx = .ok (x + y) := by
  have hu := (hwf u (by simp)).elements
  have hwe := hww.elements
  have hv : Elements v (fun idx => u.elem idx + w.elem idx) := by
    refine ⟨hwv, fun idx hi => ?_⟩
    obtain ⟨x, y, e1, e2, e3⟩ := hsum idx hi
    rw [e3]; simp [View.elem, e1, e2]
  have hall := forall₂_elem hwf
  rw [List.map_append, List.map_cons] at hall
  have hl : (pre.map View.elem).length = pre.length := by simp
  have es : ∀ x : View A, x.shape = u.shape → (pre ++ x :: post).map View.shape =
      (pre ++ u :: post).map View.shape := by intro x hx; simp [hx]
  obtain ⟨ipre, ix, ipost, rfl, hil⟩ := split_inputs hs
  have a2 := isEinsum_of_returned ⟨hd, hs, hall⟩ hru
  have b2 := isEinsum_of_returned ⟨hd, es w hsw ▸ hs, elements_replace hl hall hwe⟩ hrw
  have c2 := isEinsum_of_returned ⟨hd, es v hsv ▸ hs, elements_replace hl hall hv⟩ hrv
  refine ⟨by rw [c2.2.1, a2.2.1], by rw [c2.2.1, b2.2.1], fun idx hi => ?_⟩
  rw [c2.2.1] at hi
  obtain ⟨σ, hσ, rfl⟩ := exists_assign hd.outputOk.1 hi
  refine ⟨_, _, a2.2.2 σ hσ, b2.2.2 σ hσ, ?_⟩
  rw [c2.2.2 σ hσ]
  congr 1
  unfold Spec.einsum
  rw [← sumOver_add]
  congr 1
  funext σ
  rw [term_insert _ _ _ _ _ _ (by simp [hil]), term_insert _ _ _ _ _ _ (by simp [hil]),
    term_insert _ _ _ _ _ _ (by simp [hil])]
  ring

/-- C29: where no operand has both a repeated letter and an empty axis, the three calls return. -/
theorem C29_additive (h h₁ h₂ : HashOrd) (al al₁ al₂ : Alloc A) (s : String)
    (pre post : List (View A)) (u w v : View A) (inputs : List (List Char)) (out : List Char)
    (dims : Char → Nat) (hd : Denotes s inputs out)
    (hs : Sized dims inputs ((pre ++ u :: post).map View.shape))
    (hwf : ∀ x ∈ pre ++ u :: post, x.Wf) (hn : NoEmptyDiagonal dims inputs)
    (hwv : v.Wf) (hww : w.Wf) (hsv : v.shape = u.shape) (hsw : w.shape = u.shape)
    (hsum : ∀ idx, InB v.shape idx → ∃ x y, u.read idx = .ok x ∧ w.read idx = .ok y ∧
      v.read idx = .ok (x + y)) :
    ∃ ru rw rv, einsum h₁ al₁ s (pre ++ u :: post) = .ok (.ok ru) ∧
      einsum h₂ al₂ s (pre ++ w :: post) = .ok (.ok rw) ∧
      einsum h al s (pre ++ v :: post) = .ok (.ok rv) ∧
      rv.shape = ru.shape ∧ rv.shape = rw.shape ∧
      ∀ idx, InB rv.shape idx → ∃ x y, ru.read idx = .ok x ∧ rw.read idx = .ok y ∧
        rv.read idx = .ok (x + y) := by
  have es : ∀ x : View A, x.shape = u.shape → (pre ++ x :: post).map View.shape =
      (pre ++ u :: post).map View.shape := by intro x hx; simp [hx]
  have ew : ∀ x : View A, x.Wf → ∀ y ∈ pre ++ x :: post, y.Wf := fun x hx => by
    simp only [List.mem_append, List.mem_cons] at hwf ⊢
    grind
  obtain ⟨ru, a1, -⟩ := einsum_ok ⟨hd, hs, forall₂_elem hwf⟩ hn h₁ al₁
  obtain ⟨rw', b1, -⟩ := einsum_ok ⟨hd, es w hsw ▸ hs, forall₂_elem (ew w hww)⟩ hn h₂ al₂
  obtain ⟨rv, c1, -⟩ := einsum_ok ⟨hd, es v hsv ▸ hs, forall₂_elem (ew v hwv)⟩ hn h al
  exact ⟨ru, rw', rv, a1, b1, c1, C29_returned h h₁ h₂ al al₁ al₂ s pre post u w v inputs out dims hd hs hwf hwv hww
    hsv hsw hsum ru rw' rv a1 b1 c1⟩

/-- C30: multiplying one operand by a scalar multiplies the result by that scalar, whenever both
calls return. -/
theorem C30_returned (h h₁ : HashOrd) (al al₁ : Alloc A) (s : String)
    (pre post : List (View A)) (u v : View A) (a : A) (inputs : List (List Char)) (out : List Char)
    (dims : Char → Nat) (hd : Denotes s inputs out)
    (hs : Sized dims inputs ((pre ++ u :: post).map View.shape))
    (hwf : ∀ x ∈ pre ++ u :: post, x.Wf)
    (hwv : v.Wf) (hsv : v.shape = u.shape)
    (hmul : ∀ idx, InB v.shape idx → ∃ x, u.read idx = .ok x ∧ v.read idx = .ok (a * x))
    (ru rv : View A) (hru : einsum h₁ al₁ s (pre ++ u :: post) = .ok (.ok ru))
    (hrv : einsum h al s (pre ++ v :: post) = .ok (.ok rv)) :
    rv.shape = ru.shape ∧
      ∀ idx, InB rv.shape idx → ∃ x, ru.read idx = .ok x ∧ rv.read idx = .ok (a * x) := by
  have hv : Elements v (fun idx => a * u.elem idx) := by
    refine ⟨hwv, fun idx hi => ?_⟩
    obtain ⟨x, e1, e3⟩ := hmul idx hi
    rw [e3]; simp [View.elem, e1]
  have hall := forall₂_elem hwf
  rw [List.map_append, List.map_cons] at hall
  have hl : (pre.map View.elem).length = pre.length := by simp
  have es : (pre ++ v :: post).map View.shape = (pre ++ u :: post).map View.shape := by simp [hsv]
  obtain ⟨ipre, ix, ipost, rfl, hil⟩ := split_inputs hs
  have a2 := isEinsum_of_returned ⟨hd, hs, hall⟩ hru
  have c2 := isEinsum_of_returned ⟨hd, es ▸ hs, elements_replace hl hall hv⟩ hrv
  refine ⟨by rw [c2.2.1, a2.2.1], fun idx hi => ?_⟩
  rw [c2.2.1] at hi
  obtain ⟨σ, hσ, rfl⟩ := exists_assign hd.outputOk.1 hi
  refine ⟨_, a2.2.2 σ hσ, ?_⟩
  rw [c2.2.2 σ hσ]
  congr 1
  unfold Spec.einsum
  rw [sumOver_map (fun x => a * x) (mul_zero a) (mul_add a)]
  congr 1
  funext σ
  rw [term_insert _ _ _ _ _ _ (by simp [hil]), term_insert _ _ _ _ _ _ (by simp [hil])]
  ring

/-- C30: where no operand has both a repeated letter and an empty axis, both calls return. -/
theorem C30_homogeneous (h h₁ : HashOrd) (al al₁ : Alloc A) (s : String)
    (pre post : List (View A)) (u v : View A) (a : A) (inputs : List (List Char)) (out : List Char)
    (dims : Char → Nat) (hd : Denotes s inputs out)
    (hs : Sized dims inputs ((pre ++ u :: post).map View.shape))
    (hwf : ∀ x ∈ pre ++ u :: post, x.Wf) (hn : NoEmptyDiagonal dims inputs)
    (hwv : v.Wf) (hsv : v.shape = u.shape)
    (hmul : ∀ idx, InB v.shape idx → ∃ x, u.read idx = .ok x ∧ v.read idx = .ok (a * x)) :
    ∃ ru rv, einsum h₁ al₁ s (pre ++ u :: post) = .ok (.ok ru) ∧
      einsum h al s (pre ++ v :: post) = .ok (.ok rv) ∧ rv.shape = ru.shape ∧
      ∀ idx, InB rv.shape idx → ∃ x, ru.read idx = .ok x ∧ rv.read idx = .ok (a * x) := by
  have es : (pre ++ v :: post).map View.shape = (pre ++ u :: post).map View.shape := by simp [hsv]
  have ew : ∀ y ∈ pre ++ v :: post, y.Wf := by
    simp only [List.mem_append, List.mem_cons] at hwf ⊢
    grind
  obtain ⟨ru, a1, -⟩ := einsum_ok ⟨hd, hs, forall₂_elem hwf⟩ hn h₁ al₁
  obtain ⟨rv, c1, -⟩ := einsum_ok ⟨hd, es ▸ hs, forall₂_elem ew⟩ hn h al
  exact ⟨ru, rv, a1, c1, C30_returned h h₁ al al₁ s pre post u v a inputs out dims hd hs hwf hwv hsv hmul ru rv a1 c1⟩

/-- A call that returns although an operand has a repeated letter and an empty axis. -/
example : ∃ ru rv, einsum .reversed (Alloc.rowMajor Int) "aab->" [Ex.m110] = .ok (.ok ru) ∧
    einsum .insertion (Alloc.colMajor Int) "aab->" [Ex.m110] = .ok (.ok rv) ∧
    (∀ idx, InB rv.shape idx → ∃ x y, ru.read idx = .ok x ∧ ru.read idx = .ok y ∧ rv.read idx = .ok (x + y)) ∧
    ∀ idx, InB rv.shape idx → ∃ x, ru.read idx = .ok x ∧ rv.read idx = .ok (7 * x) := by
  obtain ⟨r, h1, -⟩ := (C14_otherwise .reversed (Alloc.rowMajor Int) _ _ _ _ _ _ Ex.call_unit).1 Ex.nfed_unit
  obtain ⟨r', h2, -⟩ := (C14_otherwise .insertion (Alloc.colMajor Int) _ _ _ _ _ _ Ex.call_unit).1 Ex.nfed_unit
  have hw := wf_of_elements Ex.call_unit.elements
  have he : ∀ idx, ¬ InB Ex.m110.shape idx := fun idx hi => by
    have := mem_allIdx.2 hi
    revert this
    simp [Ex.m110, allIdx]
  exact ⟨r, r', h1, h2,
    (C29_returned .insertion .reversed .reversed _ _ _ _ [] [] Ex.m110 Ex.m110 Ex.m110 _ _ _ Ex.call_unit.denotes
      Ex.call_unit.sized hw (hw _ (by simp)) (hw _ (by simp)) rfl rfl (fun idx hi => (he idx hi).elim) _ _ _ h1 h1 h2).2.2,
    (C30_returned .insertion .reversed _ _ _ [] [] Ex.m110 Ex.m110 7 _ _ _ Ex.call_unit.denotes
      Ex.call_unit.sized hw (hw _ (by simp)) rfl (fun idx hi => (he idx hi).elim) _ _ h1 h2).2⟩

/-- Twice `m32`. -/
def Ex.m32x2 : View Int := ⟨[2, 4, 6, 8, 10, 12], 5, [3, 2], [-2, -1]⟩
theorem Ex.e32x2 : Elements Ex.m32x2 (Ex.elems Ex.m32x2) := elements_of rfl (by decide)

example : ∃ ru rw rv, einsum HashOrd.reversed (Alloc.rowMajor Int) "ij,jk->ik" [Ex.m23, Ex.m32] =
      .ok (.ok ru) ∧
    einsum HashOrd.reversed (Alloc.rowMajor Int) "ij,jk->ik" [Ex.m23, Ex.m32'] = .ok (.ok rw) ∧
    einsum HashOrd.insertion (Alloc.colMajor Int) "ij,jk->ik" [Ex.m23, Ex.m32x2] = .ok (.ok rv) := by
  obtain ⟨ru, rw, rv, h1, h2, h3, -⟩ := C29_additive HashOrd.insertion HashOrd.reversed HashOrd.reversed
    (Alloc.colMajor Int) (Alloc.rowMajor Int) (Alloc.rowMajor Int) "ij,jk->ik" [Ex.m23] [] Ex.m32 Ex.m32'
    Ex.m32x2 _ _ _ Ex.denotes_matmul Ex.call_matmul.sized (wf_of_elements Ex.call_matmul.elements)
    Ex.ned_matmul Ex.e32x2.1 Ex.e32'.1 rfl rfl fun idx hi =>
      ⟨_, _, Ex.e32.2 idx hi, Ex.e32'.2 idx hi,
        (by decide : ∀ idx ∈ allIdx [3, 2], Ex.m32x2.read idx =
          .ok (Ex.elems Ex.m32 idx + Ex.elems Ex.m32' idx)) idx (mem_allIdx.2 hi)⟩
  exact ⟨ru, rw, rv, h1, h2, h3⟩

example : ∃ ru rv, einsum HashOrd.reversed (Alloc.rowMajor Int) "ij,jk->ik" [Ex.m23, Ex.m32] =
      .ok (.ok ru) ∧
    einsum HashOrd.insertion (Alloc.colMajor Int) "ij,jk->ik" [Ex.m23, Ex.m32x2] = .ok (.ok rv) := by
  obtain ⟨ru, rv, h1, h2, -⟩ := C30_homogeneous HashOrd.insertion HashOrd.reversed
    (Alloc.colMajor Int) (Alloc.rowMajor Int) "ij,jk->ik" [Ex.m23] [] Ex.m32 Ex.m32x2 2 _ _ _
    Ex.denotes_matmul Ex.call_matmul.sized (wf_of_elements Ex.call_matmul.elements) Ex.ned_matmul
    Ex.e32x2.1 rfl fun idx hi => ⟨_, Ex.e32.2 idx hi,
        (by decide : ∀ idx ∈ allIdx [3, 2], Ex.m32x2.read idx = .ok (2 * Ex.elems Ex.m32 idx)) idx
          (mem_allIdx.2 hi)⟩
  exact ⟨ru, rv, h1, h2⟩

/-! ## C31 -/

/-- C31: rearranging the output letters rearranges the axes of the result, for every valid call. -/
theorem C31_all (h h' : HashOrd) (al al' : Alloc A) (s s' : String)
    (operands : List (View A)) (inputs : List (List Char)) (out out' : List Char) (dims : Char → Nat)
    (hd : Denotes s inputs out) (hd' : Denotes s' inputs out')
    (hs : Sized dims inputs (operands.map View.shape)) (hw : ∀ v ∈ operands, v.Wf)
    (hp : out'.Perm out) :
    ((∃ k, einsum h al s operands = panic k) ∧ ∃ k, einsum h' al' s' operands = panic k) ∨
      ∃ r r', einsum h al s operands = .ok (.ok r) ∧ einsum h' al' s' operands = .ok (.ok r') ∧
        (∀ σ, InRange dims out σ → r'.read (out'.map σ) = r.read (out.map σ)) ∧
        ∃ w, r.permutedAxes (out'.map fun c => out.idxOf c) = .ok w ∧ SameArray w r' := by
  have ht := forall₂_elem hw
  have ho := hd.outputOk.1
  have ho' := hd'.outputOk.1
  refine both_calls ⟨hd, hs, ht⟩ ⟨hd', hs, ht⟩ ?_ (fun r r' h2 h4 => ?_) h h' al al'
  · unfold EmptyDiagonal Elsewhere
    simp only [hp.mem_iff]
  have e : Spec.einsum dims inputs (operands.map View.elem) out' =
      Spec.einsum dims inputs (operands.map View.elem) out := by
    funext σ
    unfold Spec.einsum
    rw [sumOver_perm (perm_of_nodup (summed_nodup _ _) (summed_nodup inputs out) fun c => by
      rw [mem_summed, mem_summed, hp.mem_iff])]
  obtain ⟨w, w1, w2⟩ := h2.rep.permute ho hp
  have hpos : (out'.map fun c => out.idxOf c) = out'.map fun c => pos c out := by
    refine List.map_congr_left fun c hc => ?_
    have hm := hp.mem_iff.1 hc
    have hlt := List.idxOf_lt_length_of_mem hm
    have := pos_getElem ho hlt
    rw [List.getElem_idxOf] at this
    exact this.symm
  refine ⟨fun σ hσ => ?_, w, by rw [hpos]; exact w1, w2.wf ho', h4.1,
    by rw [w2.shape, h4.2.1], fun idx hi => ?_⟩
  · rw [h2.2.2 σ hσ, h4.2.2 σ fun c hc => hσ c (hp.mem_iff.1 hc), e]
  · rw [w2.shape] at hi
    obtain ⟨σ, hσ, rfl⟩ := exists_assign ho' hi
    rw [w2.get σ hσ, h4.2.2 σ hσ, e]

/-- C31: where no operand has both a repeated letter and an empty axis, both calls return. -/
theorem C31_output_order (h h' : HashOrd) (al al' : Alloc A) (s s' : String)
    (operands : List (View A)) (inputs : List (List Char)) (out out' : List Char) (dims : Char → Nat)
    (hd : Denotes s inputs out) (hd' : Denotes s' inputs out')
    (hs : Sized dims inputs (operands.map View.shape)) (hw : ∀ v ∈ operands, v.Wf)
    (hn : NoEmptyDiagonal dims inputs) (hp : out'.Perm out) :
    ∃ r r' w, einsum h al s operands = .ok (.ok r) ∧ einsum h' al' s' operands = .ok (.ok r') ∧
      (∀ σ, InRange dims out σ → r'.read (out'.map σ) = r.read (out.map σ)) ∧
      r.permutedAxes (out'.map fun c => out.idxOf c) = .ok w ∧ SameArray w r' := by
  obtain ⟨r, r', h1, h2, h3, w, h4, h5⟩ :=
    both_return (C31_all h h' al al' s s' operands inputs out out' dims hd hd' hs hw hp) hd hs hw hn
  exact ⟨r, r', w, h1, h2, h3, h4, h5⟩

theorem Ex.denotes_matmulT : Denotes "ij,jk->ki" [['i', 'j'], ['j', 'k']] ['k', 'i'] :=
  .inl ⟨by decide, ⟨by simp, by simp [Letter], by simp [Letter]⟩, by simp [OutputOk, Used]⟩

example : ∃ r r' w, einsum HashOrd.reversed (Alloc.rowMajor Int) "ij,jk->ik" [Ex.m23, Ex.m32] =
      .ok (.ok r) ∧
    einsum HashOrd.insertion (Alloc.colMajor Int) "ij,jk->ki" [Ex.m23, Ex.m32] = .ok (.ok r') ∧
    r.permutedAxes [1, 0] = .ok w ∧ SameArray w r' := by
  obtain ⟨r, r', w, h1, h2, -, h3, h4⟩ := C31_output_order HashOrd.reversed HashOrd.insertion
    (Alloc.rowMajor Int) (Alloc.colMajor Int) _ _ _ _ _ _ _ Ex.denotes_matmul Ex.denotes_matmulT
    Ex.call_matmul.sized (wf_of_elements Ex.call_matmul.elements) Ex.ned_matmul (.swap _ _ _)
  exact ⟨r, r', w, h1, h2, h3, h4⟩

theorem Ex.denotes_unitT : Denotes "aab->ba" [['a', 'a', 'b']] ['b', 'a'] :=
  .inl ⟨by decide, ⟨by simp, by simp [Letter], by simp [Letter]⟩, by simp [OutputOk, Used]⟩

/-- Both calls panic. -/
example : ∃ k, einsum .reversed (Alloc.colMajor Int) "aab->ba" [Ex.m110] = panic k := by
  rcases C31_all .insertion .reversed (Alloc.rowMajor Int) (Alloc.colMajor Int) _ "aab->ba" _ _ _ _ _
    Ex.call_unit'.denotes Ex.denotes_unitT Ex.call_unit'.sized (wf_of_elements Ex.call_unit'.elements) (.swap _ _ _)
    with h | ⟨r, -, h, -⟩
  · exact h.2
  · obtain ⟨k, hk⟩ := (C14_iff .insertion (Alloc.rowMajor Int) _ _ _ _ _ _ Ex.call_unit').2 Ex.fed_unit
    rw [h] at hk
    simp [panic] at hk

/-! ## C32 -/

theorem term_append (a b : List (List Char)) (ta tb : List (List Nat → A)) (hl : ta.length = a.length)
    (σ : Char → Nat) : term (a ++ b) (ta ++ tb) σ = term a ta σ * term b tb σ := by
  unfold term
  rw [List.zipWith_append hl.symm, List.prod_append]

/-- Summing over the labels of the first operands that are not needed any more before multiplying by the others. -/
theorem einsum_stage {dims : Char → Nat} {in₁ in₂ : List (List Char)} {mid out : List Char} {t : List Nat → A}
    {ts₁ ts₂ : List (List Nat → A)} (l1 : ts₁.length = in₁.length) (hm : ∀ c ∈ mid, Used in₁ c)
    (hkeep : ∀ c, Used in₁ c → (Used in₂ c ∨ c ∈ out) → c ∈ mid)
    (ht : ∀ σ, InRange dims mid σ → t (mid.map σ) = Spec.einsum dims in₁ ts₁ mid σ) {σ : Char → Nat}
    (hσ : InRange dims out σ) :
    Spec.einsum dims (mid :: in₂) (t :: ts₂) out σ = Spec.einsum dims (in₁ ++ in₂) (ts₁ ++ ts₂) out σ := by
  unfold Spec.einsum
  have hin : ∀ c ∈ mid, c ∈ out ∨ c ∈ summed (mid :: in₂) out := by
    intro c hc
    by_cases hco : c ∈ out
    · exact .inl hco
    · exact .inr (mem_summed.2 ⟨by simp [hc], hco⟩)
  rw [sumOver_congr (g := fun σ => sumOver dims (summed in₁ mid) (term in₁ ts₁) σ * term in₂ ts₂ σ)]
  · rw [sum_step' (X := in₁.flatten) (Y := in₂.flatten) (O := out) (N := mid)
      (S'' := summed (in₁ ++ in₂) out) (dependsOn_term _ _)
      (fun c hc => used_iff.1 (hm c hc))
      (fun c h1 h2 => hkeep c (used_iff.2 h1) (h2.imp used_iff.2 id))
      (summed_nodup _ _) (summed_nodup _ _) (summed_nodup _ _)
      (fun c => mem_summed) (fun c => by rw [mem_summed, List.flatten_cons, List.mem_append])
      (fun c => by rw [mem_summed, List.flatten_append, List.mem_append])]
    congr 1
    funext σ
    rw [term_append _ _ _ _ l1]
  · intro σ' h5 h6
    rw [term_cons, ht, Spec.einsum]
    intro c hc
    by_cases hcs : c ∈ summed (mid :: in₂) out
    · exact h6 c hcs
    · rw [h5 c hcs]
      exact hσ c ((hin c hc).resolve_right hcs)

/-- C32: contracting the first operands to an intermediate array whose labels `mid` include every label
still needed, then contracting it with the remaining operands, gives the same as one call, whenever the calls return. -/
theorem C32_returned (h h₁ h₂ : HashOrd) (al al₁ al₂ : Alloc A) (s s₁ s₂ : String)
    (ops₁ ops₂ : List (View A)) (in₁ in₂ : List (List Char)) (mid out : List Char) (dims : Char → Nat)
    (hd : Denotes s (in₁ ++ in₂) out) (hd₁ : Denotes s₁ in₁ mid) (hd₂ : Denotes s₂ (mid :: in₂) out)
    (hs₁ : Sized dims in₁ (ops₁.map View.shape)) (hs₂ : Sized dims in₂ (ops₂.map View.shape))
    (hw₁ : ∀ v ∈ ops₁, v.Wf) (hw₂ : ∀ v ∈ ops₂, v.Wf)
    (hkeep : ∀ c, Used in₁ c → (Used in₂ c ∨ c ∈ out) → c ∈ mid) (r m r' : View A)
    (hr : einsum h al s (ops₁ ++ ops₂) = .ok (.ok r)) (hrm : einsum h₁ al₁ s₁ ops₁ = .ok (.ok m))
    (hr' : einsum h₂ al₂ s₂ (m :: ops₂) = .ok (.ok r')) :
    SameArray r r' := by
  have ht₁ := forall₂_elem hw₁
  have ht₂ := forall₂_elem hw₂
  have l1 : in₁.length = ops₁.length := by simpa using hs₁.length_eq
  have hm := hd₁.outputOk
  have ho := hd.outputOk
  have m2 := isEinsum_of_returned ⟨hd₁, hs₁, ht₁⟩ hrm
  have r2 := isEinsum_of_returned (ts := ops₁.map View.elem ++ ops₂.map View.elem)
    ⟨hd, by rw [List.map_append]; exact List.rel_append hs₁ hs₂, List.rel_append ht₁ ht₂⟩ hr
  have r4 := isEinsum_of_returned (operands := m :: ops₂) (ts := m.elem :: ops₂.map View.elem)
    ⟨hd₂, .cons m2.2.1 hs₂, .cons m2.1.elements ht₂⟩ hr'
  refine r2.same ho.1 ⟨r4.1, r4.2.1, fun σ hσ => ?_⟩
  rw [r4.2.2 σ hσ]
  congr 1
  refine einsum_stage (by simp [l1]) hm.2 hkeep (fun σ hσ => ?_) hσ
  simp [View.elem, m2.2.2 σ hσ]

/-- C32: where no operand has both a repeated letter and an empty axis, the three calls return. -/
theorem C32_staged (h h₁ h₂ : HashOrd) (al al₁ al₂ : Alloc A) (s s₁ s₂ : String)
    (ops₁ ops₂ : List (View A)) (in₁ in₂ : List (List Char)) (mid out : List Char) (dims : Char → Nat)
    (hd : Denotes s (in₁ ++ in₂) out) (hd₁ : Denotes s₁ in₁ mid) (hd₂ : Denotes s₂ (mid :: in₂) out)
    (hs₁ : Sized dims in₁ (ops₁.map View.shape)) (hs₂ : Sized dims in₂ (ops₂.map View.shape))
    (hw₁ : ∀ v ∈ ops₁, v.Wf) (hw₂ : ∀ v ∈ ops₂, v.Wf) (hn : NoEmptyDiagonal dims (in₁ ++ in₂))
    (hkeep : ∀ c, Used in₁ c → (Used in₂ c ∨ c ∈ out) → c ∈ mid) :
    ∃ r m r', einsum h al s (ops₁ ++ ops₂) = .ok (.ok r) ∧ einsum h₁ al₁ s₁ ops₁ = .ok (.ok m) ∧
      einsum h₂ al₂ s₂ (m :: ops₂) = .ok (.ok r') ∧ SameArray r r' := by
  have ht₁ := forall₂_elem hw₁
  have ht₂ := forall₂_elem hw₂
  obtain ⟨m, m1, m2⟩ := einsum_ok ⟨hd₁, hs₁, ht₁⟩ (fun ix hi => hn ix (by simp [hi])) h₁ al₁
  obtain ⟨r, r1, r2⟩ := einsum_ok (ts := ops₁.map View.elem ++ ops₂.map View.elem)
    ⟨hd, by rw [List.map_append]; exact List.rel_append hs₁ hs₂, List.rel_append ht₁ ht₂⟩ hn h al
  obtain ⟨r', r3, r4⟩ := einsum_ok (operands := m :: ops₂) (ts := m.elem :: ops₂.map View.elem)
    ⟨hd₂, .cons m2.2.1 hs₂, .cons m2.1.elements ht₂⟩ (by
      intro ix hi
      rcases List.mem_cons.1 hi with rfl | hi
      · exact .inl hd₁.outputOk.1
      · exact hn ix (by simp [hi])) h₂ al₂
  exact ⟨r, m, r', r1, m1, r3, C32_returned h h₁ h₂ al al₁ al₂ s s₁ s₂ ops₁ ops₂ in₁ in₂ mid out dims hd hd₁ hd₂ hs₁ hs₂
    hw₁ hw₂ hkeep r m r' r1 m1 r3⟩

theorem Ex.denotes_stage1 : Denotes "ij,jjk->kij" [['i', 'j'], ['j', 'j', 'k']] ['k', 'i', 'j'] :=
  .inl ⟨by decide, ⟨by simp, by simp [Letter], by simp [Letter]⟩, by simp [OutputOk, Used]⟩
theorem Ex.denotes_stage2 : Denotes "kij,kj->ij" [['k', 'i', 'j'], ['k', 'j']] ['i', 'j'] :=
  .inl ⟨by decide, ⟨by simp, by simp [Letter], by simp [Letter]⟩, by simp [OutputOk, Used]⟩

example : ∃ r m r', einsum HashOrd.insertion (Alloc.rowMajor Int) "ij,jjk,kj->ij"
      [Ex.m23, Ex.m332, Ex.m23] = .ok (.ok r) ∧
    einsum HashOrd.reversed (Alloc.rowMajor Int) "ij,jjk->kij" [Ex.m23, Ex.m332] = .ok (.ok m) ∧
    einsum HashOrd.insertion (Alloc.colMajor Int) "kij,kj->ij" [m, Ex.m23] = .ok (.ok r') ∧
    SameArray r r' :=
  C32_staged _ _ _ _ _ _ _ _ _ [Ex.m23, Ex.m332] [Ex.m23] [['i', 'j'], ['j', 'j', 'k']] [['k', 'j']]
    ['k', 'i', 'j'] ['i', 'j'] Ex.dims Ex.denotes_three Ex.denotes_stage1 Ex.denotes_stage2
    (.cons (by decide) (.cons (by decide) .nil)) (.cons (by decide) .nil)
    (wf_of_elements (.cons Ex.e23 (.cons Ex.e332 .nil))) (wf_of_elements (.cons Ex.e23 .nil))
    Ex.ned_three (by simp only [Used, List.mem_cons, List.not_mem_nil, or_false, exists_eq_or_imp,
      exists_eq_left]; tauto)

/-! ## C33 -/

/-- C33: a homomorphism of the elements can be applied before or after, whenever both calls return. -/
theorem C33_returned {B : Type} [CommSemiring B] (f : A →+* B) (h h' : HashOrd) (al : Alloc A)
    (al' : Alloc B) (s : String) (operands : List (View A)) (operands' : List (View B))
    (inputs : List (List Char)) (out : List Char) (dims : Char → Nat) (hd : Denotes s inputs out)
    (hs : Sized dims inputs (operands.map View.shape))
    (hop : List.Forall₂ (fun v w => v.Wf ∧ w.Wf ∧ w.shape = v.shape ∧
      ∀ idx, InB v.shape idx → ∃ x, v.read idx = .ok x ∧ w.read idx = .ok (f x)) operands operands')
    (r : View A) (r' : View B) (hr : einsum h al s operands = .ok (.ok r))
    (hr' : einsum h' al' s operands' = .ok (.ok r')) :
    r'.shape = r.shape ∧
      ∀ idx, InB r.shape idx → ∃ x, r.read idx = .ok x ∧ r'.read idx = .ok (f x) := by
  have hw : (∀ v ∈ operands, v.Wf) ∧ operands'.map View.shape = operands.map View.shape ∧
      List.Forall₂ Elements operands' (operands.map fun v idx => f (v.elem idx)) := by
    clear hs hr hr'
    induction hop with
    | nil => exact ⟨by simp, rfl, .nil⟩
    | cons h1 _ ih =>
      obtain ⟨i1, i2, i3⟩ := ih
      obtain ⟨a1, a2, a3, a4⟩ := h1
      refine ⟨?_, by simp [a3, i2], .cons ⟨a2, fun idx hi => ?_⟩ i3⟩
      · intro v hv
        rcases List.mem_cons.1 hv with rfl | hv
        · exact a1
        · exact i1 v hv
      · obtain ⟨x, e1, e2⟩ := a4 idx (a3 ▸ hi)
        rw [e2]; simp [View.elem, e1]
  obtain ⟨hw, hsh, he⟩ := hw
  have h2 := isEinsum_of_returned ⟨hd, hs, forall₂_elem hw⟩ hr
  have h4 := isEinsum_of_returned ⟨hd, hsh ▸ hs, he⟩ hr'
  refine ⟨by rw [h2.2.1, h4.2.1], fun idx hi => ?_⟩
  rw [h2.2.1] at hi
  obtain ⟨σ, hσ, rfl⟩ := exists_assign hd.outputOk.1 hi
  refine ⟨_, h2.2.2 σ hσ, ?_⟩
  rw [h4.2.2 σ hσ]
  congr 1
  unfold Spec.einsum
  rw [sumOver_map f (map_zero f) (map_add f)]
  congr 1
  funext σ
  unfold term
  rw [map_list_prod]
  congr 1
  generalize inputs = is
  clear * -
  induction is generalizing operands with
  | nil => simp
  | cons ix is ih =>
    cases operands with
    | nil => simp
    | cons v vs => simp only [List.map_cons, List.zipWith_cons_cons, ih]

/-- C33: where no operand has both a repeated letter and an empty axis, both calls return. -/
theorem C33_hom {B : Type} [CommSemiring B] (f : A →+* B) (h h' : HashOrd) (al : Alloc A)
    (al' : Alloc B) (s : String) (operands : List (View A)) (operands' : List (View B))
    (inputs : List (List Char)) (out : List Char) (dims : Char → Nat) (hd : Denotes s inputs out)
    (hs : Sized dims inputs (operands.map View.shape)) (hn : NoEmptyDiagonal dims inputs)
    (hop : List.Forall₂ (fun v w => v.Wf ∧ w.Wf ∧ w.shape = v.shape ∧
      ∀ idx, InB v.shape idx → ∃ x, v.read idx = .ok x ∧ w.read idx = .ok (f x)) operands operands') :
    ∃ r r', einsum h al s operands = .ok (.ok r) ∧ einsum h' al' s operands' = .ok (.ok r') ∧
      r'.shape = r.shape ∧
      ∀ idx, InB r.shape idx → ∃ x, r.read idx = .ok x ∧ r'.read idx = .ok (f x) := by
  have hw : (∀ v ∈ operands, v.Wf) ∧ (∀ v ∈ operands', v.Wf) ∧ operands'.map View.shape = operands.map View.shape := by
    clear hs
    induction hop with
    | nil => simp
    | cons h1 _ ih =>
      obtain ⟨i1, i2, i3⟩ := ih
      obtain ⟨a1, a2, a3, -⟩ := h1
      simp only [List.mem_cons, forall_eq_or_imp, List.map_cons]
      exact ⟨⟨a1, i1⟩, ⟨a2, i2⟩, by rw [a3, i3]⟩
  obtain ⟨w1, w2, w3⟩ := hw
  obtain ⟨r, h1, -⟩ := einsum_ok ⟨hd, hs, forall₂_elem w1⟩ hn h al
  obtain ⟨r', h3, -⟩ := einsum_ok ⟨hd, w3 ▸ hs, forall₂_elem w2⟩ hn h' al'
  exact ⟨r, r', h1, h3, C33_returned f h h' al al' s operands operands' inputs out dims hd hs hop r r' h1 h3⟩

/-- C33: wrapping `w`-bit arithmetic returns the exact integer result modulo `2 ^ w`. -/
theorem C33_wrapping (w : Nat) (h h' : HashOrd) (al : Alloc Int) (al' : Alloc (BitVec w)) (s : String)
    (operands : List (View Int)) (operands' : List (View (BitVec w)))
    (inputs : List (List Char)) (out : List Char) (dims : Char → Nat) (hd : Denotes s inputs out)
    (hs : Sized dims inputs (operands.map View.shape)) (hn : NoEmptyDiagonal dims inputs)
    (hop : List.Forall₂ (fun v w' => v.Wf ∧ w'.Wf ∧ w'.shape = v.shape ∧
      ∀ idx, InB v.shape idx → ∃ x, v.read idx = .ok x ∧ w'.read idx = .ok (BitVec.ofInt w x))
      operands operands') :
    ∃ r r', einsum h al s operands = .ok (.ok r) ∧ einsum h' al' s operands' = .ok (.ok r') ∧
      r'.shape = r.shape ∧
      ∀ idx, InB r.shape idx → ∃ x, r.read idx = .ok x ∧ r'.read idx = .ok (BitVec.ofInt w x) :=
  C33_hom (Int.castRingHom (BitVec w)) h h' al al' s operands operands' inputs out dims hd hs hn hop

/-- The addition and multiplication of `BitVec` are the wrapping ones. -/
example (x y : BitVec 8) : (x + y).toNat = (x.toNat + y.toNat) % 2 ^ 8 ∧
    (x * y).toNat = (x.toNat * y.toNat) % 2 ^ 8 := ⟨BitVec.toNat_add x y, BitVec.toNat_mul x y⟩

/-- `m23` and `m32` with 8-bit elements. -/
def Ex.b23 : View (BitVec 8) := ⟨[1, 2, 3, 4, 5, 6], 0, [2, 3], [3, 1]⟩
def Ex.b32 : View (BitVec 8) := ⟨[1, 2, 3, 4, 5, 6], 5, [3, 2], [-2, -1]⟩

example : ∃ r r', einsum HashOrd.insertion (Alloc.rowMajor Int) "ij,jk->ik" [Ex.m23, Ex.m32] =
      .ok (.ok r) ∧
    einsum HashOrd.reversed (Alloc.colMajor (BitVec 8)) "ij,jk->ik" [Ex.b23, Ex.b32] = .ok (.ok r') := by
  obtain ⟨r, r', h1, h2, -⟩ := C33_wrapping 8 HashOrd.insertion HashOrd.reversed (Alloc.rowMajor Int)
    (Alloc.colMajor (BitVec 8)) _ [Ex.m23, Ex.m32] [Ex.b23, Ex.b32] _ _ _ Ex.denotes_matmul
    Ex.call_matmul.sized Ex.ned_matmul
    (.cons ⟨Ex.e23.1, (elements_of (t := fun idx => BitVec.ofInt 8 (Ex.elems Ex.m23 idx)) rfl
        (by decide)).1, rfl, fun idx hi => ⟨_, Ex.e23.2 idx hi,
        (by decide : ∀ idx ∈ allIdx [2, 3], Ex.b23.read idx = .ok (BitVec.ofInt 8 (Ex.elems Ex.m23 idx)))
          idx (mem_allIdx.2 hi)⟩⟩
      (.cons ⟨Ex.e32.1, (elements_of (t := fun idx => BitVec.ofInt 8 (Ex.elems Ex.m32 idx)) rfl
        (by decide)).1, rfl, fun idx hi => ⟨_, Ex.e32.2 idx hi,
        (by decide : ∀ idx ∈ allIdx [3, 2], Ex.b32.read idx = .ok (BitVec.ofInt 8 (Ex.elems Ex.m32 idx)))
          idx (mem_allIdx.2 hi)⟩⟩ .nil))
  exact ⟨r, r', h1, h2⟩

/-! ## C35 -/

/-- C35: a call and the call with the printed (explicit) form of its contraction have the same outcome, for every valid
call. -/
theorem C35_all (h₀ h h' : HashOrd) (al al' : Alloc A) (s : String) (operands : List (View A))
    (inputs : List (List Char)) (out : List Char) (dims : Char → Nat)
    (hd : Denotes s inputs out) (hs : Sized dims inputs (operands.map View.shape))
    (hw : ∀ v ∈ operands, v.Wf) :
    ∃ sc t, validateAndSize h₀ s operands = .ok sc ∧ sc.asEinsumString = .ok t ∧
      (((∃ k, einsum h al s operands = panic k) ∧ ∃ k, einsum h' al' t operands = panic k) ∨
        ∃ r r', einsum h al s operands = .ok (.ok r) ∧ einsum h' al' t operands = .ok (.ok r') ∧
          SameArray r r') := by
  obtain ⟨t, t1, t2⟩ := asEinsumString_denotes hd (summationOf inputs out)
    (fun c => if c ∈ inputs.flatten then some (dims c) else none)
  exact ⟨_, t, validateAndSize_ok h₀ hd hs, t1, both_calls ⟨hd, hs, forall₂_elem hw⟩ ⟨t2, hs, forall₂_elem hw⟩ Iff.rfl
    (fun r r' h2 h4 => h2.same hd.outputOk.1 h4) h h' al al'⟩

/-- C35: where no operand has both a repeated letter and an empty axis, both calls return. -/
theorem C35_printed (h₀ h h' : HashOrd) (al al' : Alloc A) (s : String) (operands : List (View A))
    (inputs : List (List Char)) (out : List Char) (dims : Char → Nat)
    (hd : Denotes s inputs out) (hs : Sized dims inputs (operands.map View.shape))
    (hw : ∀ v ∈ operands, v.Wf) (hn : NoEmptyDiagonal dims inputs) :
    ∃ sc t r r', validateAndSize h₀ s operands = .ok sc ∧ sc.asEinsumString = .ok t ∧
      einsum h al s operands = .ok (.ok r) ∧ einsum h' al' t operands = .ok (.ok r') ∧
      SameArray r r' := by
  obtain ⟨sc, t, h1, h2, h3⟩ := C35_all h₀ h h' al al' s operands inputs out dims hd hs hw
  obtain ⟨r, r', h4, h5, h6⟩ := both_return h3 hd hs hw hn
  exact ⟨sc, t, r, r', h1, h2, h4, h5, h6⟩

theorem Ex.denotes_implicit : Denotes "kj,ij" [['k', 'j'], ['i', 'j']] ['i', 'k'] :=
  .inr ⟨by decide, ⟨by simp, by simp [Letter], by simp⟩, by decide, by
    intro c
    simp only [List.flatten_cons, List.flatten_nil, List.append_nil, List.cons_append, List.nil_append,
      List.count_cons, List.count_nil, beq_iff_eq, List.mem_cons, List.not_mem_nil, or_false]
    by_cases h1 : c = 'i'
    · subst h1; decide
    · by_cases h2 : c = 'j'
      · subst h2; decide
      · by_cases h3 : c = 'k'
        · subst h3; decide
        · simp [h1, h3, Ne.symm h1, Ne.symm h2, Ne.symm h3]⟩

example : ∃ sc t r r', validateAndSize HashOrd.insertion "kj,ij" [Ex.m23, Ex.m23] = .ok sc ∧
    sc.asEinsumString = .ok t ∧
    einsum HashOrd.insertion (Alloc.rowMajor Int) "kj,ij" [Ex.m23, Ex.m23] = .ok (.ok r) ∧
    einsum HashOrd.reversed (Alloc.colMajor Int) t [Ex.m23, Ex.m23] = .ok (.ok r') ∧ SameArray r r' :=
  C35_printed _ _ _ _ _ _ _ _ _ Ex.dims Ex.denotes_implicit (.cons (by decide) (.cons (by decide) .nil))
    (wf_of_elements (.cons Ex.e23 (.cons Ex.e23 .nil))) (by simp [NoEmptyDiagonal])

end Einsum
