import Verif.SpecNetwork
import Verif.Props.Basis

/-!
# C114: networks of conditional distributions
-/

namespace Einsum
open Spec Function

section
variable {A : Type} [CommSemiring A] {d : Char → Nat} {given : List Char}

theorem Spec.Network.heads {N : List (List Char × Char)} (h : Network given N) :
    (N.map Prod.snd).Nodup ∧ (∀ c ∈ N.map Prod.snd, c ∉ given ∧ c ∈ (N.map Prod.fst).flatten) ∧
      ∀ c ∈ (N.map Prod.fst).flatten, c ∈ given ∨ c ∈ N.map Prod.snd := by
  induction h with
  | nil => simp
  | @snoc N ix h _ h1 h2 h3 h4 ih =>
    obtain ⟨i1, i2, i3⟩ := ih
    refine ⟨?_, fun c hc => ?_, fun c hc => ?_⟩
    · rw [List.map_append, List.map_singleton]
      exact List.nodup_append.2 ⟨i1, by simp, by
        rintro a ha b hb rfl
        obtain rfl : a = h := by simpa using hb
        exact h2 ha⟩
    · rw [List.map_append, List.mem_append] at hc
      rcases hc with hc | hc
      · exact ⟨(i2 c hc).1, by simpa using .inl (by simpa using (i2 c hc).2)⟩
      · obtain rfl : c = h := by simpa using hc
        exact ⟨h1, by simpa using .inr h3⟩
    · rw [List.map_append, List.flatten_append, List.mem_append] at hc
      rw [List.map_append, List.mem_append]
      rcases hc with hc | hc
      · exact (i3 c hc).imp_right .inl
      · rcases h4 c (by simpa using hc) with rfl | hg | hg
        · exact .inr (.inr (by simp))
        · exact .inl hg
        · exact .inr (.inl hg)

/-- The last operand of a network, summed over its own letter. -/
theorem network_last {I : List (List Char)} {T : List (List Nat → A)} {ix : List Char} {h : Char} {t : List Nat → A}
    (hl : T.length = I.length) (hI : h ∉ I.flatten) {τ : Char → Nat}
    (ht : sumOver d [h] (fun τ => t (ix.map τ)) τ = 1) :
    sumOver d [h] (term (I ++ [ix]) (T ++ [t])) τ = term I T τ := by
  simp only [sumOver_cons, sumOver_nil] at ht ⊢
  calc _ = ∑ x ∈ Finset.range (d h), term I T τ * t (ix.map (update τ h x)) := by
        refine Finset.sum_congr rfl fun x _ => ?_
        rw [term_append _ _ _ _ hl, basis_term hI]
        simp [term]
    _ = _ := by rw [← Finset.mul_sum, ht, mul_one]

theorem network_sum {N : List (List Char × Char)} (h : Network given N) {T : List (List Nat → A)}
    (ht : List.Forall₂ (fun n t => ∀ σ, (∀ c ∈ n.1, c ∉ [n.2] → σ c < d c) →
      sumOver d [n.2] (fun τ => t (List.map τ n.1)) σ = 1) N T) (σ : Char → Nat) (hσ : InRange d given σ) :
    sumOver d (N.map Prod.snd) (term (N.map Prod.fst) T) σ = 1 := by
  induction h generalizing T with
  | nil => cases ht; simp [term]
  | @snoc N ix h hN h1 h2 h3 h4 ih =>
    obtain ⟨T, T', hT, hT', rfl⟩ : ∃ T1 T2, List.Forall₂ _ N T1 ∧ List.Forall₂ _ [(ix, h)] T2 ∧ T = T1 ++ T2 :=
      ⟨_, _, (List.forall₂_take_append _ _ _ ht.flip).flip, (List.forall₂_drop_append _ _ _ ht.flip).flip,
        (List.take_append_drop _ _).symm⟩
    obtain ⟨t, T'', ht', hn, rfl⟩ := List.forall₂_cons_left_iff.1 hT'
    obtain rfl := List.forall₂_nil_left_iff.1 hn
    rw [List.map_append, List.map_append, List.map_singleton, List.map_singleton, sumOver_append, ← ih hT]
    refine sumOver_congr fun τ k1 k2 => network_last (by simpa using hT.length_eq.symm) (fun hm => ?_) (ht' τ fun c hc hne => ?_)
    · rcases hN.heads.2.2 _ hm with hg | hg
      · exact h1 hg
      · exact h2 hg
    · by_cases hcN : c ∈ N.map Prod.snd
      · exact k2 c hcN
      · rw [k1 c hcN]
        rcases h4 c hc with rfl | hg | hg
        · simp at hne
        · exact hσ c hg
        · exact absurd hg hcN

/-- C114: the result of a network of conditional distributions is one, whenever the call returns. -/
theorem C114_returned (h : HashOrd) (al : Alloc A) (s : String) (N : List (List Char × Char)) (out : List Char)
    (hN : Network given N) (hd : Denotes s (N.map Prod.fst) out) (hg : ∀ c ∈ given, c ∈ out) (vs : List (View A))
    (hs : Sized d (N.map Prod.fst) (vs.map View.shape)) (hv : List.Forall₂ (fun n v => Distribution d n.1 [n.2] v) N vs)
    (r : View A) (e : einsum h al s vs = .ok (.ok r)) : Distribution d out (out.filter (· ∉ given)) r := by
  have key : ∃ T, List.Forall₂ Elements vs T ∧ List.Forall₂ (fun n t => ∀ σ, (∀ c ∈ n.1, c ∉ [n.2] → σ c < d c) →
      sumOver d [n.2] (fun τ => t (List.map τ n.1)) σ = 1) N T := by
    clear hd hs hN e
    induction hv with
    | nil => exact ⟨[], .nil, .nil⟩
    | cons h1 _ ih =>
      obtain ⟨T, h2, h3⟩ := ih
      obtain ⟨t, h4, h5⟩ := h1
      exact ⟨t :: T, .cons h4 h2, .cons h5 h3⟩
  obtain ⟨T, hT, hsum⟩ := key
  have i1 := isEinsum_of_returned ⟨hd, hs, hT⟩ e
  obtain ⟨n1, n2, n3⟩ := hN.heads
  have ho := hd.outputOk
  refine ⟨r.elem, i1.1.elements, fun σ hσ => ?_⟩
  have hgσ : InRange d given σ := fun c hc => hσ c (hg c hc) (by simp [hc])
  rw [sumOver_congr (g := Spec.einsum d (N.map Prod.fst) T out) fun τ k1 k2 => ?_]
  · show sumOver d _ (sumOver d (summed (N.map Prod.fst) out) _) σ = 1
    rw [← sumOver_append, ← network_sum hN hsum σ hgσ]
    refine congrFun (sumOver_perm (perm_of_nodup ?_ n1 fun c => ?_) _) σ
    · refine List.nodup_append.2 ⟨ho.1.filter _, summed_nodup _ _, ?_⟩
      rintro a ha b hb rfl
      exact (mem_summed.1 hb).2 (List.mem_filter.1 ha).1
    · rw [List.mem_append, mem_summed, List.mem_filter]
      constructor
      · rintro (⟨h1, h2⟩ | ⟨h1, h2⟩)
        · rcases n3 c (used_iff.1 (ho.2 c h1)) with h3 | h3
          · simp [h3] at h2
          · exact h3
        · exact (n3 c h1).resolve_left fun h3 => h2 (hg c h3)
      · intro h1
        by_cases h2 : c ∈ out
        · exact .inl ⟨h2, by simpa using (n2 c h1).1⟩
        · exact .inr ⟨(n2 c h1).2, h2⟩
  · have := i1.2.2 τ fun c hc => by
      by_cases hcg : c ∈ given
      · rw [k1 c (by simp [hcg])]; exact hgσ c hcg
      · exact k2 c (by simp [hc, hcg])
    rw [View.elem, this]

/-- C114: a network of conditional distributions gives a conditional distribution. -/
theorem C114_network (h : HashOrd) (al : Alloc A) (s : String) (N : List (List Char × Char)) (out : List Char)
    (hN : Network given N) (hd : Denotes s (N.map Prod.fst) out) (hg : ∀ c ∈ given, c ∈ out) (vs : List (View A))
    (hs : Sized d (N.map Prod.fst) (vs.map View.shape)) (hv : List.Forall₂ (fun n v => Distribution d n.1 [n.2] v) N vs)
    (hn : NoEmptyDiagonal d (N.map Prod.fst)) :
    ∃ r, einsum h al s vs = .ok (.ok r) ∧ Distribution d out (out.filter (· ∉ given)) r := by
  have hw : ∀ v ∈ vs, v.Wf := fun v hm => by
    obtain ⟨i, hi, rfl⟩ := List.mem_iff_getElem.1 hm
    obtain ⟨t, ht, -⟩ := (List.forall₂_iff_get.1 hv).2 i (by rw [hv.length_eq]; exact hi) hi
    exact ht.1
  obtain ⟨r, e, -⟩ := einsum_ok ⟨hd, hs, forall₂_elem hw⟩ hn h al
  exact ⟨r, e, C114_returned h al s N out hN hd hg vs hs hv r e⟩

/-- C114: an operand that is a conditional distribution, with a letter of its own that is not in the output, can be left
out. -/
theorem C114_barren (h h' : HashOrd) (al al' : Alloc A) (s s' : String) (I J : List (List Char)) (ix out : List Char) (x : Char)
    (hd : Denotes s (I ++ ix :: J) out) (hd' : Denotes s' (I ++ J) out) (hx : x ∈ ix) (hxI : x ∉ (I ++ J).flatten)
    (hix : ∀ c ∈ ix, c = x ∨ c ∈ (I ++ J).flatten) (V W : List (View A)) (v : View A) (hl : I.length = V.length)
    (hw : ∀ u ∈ V ++ W, u.Wf) (hv : Distribution d ix [x] v) (hs : Sized d (I ++ ix :: J) ((V ++ v :: W).map View.shape))
    (r r' : View A) (e1 : einsum h al s (V ++ v :: W) = .ok (.ok r)) (e2 : einsum h' al' s' (V ++ W) = .ok (.ok r')) :
    SameArray r r' := by
  obtain ⟨t, ht, hsum⟩ := hv
  obtain ⟨s1, s2, s3⟩ := (sized_cut hl).1 hs
  have hwV : ∀ u ∈ V, u.Wf := fun u hu => hw u (by simp [hu])
  have hwW : ∀ u ∈ W, u.Wf := fun u hu => hw u (by simp [hu])
  have i1 := isEinsum_of_returned ⟨hd, hs, List.rel_append (forall₂_elem hwV) (.cons ht (forall₂_elem hwW))⟩ e1
  have i2 := isEinsum_of_returned ⟨hd', (by rw [List.map_append]; exact List.rel_append s1 s3 : Sized d (I ++ J) ((V ++ W).map View.shape)), List.rel_append (forall₂_elem hwV) (forall₂_elem hwW)⟩ e2
  have hxo : x ∉ out := fun hx => hxI (used_iff.1 (hd'.outputOk.2 x hx))
  refine ⟨i1.1, i2.1, by rw [i1.2.1, i2.2.1], fun i hi => ?_⟩
  rw [i1.2.1] at hi
  obtain ⟨σ, hσ, rfl⟩ := exists_assign hd.outputOk.1 hi
  rw [i1.2.2 σ hσ, i2.2.2 σ hσ]
  refine congrArg _ ?_
  unfold Spec.einsum
  have hp : (summed (I ++ ix :: J) out).Perm (summed (I ++ J) out ++ [x]) := by
    refine perm_of_nodup (summed_nodup _ _) (List.nodup_append.2 ⟨summed_nodup _ _, by simp, ?_⟩) fun c => ?_
    · rintro a ha b hb rfl
      obtain rfl : a = x := by simpa using hb
      exact hxI (mem_summed.1 ha).1
    · rw [List.mem_append, mem_summed, mem_summed, List.mem_singleton]
      have h1 : c ∈ (I ++ ix :: J).flatten ↔ c ∈ ix ∨ c ∈ (I ++ J).flatten := by
        simp only [List.flatten_append, List.flatten_cons, List.mem_append]
        tauto
      rw [h1]
      constructor
      · rintro ⟨hc | hc, ho⟩
        · rcases hix c hc with rfl | hc
          · exact .inr rfl
          · exact .inl ⟨hc, ho⟩
        · exact .inl ⟨hc, ho⟩
      · rintro (⟨hc, ho⟩ | rfl)
        · exact ⟨.inr hc, ho⟩
        · exact ⟨.inl hx, hxo⟩
  rw [sumOver_perm hp, sumOver_append]
  refine sumOver_congr fun τ k1 k2 => ?_
  have hIJ : x ∉ I.flatten ∧ x ∉ J.flatten := by simpa [not_or] using hxI
  have hone := hsum τ fun c hc hne => by
    rcases hix c hc with rfl | hc
    · simp at hne
    · by_cases ho : c ∈ out
      · rw [k1 c fun hm => (mem_summed.1 hm).2 ho]; exact hσ c ho
      · exact k2 c (mem_summed.2 ⟨hc, ho⟩)
  simp only [sumOver_cons, sumOver_nil] at hone ⊢
  calc _ = ∑ y ∈ Finset.range (d x), term I (V.map View.elem) τ * term J (W.map View.elem) τ * t (ix.map (update τ x y)) := by
        refine Finset.sum_congr rfl fun y _ => ?_
        rw [term_append _ _ _ _ (by simpa using hl.symm), term_cons, basis_term hIJ.1, basis_term hIJ.2]
        ring
    _ = _ := by rw [← Finset.mul_sum, hone, mul_one, term_append _ _ _ _ (by simpa using hl.symm)]

end

/-! ## Examples -/

/-- A distribution of `a`, and conditional distributions of `b` given `a` and of `c` given `a` and `b`. -/
def Ex.rain : View Rat := rowMajor [2] [1 / 4, 3 / 4]
def Ex.sprinkler : View Rat := rowMajor [2, 2] [1 / 3, 2 / 3, 1, 0]
def Ex.grass : View Rat := rowMajor [2, 2, 2] [1 / 2, 1 / 2, 0, 1, 1 / 5, 4 / 5, 1 / 10, 9 / 10]

theorem Ex.rain_wf : Ex.rain.Wf := (rowMajor_ok (data := [1 / 4, 3 / 4]) rfl).1
theorem Ex.sprinkler_wf : Ex.sprinkler.Wf := (rowMajor_ok (data := [1 / 3, 2 / 3, 1, 0]) rfl).1
theorem Ex.grass_wf : Ex.grass.Wf := (rowMajor_ok (data := [1 / 2, 1 / 2, 0, 1, 1 / 5, 4 / 5, 1 / 10, 9 / 10]) rfl).1

theorem Ex.rain_dist : Distribution (fun _ => 2) ['a'] ['a'] Ex.rain := by
  refine ⟨_, Ex.rain_wf.elements, fun σ _ => ?_⟩
  have : Ex.rain.elem [0] + Ex.rain.elem [1] = 1 := by decide +kernel
  simpa [sumOver_cons, Finset.sum_range_succ] using this

theorem Ex.sprinkler_dist : Distribution (fun _ => 2) ['a', 'b'] ['b'] Ex.sprinkler := by
  refine ⟨_, Ex.sprinkler_wf.elements, fun σ hσ => ?_⟩
  have : ∀ a < 2, Ex.sprinkler.elem [a, 0] + Ex.sprinkler.elem [a, 1] = 1 := by decide +kernel
  simpa [sumOver_cons, Finset.sum_range_succ] using this _ (hσ 'a' (by simp) (by simp))

theorem Ex.grass_dist : Distribution (fun _ => 2) ['a', 'b', 'c'] ['c'] Ex.grass := by
  refine ⟨_, Ex.grass_wf.elements, fun σ hσ => ?_⟩
  have : ∀ a < 2, ∀ b < 2, Ex.grass.elem [a, b, 0] + Ex.grass.elem [a, b, 1] = 1 := by decide +kernel
  simpa [sumOver_cons, Finset.sum_range_succ] using this _ (hσ 'a' (by simp) (by simp)) _ (hσ 'b' (by simp) (by simp))

/-- The marginal distribution of `c`. -/
example : ∃ r, einsum HashOrd.insertion (Alloc.rowMajor Rat) "a,ab,abc->c" [Ex.rain, Ex.sprinkler, Ex.grass] = .ok (.ok r) ∧
    Distribution (fun _ => 2) ['c'] ['c'] r :=
  C114_network (given := []) _ _ _ [(['a'], 'a'), (['a', 'b'], 'b'), (['a', 'b', 'c'], 'c')] ['c']
    (.snoc (N := [_, _]) (.snoc (N := [_]) (.snoc .nil (by simp) (by simp) (by simp) (by simp)) (by simp) (by simp) (by simp)
      (by simp)) (by simp) (by simp) (by simp) (by simp))
    (.inl ⟨by decide, ⟨by simp, by simp [Letter], by simp [Letter]⟩, by simp [OutputOk, Used]⟩) (by simp) _
    (.cons rfl (.cons rfl (.cons rfl .nil)))
    (.cons Ex.rain_dist (.cons Ex.sprinkler_dist (.cons Ex.grass_dist .nil))) (fun ix hix => .inl (by revert ix; decide))

/-- The product of a conditional distribution of `b` given `a` and one of `c` given `b`. -/
example : ∃ r, einsum HashOrd.insertion (Alloc.rowMajor Rat) "ab,bc->ac"
      [Ex.sprinkler, Ex.sprinkler] = .ok (.ok r) ∧ Distribution (fun _ => 2) ['a', 'c'] ['c'] r :=
  C114_network (given := ['a']) _ _ _ [(['a', 'b'], 'b'), (['b', 'c'], 'c')] ['a', 'c']
    (.snoc (N := [_]) (.snoc .nil (by simp) (by simp) (by simp) (by simp)) (by simp) (by simp) (by simp) (by simp))
    (.inl ⟨by decide, ⟨by simp, by simp [Letter], by simp [Letter]⟩, by simp [OutputOk, Used]⟩) (by simp) _
    (.cons rfl (.cons rfl .nil)) (.cons Ex.sprinkler_dist (.cons (by
      obtain ⟨t, h1, h2⟩ := Ex.sprinkler_dist
      refine ⟨t, h1, fun σ hσ => ?_⟩
      have := h2 (update (update σ 'a' (σ 'b')) 'b' (σ 'c')) fun c hc hne => by
        obtain rfl : c = 'a' := by simpa using (List.mem_cons.1 hc).resolve_right hne
        simpa using hσ 'b' (by simp) (by simp)
      simpa [sumOver_cons, Finset.sum_range_succ] using this) .nil)) (fun ix hix => .inl (by revert ix; decide))

/-- The distribution of `c` is not needed for that of `b`. -/
example (r r' : View Rat)
    (e1 : einsum HashOrd.insertion (Alloc.rowMajor Rat) "a,abc,ab->b" [Ex.rain, Ex.grass, Ex.sprinkler] = .ok (.ok r))
    (e2 : einsum HashOrd.reversed (Alloc.colMajor Rat) "a,ab->b" [Ex.rain, Ex.sprinkler] = .ok (.ok r')) : SameArray r r' :=
  C114_barren _ _ _ _ _ _ [['a']] [['a', 'b']] ['a', 'b', 'c'] ['b'] 'c'
    (.inl ⟨by decide, ⟨by simp, by simp [Letter], by simp [Letter]⟩, by simp [OutputOk, Used]⟩)
    (.inl ⟨by decide, ⟨by simp, by simp [Letter], by simp [Letter]⟩, by simp [OutputOk, Used]⟩) (by simp) (by decide) (by decide)
    [Ex.rain] [Ex.sprinkler] _ rfl (by simp [Ex.rain_wf, Ex.sprinkler_wf]) Ex.grass_dist
    (.cons rfl (.cons rfl (.cons rfl .nil))) r r' e1 e2

end Einsum
