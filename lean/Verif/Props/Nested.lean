import Verif.Props.Algebra

/-!
# Property C81: calls inside calls
-/

namespace Einsum

open Spec Function

variable {A : Type} [CommSemiring A]

theorem term_rename (f : Char → Char) (ins : List (List Char)) (ts : List (List Nat → A)) (σ : Char → Nat) :
    term (ins.map (List.map f)) ts σ = term ins ts (σ ∘ f) := by
  unfold term
  rw [List.zipWith_map_left]
  simp only [List.map_map]

/-- The Einstein sum does not depend on the order of the operands. -/
theorem einsum_zip_perm {dims : Char → Nat} {ins ins' : List (List Char)} {ts ts' : List (List Nat → A)}
    {out : List Char} (hl : ins.length = ts.length) (hl' : ins'.length = ts'.length)
    (hp : (ins.zip ts).Perm (ins'.zip ts')) (σ : Char → Nat) :
    Spec.einsum dims ins ts out σ = Spec.einsum dims ins' ts' out σ := by
  have p1 : ins.Perm ins' := by
    have := hp.map Prod.fst
    rwa [List.map_fst_zip (by omega), List.map_fst_zip (by omega)] at this
  have ht : ∀ (ins : List (List Char)) (ts : List (List Nat → A)) (σ : Char → Nat),
      term ins ts σ = ((ins.zip ts).map fun p => p.2 (p.1.map σ)).prod := by
    intro ins ts σ
    unfold term
    congr 1
    induction ins generalizing ts with
    | nil => simp
    | cons ix ins ih =>
      cases ts with
      | nil => simp
      | cons t ts => simp [ih]
  unfold Spec.einsum
  rw [sumOver_perm (summed_perm p1 out)]
  congr 1
  funext σ
  rw [ht, ht, (hp.map _).prod_eq]

/-- The inner sum with its letters replaced by `f`, which may identify output letters. -/
theorem einsum_rename {dims : Char → Nat} {f : Char → Char} {ins : List (List Char)} {mid : List Char}
    {ts : List (List Nat → A)} (hm : ∀ c ∈ mid, Used ins c)
    (hinj : ∀ a b, Used ins a → Used ins b → a ∉ mid → f a = f b → a = b) (σ : Char → Nat) :
    Spec.einsum dims (ins.map (List.map f)) ts (mid.map f) σ =
      Spec.einsum (fun c => dims (f c)) ins ts mid (σ ∘ f) := by
  unfold Spec.einsum
  have hu : ∀ c ∈ summed ins mid, Used ins c ∧ c ∉ mid :=
    fun c hc => ⟨used_iff.2 (mem_summed.1 hc).1, (mem_summed.1 hc).2⟩
  have hsum : (summed (ins.map (List.map f)) (mid.map f)).Perm ((summed ins mid).map f) := by
    refine perm_of_nodup (summed_nodup _ _) ((summed_nodup _ _).map_on fun a ha b hb =>
      hinj a b (hu a ha).1 (hu b hb).1 (hu a ha).2) fun c => ?_
    have e : (ins.map (List.map f)).flatten = ins.flatten.map f := (List.map_flatten).symm
    rw [mem_summed, e, List.mem_map, List.mem_map (l := summed ins mid)]
    constructor
    · rintro ⟨⟨b, hb, rfl⟩, hno⟩
      exact ⟨b, mem_summed.2 ⟨hb, fun hbo => hno (List.mem_map.2 ⟨b, hbo, rfl⟩)⟩, rfl⟩
    · rintro ⟨b, hb, rfl⟩
      obtain ⟨hb1, hb2⟩ := mem_summed.1 hb
      refine ⟨⟨b, hb1, rfl⟩, fun hx => ?_⟩
      obtain ⟨a, ha, e⟩ := List.mem_map.1 hx
      exact hb2 (hinj b a (used_iff.2 hb1) (hm a ha) hb2 e.symm ▸ ha)
  rw [sumOver_perm hsum]
  have key : ∀ (cs : List Char), (∀ c ∈ cs, c ∈ summed ins mid) → ∀ (σ τ : Char → Nat),
      (∀ c, Used ins c → τ (f c) = σ c) →
      sumOver dims (cs.map f) (term (ins.map (List.map f)) ts) τ =
        sumOver (fun c => dims (f c)) cs (term ins ts) σ := by
    intro cs
    induction cs with
    | nil =>
      intro _ σ τ hστ
      simp only [List.map_nil, sumOver]
      rw [term_rename]
      exact dependsOn_term ins ts _ _ fun c hc => hστ c (used_iff.2 hc)
    | cons c cs ih =>
      intro hcs σ τ hστ
      have hc := hu c (hcs c (by simp))
      rw [List.map_cons, sumOver_cons, sumOver_cons]
      refine Finset.sum_congr rfl fun v _ => ih (fun c hc => hcs c (by simp [hc])) _ _ fun a ha => ?_
      by_cases hac : a = c
      · subst hac; simp
      · rw [update_of_ne hac, update_of_ne fun e => hac (hinj c a hc.1 ha hc.2 e.symm).symm, hστ a ha]
  exact key _ (fun _ h => h) _ _ fun c _ => rfl

theorem sized_rename {dims : Char → Nat} {f : Char → Char} {ins : List (List Char)} {shapes : List (List Nat)} :
    Sized dims (ins.map (List.map f)) shapes ↔ Sized (fun c => dims (f c)) ins shapes := by
  unfold Sized
  rw [List.forall₂_map_left_iff]
  simp only [List.map_map]
  rfl

/-- C81: a call one of whose operands is the result of another call is a single call, whenever the calls return.
`f` says which letter of the single call stands for a letter of the inner call: the letters `mid` of the inner result
become those the outer call uses for it, the others become letters that are used nowhere else. -/
theorem C81_returned (h h₁ h₂ : HashOrd) (al al₁ al₂ : Alloc A) (s s₁ s₂ : String)
    (ops pre post : List (View A)) (ins ipre ipost : List (List Char)) (mid out : List Char) (dims : Char → Nat)
    (f : Char → Char) (hd : Denotes s (ipre ++ ins.map (List.map f) ++ ipost) out) (hd₁ : Denotes s₁ ins mid)
    (hd₂ : Denotes s₂ (ipre ++ mid.map f :: ipost) out)
    (hs : Sized dims (ins.map (List.map f)) (ops.map View.shape))
    (hspre : Sized dims ipre (pre.map View.shape)) (hspost : Sized dims ipost (post.map View.shape))
    (hw : ∀ v ∈ ops, v.Wf) (hwpre : ∀ v ∈ pre, v.Wf) (hwpost : ∀ v ∈ post, v.Wf)
    (hinj : ∀ a b, Used ins a → Used ins b → a ∉ mid → f a = f b → a = b)
    (hfresh : ∀ a, Used ins a → a ∉ mid → ¬ Used ipre (f a) ∧ ¬ Used ipost (f a) ∧ f a ∉ out) (r m r' : View A)
    (hr : einsum h al s (pre ++ ops ++ post) = .ok (.ok r)) (hrm : einsum h₁ al₁ s₁ ops = .ok (.ok m))
    (hr' : einsum h₂ al₂ s₂ (pre ++ m :: post) = .ok (.ok r')) :
    SameArray r r' := by
  have ht := forall₂_elem hw
  have htpre := forall₂_elem hwpre
  have htpost := forall₂_elem hwpost
  have l0 : ins.length = ops.length := by simpa using hs.length_eq
  have lpre : ipre.length = pre.length := by simpa using hspre.length_eq
  have lpost : ipost.length = post.length := by simpa using hspost.length_eq
  have hm := hd₁.outputOk
  have m2 := isEinsum_of_returned ⟨hd₁, sized_rename.1 hs, ht⟩ hrm
  have r2 := isEinsum_of_returned (ts := pre.map View.elem ++ ops.map View.elem ++ post.map View.elem)
    ⟨hd, by rw [List.map_append, List.map_append]; exact List.rel_append (List.rel_append hspre hs) hspost,
      List.rel_append (List.rel_append htpre ht) htpost⟩ hr
  have r4 := isEinsum_of_returned (ts := pre.map View.elem ++ m.elem :: post.map View.elem)
    ⟨hd₂, by
      rw [List.map_append, List.map_cons]
      refine List.rel_append hspre (.cons ?_ hspost)
      rw [m2.2.1, List.map_map]
      rfl, List.rel_append htpre (.cons m2.1.elements htpost)⟩ hr'
  refine r2.same hd.outputOk.1 ⟨r4.1, r4.2.1, fun σ hσ => ?_⟩
  rw [r4.2.2 σ hσ]
  congr 1
  have e := einsum_stage (dims := dims) (in₁ := ins.map (List.map f)) (in₂ := ipre ++ ipost) (mid := mid.map f)
    (out := out) (t := m.elem) (ts₁ := ops.map View.elem) (ts₂ := pre.map View.elem ++ post.map View.elem)
    (by simp [l0]) ?_ ?_ ?_ hσ
  · rw [einsum_zip_perm (ins' := mid.map f :: (ipre ++ ipost)) (ts' := m.elem :: (pre.map View.elem ++ post.map View.elem)),
      e, einsum_zip_perm]
    · simp [l0, lpre, lpost]
    · simp [l0, lpre, lpost]
    · rw [List.zip_append (by simp [l0]), List.zip_append (by simp [lpre]), List.zip_append (by simp [l0, lpre]),
        List.zip_append (by simp [lpre]), ← List.append_assoc]
      exact (List.perm_append_comm).append_right _
    · simp [lpre, lpost]
    · simp [lpre, lpost]
    · rw [List.zip_append (by simp [lpre]), List.zip_cons_cons, List.zip_cons_cons, List.zip_append (by simp [lpre])]
      exact List.perm_middle
  · intro c hc
    obtain ⟨b, hb, rfl⟩ := List.mem_map.1 hc
    obtain ⟨p, hp, hbp⟩ := hm.2 b hb
    exact ⟨_, List.mem_map.2 ⟨p, hp, rfl⟩, List.mem_map.2 ⟨b, hbp, rfl⟩⟩
  · rintro c ⟨p, hp, hcp⟩ hk
    obtain ⟨q, hq, rfl⟩ := List.mem_map.1 hp
    obtain ⟨a, ha, rfl⟩ := List.mem_map.1 hcp
    by_cases ham : a ∈ mid
    · exact List.mem_map.2 ⟨a, ham, rfl⟩
    · obtain ⟨h1, h2, h3⟩ := hfresh a ⟨q, hq, ha⟩ ham
      rcases hk with ⟨p, hp, hc⟩ | hk
      · rcases List.mem_append.1 hp with hp | hp
        · exact absurd ⟨p, hp, hc⟩ h1
        · exact absurd ⟨p, hp, hc⟩ h2
      · exact absurd hk h3
  · intro σ hσ
    rw [einsum_rename hm.2 hinj, List.map_map]
    simp only [View.elem]
    rw [m2.2.2 (σ ∘ f) fun c hc => hσ (f c) (List.mem_map.2 ⟨c, hc, rfl⟩)]

/-- C81: where no operand of the calls has both a repeated letter and an empty axis, the three calls return. -/
theorem C81_nested (h h₁ h₂ : HashOrd) (al al₁ al₂ : Alloc A) (s s₁ s₂ : String)
    (ops pre post : List (View A)) (ins ipre ipost : List (List Char)) (mid out : List Char) (dims : Char → Nat)
    (f : Char → Char) (hd : Denotes s (ipre ++ ins.map (List.map f) ++ ipost) out) (hd₁ : Denotes s₁ ins mid)
    (hd₂ : Denotes s₂ (ipre ++ mid.map f :: ipost) out)
    (hs : Sized dims (ins.map (List.map f)) (ops.map View.shape))
    (hspre : Sized dims ipre (pre.map View.shape)) (hspost : Sized dims ipost (post.map View.shape))
    (hw : ∀ v ∈ ops, v.Wf) (hwpre : ∀ v ∈ pre, v.Wf) (hwpost : ∀ v ∈ post, v.Wf)
    (hinj : ∀ a b, Used ins a → Used ins b → a ∉ mid → f a = f b → a = b)
    (hfresh : ∀ a, Used ins a → a ∉ mid → ¬ Used ipre (f a) ∧ ¬ Used ipost (f a) ∧ f a ∉ out)
    (hn : NoEmptyDiagonal dims (ipre ++ ins.map (List.map f) ++ ipost)) (hn₂ : NoEmptyDiagonal dims [mid.map f]) :
    ∃ r m r', einsum h al s (pre ++ ops ++ post) = .ok (.ok r) ∧ einsum h₁ al₁ s₁ ops = .ok (.ok m) ∧
      einsum h₂ al₂ s₂ (pre ++ m :: post) = .ok (.ok r') ∧ SameArray r r' := by
  have ht := forall₂_elem hw
  have htpre := forall₂_elem hwpre
  have htpost := forall₂_elem hwpost
  obtain ⟨m, m1, m2⟩ := einsum_ok ⟨hd₁, sized_rename.1 hs, ht⟩ (by
    intro ix hi
    rcases hn (ix.map f) (by simp only [List.mem_append, List.mem_map]; exact .inl (.inr ⟨ix, hi, rfl⟩)) with hx | hx
    · exact .inl (List.Nodup.of_map f hx)
    · exact .inr fun c hc => hx (f c) (List.mem_map.2 ⟨c, hc, rfl⟩)) h₁ al₁
  obtain ⟨r, r1, r2⟩ := einsum_ok (ts := pre.map View.elem ++ ops.map View.elem ++ post.map View.elem)
    ⟨hd, by rw [List.map_append, List.map_append]; exact List.rel_append (List.rel_append hspre hs) hspost,
      List.rel_append (List.rel_append htpre ht) htpost⟩ hn h al
  obtain ⟨r', r3, r4⟩ := einsum_ok (operands := pre ++ m :: post)
    (ts := pre.map View.elem ++ m.elem :: post.map View.elem)
    ⟨hd₂, by
      rw [List.map_append, List.map_cons]
      refine List.rel_append hspre (.cons ?_ hspost)
      rw [m2.2.1, List.map_map]
      rfl, List.rel_append htpre (.cons m2.1.elements htpost)⟩ (by
      intro ix hi
      rcases List.mem_append.1 hi with hi | hi
      · exact hn ix (by simp [hi])
      rcases List.mem_cons.1 hi with rfl | hi
      · exact hn₂ _ (by simp)
      · exact hn ix (by simp [hi])) h₂ al₂
  exact ⟨r, m, r', r1, m1, r3, C81_returned h h₁ h₂ al al₁ al₂ s s₁ s₂ ops pre post ins ipre ipost mid out dims f hd hd₁
    hd₂ hs hspre hspost hw hwpre hwpost hinj hfresh r m r' r1 m1 r3⟩

/-! ### Example: the trace of a matrix product, as a factor of another operand -/

def Ex.ndims : Char → Nat
  | 'x' => 2 | 'w' => 3 | 'y' => 2 | 'z' => 3 | _ => 0

def Ex.nrename : Char → Char
  | 'i' => 'x' | 'k' => 'x' | _ => 'w'

theorem Ex.denotes_flat : Denotes "yz,xw,wx->yz" [['y', 'z'], ['x', 'w'], ['w', 'x']] ['y', 'z'] :=
  .inl ⟨by decide, ⟨by simp, by simp [Letter], by simp [Letter]⟩, by simp [OutputOk, Used]⟩
theorem Ex.denotes_outer : Denotes "yz,xx->yz" [['y', 'z'], ['x', 'x']] ['y', 'z'] :=
  .inl ⟨by decide, ⟨by simp, by simp [Letter], by simp [Letter]⟩, by simp [OutputOk, Used]⟩

example : ∃ r m r', einsum HashOrd.insertion (Alloc.rowMajor Int) "yz,xw,wx->yz" [Ex.m23, Ex.m23, Ex.m32] = .ok (.ok r) ∧
    einsum HashOrd.reversed (Alloc.colMajor Int) "ij,jk->ik" [Ex.m23, Ex.m32] = .ok (.ok m) ∧
    einsum HashOrd.insertion (Alloc.colMajor Int) "yz,xx->yz" [Ex.m23, m] = .ok (.ok r') ∧ SameArray r r' :=
  C81_nested _ _ _ _ _ _ _ _ _ [Ex.m23, Ex.m32] [Ex.m23] [] [['i', 'j'], ['j', 'k']] [['y', 'z']] [] ['i', 'k']
    ['y', 'z'] Ex.ndims Ex.nrename Ex.denotes_flat Ex.denotes_matmul Ex.denotes_outer
    (.cons (by decide) (.cons (by decide) .nil)) (.cons (by decide) .nil) .nil
    (wf_of_elements (.cons Ex.e23 (.cons Ex.e32 .nil))) (wf_of_elements (.cons Ex.e23 .nil)) (by simp)
    (by
      simp only [Used, List.mem_cons, List.not_mem_nil, or_false, exists_eq_or_imp, exists_eq_left]
      rintro a b (h1 | h1) h2 h3 h4 <;> rcases h1 with rfl | rfl <;> simp at h3 <;>
        rcases h2 with (rfl | rfl) | rfl | rfl <;> first | rfl | (simp [Ex.nrename] at h4))
    (by
      simp only [Used, List.mem_cons, List.not_mem_nil, or_false, exists_eq_or_imp, exists_eq_left]
      rintro a (h1 | h1) h3 <;> rcases h1 with rfl | rfl <;> simp at h3 <;> simp [Ex.nrename])
    (by
      intro ix hi
      refine .inr ?_
      simp only [List.map_cons, List.map_nil, Ex.nrename, List.cons_append, List.nil_append, List.append_nil, List.mem_cons,
        List.not_mem_nil, or_false] at hi
      rcases hi with rfl | rfl | rfl <;> simp [Ex.ndims])
    (by
      intro ix hi
      refine .inr ?_
      simp only [List.map_cons, List.map_nil, Ex.nrename, List.mem_cons, List.not_mem_nil, or_false] at hi
      rcases hi with rfl
      simp [Ex.ndims])

end Einsum
