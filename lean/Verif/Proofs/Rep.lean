import Verif.Proofs.Sum
import Verif.Proofs.Views2

/-! # Labelled arrays

`Rep v L dims F`: the axes of `v` carry the labels `L`, and the element selected by label values `σ`
is `F σ`. -/

namespace Einsum

open Spec Function

variable {ι A : Type} [DecidableEq ι] {dims : ι → Nat}

structure Rep (v : View A) (L : List ι) (dims : ι → Nat) (F : (ι → Nat) → A) : Prop where
  shape : v.shape = L.map dims
  strides : v.strides.length = L.length
  get : ∀ σ, InRange dims L σ → v.read (L.map σ) = .ok (F σ)

omit [DecidableEq ι] in
theorem Holds.rep {v : View A} {L : List ι} {T} (h : Holds v (L.map dims) T) :
    Rep v L dims (fun σ => T (L.map σ)) :=
  ⟨h.shape, by simpa using h.strides, fun σ hσ => h.get _ (inB_of_inRange hσ)⟩

theorem Rep.holds {v : View A} {L : List ι} {F} (h : Rep v L dims F) (hn : L.Nodup) :
    Holds v (L.map dims) (fun idx => F (assign L idx)) := by
  refine ⟨h.shape, by simpa using h.strides, fun idx hi => ?_⟩
  have := h.get _ (inRange_assign hn hi)
  rwa [map_assign hn (by simpa using hi.length_eq)] at this

omit [DecidableEq ι] in
theorem Rep.congr {v : View A} {L : List ι} {F G} (h : Rep v L dims F)
    (hFG : ∀ σ, InRange dims L σ → F σ = G σ) : Rep v L dims G :=
  ⟨h.shape, h.strides, fun σ hσ => by rw [h.get σ hσ, hFG σ hσ]⟩

omit [DecidableEq ι] in
/-- `F` only depends on the labels of the array. -/
theorem Rep.agree {v : View A} {L : List ι} {F} (h : Rep v L dims F) {σ σ' : ι → Nat}
    (hσ : InRange dims L σ) (he : ∀ c ∈ L, σ c = σ' c) : F σ = F σ' := by
  have h1 := h.get σ hσ
  have h2 := h.get σ' fun c hc => by rw [← he c hc]; exact hσ c hc
  rw [← List.map_congr_left he, h1] at h2
  exact Except.ok.inj h2

omit [DecidableEq ι] in
/-- Conversely, to represent. -/
theorem Rep.of_holds {v : View A} {L : List ι} {T} {F : (ι → Nat) → A} (h : Holds v (L.map dims) T)
    (hF : ∀ σ, InRange dims L σ → T (L.map σ) = F σ) : Rep v L dims F :=
  h.rep.congr hF

theorem Rep.agree_assign {v : View A} {L : List ι} {F} (h : Rep v L dims F) {σ : ι → Nat}
    (hσ : InRange dims L σ) : F (assign L (L.map σ)) = F σ :=
  (h.agree hσ fun _ hc => (assign_map hc).symm).symm

omit [DecidableEq ι] in
theorem Rep.wf {v : View A} {L : List ι} {F} (h : Rep v L dims F) (hn : L.Nodup) : v.Wf := by
  classical
  exact (h.holds hn).wf

/-! ## Operations -/

theorem insertIdx_append_length {α : Type} (l m : List α) (x : α) :
    (l ++ m).insertIdx l.length x = l ++ x :: m := by
  induction l with
  | nil => simp
  | cons a l ih => simp [ih]

theorem Rep.toOwned {v : View A} {L : List ι} {F} (h : Rep v L dims F) (hn : L.Nodup) (al : Alloc A) :
    ∃ w, v.toOwned al = .ok w ∧ Rep w L dims F := by
  obtain ⟨w, h1, h2⟩ := (h.holds hn).toOwned al
  exact ⟨w, h1, .of_holds h2 fun σ hσ => h.agree_assign hσ⟩

theorem Rep.mapv {v : View A} {L : List ι} {F} (h : Rep v L dims F) (hn : L.Nodup) (al : Alloc A)
    (f : A → A) : ∃ w, v.mapv al f = .ok w ∧ Rep w L dims (fun σ => f (F σ)) := by
  obtain ⟨w, h1, h2⟩ := (h.holds hn).mapv al f
  exact ⟨w, h1, .of_holds h2 fun σ hσ => by rw [h.agree_assign hσ]⟩

theorem Rep.mul [Mul A] {l r : View A} {L : List ι} {F G} (hl : Rep l L dims F) (hr : Rep r L dims G)
    (hn : L.Nodup) (al : Alloc A) : ∃ w, l.mul al r = .ok w ∧ Rep w L dims (fun σ => F σ * G σ) := by
  obtain ⟨w, h1, h2⟩ := (hl.holds hn).mul (hr.holds hn) al
  exact ⟨w, h1, .of_holds h2 fun σ hσ => by rw [hl.agree_assign hσ, hr.agree_assign hσ]⟩

/-- The axis permutation that sorts `L` into the order `out`. -/
theorem perm_axes {L out : List ι} (hn : L.Nodup) (hp : out.Perm L) :
    (out.map fun c => pos c L).Perm (List.range L.length) := by
  have h1 : (out.map fun c => pos c L).Perm (L.map fun c => pos c L) := hp.map _
  refine h1.trans (List.Perm.of_eq ?_)
  apply List.ext_getElem
  · simp
  · intro i h1 h2
    simp only [List.getElem_map, List.getElem_range]
    exact pos_getElem hn (by simpa using h1)

theorem getD_pos {α : Type} {L : List ι} {c : ι} (hc : c ∈ L) (f : ι → α) (d : α) :
    (L.map f).getD (pos c L) d = f c := by
  rw [List.getD_eq_getElem?_getD, List.getElem?_map, getElem?_pos hc]; rfl

theorem Rep.permute {v : View A} {L out : List ι} {F} (h : Rep v L dims F) (hn : L.Nodup)
    (hp : out.Perm L) :
    ∃ w, v.permutedAxes (out.map fun c => pos c L) = .ok w ∧ Rep w out dims F := by
  have hax := perm_axes hn hp
  obtain ⟨w, h1, h2⟩ := (h.holds hn).permutedAxes (by simpa using hax)
  refine ⟨w, h1, ?_⟩
  have e : (out.map fun c => pos c L).map (fun a => (L.map dims).getD a 0) = out.map dims := by
    rw [List.map_map]
    apply List.map_congr_left
    intro c hc
    simp only [Function.comp]
    rw [getD_pos (hp.mem_iff.1 hc)]
  rw [e] at h2
  refine .of_holds h2 fun σ hσ => ?_
  have e2 : out.map σ = (out.map fun c => pos c L).map (fun a => (L.map σ).getD a 0) := by
    rw [List.map_map]
    apply List.map_congr_left
    intro c hc
    simp only [Function.comp]
    rw [getD_pos (hp.mem_iff.1 hc)]
  have e3 : (List.range L.length).map (fun a => (L.map σ).getD a 0) = L.map σ := by
    have := eq_map_range_getD (L.map σ) 0
    rw [List.length_map] at this
    exact this.symm
  rw [e2, unperm_map hax, e3]
  exact h.agree_assign fun c hc => hσ c (hp.mem_iff.2 hc)

theorem Rep.sumAxis [AddCommMonoid A] {v : View A} {a b : List ι} {c : ι} {F}
    (h : Rep v (a ++ c :: b) dims F) (hn : (a ++ c :: b).Nodup) (al : Alloc A) :
    ∃ w, v.sumAxis al a.length = .ok w ∧
      Rep w (a ++ b) dims (fun σ => ∑ k ∈ Finset.range (dims c), F (update σ c k)) := by
  have hd : ((a ++ c :: b).map dims)[a.length]? = some (dims c) := by simp
  obtain ⟨w, h1, h2⟩ := (h.holds hn).sumAxis al hd
  refine ⟨w, h1, ?_⟩
  have e : ((a ++ c :: b).map dims).eraseIdx a.length = (a ++ b).map dims := by
    rw [List.map_append, List.map_cons, List.eraseIdx_append_of_length_le (by simp)]
    simp
  rw [e] at h2
  refine .of_holds h2 fun σ hσ => ?_
  apply Finset.sum_congr rfl
  intro k hk
  have hk : k < dims c := by simpa using hk
  have hc : c ∉ a ++ b := by
    have := (List.nodup_middle.1 hn)
    exact (List.nodup_cons.1 this).1
  have hag : ∀ d ∈ a ++ b, update σ c k d = σ d := by
    intro d hd
    exact update_of_ne (fun hdc => hc (by rwa [hdc] at hd)) _ _
  have e4 : ((a ++ b).map σ).insertIdx a.length k = (a ++ c :: b).map (update σ c k) := by
    have ha : a.map (update σ c k) = a.map σ :=
      List.map_congr_left fun d hd => hag d (by simp [hd])
    have hb : b.map (update σ c k) = b.map σ :=
      List.map_congr_left fun d hd => hag d (by simp [hd])
    rw [List.map_append, List.map_append, List.map_cons, update_self, ha, hb]
    have : a.length = (a.map σ).length := by simp
    rw [this]
    exact insertIdx_append_length _ _ _
  rw [e4]
  apply h.agree_assign
  intro d hd
  by_cases hdc : d = c
  · subst hdc; simpa using hk
  · rw [update_of_ne hdc]
    apply hσ
    simp only [List.mem_append, List.mem_cons] at hd ⊢
    tauto

/-- Summing the trailing axes one after the other. -/
theorem Rep.sumAxes [AddCommMonoid A] {v : View A} {a b : List ι} {F}
    (h : Rep v (a ++ b) dims F) (hn : (a ++ b).Nodup) (al : Alloc A) :
    ∃ w, Einsum.sumAxes al (List.replicate b.length a.length) v = .ok w ∧
      Rep w a dims (sumOver dims b F) := by
  induction b generalizing v F al with
  | nil => exact ⟨v, rfl, by simpa using h⟩
  | cons c b ih =>
    obtain ⟨w, h1, h2⟩ := h.sumAxis hn (al.sub 0)
    have hn' : (a ++ b).Nodup := (List.nodup_cons.1 (List.nodup_middle.1 hn)).2
    obtain ⟨w', h3, h4⟩ := ih h2 hn' (al.sub 1)
    refine ⟨w', by simp [List.replicate_succ, Einsum.sumAxes, h1, h3], h4.congr fun σ _ => ?_⟩
    have hp : (c :: b).Perm (b ++ [c]) := (List.perm_append_singleton c b).symm
    rw [sumOver_perm hp, sumOver_append]
    rfl

/-- The fixed-position contraction of `U ++ C` with `C ++ V`. -/
theorem Rep.fixed [Semiring A] {l r : View A} {U C V : List ι} {F G}
    (hl : Rep l (U ++ C) dims F) (hr : Rep r (C ++ V) dims G)
    (hnl : (U ++ C).Nodup) (hnr : (C ++ V).Nodup) (al : Alloc A) :
    ∃ w, TensordotFixedPosition.run
        ⟨(U.map dims).prod, (V.map dims).prod, (C.map dims).prod, (U ++ V).map dims⟩ al l r = .ok w ∧
      Rep w (U ++ V) dims (fun σ => sumOver dims C (fun σ' => F σ' * G σ') σ) := by
  have Hl := hl.holds hnl
  have Hr := hr.holds hnr
  rw [List.map_append] at Hl Hr
  obtain ⟨w, T', h1, h2, h3⟩ := Hl.fixedRun_split Hr rfl al
  rw [← List.map_append] at h1 h2
  refine ⟨w, h1, .of_holds h2 fun σ hσ => ?_⟩
  have hU : InRange dims U σ := fun c hc => hσ c (by simp [hc])
  have hV : InRange dims V σ := fun c hc => hσ c (by simp [hc])
  rw [List.map_append, h3 _ _ (inB_of_inRange hU) (inB_of_inRange hV)]
  have hCn : C.Nodup := (List.nodup_append.1 hnr).1
  rw [sum_unravel hCn (fun x => F (assign (U ++ C) (U.map σ ++ x)) * G (assign (C ++ V) (x ++ V.map σ))) σ]
  apply sumOver_congr
  intro σ' h4 h5
  have dUC : ∀ c ∈ U, c ∉ C := fun c hc hc' => (List.nodup_append.1 hnl).2.2 c hc c hc' rfl
  have dVC : ∀ c ∈ V, c ∉ C := fun c hc hc' => (List.nodup_append.1 hnr).2.2 c hc' c hc rfl
  have eU : U.map σ = U.map σ' := List.map_congr_left fun c hc => (h4 c (dUC c hc)).symm
  have eV : V.map σ = V.map σ' := List.map_congr_left fun c hc => (h4 c (dVC c hc)).symm
  rw [eU, eV, ← List.map_append, ← List.map_append, hl.agree_assign, hr.agree_assign]
  · intro c hc
    rcases List.mem_append.1 hc with h | h
    · exact h5 c h
    · rw [h4 c (dVC c h)]; exact hV c h
  · intro c hc
    rcases List.mem_append.1 hc with h | h
    · rw [h4 c (dUC c h)]; exact hU c h
    · exact h5 c h

end Einsum
