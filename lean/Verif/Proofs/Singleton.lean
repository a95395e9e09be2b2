import Verif.Model.Contractors
import Verif.Proofs.Diag
import Verif.SpecArray
import Verif.Proofs.Validate

/-! # Contractions of one operand -/

namespace Einsum

open Spec Function

/-- A sized contraction as validation produces it: the output is a repetition-free list of used
labels, the summation labels are the others in ascending order, and every used label has its
length recorded. -/
structure SizedContraction.Valid (sc : SizedContraction) (dims : Char → Nat) : Prop where
  out : OutputOk sc.contraction.operandIndices sc.contraction.outputIndices
  summation : sc.contraction.summationIndices =
    summationOf sc.contraction.operandIndices sc.contraction.outputIndices
  size : ∀ c ∈ sc.contraction.operandIndices.flatten, sc.outputSize c = some (dims c)

theorem SizedContraction.Valid.subset {sc : SizedContraction} {dims : Char → Nat} (hv : sc.Valid dims)
    (h : HashOrd) {ops : List (List Char)} {out : List Char}
    (hs : ∀ c ∈ ops.flatten, c ∈ sc.contraction.operandIndices.flatten) (ho : OutputOk ops out) :
    ∃ sc', sc.subset h ops out = .ok sc' ∧ sc'.Valid dims ∧ sc'.contraction.operandIndices = ops ∧
      sc'.contraction.outputIndices = out := by
  refine ⟨_, subset_ok (fun c hc => ?_) ho, ⟨ho, rfl, fun c hc => ?_⟩, rfl, rfl⟩
  · rw [hv.size c (hs c hc)]; simp
  · simp only at hc ⊢
    rw [if_pos hc]; exact hv.size c (hs c hc)

theorem mapE_size {sc : SizedContraction} {dims : Char → Nat} (hv : sc.Valid dims) {l : List Char}
    (hl : ∀ c ∈ l, c ∈ sc.contraction.operandIndices.flatten) :
    mapE sc.outputSize.get l = .ok (l.map dims) :=
  mapE_ok fun c hc => by simp [OutputSize.get, hv.size c (hl c hc)]

/-! ## The labels -/

theorem mem_summed {ι : Type} [DecidableEq ι] {inputs : List (List ι)} {out : List ι} {c : ι} :
    c ∈ summed inputs out ↔ c ∈ inputs.flatten ∧ c ∉ out := by
  simp [summed]

theorem summed_nodup {ι : Type} [DecidableEq ι] (inputs : List (List ι)) (out : List ι) :
    (summed inputs out).Nodup := (List.nodup_dedup _).filter _

/-- Any repetition-free list of the right labels gives the same sum. -/
theorem sumOver_summed {ι A : Type} [DecidableEq ι] [AddCommMonoid A] {dims : ι → Nat}
    {inputs : List (List ι)} {out S : List ι} (hn : S.Nodup)
    (hm : ∀ c, c ∈ S ↔ c ∈ inputs.flatten ∧ c ∉ out) (f : (ι → Nat) → A) :
    sumOver dims S f = sumOver dims (summed inputs out) f :=
  sumOver_perm (perm_of_nodup hn (summed_nodup _ _) fun c => by rw [hm, mem_summed]) f

/-! ## Summation -/

section ops
variable {ι A : Type} [DecidableEq ι] {dims : ι → Nat}

theorem Summation.fromSizes_ok {n k : Nat} (h : 1 ≤ k) :
    Summation.fromSizes n k = .ok ⟨(List.range k).map (n + ·), List.replicate k n⟩ := by
  unfold Summation.fromSizes
  rw [assertThat_of (by simpa using h)]
  simp [List.map_const']

theorem Rep.summation [AddCommMonoid A] {v : View A} {a b : List ι} {F} (h : Rep v (a ++ b) dims F)
    (hn : (a ++ b).Nodup) (hb : b ≠ []) (orig : List Nat) (al : Alloc A) :
    ∃ w, Summation.run ⟨orig, List.replicate b.length a.length⟩ al v = .ok w ∧
      Rep w a dims (sumOver dims b F) := by
  obtain ⟨w, h1, h2⟩ := h.sumAxes hn al
  refine ⟨w, ?_, h2⟩
  cases b with
  | nil => simp at hb
  | cons c b =>
    rw [List.length_cons, List.replicate_succ] at h1 ⊢
    simpa [Summation.run, Einsum.sumAxes] using h1

/-! ## Diagonalization -/

theorem pos_append_left {c : ι} {l : List ι} (h : c ∈ l) (m : List ι) : pos c (l ++ m) = pos c l := by
  have h1 := position_eq_some.1 (position_of_mem h)
  have : position c (l ++ m) = some (pos c l) := by
    rw [position_eq_some]
    have hlt := pos_lt h
    refine ⟨by rw [List.getElem?_append_left hlt]; exact h1.1, fun j hj => ?_⟩
    rw [List.getElem?_append_left (by omega)]
    exact h1.2 j hj
  simp [pos, this]

theorem diagLoop_spec (L adj : List Char) (m : List Nat) (hn : adj.Nodup) :
    ∃ new, diagLoop adj m L = (adj ++ new, m ++ L.map fun c => pos c (adj ++ new)) ∧
      (adj ++ new).Nodup ∧ ∀ c, c ∈ new ↔ c ∈ L ∧ c ∉ adj := by
  induction L generalizing adj m with
  | nil => exact ⟨[], by simp [diagLoop], by simpa using hn, by simp⟩
  | cons c L ih =>
    by_cases hc : c ∈ adj
    · obtain ⟨new, h1, h2, h3⟩ := ih adj (m ++ [pos c adj]) hn
      refine ⟨new, ?_, h2, ?_⟩
      · simp only [diagLoop, position_of_mem hc]
        rw [h1]
        simp [pos_append_left hc]
      · intro d
        rw [h3, List.mem_cons]
        constructor
        · rintro ⟨a, b⟩; exact ⟨.inr a, b⟩
        · rintro ⟨rfl | a, b⟩
          · exact absurd hc b
          · exact ⟨a, b⟩
    · have hn' : (adj ++ [c]).Nodup := by
        rw [List.nodup_append]
        refine ⟨hn, by simp, ?_⟩
        intro a ha b hb
        simp at hb; subst hb
        rintro rfl; exact hc ha
      obtain ⟨new, h1, h2, h3⟩ := ih (adj ++ [c]) (m ++ [adj.length]) hn'
      refine ⟨c :: new, ?_, by simpa using h2, ?_⟩
      · simp only [diagLoop, position_eq_none.2 hc]
        rw [h1]
        have e : pos c (adj ++ c :: new) = adj.length := by
          have := pos_getElem (l := adj ++ c :: new) (by simpa using h2) (i := adj.length) (by simp)
          simpa using this
        simp [e]
      · intro d
        simp only [List.mem_cons, h3, List.mem_append, List.not_mem_nil, or_false, not_or]
        constructor
        · rintro (rfl | ⟨a, b, _⟩)
          · exact ⟨.inl rfl, hc⟩
          · exact ⟨.inr a, b⟩
        · rintro ⟨rfl | a, b⟩
          · exact .inl rfl
          · by_cases hd : d = c
            · exact .inl hd
            · exact .inr ⟨a, b, hd⟩

theorem default_pos {s : List Nat} (hp : 0 < s.prod) : ∀ x ∈ defaultStrides s, 0 < x := by
  rw [defaultStrides, if_pos (all_ne_iff.2 hp)]
  intro x hx
  obtain ⟨n, hn, rfl⟩ := List.mem_map.1 hx
  have key : ∀ s : List Nat, 0 < s.prod → ∀ n ∈ sufProds s, 0 < n := by
    intro s
    induction s with
    | nil => simp [sufProds]
    | cons d ds ih =>
      intro hp n hn
      have hp' : 0 < ds.prod := by
        rw [List.prod_cons] at hp
        exact Nat.pos_of_mul_pos_left hp
      simp only [sufProds, List.mem_cons] at hn
      rcases hn with rfl | hn
      · exact hp'
      · exact ih hp' n hn
  have := key s hp n hn
  simpa using this

theorem isContiguous_default (s : List Nat) : isContiguous s (defaultStrides s) = true := by
  simp [isContiguous]

theorem Rep.diagRun_extra {t : View A} {L adj : List ι} {F : (ι → Nat) → A} (h : Rep t L dims F)
    (hwf : t.Wf) (hp : 0 < (L.map dims).prod) (hadj : adj.Nodup) (hLa : ∀ c ∈ L, c ∈ adj)
    {small : ι → Nat} (haL : (∀ c ∈ adj, c ∉ L → small c ≤ 1) ∨ ∃ c ∈ adj, small c = 0) (hsm : ∀ c ∈ L, small c ≤ dims c) (al : Alloc A) :
    ∃ w, Diagonalization.run ⟨L.map fun c => pos c adj, adj.map small⟩ al t = .ok w ∧
      Rep w adj small F := by
  classical
  have hin : ∃ i, InB t.shape i := ⟨unravel t.shape 0, InB_unravel (by rw [h.shape]; exact hp)⟩
  obtain ⟨i0, hi0⟩ := hin
  obtain ⟨x0, _⟩ := hwf.2 i0 hi0
  have : ∃ T, Holds t t.shape T := by
    refine ⟨fun idx => if hi : InB t.shape idx then (hwf.2 idx hi).choose else x0, rfl, hwf.1,
      fun idx hi => ?_⟩
    rw [dif_pos hi]; exact (hwf.2 idx hi).choose_spec
  obtain ⟨T, hT⟩ := this
  obtain ⟨cl, h1, h2, h3⟩ := fromShapeVec_map_self t.shape T
  have hcl : Rep cl L dims F := by
    refine ⟨by rw [h3.shape, h.shape], by rw [h3.strides, h.shape]; simp, fun σ hσ => ?_⟩
    have hi := inB_of_inRange hσ
    rw [← h.shape] at hi
    rw [h3.get _ hi, ← hT.get _ hi, h.get σ hσ]
  obtain ⟨w, h4, h5⟩ := hcl.diagView_extra h3.wf hp
    (by rw [h3.shape, h2]; exact isContiguous_default _)
    (by rw [h2]; exact default_pos (by rw [h.shape]; exact hp)) hadj hLa haL hsm
  obtain ⟨w', h6, h7⟩ := h5.toOwned hadj al
  exact ⟨w', by simp [Diagonalization.run, hT.toVec, h1, h4, h6], h7⟩

theorem Rep.diagRun_le {t : View A} {L adj : List ι} {F : (ι → Nat) → A} (h : Rep t L dims F)
    (hwf : t.Wf) (hp : 0 < (L.map dims).prod) (hadj : adj.Nodup) (hLa : ∀ c ∈ L, c ∈ adj)
    (haL : ∀ c ∈ adj, c ∈ L) {small : ι → Nat} (hsm : ∀ c ∈ L, small c ≤ dims c) (al : Alloc A) :
    ∃ w, Diagonalization.run ⟨L.map fun c => pos c adj, adj.map small⟩ al t = .ok w ∧
      Rep w adj small F :=
  h.diagRun_extra hwf hp hadj hLa (.inl fun c hc hn => absurd (haL c hc) hn) hsm al

/-- The choice between a view and a copy at run time, singleton_contractors.rs 362-369. -/
theorem Rep.diagEither_extra {t : View A} {L adj : List ι} {F : (ι → Nat) → A} (h : Rep t L dims F)
    (hwf : t.Wf) (hp : 0 < (L.map dims).prod) (hadj : adj.Nodup) (hLa : ∀ c ∈ L, c ∈ adj)
    {small : ι → Nat} (haL : (∀ c ∈ adj, c ∉ L → small c ≤ 1) ∨ ∃ c ∈ adj, small c = 0) (hsm : ∀ c ∈ L, small c ≤ dims c) (al : Alloc A) :
    ∃ w, (if t.asSliceMemoryOrder.isSome && t.strides.all (fun s => 0 < s) then
        Diagonalization.view ⟨L.map fun c => pos c adj, adj.map small⟩ t
      else Diagonalization.run ⟨L.map fun c => pos c adj, adj.map small⟩ al t) = .ok w ∧
      Rep w adj small F := by
  split
  · rename_i hcond
    simp only [Bool.and_eq_true, List.all_eq_true, decide_eq_true_eq] at hcond
    have hc : isContiguous t.shape t.strides = true := by
      have := hcond.1
      unfold View.asSliceMemoryOrder at this
      split at this
      · assumption
      · simp at this
    exact h.diagView_extra hwf hp hc hcond.2 hadj hLa haL hsm
  · exact h.diagRun_extra hwf hp hadj hLa haL hsm al

theorem Rep.diagEither_le {t : View A} {L adj : List ι} {F : (ι → Nat) → A} (h : Rep t L dims F)
    (hwf : t.Wf) (hp : 0 < (L.map dims).prod) (hadj : adj.Nodup) (hLa : ∀ c ∈ L, c ∈ adj)
    (haL : ∀ c ∈ adj, c ∈ L) {small : ι → Nat} (hsm : ∀ c ∈ L, small c ≤ dims c) (al : Alloc A) :
    ∃ w, (if t.asSliceMemoryOrder.isSome && t.strides.all (fun s => 0 < s) then
        Diagonalization.view ⟨L.map fun c => pos c adj, adj.map small⟩ t
      else Diagonalization.run ⟨L.map fun c => pos c adj, adj.map small⟩ al t) = .ok w ∧
      Rep w adj small F :=
  h.diagEither_extra hwf hp hadj hLa (.inl fun c hc hn => absurd (haL c hc) hn) hsm al

theorem Rep.diagRun {t : View A} {L adj : List ι} {F : (ι → Nat) → A} (h : Rep t L dims F)
    (hwf : t.Wf) (hp : 0 < (L.map dims).prod) (hadj : adj.Nodup) (hLa : ∀ c ∈ L, c ∈ adj)
    (haL : ∀ c ∈ adj, c ∈ L) (al : Alloc A) :
    ∃ w, Diagonalization.run ⟨L.map fun c => pos c adj, adj.map dims⟩ al t = .ok w ∧
      Rep w adj dims F :=
  h.diagRun_le hwf hp hadj hLa haL (fun _ _ => le_rfl) al

theorem Rep.diagEither {t : View A} {L adj : List ι} {F : (ι → Nat) → A} (h : Rep t L dims F)
    (hwf : t.Wf) (hp : 0 < (L.map dims).prod) (hadj : adj.Nodup) (hLa : ∀ c ∈ L, c ∈ adj)
    (haL : ∀ c ∈ adj, c ∈ L) (al : Alloc A) :
    ∃ w, (if t.asSliceMemoryOrder.isSome && t.strides.all (fun s => 0 < s) then
        Diagonalization.view ⟨L.map fun c => pos c adj, adj.map dims⟩ t
      else Diagonalization.run ⟨L.map fun c => pos c adj, adj.map dims⟩ al t) = .ok w ∧
      Rep w adj dims F :=
  h.diagEither_le hwf hp hadj hLa haL (fun _ _ => le_rfl) al

end ops

/-! ## Operands that have both a repeated label and an empty axis -/

/-- The possible outcomes of a computation that must succeed if `good`, must panic if `bad`, and in
any case panics or returns a right result. -/
def Outcome {α : Type} (good bad : Prop) (m : M α) (Q : α → Prop) : Prop :=
  (good → ∃ w, m = .ok w ∧ Q w) ∧ (bad → ∃ k, m = panic k) ∧
    ((∃ k, m = panic k) ∨ ∃ w, m = .ok w ∧ Q w)

theorem Outcome.bind {α β : Type} {g b g' b' : Prop} {m : M α} {f : α → M β} {Q : α → Prop}
    {R : β → Prop} (h : Outcome g b m Q) (h' : ∀ w, Q w → Outcome g' b' (f w) R) :
    Outcome (g ∧ g') (b ∨ b') (m >>= f) R := by
  obtain ⟨h1, h2, h3⟩ := h
  refine ⟨fun hg => ?_, fun hb => ?_, ?_⟩
  · obtain ⟨w, rfl, q⟩ := h1 hg.1
    exact (h' w q).1 hg.2
  · rcases h3 with ⟨k, rfl⟩ | ⟨w, rfl, q⟩
    · exact ⟨k, rfl⟩
    · rcases hb with hb | hb
      · obtain ⟨k, hk⟩ := h2 hb
        simp [panic] at hk
      · exact (h' w q).2.1 hb
  · rcases h3 with ⟨k, rfl⟩ | ⟨w, rfl, q⟩
    · exact .inl ⟨k, rfl⟩
    · exact (h' w q).2.2

theorem Outcome.imp {α : Type} {g b g' b' : Prop} {m : M α} {Q R : α → Prop} (h : Outcome g b m Q)
    (hg : g' → g) (hb : b' → b) (hQ : ∀ w, Q w → R w) : Outcome g' b' m R := by
  refine ⟨fun x => ?_, fun x => h.2.1 (hb x), ?_⟩
  · obtain ⟨w, e, q⟩ := h.1 (hg x); exact ⟨w, e, hQ w q⟩
  · rcases h.2.2 with h | ⟨w, e, q⟩
    · exact .inl h
    · exact .inr ⟨w, e, hQ w q⟩

theorem Outcome.ok {α : Type} {m : M α} {Q : α → Prop} (h : ∃ w, m = .ok w ∧ Q w) :
    Outcome True False m Q := ⟨fun _ => h, False.elim, .inr h⟩

/-- The labels do not both repeat and include one of length zero, or the array is as in `UnitRow` and some label is
not kept. -/
def Good {ι A : Type} (dims : ι → Nat) (K : ι → Prop) (L : List ι) (v : View A) : Prop :=
  L.Nodup ∨ 0 < (L.map dims).prod ∨ (UnitRow v ∧ ∃ c ∈ L, ¬ K c)

/-- An operand with a repeated label and a zero-length axis, up to the exception in `Good`. -/
abbrev Bad {ι A : Type} (dims : ι → Nat) (K : ι → Prop) (L : List ι) (v : View A) : Prop := ¬ Good dims K L v

theorem Good.congr {ι A : Type} {dims : ι → Nat} {K K' : ι → Prop} {L : List ι} {v : View A}
    (h : ∀ c ∈ L, (K c ↔ K' c)) (hg : Good dims K L v) : Good dims K' L v := by
  rcases hg with hg | hg | ⟨hg, c, hc, hk⟩
  · exact .inl hg
  · exact .inr (.inl hg)
  · exact .inr (.inr ⟨hg, c, hc, fun x => hk ((h c hc).2 x)⟩)

theorem Outcome.good {ι A α : Type} {dims : ι → Nat} {K : ι → Prop} {L : List ι} {v : View A} (hg : Good dims K L v)
    {m : M α} {Q : α → Prop} (h : ∃ w, m = .ok w ∧ Q w) :
    Outcome (Good dims K L v) (Bad dims K L v) m Q := ⟨fun _ => h, fun b => absurd hg b, .inr h⟩

/-! ### Contiguity when no axis is longer than one -/

section unit
variable {shape : List Nat} {strides : List Int}

theorem contigLoop_zero {o : List Nat} (hs : ∀ i ∈ o, strides.getD i 0 ≠ 0) :
    contigLoop shape strides 0 o = true ↔ ∀ i ∈ o, shape.getD i 0 = 1 := by
  induction o with
  | nil => simp [contigLoop]
  | cons i o ih =>
    have h1 : (strides.getD i 0).natAbs ≠ 0 := by
      have := hs i (by simp)
      omega
    simp only [contigLoop, Nat.zero_mul, Bool.and_eq_true, Bool.or_eq_true, decide_eq_true_eq, h1, or_false,
      ih fun j hj => hs j (by simp [hj]), List.mem_cons, forall_eq_or_imp]

theorem contigLoop_one {o : List Nat} (hn : o.Nodup) (hs : ∀ i ∈ o, strides.getD i 0 ≠ 0)
    (hd : ∀ i ∈ o, shape.getD i 0 ≤ 1) :
    contigLoop shape strides 1 o = true ↔ (∀ i ∈ o, shape.getD i 0 = 1) ∨
      ∃ k ∈ o, shape.getD k 0 = 0 ∧ (strides.getD k 0).natAbs = 1 ∧ ∀ j ∈ o, j ≠ k → shape.getD j 0 = 1 := by
  induction o with
  | nil => simp [contigLoop]
  | cons i o ih =>
    rw [List.nodup_cons] at hn
    simp only [contigLoop, Nat.one_mul, Bool.and_eq_true, Bool.or_eq_true, decide_eq_true_eq]
    by_cases h1 : shape.getD i 0 = 1
    · rw [h1, ih hn.2 (fun j hj => hs j (by simp [hj])) fun j hj => hd j (by simp [hj])]
      constructor
      · rintro ⟨-, h | ⟨k, hk, a, b, c⟩⟩
        · exact .inl fun j hj => by rcases List.mem_cons.1 hj with rfl | hj; exacts [h1, h j hj]
        · exact .inr ⟨k, by simp [hk], a, b, fun j hj hne => by
            rcases List.mem_cons.1 hj with rfl | hj
            exacts [h1, c j hj hne]⟩
      · rintro (h | ⟨k, hk, a, b, c⟩)
        · exact ⟨.inl rfl, .inl fun j hj => h j (by simp [hj])⟩
        · refine ⟨.inl rfl, .inr ⟨k, ?_, a, b, fun j hj => c j (by simp [hj])⟩⟩
          rcases List.mem_cons.1 hk with rfl | hk
          · omega
          · exact hk
    · have h0 : shape.getD i 0 = 0 := by have := hd i (by simp); omega
      rw [h0, contigLoop_zero fun j hj => hs j (by simp [hj])]
      constructor
      · rintro ⟨h | h, h'⟩
        · omega
        · refine .inr ⟨i, by simp, h0, h, fun j hj hne => ?_⟩
          exact h' j ((List.mem_cons.1 hj).resolve_left hne)
      · rintro (h | ⟨k, hk, a, b, c⟩)
        · have := h i (by simp); omega
        · have hik : k = i := by
            by_contra hne
            have := c i (by simp) (Ne.symm hne)
            omega
          subst hik
          refine ⟨.inr b, fun j hj => c j (by simp [hj]) ?_⟩
          rintro rfl
          exact hn.1 hj

/-- Which empty arrays with positive strides and no axis longer than one count as contiguous. -/
theorem contig_unit (hl : strides.length = shape.length) (h2 : shape.length ≠ 1) (h0 : shape.prod = 0)
    (hs : ∀ x ∈ strides, 0 < x) (hd : ∀ d ∈ shape, d ≤ 1) :
    isContiguous shape strides = true ↔
      ∃ k : Nat, shape[k]? = some 0 ∧ strides[k]? = some 1 ∧ ∀ j, j ≠ k → shape[j]? ≠ some 0 := by
  have hz := List.prod_eq_zero_iff.1 h0
  obtain ⟨z, hz, hz0⟩ := List.mem_iff_getElem.1 hz
  have hdef : strides ≠ defaultStrides shape := by
    intro e
    have : defaultStrides shape = shape.map fun _ => 0 := by
      unfold defaultStrides
      rw [if_neg]
      intro hc
      have := all_ne_iff.1 hc
      omega
    rw [this] at e
    have := hs 0 (by rw [e]; exact List.mem_map.2 ⟨_, List.getElem_mem hz, rfl⟩)
    omega
  have hn : (strideOrder strides).Nodup := (List.mergeSort_perm _ _).nodup_iff.2 List.nodup_range
  have hm : ∀ i, i ∈ strideOrder strides ↔ i < shape.length := fun i => by
    rw [← hl]
    exact (List.mergeSort_perm _ _).mem_iff.trans List.mem_range
  have hg : ∀ i (h : i < shape.length), shape.getD i 0 = shape[i] := fun i h => by
    simp [List.getD_eq_getElem?_getD, List.getElem?_eq_getElem h]
  have hgs : ∀ i (h : i < strides.length), strides.getD i 0 = strides[i] := fun i h => by
    simp [List.getD_eq_getElem?_getD, List.getElem?_eq_getElem h]
  unfold isContiguous
  rw [if_neg hdef, if_neg h2, contigLoop_one hn
    (fun i hi => by
      have h := (hm i).1 hi
      rw [hgs i (by omega)]
      have := hs _ (List.getElem_mem (by omega : i < strides.length))
      omega)
    (fun i hi => by
      have h := (hm i).1 hi
      rw [hg i h]
      exact hd _ (List.getElem_mem h))]
  constructor
  · rintro (h | ⟨k, hk, a, b, c⟩)
    · have := h z ((hm z).2 hz)
      rw [hg z hz, hz0] at this
      omega
    · have hk := (hm k).1 hk
      rw [hg k hk] at a
      have hks : k < strides.length := by omega
      rw [hgs k hks] at b
      have := hs _ (List.getElem_mem hks)
      refine ⟨k, by rw [List.getElem?_eq_getElem hk, a], by
        rw [List.getElem?_eq_getElem hks]; congr 1; omega, fun j hj e => ?_⟩
      obtain ⟨hj', e⟩ := List.getElem?_eq_some_iff.1 e
      have := c j ((hm j).2 hj') hj
      rw [hg j hj', e] at this
      omega
  · rintro ⟨k, a, b, c⟩
    obtain ⟨hk, a⟩ := List.getElem?_eq_some_iff.1 a
    obtain ⟨hks, b⟩ := List.getElem?_eq_some_iff.1 b
    refine .inr ⟨k, (hm k).2 hk, by rw [hg k hk, a], by rw [hgs k hks, b]; rfl, fun j hj hne => ?_⟩
    have hj := (hm j).1 hj
    rw [hg j hj]
    have h1 := hd _ (List.getElem_mem hj)
    have h3 := c j hne
    rw [List.getElem?_eq_getElem hj] at h3
    have : shape[j] ≠ 0 := fun e => h3 (by rw [e])
    omega

end unit

section empty
variable {ι A : Type} {dims : ι → Nat}

theorem bad_parts {L : List ι} (h : ¬ L.Nodup) : L ≠ [] := by
  rintro rfl
  exact h List.nodup_nil

theorem default_empty {s : List Nat} (h : s.prod = 0) : defaultStrides s = s.map fun _ => 0 := by
  unfold defaultStrides
  rw [if_neg]
  intro hc
  have := all_ne_iff.1 hc
  omega

theorem diagStrides_panics {mapping acc : List Nat} {s : List Nat} (h : s.prod = 0) (hs : s ≠ []) :
    diagStrides mapping acc 0 (defaultStrides s) = panic .assertFailed := by
  rw [default_empty h]
  cases s with
  | nil => simp at hs
  | cons d ds => rfl

theorem diagStrides_weak (mapping acc : List Nat) (idx : Nat) (ss : List Int) :
    (∃ k, diagStrides mapping acc idx ss = panic k) ∨
      ∃ r, diagStrides mapping acc idx ss = .ok r ∧ r.length = acc.length := by
  induction ss generalizing acc idx with
  | nil => exact .inr ⟨acc, rfl, rfl⟩
  | cons s ss ih =>
    unfold diagStrides
    by_cases hs : 0 < s
    · rw [assertThat_of (by simpa using hs), bind_ok]
      cases hm : mapping[idx]? with
      | none => exact .inl ⟨.indexOutOfBounds, by simp [index, hm, panic]⟩
      | some m =>
        rw [index_eq_ok.2 hm, bind_ok]
        cases ha : acc[m]? with
        | none => exact .inl ⟨.indexOutOfBounds, by simp [index, ha, panic]⟩
        | some old =>
          rw [index_eq_ok.2 ha, bind_ok]
          rcases ih (acc.set m (old + s.toNat)) (idx + 1) with h | ⟨r, h1, h2⟩
          · exact .inl h
          · exact .inr ⟨r, h1, by simpa using h2⟩
    · exact .inl ⟨.assertFailed, by simp [assertThat, hs, panic]⟩

theorem prod_zero_of_sub {L adj : List ι} (h : (L.map dims).prod = 0) (hs : ∀ c ∈ L, c ∈ adj) :
    (adj.map dims).prod = 0 := by
  rw [List.prod_eq_zero_iff] at h ⊢
  obtain ⟨c, hc, e⟩ := List.mem_map.1 h
  exact List.mem_map.2 ⟨c, hs c hc, e⟩

theorem rep_of_empty {v : View A} {L : List ι} (hs : v.shape = L.map dims)
    (hl : v.strides.length = L.length) (h0 : (L.map dims).prod = 0) (F : (ι → Nat) → A) :
    Rep v L dims F :=
  ⟨hs, hl, fun σ hσ => by have := (inB_of_inRange hσ).pos; omega⟩

theorem diagView_weak (t : View A) {L adj : List ι} (m : List Nat) (h0 : (L.map dims).prod = 0)
    (hs : ∀ c ∈ L, c ∈ adj) (F : (ι → Nat) → A) :
    (∃ k, Diagonalization.view ⟨m, adj.map dims⟩ t = panic k) ∨
      ∃ w, Diagonalization.view ⟨m, adj.map dims⟩ t = .ok w ∧ Rep w adj dims F := by
  unfold Diagonalization.view
  rcases diagStrides_weak m ((adj.map dims).map fun _ => 0) 0 t.strides with ⟨k, h⟩ | ⟨r, h1, h2⟩
  · exact .inl ⟨k, by simp only [h]; rfl⟩
  · simp only [h1, bind_ok]
    cases hd : t.asSliceMemoryOrder with
    | none => exact .inl ⟨.unwrapNone, rfl⟩
    | some data =>
      simp only [unwrapO_some, bind_ok]
      cases hf : fromShapeStrides (adj.map dims) r data with
      | none => exact .inl ⟨.unwrapErr, rfl⟩
      | some w =>
        refine .inr ⟨w, rfl, ?_⟩
        have e : w = ⟨data, 0, adj.map dims, r.map Int.ofNat⟩ := by
          unfold fromShapeStrides at hf
          simp only at hf
          split at hf
          · simp at hf
          · split at hf
            · simp at hf
            · split at hf
              · simp at hf
              · split at hf
                · simp at hf
                · simpa using hf.symm
        subst e
        exact rep_of_empty rfl (by simpa using h2) (prod_zero_of_sub h0 hs) F

theorem Rep.diagRun_panics {t : View A} {L adj : List ι} {F : (ι → Nat) → A} (h : Rep t L dims F)
    (hL : L ≠ []) (h0 : (L.map dims).prod = 0) (m : List Nat) (al : Alloc A) :
    Diagonalization.run ⟨m, adj.map dims⟩ al t = panic .assertFailed := by
  have ha : allIdx t.shape = [] := List.eq_nil_of_length_eq_zero (by rw [allIdx_length, h.shape, h0])
  have h1 : t.toVec = .ok [] := by simp [View.toVec, ha]
  have h2 : fromShapeVec t.shape ([] : List A) = some ⟨[], 0, t.shape, defaultStrides t.shape⟩ := by
    simp [fromShapeVec, h.shape, h0]
  unfold Diagonalization.run
  simp only [h1, bind_ok, h2, Diagonalization.view]
  rw [diagStrides_panics (by rw [h.shape, h0]) (by rw [h.shape]; simpa using hL)]
  rfl

theorem Rep.diagView_panics [DecidableEq ι] {t : View A} {L adj : List ι} {F : (ι → Nat) → A}
    (h : Rep t L dims F) (hwf : t.Wf) (h0 : (L.map dims).prod = 0) (hLa : ∀ c ∈ L, c ∈ adj)
    (hpos : ∀ x ∈ t.strides, 0 < x) (hd : ∃ d ∈ t.shape, 2 ≤ d) :
    ∃ k, Diagonalization.view ⟨L.map fun c => pos c adj, adj.map dims⟩ t = panic k := by
  have hlen : t.strides.length = L.length := by rw [hwf.1, h.shape, List.length_map]
  obtain ⟨r, h1, h2, h3⟩ := diagStrides_ok (mapping := L.map fun c => pos c adj)
    (acc := (adj.map dims).map fun _ => 0) (ss := t.strides) (idx := 0) (by simp [hlen])
    (by
      intro k hk
      obtain ⟨c, hc, rfl⟩ := List.mem_map.1 hk
      simpa using pos_lt (hLa c hc)) hpos
  unfold Diagonalization.view
  simp only [h1, bind_ok]
  cases hs : t.asSliceMemoryOrder with
  | none => exact ⟨.unwrapNone, rfl⟩
  | some data =>
    have hdata : data = [] := by
      unfold View.asSliceMemoryOrder at hs
      split at hs
      · rw [any_zero_iff.2 (by rw [h.shape, h0])] at hs
        simpa using hs.symm
      · simp at hs
    subst hdata
    have hr : r.length = (adj.map dims).length := by simpa using h2
    have hm : 0 < maxOffset (adj.map dims) r := by
      rw [maxOffset_sum hr]
      have e := h3 fun k => (adj.map dims).getD k 0 - 1
      have hz : ∑ k ∈ Finset.range ((adj.map dims).map fun _ => 0).length,
          ((adj.map dims).getD k 0 - 1) * ((adj.map dims).map fun _ => 0).getD k 0 = 0 := by
        refine Finset.sum_eq_zero fun k hk => ?_
        simp [List.getD_eq_getElem?_getD, List.getElem?_map]
        cases adj[k]? <;> simp
      rw [hz, Nat.zero_add, List.length_map] at e
      rw [e]
      obtain ⟨d, hd, hd2⟩ := hd
      rw [h.shape] at hd
      obtain ⟨c, hc, rfl⟩ := List.mem_map.1 hd
      obtain ⟨j, hj, rfl⟩ := List.mem_iff_getElem.1 hc
      have hj' : j < t.strides.length := by omega
      refine Nat.lt_of_lt_of_le ?_ (Finset.single_le_sum (fun _ _ => Nat.zero_le _) (Finset.mem_range.2 hj'))
      have e1 : ((L.map fun c => pos c adj).getD (0 + j) 0) = pos L[j] adj := by
        simp [List.getD_eq_getElem?_getD, List.getElem?_map, List.getElem?_eq_getElem hj]
      have e2 : (adj.map dims).getD (pos L[j] adj) 0 = dims L[j] := by
        simp [List.getD_eq_getElem?_getD, List.getElem?_map, getElem?_pos (hLa _ hc)]
      rw [e1, e2]
      have hx := hpos _ (List.getElem_mem hj')
      have e3 : t.strides.getD j 0 = t.strides[j] := by
        simp [List.getD_eq_getElem?_getD, List.getElem?_eq_getElem hj']
      rw [e3]
      exact Nat.mul_pos (by omega) (by omega)
    have hf : fromShapeStrides (adj.map dims) r ([] : List A) = none := by
      unfold fromShapeStrides
      rw [if_neg (by simp [hr])]
      simp only [any_zero_iff.2 (prod_zero_of_sub h0 hLa), Bool.true_and, List.length_nil]
      rw [if_pos (by simpa using hm)]
    simp only [unwrapO_some, bind_ok, hf]
    exact ⟨_, rfl⟩

theorem Rep.diagView_unit [DecidableEq ι] {t : View A} {L adj : List ι} {F : (ι → Nat) → A}
    (h : Rep t L dims F) (hwf : t.Wf) (hLa : ∀ c ∈ L, c ∈ adj) (hu : UnitRow t)
    (h2 : L.length ≠ 1) (h0 : (L.map dims).prod = 0) :
    t.asSliceMemoryOrder.isSome = true ∧
      ∃ w, Diagonalization.view ⟨L.map fun c => pos c adj, adj.map dims⟩ t = .ok w := by
  obtain ⟨hpos, hd, hk⟩ := hu
  have hc : isContiguous t.shape t.strides = true :=
    (contig_unit hwf.1 (by rw [h.shape, List.length_map]; exact h2) (by rw [h.shape, h0]) hpos hd).2 hk
  have hsl : t.asSliceMemoryOrder = some [] := by
    unfold View.asSliceMemoryOrder
    rw [if_pos hc, if_pos (any_zero_iff.2 (by rw [h.shape, h0]))]
  have hlen : t.strides.length = L.length := by rw [hwf.1, h.shape, List.length_map]
  obtain ⟨r, h1, h2, h3⟩ := diagStrides_ok (mapping := L.map fun c => pos c adj)
    (acc := (adj.map dims).map fun _ => 0) (ss := t.strides) (idx := 0) (by simp [hlen])
    (by
      intro k hk
      obtain ⟨c, hc, rfl⟩ := List.mem_map.1 hk
      simpa using pos_lt (hLa c hc)) hpos
  have hr : r.length = (adj.map dims).length := by simpa using h2
  have hm : maxOffset (adj.map dims) r = 0 := by
    rw [maxOffset_sum hr]
    have e := h3 fun k => (adj.map dims).getD k 0 - 1
    have hz : ∑ k ∈ Finset.range ((adj.map dims).map fun _ => 0).length,
        ((adj.map dims).getD k 0 - 1) * ((adj.map dims).map fun _ => 0).getD k 0 = 0 := by
      refine Finset.sum_eq_zero fun k hk => ?_
      simp [List.getD_eq_getElem?_getD, List.getElem?_map]
      cases adj[k]? <;> simp
    rw [hz, Nat.zero_add, List.length_map] at e
    rw [e]
    refine Finset.sum_eq_zero fun j hj => ?_
    have hj : j < L.length := by rw [← hlen]; exact Finset.mem_range.1 hj
    have e1 : (L.map fun c => pos c adj).getD (0 + j) 0 = pos L[j] adj := by
      simp [List.getD_eq_getElem?_getD, List.getElem?_map, List.getElem?_eq_getElem hj]
    rw [e1, getD_pos (hLa _ (List.getElem_mem hj))]
    have : dims L[j] ≤ 1 := hd _ (by rw [h.shape]; exact List.mem_map.2 ⟨_, List.getElem_mem hj, rfl⟩)
    rw [show dims L[j] - 1 = 0 by omega, Nat.zero_mul]
  refine ⟨by rw [hsl]; rfl, ⟨[], 0, adj.map dims, r.map Int.ofNat⟩, ?_⟩
  unfold Diagonalization.view
  simp only [h1, bind_ok, hsl, unwrapO_some]
  unfold fromShapeStrides
  rw [if_neg (by simp [hr])]
  simp only [any_zero_iff.2 (prod_zero_of_sub h0 hLa), hm]
  rfl

theorem Rep.diagRun_outcome [DecidableEq ι] {t : View A} {L adj : List ι} {F : (ι → Nat) → A} (h : Rep t L dims F)
    (hwf : t.Wf) (hn : ¬ L.Nodup) (hadj : adj.Nodup) (hLa : ∀ c ∈ L, c ∈ adj)
    (haL : ∀ c ∈ adj, c ∈ L) (al : Alloc A) {K : ι → Prop} (hK : ∀ c ∈ L, K c) :
    Outcome (Good dims K L t) (Bad dims K L t)
      (Diagonalization.run ⟨L.map fun c => pos c adj, adj.map dims⟩ al t)
      (fun w => Rep w adj dims F) := by
  by_cases hg : 0 < (L.map dims).prod
  · exact .good (.inr (.inl hg)) (h.diagRun hwf hg hadj hLa haL al)
  · have := h.diagRun_panics (adj := adj) (bad_parts hn) (by omega) (L.map fun c => pos c adj) al
    refine ⟨fun x => ?_, fun _ => ⟨_, this⟩, .inl ⟨_, this⟩⟩
    rcases x with x | x | ⟨-, c, hc, x⟩
    · exact absurd x hn
    · exact absurd x hg
    · exact absurd (hK c hc) x

theorem Rep.diagEither_outcome [DecidableEq ι] {t : View A} {L adj : List ι} {F : (ι → Nat) → A} (h : Rep t L dims F)
    (hwf : t.Wf) (hn : ¬ L.Nodup) (hadj : adj.Nodup) (hLa : ∀ c ∈ L, c ∈ adj)
    (haL : ∀ c ∈ adj, c ∈ L) (al : Alloc A) {K : ι → Prop} (hK : ∃ c ∈ L, ¬ K c) :
    Outcome (Good dims K L t) (Bad dims K L t)
      (if t.asSliceMemoryOrder.isSome && t.strides.all (fun s => 0 < s) then
        Diagonalization.view ⟨L.map fun c => pos c adj, adj.map dims⟩ t
      else Diagonalization.run ⟨L.map fun c => pos c adj, adj.map dims⟩ al t)
      (fun w => Rep w adj dims F) := by
  by_cases hg : 0 < (L.map dims).prod
  · exact .good (.inr (.inl hg)) (h.diagEither hwf hg hadj hLa haL al)
  · have h0 : (L.map dims).prod = 0 := by omega
    have hr := h.diagRun_panics (adj := adj) (bad_parts hn) h0 (L.map fun c => pos c adj) al
    have h1 : L.length ≠ 1 := by
      intro e
      obtain ⟨c, rfl⟩ := List.length_eq_one_iff.1 e
      exact hn (List.nodup_singleton c)
    by_cases hu : UnitRow t
    · refine .good (.inr (.inr ⟨hu, hK⟩)) ?_
      obtain ⟨u1, w, u2⟩ := h.diagView_unit hwf hLa hu h1 h0
      rw [if_pos (by
        simp only [u1, Bool.true_and, List.all_eq_true, decide_eq_true_eq]
        exact hu.1)]
      rcases diagView_weak t (L.map fun c => pos c adj) h0 hLa F with ⟨k, hk⟩ | hk
      · rw [u2] at hk
        simp [panic] at hk
      · exact hk
    · have hp : ∃ k, (if t.asSliceMemoryOrder.isSome && t.strides.all (fun s => 0 < s) then
          Diagonalization.view ⟨L.map fun c => pos c adj, adj.map dims⟩ t
          else Diagonalization.run ⟨L.map fun c => pos c adj, adj.map dims⟩ al t) = panic k := by
        split
        · rename_i hcond
          simp only [Bool.and_eq_true, List.all_eq_true, decide_eq_true_eq] at hcond
          refine h.diagView_panics hwf h0 hLa hcond.2 ?_
          by_contra hd
          push Not at hd
          have hd1 : ∀ d ∈ t.shape, d ≤ 1 := fun d hx => by have := hd d hx; omega
          refine hu ⟨hcond.2, hd1, ?_⟩
          refine (contig_unit hwf.1 (by rw [h.shape, List.length_map]; exact h1) (by rw [h.shape, h0])
            hcond.2 hd1).1 ?_
          have := hcond.1
          unfold View.asSliceMemoryOrder at this
          split at this
          · assumption
          · simp at this
        · exact ⟨_, hr⟩
      refine ⟨fun x => ?_, fun _ => hp, .inl hp⟩
      rcases x with x | x | ⟨x, -⟩
      · exact absurd x hn
      · exact absurd x hg
      · exact absurd x hu

end empty

/-! ## Strategy selection -/

theorem summary_ok {L out : List Char} (hn : out.Nodup) (hs : ∀ c ∈ out, c ∈ L) :
    SingletonSummary.fromIndices L out = .ok ⟨(hset L).length - out.length,
      ((charCounts L).filter fun e => 1 < e.2).length,
      ((out.zip L).filter fun p => p.1 ≠ p.2).length⟩ := by
  have hle : out.length ≤ (hset L).length :=
    ((hn.subperm fun c hc => mem_hset.2 (hs c hc)) : out.Subperm (hset L)).length_le
  simp [SingletonSummary.fromIndices, charCounts_length, usub_of_le hle]

theorem summed_zero_iff {L out : List Char} (hn : out.Nodup) (hs : ∀ c ∈ out, c ∈ L) :
    (hset L).length - out.length = 0 ↔ ∀ c ∈ L, c ∈ out := by
  have hsub : out.Subperm (hset L) := hn.subperm fun c hc => mem_hset.2 (hs c hc)
  constructor
  · intro h c hc
    have := hsub.perm_of_length_le (by omega)
    exact this.mem_iff.2 (mem_hset.2 hc)
  · intro h
    have : (hset L).Subperm out := (nodup_hset L).subperm fun c hc => h c (mem_hset.1 hc)
    have := this.length_le
    omega

theorem diag_zero_iff {L : List Char} :
    ((charCounts L).filter fun e => 1 < e.2).length = 0 ↔ L.Nodup := by
  rw [List.length_eq_zero_iff, List.filter_eq_nil_iff, List.nodup_iff_count_le_one]
  constructor
  · intro h c
    by_cases hc : c ∈ L
    · have := h (c, L.count c) (mem_charCounts.2 ⟨hc, rfl⟩)
      simpa using this
    · rw [List.count_eq_zero_of_not_mem hc]; omega
  · rintro h ⟨c, n⟩ he
    obtain ⟨_, rfl⟩ := mem_charCounts.1 he
    simpa using h c

theorem reord_zero_iff {L out : List Char} (hle : out.length ≤ L.length) :
    ((out.zip L).filter fun p => p.1 ≠ p.2).length = 0 ↔ ∃ S, L = out ++ S := by
  rw [List.length_eq_zero_iff, List.filter_eq_nil_iff]
  constructor
  · intro h
    induction out generalizing L with
    | nil => exact ⟨L, rfl⟩
    | cons c out ih =>
      cases L with
      | nil => simp at hle
      | cons d L =>
        have h1 := h (c, d) (by simp)
        simp at h1; subst h1
        obtain ⟨S, rfl⟩ := ih (by simpa using hle) fun p hp => h p (by simp [hp])
        exact ⟨S, rfl⟩
  · rintro ⟨S, rfl⟩
    clear hle
    induction out with
    | nil => simp
    | cons c out ih =>
      rintro p hp
      simp only [List.cons_append, List.zip_cons_cons, List.mem_cons] at hp
      rcases hp with rfl | hp
      · simp
      · exact ih p hp

theorem length_le_of_sub {L out : List Char} (hn : out.Nodup) (hs : ∀ c ∈ out, c ∈ L) :
    out.length ≤ L.length := (hn.subperm fun c hc => hs c hc).length_le

/-! ## Constructors -/

section new
variable {sc : SizedContraction} {dims : Char → Nat} {L : List Char}

theorem Permutation.new_ok (hops : sc.contraction.operandIndices = [L])
    (hl : L.length = sc.contraction.outputIndices.length)
    (hs : ∀ c ∈ sc.contraction.outputIndices, c ∈ L) :
    Permutation.new sc = .ok ⟨sc.contraction.outputIndices.map fun c => pos c L⟩ := by
  unfold Permutation.new
  rw [hops]
  simp only [List.length_singleton, decide_true, assertThat_true, bind_ok, index_cons_zero]
  rw [assertThat_of (by simpa using hl), mapE_ok (g := fun c => pos c L)]
  · simp
  · intro c hc; simp [position_of_mem (hs c hc)]

theorem Diagonalization.new_ok (hv : sc.Valid dims) (hops : sc.contraction.operandIndices = [L]) :
    ∃ new, Diagonalization.new sc = .ok
        ⟨L.map fun c => pos c (sc.contraction.outputIndices ++ new),
          (sc.contraction.outputIndices ++ new).map dims⟩ ∧
      (sc.contraction.outputIndices ++ new).Nodup ∧
      ∀ c, c ∈ new ↔ c ∈ L ∧ c ∉ sc.contraction.outputIndices := by
  obtain ⟨new, h1, h2, h3⟩ := diagLoop_spec L sc.contraction.outputIndices [] hv.out.1
  refine ⟨new, ?_, h2, h3⟩
  unfold Diagonalization.new
  rw [hops]
  simp only [List.length_singleton, decide_true, assertThat_true, bind_ok, index_cons_zero]
  rw [h1]
  simp only [List.nil_append]
  rw [mapE_size hv]
  · rfl
  · intro c hc
    rw [hops]
    rcases List.mem_append.1 hc with h | h
    · have := used_iff.1 (hv.out.2 c h)
      rwa [hops] at this
    · simpa using ((h3 c).1 h).1

theorem range_eq_pos {L : List Char} (h : L.Nodup) :
    List.range L.length = L.map fun c => pos c L := by
  apply List.ext_getElem (by simp)
  intro i h1 h2
  simp [pos_getElem h]

theorem PermutationAndSummation.new_ok (hops : sc.contraction.operandIndices = [L])
    (hlt : sc.contraction.outputIndices.length < L.length) (hL : L.Nodup)
    (hs : ∀ c ∈ sc.contraction.outputIndices, c ∈ L) :
    PermutationAndSummation.new sc = .ok
      ⟨⟨(sc.contraction.outputIndices ++ L.filter fun c => c ∉ sc.contraction.outputIndices).map
          fun c => pos c L⟩,
        ⟨(List.range (L.length - sc.contraction.outputIndices.length)).map
            (sc.contraction.outputIndices.length + ·),
          List.replicate (L.length - sc.contraction.outputIndices.length)
            sc.contraction.outputIndices.length⟩⟩ := by
  set out := sc.contraction.outputIndices with hout
  unfold PermutationAndSummation.new
  rw [hops]
  simp only [index_cons_zero, bind_ok, ← hout]
  rw [mapE_ok (g := fun c => pos c L) fun c hc => by simp [position_of_mem (hs c hc)]]
  simp only [bind_ok, Summation.new, hops, index_cons_zero, ← hout, usub_of_le hlt.le]
  rw [Summation.fromSizes_ok (by omega), range_eq_pos hL, List.filter_map]
  simp only [bind_ok, Permutation.fromIndices, List.map_append]
  congr 5
  apply List.filter_congr
  intro c hc
  by_cases h : c ∈ out
  · simp [getElem?_pos hc, position_of_mem h, h]
  · simp [getElem?_pos hc, position_eq_none.2 h, h]

end new

/-! ## The whole singleton contraction -/

theorem getStrategy_eq (s d r : Nat) :
    SingletonSummary.getStrategy ⟨s, d, r⟩ =
      if d = 0 then
        if s = 0 then if r = 0 then .identity else .permutation
        else if r = 0 then .summation else .permutationAndSummation
      else if s = 0 then .diagonalization else .diagonalizationAndSummation := by
  rcases s with _ | s <;> rcases d with _ | d <;> rcases r with _ | r <;> rfl

theorem Rep.permutationRun {ι A : Type} [DecidableEq ι] {dims : ι → Nat} {v : View A} {L out : List ι}
    {F} (h : Rep v L dims F) (hn : L.Nodup) (hp : out.Perm L) (al : Alloc A) :
    ∃ w, Permutation.run ⟨out.map fun c => pos c L⟩ al v = .ok w ∧ Rep w out dims F := by
  obtain ⟨w, h1, h2⟩ := h.permute hn hp
  obtain ⟨w', h3, h4⟩ := h2.toOwned (hp.nodup_iff.2 hn) al
  exact ⟨w', by simp [Permutation.run, h1, h3], h4⟩

/-- What a compiled singleton step does. -/
def SingletonOp.Computes (op : SingletonOp) (dims : Char → Nat) (L out : List Char) : Prop :=
  ∀ (A : Type) [AddCommMonoid A] (al : Alloc A) (v : View A) (F : (Char → Nat) → A),
    Rep v L dims F → v.Wf →
    Outcome (Good dims (· ∈ out) L v) (Bad dims (· ∈ out) L v) (op.run al v) fun w =>
      Rep w out dims (sumOver dims (summed [L] out) F)

section main
variable {sc : SizedContraction} {dims : Char → Nat} {L : List Char}

theorem SizedContraction.Valid.out_sub (hv : sc.Valid dims)
    (hops : sc.contraction.operandIndices = [L]) : ∀ c ∈ sc.contraction.outputIndices, c ∈ L := by
  intro c hc
  have := used_iff.1 (hv.out.2 c hc)
  simpa [hops] using this

theorem singleton_ok (hv : sc.Valid dims) (hops : sc.contraction.operandIndices = [L]) :
    ∃ p, SingletonContraction.new sc = .ok p ∧
      ((p.method = .identity ∨ p.method = .permutation) ↔
        (L.Nodup ∧ ∀ c ∈ L, c ∈ sc.contraction.outputIndices)) ∧
      p.op.Computes dims L sc.contraction.outputIndices := by
  have hsub := hv.out_sub hops
  have hout := hv.out.1
  set out := sc.contraction.outputIndices with hO
  have hsum : SingletonSummary.new sc = .ok ⟨(hset L).length - out.length,
      ((charCounts L).filter fun e => 1 < e.2).length,
      ((out.zip L).filter fun p => p.1 ≠ p.2).length⟩ := by
    unfold SingletonSummary.new
    rw [hops]
    simp only [List.length_singleton, decide_true, assertThat_true, bind_ok, index_cons_zero]
    exact summary_ok hout hsub
  have hle := length_le_of_sub hout hsub
  unfold SingletonContraction.new
  rw [hsum]
  simp only [bind_ok, getStrategy_eq, diag_zero_iff, summed_zero_iff hout hsub]
  by_cases hn : L.Nodup
  · rw [if_pos hn]
    by_cases hs : ∀ c ∈ L, c ∈ out
    · rw [if_pos hs]
      have hperm : out.Perm L := perm_of_nodup hout hn fun c => ⟨hsub c, hs c⟩
      have hnil : summed [L] out = [] := by
        rw [List.eq_nil_iff_forall_not_mem]
        intro c hc
        have := mem_summed.1 hc
        simp only [List.flatten_cons, List.flatten_nil, List.append_nil] at this
        exact this.2 (hs c this.1)
      by_cases hr : ∃ S, L = out ++ S
      · rw [if_pos ((reord_zero_iff hle).2 hr)]
        refine ⟨⟨.identity, .identity⟩, by simp [SingletonOp.new], by simp [hn]; exact hs, ?_⟩
        obtain ⟨S, hS⟩ := hr
        have hSnil : S = [] := by
          have := hperm.length_eq
          rw [hS, List.length_append] at this
          exact List.length_eq_zero_iff.1 (by omega)
        rw [hSnil, List.append_nil] at hS
        intro A _ al v F h hwf
        rw [hnil]
        rw [hS] at h
        exact .good (.inl hn) (h.toOwned hout al)
      · rw [if_neg (mt (reord_zero_iff hle).1 hr)]
        refine ⟨⟨.permutation, .permutation ⟨out.map fun c => pos c L⟩⟩, ?_, by simp [hn]; exact hs, ?_⟩
        · simp [SingletonOp.new, Permutation.new_ok hops hperm.length_eq.symm hsub, ← hO]
        · intro A _ al v F h hwf
          rw [hnil]
          exact .good (.inl hn) (h.permutationRun hn hperm al)
    · rw [if_neg hs]
      have hlt : out.length < L.length := by
        rcases Nat.lt_or_ge out.length L.length with h | h
        · exact h
        · exfalso
          have := (hout.subperm hsub).perm_of_length_le h
          exact hs fun c hc => this.mem_iff.2 hc
      by_cases hr : ∃ S, L = out ++ S
      · rw [if_pos ((reord_zero_iff hle).2 hr)]
        refine ⟨⟨.summation, .summation ⟨(List.range (L.length - out.length)).map (out.length + ·),
          List.replicate (L.length - out.length) out.length⟩⟩, ?_, by simp; intro _; simpa using hs, ?_⟩
        · simp [SingletonOp.new, Summation.new, hops, ← hO, usub_of_le hle,
            Summation.fromSizes_ok (show 1 ≤ L.length - out.length by omega)]
        · obtain ⟨S, rfl⟩ := hr
          intro A _ al v F h hwf
          have hS : S ≠ [] := by rintro rfl; simp at hlt
          obtain ⟨w, h1, h2⟩ := h.summation hn hS
            ((List.range ((out ++ S).length - out.length)).map (out.length + ·)) al
          refine .good (.inl hn) ⟨w, ?_, ?_⟩
          · have e : (out ++ S).length - out.length = S.length := by simp
            simp only [SingletonOp.run]
            rw [e] at h1 ⊢
            exact h1
          · have hd := List.nodup_append.1 hn
            rw [← sumOver_summed (S := S) hd.2.1]
            · exact h2
            · intro c
              simp only [List.flatten_cons, List.flatten_nil, List.append_nil, List.mem_append]
              constructor
              · intro hc; exact ⟨.inr hc, fun ho => hd.2.2 c ho c hc rfl⟩
              · rintro ⟨h | h, h'⟩
                · exact absurd h h'
                · exact h
      · rw [if_neg (mt (reord_zero_iff hle).1 hr)]
        refine ⟨⟨.permutationAndSummation, .permutationAndSummation
          ⟨⟨(out ++ L.filter fun c => c ∉ out).map fun c => pos c L⟩,
            ⟨(List.range (L.length - out.length)).map (out.length + ·),
              List.replicate (L.length - out.length) out.length⟩⟩⟩, ?_,
          by simp; intro _; simpa using hs, ?_⟩
        · simp only [SingletonOp.new, PermutationAndSummation.new_ok hops hlt hn hsub, ← hO, bind_ok]
          rfl
        · intro A _ al v F h hwf
          set S := L.filter fun c => c ∉ out with hSdef
          have hmS : ∀ c, c ∈ S ↔ c ∈ L ∧ c ∉ out := fun c => by simp [hSdef]
          have hnS : (out ++ S).Nodup := by
            rw [List.nodup_append]
            exact ⟨hout, hn.filter _, fun a ha b hb => by
              rintro rfl; exact ((hmS a).1 hb).2 ha⟩
          have hperm : (out ++ S).Perm L := perm_of_nodup hnS hn fun c => by
            rw [List.mem_append, hmS]
            constructor
            · rintro (h | h)
              · exact hsub c h
              · exact h.1
            · intro h
              by_cases ho : c ∈ out
              · exact .inl ho
              · exact .inr ⟨h, ho⟩
          obtain ⟨w, h1, h2⟩ := h.permute hn hperm
          have hlen : L.length - out.length = S.length := by
            have := hperm.length_eq
            rw [List.length_append] at this; omega
          have hS : S ≠ [] := by
            intro e
            rw [e, List.length_nil] at hlen
            omega
          obtain ⟨w', h3, h4⟩ := h2.summation hnS hS
            ((List.range (L.length - out.length)).map (out.length + ·)) al
          refine .good (.inl hn) ⟨w', ?_, ?_⟩
          · simp only [SingletonOp.run, PermutationAndSummation.run, Permutation.view]
            rw [h1]
            simp only [bind_ok]
            rw [← hlen] at h3
            exact h3
          · rw [← sumOver_summed (S := S) (hn.filter _)]
            · exact h4
            · intro c; simpa using hmS c
  · rw [if_neg hn]
    obtain ⟨new, hd, hdn, hnew⟩ := Diagonalization.new_ok hv hops
    rw [← hO] at hd hdn hnew
    have hLa : ∀ c ∈ L, c ∈ out ++ new := fun c hc => by
      rw [List.mem_append, hnew]
      by_cases ho : c ∈ out
      · exact .inl ho
      · exact .inr ⟨hc, ho⟩
    have haL : ∀ c ∈ out ++ new, c ∈ L := fun c hc => by
      rcases List.mem_append.1 hc with h | h
      · exact hsub c h
      · exact ((hnew c).1 h).1
    by_cases hs : ∀ c ∈ L, c ∈ out
    · rw [if_pos hs]
      have hnil' : new = [] := by
        rw [List.eq_nil_iff_forall_not_mem]
        intro c hc
        exact ((hnew c).1 hc).2 (hs c ((hnew c).1 hc).1)
      rw [hnil', List.append_nil] at hd hLa haL
      have hnil : summed [L] out = [] := by
        rw [List.eq_nil_iff_forall_not_mem]
        intro c hc
        have := mem_summed.1 hc
        simp only [List.flatten_cons, List.flatten_nil, List.append_nil] at this
        exact this.2 (hs c this.1)
      refine ⟨⟨.diagonalization, .diagonalization ⟨L.map fun c => pos c out, out.map dims⟩⟩,
        by simp [SingletonOp.new, hd], by simp [hn], ?_⟩
      intro A _ al v F h hwf
      rw [hnil]
      exact h.diagRun_outcome hwf hn hout hLa haL al hs
    · rw [if_neg hs]
      have hne : new ≠ [] := by
        rintro rfl
        refine hs fun c hc => ?_
        simpa using hLa c hc
      have hlen : 1 ≤ new.length := List.length_pos_iff.2 hne
      refine ⟨⟨.diagonalizationAndSummation, .diagonalizationAndSummation
        ⟨⟨L.map fun c => pos c (out ++ new), (out ++ new).map dims⟩,
          ⟨(List.range new.length).map (out.length + ·), List.replicate new.length out.length⟩⟩⟩,
        ?_, by simp [hn], ?_⟩
      · have e : usub ((out ++ new).map dims).length out.length = .ok new.length := by
          rw [usub_of_le (by simp)]; simp
        simp only [SingletonOp.new, DiagonalizationAndSummation.new, hd, ← hO, bind_ok, e,
          Summation.fromSizes_ok hlen]
        rfl
      · intro A _ al v F h hwf
        have h1 := h.diagEither_outcome hwf hn hdn hLa haL (al.sub 0) (K := (· ∈ out)) (by push Not at hs; exact hs)
        have key := h1.bind (f := fun w => Summation.run ⟨(List.range new.length).map (out.length + ·),
            List.replicate new.length out.length⟩ (al.sub 1) w) fun w h2 =>
          Outcome.ok (h2.summation hdn hne ((List.range new.length).map (out.length + ·)) (al.sub 1))
        refine Outcome.imp (g := Good dims (· ∈ out) L v ∧ True)
          (b := Bad dims (· ∈ out) L v ∨ False)
          (Q := fun w => Rep w out dims (sumOver dims new F)) ?_ (fun x => ⟨x, trivial⟩) .inl fun w h4 => ?_
        · simp only [SingletonOp.run, DiagonalizationAndSummation.run]
          refine Eq.mp ?_ key
          congr 1
          split <;> rfl
        · rw [← sumOver_summed (S := new) (List.nodup_append.1 hdn).2.1]
          · exact h4
          · intro c; simpa using hnew c

end main

end Einsum
