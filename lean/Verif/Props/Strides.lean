import Verif.Model.Strides
import Verif.Props.Contractors
import Verif.Props.Selection
import Verif.Props.Tensordot

/-!
# Sums of strides: C77
-/

namespace Einsum

open Spec

variable {A : Type}

/-! ## The checks of `from_shape` -/

/-- Equal except on axes of length at most one. -/
def SameStrides (shape r r' : List Nat) : Prop := ∀ i, 2 ≤ shape.getD i 0 → r'.getD i 0 = r.getD i 0

theorem SameStrides.tail {d : Nat} {shape : List Nat} {s s' : Nat} {r r' : List Nat}
    (h : SameStrides (d :: shape) (s :: r) (s' :: r')) : SameStrides shape r r' := fun i hi => by
  simpa using h (i + 1) (by simpa using hi)

theorem SameStrides.maxOffset {shape r r' : List Nat} (h : SameStrides shape r r') (hl : r'.length = r.length) :
    maxOffset shape r' = maxOffset shape r := by
  induction shape generalizing r r' with
  | nil => cases r <;> cases r' <;> rfl
  | cons d shape ih =>
    cases r with
    | nil =>
      cases r' with
      | nil => rfl
      | cons => simp at hl
    | cons s r =>
      cases r' with
      | nil => simp at hl
      | cons s' r' =>
        simp only [Einsum.maxOffset, ih h.tail (by simpa using hl)]
        by_cases hd : 2 ≤ d
        · have := h 0 (by simpa using hd)
          simp only [List.getD_cons_zero] at this
          rw [this]
        · have : d - 1 = 0 := by omega
          simp [this]

theorem overlapLoop_filter {shape r : List Nat} {is : List Nat} (hd : ∀ i ∈ is, shape.getD i 0 ≠ 0) (sum : Nat) :
    overlapLoop shape r sum is = overlapLoop shape r sum (is.filter fun i => 2 ≤ shape.getD i 0) := by
  induction is generalizing sum with
  | nil => rfl
  | cons i is ih =>
    have h0 := hd i (by simp)
    have ih := fun sum => ih (fun j hj => hd j (by simp [hj])) sum
    by_cases h2 : 2 ≤ shape.getD i 0
    · rw [List.filter_cons_of_pos (by simpa using h2)]
      simp only [overlapLoop, ih]
    · rw [List.filter_cons_of_neg (by simpa using h2), ← ih]
      have h1 : shape.getD i 0 = 1 := by omega
      simp only [overlapLoop, h1]
      simp

theorem overlapLoop_congr {shape r r' : List Nat} {is : List Nat} (h : ∀ i ∈ is, r'.getD i 0 = r.getD i 0) (sum : Nat) :
    overlapLoop shape r' sum is = overlapLoop shape r sum is := by
  induction is generalizing sum with
  | nil => rfl
  | cons i is ih =>
    simp only [overlapLoop, ih fun j hj => h j (by simp [hj]), h i (by simp)]

theorem overlapLoop_increasing {shape r : List Nat} {is : List Nat} {sum : Nat} (hd : ∀ i ∈ is, 2 ≤ shape.getD i 0)
    (h : overlapLoop shape r sum is = false) :
    (∀ i ∈ is, sum < r.getD i 0) ∧ is.Pairwise fun i j => r.getD i 0 < r.getD j 0 := by
  induction is generalizing sum with
  | nil => simp
  | cons i is ih =>
    have h2 := hd i (by simp)
    simp only [overlapLoop] at h
    rw [if_neg (by omega), if_neg (by omega)] at h
    split at h
    · simp at h
    rename_i hs
    obtain ⟨h3, h4⟩ := ih (fun j hj => hd j (by simp [hj])) h
    have hm : r.getD i 0 ≤ (shape.getD i 0 - 1) * r.getD i 0 := Nat.le_mul_of_pos_left _ (by omega)
    refine ⟨fun j hj => ?_, List.pairwise_cons.2 ⟨fun j hj => ?_, h4⟩⟩
    · rcases List.mem_cons.1 hj with rfl | hj
      · omega
      · have := h3 j hj; omega
    · have := h3 j hj; omega

theorem strideOrder_perm (r : List Nat) : (strideOrder (r.map Int.ofNat)).Perm (List.range r.length) := by
  unfold strideOrder
  rw [List.length_map]
  exact List.mergeSort_perm _ _

theorem strideOrder_sorted (r : List Nat) :
    (strideOrder (r.map Int.ofNat)).Pairwise fun i j => r.getD i 0 ≤ r.getD j 0 := by
  have := List.pairwise_mergeSort (le := fun i j : Nat => decide
      (((r.map Int.ofNat).getD i 0).natAbs ≤ ((r.map Int.ofNat).getD j 0).natAbs))
    (by intro a b c; simp only [decide_eq_true_eq]; exact le_trans)
    (by intro a b; simp only [Bool.or_eq_true, decide_eq_true_eq]; exact le_total _ _)
    (List.range (r.map Int.ofNat).length)
  have e : ∀ i, ((r.map Int.ofNat).getD i 0).natAbs = r.getD i 0 := by
    intro i
    simp only [List.getD_eq_getElem?_getD, List.getElem?_map]
    cases r[i]? <;> simp
  simp only [e, decide_eq_true_eq] at this
  unfold strideOrder
  simpa only [e] using this

theorem SameStrides.overlap {shape r r' : List Nat} (h : SameStrides shape r r') (hl : r'.length = r.length)
    (hs : shape.length = r.length) (h0 : ∀ d ∈ shape, d ≠ 0)
    (ho : overlapLoop shape r 0 (strideOrder (r.map Int.ofNat)) = false) :
    overlapLoop shape r' 0 (strideOrder (r'.map Int.ofNat)) = false := by
  have hz : ∀ i < r.length, shape.getD i 0 ≠ 0 := fun i hi => by
    simp only [List.getD_eq_getElem?_getD, List.getElem?_eq_getElem (hs ▸ hi), Option.getD_some]
    exact h0 _ (List.getElem_mem _)
  have p1 := strideOrder_perm r
  have p2 := strideOrder_perm r'
  rw [overlapLoop_filter (fun i hi => hz i (by simpa using p1.mem_iff.1 hi))] at ho
  rw [overlapLoop_filter (fun i hi => hz i (by simpa [hl] using p2.mem_iff.1 hi))]
  have hf : ∀ (l : List Nat), ∀ i ∈ l.filter fun i => decide (2 ≤ shape.getD i 0), 2 ≤ shape.getD i 0 :=
    fun l i hi => by simpa using (List.mem_filter.1 hi).2
  rw [overlapLoop_congr fun i hi => h i (hf _ i hi)]
  have hp : ((strideOrder (r'.map Int.ofNat)).filter fun i => decide (2 ≤ shape.getD i 0)).Perm
      ((strideOrder (r.map Int.ofNat)).filter fun i => decide (2 ≤ shape.getD i 0)) := by
    refine (p2.trans ?_).filter _
    rw [hl]
    exact p1.symm
  have hinc := (overlapLoop_increasing (hf _) ho).2
  have hs' : ((strideOrder (r'.map Int.ofNat)).filter fun i => decide (2 ≤ shape.getD i 0)).Pairwise
      fun i j => r.getD i 0 ≤ r.getD j 0 := by
    refine ((strideOrder_sorted r').filter _).imp_of_mem fun {i j} hi hj hij => ?_
    rwa [h i (hf _ i hi), h j (hf _ j hj)] at hij
  rw [hp.eq_of_pairwise (le := fun i j => r.getD i 0 ≤ r.getD j 0) ?_ hs' (hinc.imp fun h => h.le)]
  · exact ho
  · intro i j hi hj h1 h2
    have hnd : (((strideOrder (r.map Int.ofNat)).filter fun i => decide (2 ≤ shape.getD i 0)).map
        fun i => r.getD i 0).Nodup := (List.pairwise_map.2 hinc).imp fun h => h.ne
    exact List.inj_on_of_nodup_map hnd (hp.mem_iff.1 hi) hj (le_antisymm h1 h2)

theorem SameStrides.fromShape {shape r r' : List Nat} {data : List A} {v : View A} (h : SameStrides shape r r')
    (hl : r'.length = r.length) (hv : fromShapeStrides shape r data = some v) :
    fromShapeStrides shape r' data = some ⟨data, 0, shape, r'.map Int.ofNat⟩ ∧ v = ⟨data, 0, shape, r.map Int.ofNat⟩ := by
  unfold fromShapeStrides at hv ⊢
  rw [hl, h.maxOffset hl]
  split at hv
  · cases hv
  rename_i hlen
  rw [if_neg hlen]
  simp only at hv ⊢
  split at hv
  · cases hv
  rename_i h1
  rw [if_neg h1]
  split at hv
  · cases hv
  rename_i h2
  rw [if_neg h2]
  split at hv
  · cases hv
  rename_i h3
  refine ⟨if_neg ?_, by cases hv; rfl⟩
  intro h4
  simp only [Bool.and_eq_true, Bool.not_eq_true'] at h3 h4
  push Not at h3 hlen
  have ho := h3 h4.1
  have := h.overlap hl hlen (fun d hd h0 => by
    have := h4.1
    rw [List.any_eq_false] at this
    exact absurd (this d hd) (by simp [h0])) (by simpa using ho)
  rw [this] at h4
  exact absurd h4.2 (by simp)

/-- The offset of an axis of length at least two is within the slice. -/
theorem getD_le_maxOffset {shape r : List Nat} (hl : r.length = shape.length) {i : Nat} (hi : 2 ≤ shape.getD i 0) :
    r.getD i 0 ≤ maxOffset shape r := by
  induction shape generalizing r i with
  | nil => simp at hi
  | cons d shape ih =>
    cases r with
    | nil => simp at hl
    | cons s r =>
      simp only [maxOffset]
      cases i with
      | zero =>
        simp only [List.getD_cons_zero] at hi ⊢
        have : s ≤ (d - 1) * s := Nat.le_mul_of_pos_left _ (by omega)
        omega
      | succ i =>
        simp only [List.getD_cons_succ] at hi ⊢
        have := ih (r := r) (by simpa using hl) hi
        omega

theorem fromShape_small {shape r : List Nat} {data : List A} {v : View A} (hv : fromShapeStrides shape r data = some v)
    {i : Nat} (hi : 2 ≤ shape.getD i 0) : r.getD i 0 ≤ data.length := by
  unfold fromShapeStrides at hv
  split at hv
  · cases hv
  rename_i hlen
  push Not at hlen
  have h := getD_le_maxOffset hlen.symm hi
  simp only at hv
  split at hv
  · cases hv
  rename_i h1
  split at hv
  · cases hv
  rename_i h2
  simp only [Bool.and_eq_true, Bool.not_eq_true', decide_eq_true_eq, not_and, not_lt, not_le] at h1 h2
  cases he : shape.any (fun x => decide (x = 0)) with
  | true => have := h1 he; omega
  | false => have := h2 he; omega

theorem dotI_same {shape : List Nat} {s s' : List Int} (h : ∀ i, 2 ≤ shape.getD i 0 → s'.getD i 0 = s.getD i 0)
    (hl : s'.length = s.length) {idx : List Nat} (hi : InB shape idx) : dotI s' idx = dotI s idx := by
  induction shape generalizing s s' idx with
  | nil =>
    cases idx with
    | nil => cases s <;> cases s' <;> rfl
    | cons => exact absurd hi (by simp [InB])
  | cons d shape ih =>
    cases idx with
    | nil => exact absurd hi (by simp [InB])
    | cons x idx =>
      obtain ⟨hx, hi⟩ := hi
      cases s with
      | nil =>
        cases s' with
        | nil => rfl
        | cons => simp at hl
      | cons a s =>
        cases s' with
        | nil => simp at hl
        | cons a' s' =>
          simp only [dotI]
          rw [ih (s := s) (s' := s') (fun i hi => by simpa using h (i + 1) (by simpa using hi)) (by simpa using hl) hi]
          by_cases hd : 2 ≤ d
          · have := h 0 (by simpa using hd)
            simp only [List.getD_cons_zero] at this
            rw [this]
          · have : x = 0 := by omega
            simp [this]

/-! ## The loop -/

theorem diagStridesS_release (W : Nat) (mapping : List Nat) (ss : List Int) : ∀ (acc : List Nat) (idx : Nat),
    diagStridesS (.release W) mapping (acc.map (· % (W + 1))) idx ss =
      (diagStrides mapping acc idx ss).map fun r => r.map (· % (W + 1)) := by
  induction ss with
  | nil => intro acc idx; rfl
  | cons s ss ih =>
    intro acc idx
    simp only [diagStridesS, diagStrides]
    by_cases hs : 0 < s
    swap
    · rw [assertThat_not (by simpa using hs)]; rfl
    rw [assertThat_of (by simpa using hs), bind_ok, bind_ok]
    cases hm : index mapping idx with
    | error e => rfl
    | ok m =>
      rw [bind_ok, bind_ok]
      unfold index
      rw [List.getElem?_map]
      cases hx : acc[m]? with
      | none => rfl
      | some x =>
        simp only [Option.map_some, bind_ok, StrideArith.release]
        rw [← ih, List.map_set, Nat.mod_add_mod]
        rfl

theorem diagStrides_mono {mapping : List Nat} {ss : List Int} : ∀ {acc : List Nat} {idx : Nat} {r : List Nat},
    diagStrides mapping acc idx ss = .ok r → r.length = acc.length ∧ ∀ i, acc.getD i 0 ≤ r.getD i 0 := by
  induction ss with
  | nil => intro acc idx r h; cases h; exact ⟨rfl, fun _ => le_rfl⟩
  | cons s ss ih =>
    intro acc idx r h
    simp only [diagStrides] at h
    obtain ⟨_, _, h⟩ := bind_eq_ok.1 h
    obtain ⟨m, _, h⟩ := bind_eq_ok.1 h
    obtain ⟨x, hx, h⟩ := bind_eq_ok.1 h
    obtain ⟨h1, h2⟩ := ih h
    refine ⟨by simpa using h1, fun i => le_trans ?_ (h2 i)⟩
    have hx : acc[m]? = some x := by
      unfold index at hx
      cases hy : acc[m]? with
      | none => rw [hy] at hx; cases hx
      | some y => rw [hy] at hx; cases hx; rfl
    simp only [List.getD_eq_getElem?_getD, List.getElem?_set]
    by_cases hmi : m = i
    · subst hmi
      obtain ⟨hlt, he⟩ := List.getElem?_eq_some_iff.1 hx
      simp [hlt, he]
    · simp [hmi]

theorem diagStridesS_debug (W : Nat) (mapping : List Nat) (ss : List Int) : ∀ (acc : List Nat) (idx : Nat),
    (∃ k, diagStridesS (.debug W) mapping acc idx ss = panic k) ∨
      ∃ r, diagStridesS (.debug W) mapping acc idx ss = .ok r ∧ diagStrides mapping acc idx ss = .ok r := by
  induction ss with
  | nil => intro acc idx; exact .inr ⟨acc, rfl, rfl⟩
  | cons s ss ih =>
    intro acc idx
    simp only [diagStridesS, diagStrides]
    by_cases hs : 0 < s
    swap
    · rw [assertThat_not (by simpa using hs)]; exact .inl ⟨_, rfl⟩
    rw [assertThat_of (by simpa using hs), bind_ok, bind_ok]
    unfold index
    cases hm : mapping[idx]? with
    | none => exact .inl ⟨_, rfl⟩
    | some m =>
      simp only [bind_ok]
      cases hx : acc[m]? with
      | none => exact .inl ⟨_, rfl⟩
      | some x =>
        simp only [bind_ok, StrideArith.debug]
        by_cases hW : x + s.toNat ≤ W
        · rw [if_pos hW, bind_ok]
          exact ih _ _
        · rw [if_neg hW]
          exact .inl ⟨_, rfl⟩

theorem diagStridesS_fits {ar : StrideArith} {bound : Nat} (ha : ∀ a b, a + b ≤ bound → ar.add a b = .ok (a + b))
    {mapping : List Nat} {ss : List Int} : ∀ {acc : List Nat} {idx : Nat} {r : List Nat},
    diagStrides mapping acc idx ss = .ok r → (∀ x ∈ r, x ≤ bound) → diagStridesS ar mapping acc idx ss = .ok r := by
  induction ss with
  | nil => intro acc idx r h _; exact h
  | cons s ss ih =>
    intro acc idx r h hr
    simp only [diagStrides] at h
    simp only [diagStridesS]
    obtain ⟨_, h1, h⟩ := bind_eq_ok.1 h
    obtain ⟨m, h2, h⟩ := bind_eq_ok.1 h
    obtain ⟨x, h3, h⟩ := bind_eq_ok.1 h
    rw [h1, bind_ok, h2, bind_ok, h3, bind_ok, ha, bind_ok]
    · exact ih h hr
    obtain ⟨e1, e2⟩ := diagStrides_mono h
    have hx : m < acc.length := by
      unfold index at h3
      cases hy : acc[m]? with
      | none => rw [hy] at h3; cases h3
      | some y => exact (List.getElem?_eq_some_iff.1 hy).1
    have e3 := e2 m
    have hm : m < r.length := by rw [e1]; simpa using hx
    simp only [List.getD_eq_getElem?_getD, List.getElem?_set_self hx, List.getElem?_eq_getElem hm, Option.getD_some] at e3
    exact e3.trans (hr _ (List.getElem_mem hm))

/-- Strides that fit are their own absolute value. -/
structure StrideArith.Small (ar : StrideArith) (bound : Nat) : Prop where
  abs : ∀ x ≤ bound, ar.abs x = .ok x
  signed : ∀ x ≤ bound, ar.signed x = x

theorem StrideArith.small_debug (W : Nat) : (StrideArith.debug W).Small (W / 2) :=
  ⟨fun x hx => by simp [StrideArith.debug, hx], fun x hx => by simp [StrideArith.debug, asSigned, hx]⟩

theorem StrideArith.small_release (W : Nat) : (StrideArith.release W).Small (W / 2) :=
  ⟨fun x hx => by simp [StrideArith.release, hx], fun x hx => by simp [StrideArith.release, asSigned, hx]⟩

theorem slice_length {t : View A} {data : List A} (h : t.asSliceMemoryOrder = some data) :
    data.length ≤ t.shape.prod := by
  unfold View.asSliceMemoryOrder at h
  split at h
  · split at h
    · cases h; simp
    · cases h; exact List.length_take_le _ _
  · cases h

theorem mapE_getD {α β : Type} {f : α → M β} {l : List α} {r : List β} (h : mapE f l = .ok r) (a : α) (b : β) :
    ∀ i < l.length, f (l.getD i a) = .ok (r.getD i b) := by
  intro i hi
  have h' := mapE_eq_ok.1 h
  have hr : i < r.length := by rw [← h'.length_eq]; exact hi
  simp only [List.getD_eq_getElem?_getD, List.getElem?_eq_getElem hi, List.getElem?_eq_getElem hr, Option.getD_some]
  exact (List.forall₂_iff_get.1 h').2 i hi hr

/-- `from_shape` with strides that agree on the axes of length at least two. -/
theorem fromShapeStridesS_same {ar : StrideArith} {bound : Nat} (hs : ar.Small bound) {shape r q : List Nat} {data : List A}
    {w : View A} (hw : fromShapeStrides shape r data = some w) (hd : data.length ≤ bound) (hq : SameStrides shape r q)
    (hl : q.length = r.length) {a : List Nat} (ha : mapE ar.abs q = .ok a) :
    ∃ w', fromShapeStridesS ar shape q data = .ok (some w') ∧ w'.shape = w.shape ∧ w'.strides.length = w.strides.length ∧
      ∀ idx, w'.read idx = w.read idx := by
  have hal : a.length = q.length := (mapE_eq_ok.1 ha).length_eq.symm
  have hlen : shape.length = r.length := by
    unfold fromShapeStrides at hw
    split at hw
    · cases hw
    · rename_i h; simpa using h
  have hlt : ∀ i, 2 ≤ shape.getD i 0 → i < q.length := fun i hi => by
    by_contra hn
    rw [List.getD_eq_getElem?_getD, List.getElem?_eq_none (by omega)] at hi
    simp at hi
  have hsmall : ∀ i, 2 ≤ shape.getD i 0 → q.getD i 0 ≤ bound := fun i hi => by
    rw [hq i hi]
    exact (fromShape_small hw hi).trans hd
  have hsa : SameStrides shape r a := fun i hi => by
    have h1 := mapE_getD ha 0 0 i (hlt i hi)
    rw [hs.abs _ (hsmall i hi)] at h1
    rw [← hq i hi]
    exact (Except.ok.inj h1).symm
  obtain ⟨h1, h2⟩ := hsa.fromShape (by rw [hal, hl]) hw
  refine ⟨⟨data, 0, shape, q.map ar.signed⟩, ?_, ?_, ?_, fun idx => ?_⟩
  · unfold fromShapeStridesS
    rw [if_neg (by simp [hlen, hl]), ha, bind_ok, h1]
    rfl
  · rw [h2]
  · rw [h2]; simp [hl]
  · rw [h2]
    unfold View.read
    by_cases hi : InB shape idx
    · rw [if_pos hi, if_pos hi]
      simp only
      rw [dotI_same (shape := shape) (s := r.map Int.ofNat) (fun i hi => ?_) (by simp [hl]) hi]
      have h3 := hlt i hi
      have h4 : i < r.length := hl ▸ h3
      have h5 := hs.signed _ (hsmall i hi)
      have h6 := hq i hi
      simp only [List.getD_eq_getElem?_getD, List.getElem?_map, List.getElem?_eq_getElem h3, List.getElem?_eq_getElem h4,
        Option.getD_some, Option.map_some] at h5 h6 ⊢
      rw [h5, h6]
      rfl
    · rw [if_neg hi, if_neg hi]

/-! ## C77 -/

theorem view_parts {d : Diagonalization} {t w : View A} (hw : d.view t = .ok w) :
    ∃ r data, diagStrides d.inputToOutputMapping (d.outputShape.map fun _ => 0) 0 t.strides = .ok r ∧
      unwrapO t.asSliceMemoryOrder = .ok data ∧ data.length ≤ t.shape.prod ∧
      fromShapeStrides d.outputShape r data = some w := by
  unfold Diagonalization.view at hw
  obtain ⟨r, h1, hw⟩ := bind_eq_ok.1 hw
  obtain ⟨data, h2, hw⟩ := bind_eq_ok.1 hw
  refine ⟨r, data, h1, h2, slice_length ?_, ?_⟩
  · cases ht : t.asSliceMemoryOrder with
    | none => rw [ht] at h2; cases h2
    | some x => rw [ht] at h2; cases h2; rfl
  · cases hf : fromShapeStrides d.outputShape r data with
    | none => rw [hf] at hw; cases hw
    | some x => rw [hf] at hw; cases hw; rfl

/-- C77: a build without overflow checks shows the elements that exact sums of strides show. -/
theorem C77_release (W : Nat) (d : Diagonalization) (t w : View A) (hlen : t.shape.prod ≤ W / 2)
    (hw : d.view t = .ok w) :
    ∃ w', d.viewS (.release W) t = .ok w' ∧ w'.shape = w.shape ∧ w'.strides.length = w.strides.length ∧
      ∀ idx, w'.read idx = w.read idx := by
  obtain ⟨r, data, h1, h2, hd, h3⟩ := view_parts hw
  replace hd := hd.trans hlen
  have e := diagStridesS_release W d.inputToOutputMapping t.strides (d.outputShape.map fun _ => 0) 0
  rw [h1, List.map_map, show ((· % (W + 1)) ∘ fun _ : Nat => 0) = fun _ => 0 from by funext; simp] at e
  obtain ⟨a, ha⟩ : ∃ a, mapE (StrideArith.release W).abs (r.map (· % (W + 1))) = .ok a :=
    ⟨_, mapE_ok (g := fun s => if s ≤ W / 2 then s else W + 1 - s) fun s _ => rfl⟩
  obtain ⟨w', e1, e2⟩ := fromShapeStridesS_same (StrideArith.small_release W) h3 hd (q := r.map (· % (W + 1)))
    (fun i hi => by
      have h4 := (fromShape_small h3 hi).trans hd
      have h5 : (r.map (· % (W + 1))).getD i 0 = r.getD i 0 % (W + 1) := by
        simp only [List.getD_eq_getElem?_getD, List.getElem?_map]
        cases r[i]? <;> simp
      rw [h5, Nat.mod_eq_of_lt (by omega)]) (by simp) ha
  refine ⟨w', ?_, e2⟩
  unfold Diagonalization.viewS
  rw [e]
  simp only [Except.map, bind_ok, h2, e1]

/-- C77: a build with overflow checks panics or shows these elements. -/
theorem C77_debug (W : Nat) (d : Diagonalization) (t w : View A) (hlen : t.shape.prod ≤ W / 2)
    (hw : d.view t = .ok w) :
    (∃ k, d.viewS (.debug W) t = panic k) ∨
    ∃ w', d.viewS (.debug W) t = .ok w' ∧ w'.shape = w.shape ∧ w'.strides.length = w.strides.length ∧
      ∀ idx, w'.read idx = w.read idx := by
  obtain ⟨r, data, h1, h2, hd, h3⟩ := view_parts hw
  unfold Diagonalization.viewS
  rcases diagStridesS_debug W d.inputToOutputMapping t.strides (d.outputShape.map fun _ => 0) 0 with
    ⟨k, hk⟩ | ⟨r', e1, e2⟩
  · exact .inl ⟨k, by rw [hk]; rfl⟩
  rw [h1] at e2
  cases e2
  rw [e1, bind_ok, h2, bind_ok]
  have hlr : d.outputShape.length = r.length := by
    have := (diagStrides_mono h1).1
    simpa using this.symm
  cases ha : mapE (StrideArith.debug W).abs r with
  | error e =>
    refine .inl ?_
    have : ∃ k, e = .panic k := by
      clear h1 h3 e1 hlr
      induction r with
      | nil => cases ha
      | cons x r ih =>
        simp only [mapE] at ha
        cases hx : (StrideArith.debug W).abs x with
        | error e' =>
          rw [hx] at ha
          cases ha
          simp only [StrideArith.debug] at hx
          split at hx
          · cases hx
          · split at hx
            · exact ⟨_, (Except.error.inj hx).symm⟩
            · cases hx
        | ok y =>
          rw [hx, bind_ok] at ha
          cases hr : mapE (StrideArith.debug W).abs r with
          | error e' =>
            rw [hr] at ha
            cases ha
            exact ih hr
          | ok ys => rw [hr] at ha; cases ha
    obtain ⟨k, rfl⟩ := this
    refine ⟨k, ?_⟩
    unfold fromShapeStridesS
    rw [if_neg (by simp [hlr]), ha]
    rfl
  | ok a =>
    obtain ⟨w', e3, e4⟩ := fromShapeStridesS_same (StrideArith.small_debug W) h3 (hd.trans hlen) (q := r)
      (fun _ _ => rfl) rfl ha
    exact .inr ⟨w', by rw [e3]; rfl, e4⟩

/-- C77: if every sum fits in `isize`, both builds return the very view. -/
theorem C77_fits (W : Nat) (ar : StrideArith) (har : ar = .debug W ∨ ar = .release W) (d : Diagonalization) (t w : View A)
    (hw : d.view t = .ok w) (hs : ∀ s ∈ w.strides, s ≤ (W / 2 : Nat)) : d.viewS ar t = .ok w := by
  obtain ⟨r, data, h1, h2, -, h3⟩ := view_parts hw
  have hv := (SameStrides.fromShape (fun _ _ => rfl : SameStrides d.outputShape r r) rfl h3).2
  have hr : ∀ x ∈ r, x ≤ W / 2 := fun x hx => by
    have := hs x (by rw [hv]; exact List.mem_map.2 ⟨x, hx, rfl⟩)
    omega
  have hsm : ar.Small (W / 2) := by
    rcases har with rfl | rfl
    · exact StrideArith.small_debug W
    · exact StrideArith.small_release W
  have hadd : ∀ a b, a + b ≤ W / 2 → ar.add a b = .ok (a + b) := fun a b hab => by
    rcases har with rfl | rfl
    · exact if_pos (by omega)
    · simp only [StrideArith.release]
      rw [Nat.mod_eq_of_lt (by omega)]
  have hlr : d.outputShape.length = r.length := by
    have := (diagStrides_mono h1).1
    simpa using this.symm
  have ha : mapE ar.abs r = .ok r := by
    have := mapE_ok (f := ar.abs) (g := id) (l := r) fun x hx => hsm.abs x (hr x hx)
    simpa using this
  unfold Diagonalization.viewS
  rw [diagStridesS_fits hadd h1 hr, bind_ok, h2, bind_ok]
  unfold fromShapeStridesS
  rw [if_neg (by simp [hlr]), ha, bind_ok, h3]
  have : r.map ar.signed = r.map Int.ofNat := List.map_congr_left fun x hx => hsm.signed x (hr x hx)
  simp only [Option.map_some, this]
  rw [hv]
  rfl

/-! ## Contractors -/

theorem Rep.of_reads {ι : Type} {dims : ι → Nat} {v w : View A} {L : List ι} {F : (ι → Nat) → A} (h : Rep v L dims F)
    (h1 : w.shape = v.shape) (h2 : w.strides.length = v.strides.length) (h3 : ∀ idx, w.read idx = v.read idx) :
    Rep w L dims F := ⟨h1.trans h.shape, h2.trans h.strides, fun σ hσ => (h3 _).trans (h.get σ hσ)⟩

theorem Rep.diagRunS {t : View A} {L adj : List Char} {dims : Char → Nat} {F : (Char → Nat) → A} (h : Rep t L dims F)
    (hwf : t.Wf) (hp : 0 < (L.map dims).prod) (hadj : adj.Nodup) (hLa : ∀ c ∈ L, c ∈ adj)
    (haL : ∀ c ∈ adj, c ∈ L) (al : Alloc A) (W : Nat) (hlen : t.shape.prod ≤ W / 2) :
    ∃ w, Diagonalization.runS (.release W) ⟨L.map fun c => pos c adj, adj.map dims⟩ al t = .ok w ∧
      Rep w adj dims F := by
  classical
  obtain ⟨i0, hi0⟩ : ∃ i, InB t.shape i := ⟨unravel t.shape 0, InB_unravel (by rw [h.shape]; exact hp)⟩
  obtain ⟨x0, _⟩ := hwf.2 i0 hi0
  obtain ⟨T, hT⟩ : ∃ T, Holds t t.shape T := by
    refine ⟨fun idx => if hi : InB t.shape idx then (hwf.2 idx hi).choose else x0, rfl, hwf.1,
      fun idx hi => ?_⟩
    rw [dif_pos hi]; exact (hwf.2 idx hi).choose_spec
  obtain ⟨cl, h1, h2, h3⟩ := fromShapeVec_map_self t.shape T
  have hcl : Rep cl L dims F := by
    refine ⟨by rw [h3.shape, h.shape], by rw [h3.strides, h.shape]; simp, fun σ hσ => ?_⟩
    have hi := inB_of_inRange hσ
    rw [← h.shape] at hi
    rw [h3.get _ hi, ← hT.get _ hi, h.get σ hσ]
  obtain ⟨w, h4, h5⟩ := hcl.diagView h3.wf hp
    (by rw [h3.shape, h2]; exact isContiguous_default _)
    (by rw [h2]; exact default_pos (by rw [h.shape]; exact hp)) hadj hLa haL
  obtain ⟨w', e1, e2, e3, e4⟩ := C77_release W _ cl w (by rw [h3.shape]; exact hlen) h4
  obtain ⟨w'', h6, h7⟩ := (h5.of_reads e2 e3 e4).toOwned hadj al
  exact ⟨w'', by simp [Diagonalization.runS, hT.toVec, h1, e1, h6], h7⟩

theorem Rep.diagEitherS {t : View A} {L adj : List Char} {dims : Char → Nat} {F : (Char → Nat) → A} (h : Rep t L dims F)
    (hwf : t.Wf) (hp : 0 < (L.map dims).prod) (hadj : adj.Nodup) (hLa : ∀ c ∈ L, c ∈ adj)
    (haL : ∀ c ∈ adj, c ∈ L) (al : Alloc A) (W : Nat) (hlen : t.shape.prod ≤ W / 2) :
    ∃ w, (if t.asSliceMemoryOrder.isSome && t.strides.all (fun s => 0 < s) then
        Diagonalization.viewS (.release W) ⟨L.map fun c => pos c adj, adj.map dims⟩ t
      else Diagonalization.runS (.release W) ⟨L.map fun c => pos c adj, adj.map dims⟩ al t) = .ok w ∧
      Rep w adj dims F := by
  obtain ⟨w, h1, h2⟩ := h.diagEither hwf hp hadj hLa haL al
  split
  · rename_i hcond
    rw [if_pos hcond] at h1
    obtain ⟨w', e1, e2, e3, e4⟩ := C77_release W _ t w hlen h1
    exact ⟨w', e1, h2.of_reads e2 e3 e4⟩
  · exact h.diagRunS hwf hp hadj hLa haL al W hlen

/-- C77: `Diagonalization` in a build without overflow checks: right for every operand without an empty axis. -/
theorem C77_diagonalization [CommSemiring A] (W : Nat) (h : HashOrd) (al : Alloc A) (L out : List Char) (v : View A)
    (t : List Nat → A) (dims : Char → Nat) (sc : SizedContraction) (hp : SingleSetting h L out v t dims sc)
    (hall : ∀ c ∈ L, c ∈ out) (hne : 0 < v.shape.prod) (hlen : v.shape.prod ≤ W / 2) :
    ∃ p w, Diagonalization.new sc = .ok p ∧ p.runS (.release W) al v = .ok w ∧ IsEinsum dims [L] [t] out w := by
  obtain ⟨ho, rfl⟩ := hp.sizing.eq hp.sized
  have hval := callSC_valid (dims := dims) ho
  have hsub : ∀ c ∈ out, c ∈ L := fun c hc => by simpa using used_iff.1 (ho.2 c hc)
  obtain ⟨new, h1, h2, h3⟩ := Diagonalization.new_ok hval (L := L) rfl
  change Diagonalization.new _ = .ok ⟨L.map fun c => pos c (out ++ new), (out ++ new).map dims⟩ at h1
  have hnil : new = [] := List.eq_nil_iff_forall_not_mem.2 fun c hc => ((h3 c).1 hc).2 (hall c ((h3 c).1 hc).1)
  rw [hnil, List.append_nil] at h1
  obtain ⟨w, w1, w2⟩ := hp.rep.diagRunS hp.elements.1 (by rw [← hp.rep.shape]; exact hne) ho.1 hall hsub al W hlen
  refine ⟨_, w, h1, w1, Rep.isEinsum_one ho.1 ?_⟩
  rw [summed_one_nil hall]
  exact w2

/-- C77: `DiagonalizationAndSummation` in a build without overflow checks: right for every operand without an empty
axis, whatever its strides. -/
theorem C77_summation [CommSemiring A] (W : Nat) (h : HashOrd) (al : Alloc A) (L out : List Char) (v : View A)
    (t : List Nat → A) (dims : Char → Nat) (sc : SizedContraction) (hp : SingleSetting h L out v t dims sc)
    (c : Char) (hc : c ∈ L) (hco : c ∉ out) (hne : 0 < v.shape.prod) (hlen : v.shape.prod ≤ W / 2) :
    ∃ d w, DiagonalizationAndSummation.new sc = .ok d ∧ d.runS (.release W) al v = .ok w ∧
      IsEinsum dims [L] [t] out w := by
  obtain ⟨ho, new, h1, h2, h3⟩ := diagAndSum_new hp.sized hp.sizing
  have hnew : new ≠ [] := List.ne_nil_of_mem ((h2 c).2 ⟨hc, hco⟩)
  rw [if_neg hnew] at h3
  have hsub : ∀ c ∈ out, c ∈ L := fun c hc => by simpa using used_iff.1 (ho.2 c hc)
  have hLa : ∀ c ∈ L, c ∈ out ++ new := fun c hc => by
    rw [List.mem_append, h2]
    by_cases hco : c ∈ out
    · exact .inl hco
    · exact .inr ⟨hc, hco⟩
  have haL : ∀ c ∈ out ++ new, c ∈ L := fun c hc => by
    rcases List.mem_append.1 hc with h | h
    · exact hsub c h
    · exact ((h2 c).1 h).1
  obtain ⟨w, w1, w2⟩ := hp.rep.diagEitherS hp.elements.1 (by rw [← hp.rep.shape]; exact hne) h1 hLa haL
    (al.sub 0) W hlen
  obtain ⟨x, x1, x2⟩ := w2.summation h1 hnew ((List.range new.length).map (out.length + ·)) (al.sub 1)
  refine ⟨_, x, h3, ?_, Rep.isEinsum_one ho.1 ?_⟩
  · simp only [DiagonalizationAndSummation.runS]
    split at w1
    · rename_i hcond
      rw [if_pos hcond, w1, bind_ok, x1]
    · rename_i hcond
      rw [if_neg hcond, w1, bind_ok, x1]
  · rw [← sumOver_summed (S := new) (List.nodup_append.1 h1).2.1]
    · exact x2
    · intro c; simpa using h2 c

/-- C77: whatever contractor is selected for one operand, a build without overflow checks computes the Einstein sum. -/
theorem C77_contraction [CommSemiring A] (W : Nat) (h : HashOrd) (al : Alloc A) (L out : List Char) (v : View A)
    (t : List Nat → A) (dims : Char → Nat) (sc : SizedContraction) (hp : SingleSetting h L out v t dims sc)
    (hne : 0 < v.shape.prod) (hlen : v.shape.prod ≤ W / 2) :
    ∃ p w, SingletonContraction.new sc = .ok p ∧ p.op.runS (.release W) al v = .ok w ∧ IsEinsum dims [L] [t] out w := by
  obtain ⟨ho, hsc⟩ := hp.sizing.eq hp.sized
  have hv := callSC_valid (dims := dims) ho
  obtain ⟨p, p1, -, p3⟩ := singleton_ok (L := L) hv rfl
  rw [← hsc] at p1
  obtain ⟨p', q1, q2⟩ := C47_singleton h sc L out _ hp.sizing
  rw [p1] at q1
  cases q1
  obtain ⟨r, r1, r2⟩ := (p3 A al v _ hp.rep hp.elements.1).1 (.inr (.inl (by rw [← hp.rep.shape]; exact hne)))
  have hr : IsEinsum dims [L] [t] out r := Rep.isEinsum_one ho.1 r2
  have p1' := p1
  simp only [SingletonContraction.new] at p1'
  obtain ⟨summary, -, p1'⟩ := bind_eq_ok.1 p1'
  obtain ⟨op, o1, p1'⟩ := bind_eq_ok.1 p1'
  cases p1'
  simp only at q2 r1
  by_cases hd : L.Nodup
  · refine ⟨_, r, p1, ?_, hr⟩
    rw [← r1]
    rw [q2, Spec.singletonMethod, if_pos hd] at o1
    split_ifs at o1 <;> (try cases o1; rfl) <;>
    · obtain ⟨x, -, o2⟩ := bind_eq_ok.1 o1
      cases o2
      rfl
  by_cases hall : ∀ c ∈ L, c ∈ out
  · obtain ⟨d, w, w1, w2, w3⟩ := C77_diagonalization W h al L out v t dims sc hp hall hne hlen
    rw [q2, Spec.singletonMethod, if_neg hd, if_pos hall, SingletonOp.new, w1] at o1
    cases o1
    exact ⟨_, w, p1, w2, w3⟩
  · obtain ⟨c, hc⟩ := not_forall.1 hall
    obtain ⟨hc, hco⟩ := Classical.not_imp.1 hc
    obtain ⟨d, w, w1, w2, w3⟩ := C77_summation W h al L out v t dims sc hp c hc hco hne hlen
    rw [q2, Spec.singletonMethod, if_neg hd, if_neg hall, SingletonOp.new, w1] at o1
    cases o1
    exact ⟨_, w, p1, w2, w3⟩

/-! ### Strides near the end of the machine range -/

/-- A 1×1 array whose strides are the half of the largest signed word: they are never followed. -/
def Ex.wide : View Int := ⟨[7], 0, [1, 1], [2 ^ 62, 2 ^ 62]⟩

namespace Ex

theorem wide_slice : wide.asSliceMemoryOrder = some [7] := by
  have h1 : strideOrder [2 ^ 62, 2 ^ 62] = [0, 1] := by
    simp [strideOrder, List.range_succ, List.mergeSort, List.MergeSort.Internal.splitInTwo]
  have : isContiguous wide.shape wide.strides = true := by
    simp only [isContiguous, wide, h1]
    rfl
  rw [View.asSliceMemoryOrder, if_pos this]
  rfl

/-- A 64-bit machine. -/
abbrev word64 : Nat := 2 ^ 64 - 1

theorem wide_view : Diagonalization.viewS (.release word64) ⟨[0, 0], [1]⟩ wide = .ok ⟨[7], 0, [1], [-2 ^ 63]⟩ := by
  simp only [Diagonalization.viewS, wide_slice, unwrapO]
  rw [show diagStridesS (.release word64) [0, 0] (List.map (fun _ => 0) [1]) 0 wide.strides = .ok [2 ^ 63] from rfl]
  have h1 : strideOrder [Int.ofNat (2 ^ 63)] = [0] := by
    simp [strideOrder, List.range_succ]
  simp only [bind_ok, fromShapeStridesS, List.length_cons, List.length_nil, ne_eq, not_true_eq_false, if_false,
    show mapE (StrideArith.release word64).abs [2 ^ 63] = .ok [2 ^ 63] from rfl]
  simp only [fromShapeStrides, List.map, h1]
  rfl

theorem wide_view_debug : Diagonalization.viewS (.debug word64) ⟨[0, 0], [1]⟩ wide = panic .addOverflow := by
  simp only [Diagonalization.viewS, wide_slice, unwrapO]
  rw [show diagStridesS (.debug word64) [0, 0] (List.map (fun _ => 0) [1]) 0 wide.strides = .ok [2 ^ 63] from rfl]
  rfl

theorem wide_compiled : SingletonContraction.new (callSC [['i', 'i']] [] fun _ => 1) =
    .ok ⟨.diagonalizationAndSummation, .diagonalizationAndSummation ⟨⟨[0, 0], [1]⟩, ⟨[0], [0]⟩⟩⟩ := rfl

theorem wide_exact : Diagonalization.view ⟨[0, 0], [1]⟩ wide = .ok ⟨[7], 0, [1], [2 ^ 63]⟩ := by
  have h1 : strideOrder [Int.ofNat (2 ^ 63)] = [0] := by
    simp [strideOrder, List.range_succ]
  simp only [Diagonalization.view, wide_slice, unwrapO]
  rw [show diagStrides [0, 0] (List.map (fun _ => 0) [1]) 0 wide.strides = .ok [2 ^ 63] from rfl]
  simp only [bind_ok, fromShapeStrides, List.map, h1]
  rfl

theorem wide_elems : Elements wide fun _ => 7 := elements_of rfl (by decide)

/-- `ii->` over `wide` is a valid call. -/
theorem wide_setting (h : HashOrd) :
    SingleSetting h ['i', 'i'] [] wide (fun _ => 7) (fun _ => 1) (callSC [['i', 'i']] [] fun _ => 1) :=
  ⟨.cons rfl .nil, sizes_callSC (by simp [OutputOk]) (.cons rfl .nil), wide_elems⟩

end Ex

example : ∃ w', Diagonalization.viewS (.release Ex.word64) ⟨[0, 0], [1]⟩ Ex.wide = .ok w' ∧ w'.shape = [1] ∧
    w'.strides.length = 1 ∧ ∀ idx, w'.read idx = View.read ⟨[7], 0, [1], [2 ^ 63]⟩ idx :=
  C77_release _ _ _ _ (by decide) Ex.wide_exact

example : (∃ k, Diagonalization.viewS (.debug Ex.word64) ⟨[0, 0], [1]⟩ Ex.wide = panic k) ∨
    ∃ w', Diagonalization.viewS (.debug Ex.word64) ⟨[0, 0], [1]⟩ Ex.wide = .ok w' ∧ w'.shape = [1] ∧
      w'.strides.length = 1 ∧ ∀ idx, w'.read idx = View.read ⟨[7], 0, [1], [2 ^ 63]⟩ idx :=
  C77_debug _ _ _ _ (by decide) Ex.wide_exact

/-- With a larger word the sum fits. -/
example : Diagonalization.viewS (.debug (2 ^ 65 - 1)) ⟨[0, 0], [1]⟩ Ex.wide = .ok ⟨[7], 0, [1], [2 ^ 63]⟩ :=
  C77_fits _ _ (.inl rfl) _ _ _ Ex.wide_exact (by decide)

example (h : HashOrd) (al : Alloc Int) : ∃ p w, Diagonalization.new (callSC [['j', 'j', 'k']] ['k', 'j'] Ex.dims) = .ok p ∧
    p.runS (.release Ex.word64) al Ex.m332 = .ok w ∧
    IsEinsum Ex.dims [['j', 'j', 'k']] [Ex.elems Ex.m332] ['k', 'j'] w :=
  C77_diagonalization _ h al _ _ _ _ _ _ (Ex.single _ (by simp [OutputOk, Used]) (by decide) Ex.e332) (by simp)
    (by decide) (by decide)

example (h : HashOrd) (al : Alloc Int) : ∃ d w, DiagonalizationAndSummation.new (callSC [['i', 'i']] [] fun _ => 1) = .ok d ∧
    d.runS (.release Ex.word64) al Ex.wide = .ok w ∧ IsEinsum (fun _ => 1) [['i', 'i']] [fun _ => 7] [] w :=
  C77_summation _ h al _ _ _ _ _ _ (Ex.wide_setting h) 'i' (by simp) (by simp) (by decide) (by decide)

example (h : HashOrd) (al : Alloc Int) : ∃ p w, SingletonContraction.new (callSC [['i', 'i']] [] fun _ => 1) = .ok p ∧
    p.op.runS (.release Ex.word64) al Ex.wide = .ok w ∧ IsEinsum (fun _ => 1) [['i', 'i']] [fun _ => 7] [] w :=
  C77_contraction _ h al _ _ _ _ _ _ (Ex.wide_setting h) (by decide) (by decide)

/-- C77: the trace of a 1 by 1 view with strides `2^62` panics in a build with overflow checks; without them, and in
exact arithmetic, it is the element. -/
theorem C77_overflow : ∃ p, SingletonContraction.new (callSC [['i', 'i']] [] fun _ => 1) = .ok p ∧
    p.op.runS (.debug Ex.word64) (Alloc.rowMajor Int) Ex.wide = panic .addOverflow ∧
    (∃ w, p.op.runS (.release Ex.word64) (Alloc.rowMajor Int) Ex.wide = .ok w ∧ w.shape = [] ∧ w.read [] = .ok 7) ∧
    ∃ w, p.op.run (Alloc.rowMajor Int) Ex.wide = .ok w ∧ w.shape = [] ∧ w.read [] = .ok 7 := by
  refine ⟨_, Ex.wide_compiled, ?_, ?_, ?_⟩
  · simp only [SingletonOp.runS, DiagonalizationAndSummation.runS, Ex.wide_slice, Ex.wide_view_debug]
    rfl
  · simp only [SingletonOp.runS, DiagonalizationAndSummation.runS, Ex.wide_slice, Ex.wide_view]
    exact ⟨_, by with_unfolding_all rfl, by with_unfolding_all rfl, by with_unfolding_all rfl⟩
  · simp only [SingletonOp.run, DiagonalizationAndSummation.run, Ex.wide_slice, Ex.wide_exact]
    exact ⟨_, by with_unfolding_all rfl, by with_unfolding_all rfl, by with_unfolding_all rfl⟩

/-- C77: the arithmetic on strides is that of two's complement words: `asSigned` reads a word as a signed number, sums wrap
around or, with overflow checks, panic; the absolute value of the least number wraps around to itself or panics. -/
theorem C77_words (n : Nat) (hn : 0 < n) (W : Nat) (hW : W + 1 = 2 ^ n) (a b : BitVec n) :
    asSigned W a.toNat = a.toInt ∧
    (StrideArith.release W).signed a.toNat = a.toInt ∧ (StrideArith.debug W).signed a.toNat = a.toInt ∧
    (StrideArith.release W).add a.toNat b.toNat = .ok (a + b).toNat ∧
    (StrideArith.debug W).add a.toNat b.toNat =
      (if a.toNat + b.toNat < 2 ^ n then .ok (a + b).toNat else panic .addOverflow) ∧
    (StrideArith.release W).abs a.toNat = .ok a.abs.toNat ∧
    (StrideArith.debug W).abs a.toNat = if a = BitVec.intMin n then panic .addOverflow else .ok a.abs.toNat := by
  obtain ⟨m, rfl⟩ : ∃ m, n = m + 1 := ⟨n - 1, by omega⟩
  have h2 : 2 ^ (m + 1) = 2 * 2 ^ m := by rw [Nat.pow_succ, Nat.mul_comm]
  have hp : 0 < 2 ^ m := Nat.two_pow_pos m
  have ha := a.isLt
  have hb := b.isLt
  have hs : asSigned W a.toNat = a.toInt := by
    rw [asSigned, BitVec.toInt_eq_toNat_cond]
    by_cases h : a.toNat ≤ W / 2
    · rw [if_pos h, if_pos (by omega)]
    · rw [if_neg h, if_neg (by omega)]
      push_cast at hW ⊢
      have : ((2 : Int) ^ (m + 1)) = W + 1 := by exact_mod_cast hW.symm
      rw [this]
  have habs : a.abs.toNat = if a.toNat ≤ W / 2 then a.toNat else W + 1 - a.toNat := by
    rw [BitVec.abs_eq, BitVec.msb_eq_decide]
    have e : m + 1 - 1 = m := rfl
    by_cases h : a.toNat ≤ W / 2
    · rw [if_pos h, if_neg (by simp only [e, decide_eq_true_eq]; omega)]
    · rw [if_neg h, if_pos (by simp only [e, decide_eq_true_eq]; omega), BitVec.toNat_neg, Nat.mod_eq_of_lt (by omega), hW]
  have hmin : a = BitVec.intMin (m + 1) ↔ a.toNat = W / 2 + 1 := by
    rw [← BitVec.toNat_inj, BitVec.toNat_intMin, Nat.mod_eq_of_lt (by simp only [Nat.add_sub_cancel]; omega)]
    simp only [Nat.add_sub_cancel]
    omega
  refine ⟨hs, hs, hs, ?_, ?_, ?_, ?_⟩
  · simp only [StrideArith.release, BitVec.toNat_add, hW]
  · simp only [StrideArith.debug, BitVec.toNat_add]
    by_cases h : a.toNat + b.toNat ≤ W
    · rw [if_pos h, if_pos (by omega), Nat.mod_eq_of_lt (by omega)]
    · rw [if_neg h, if_neg (by omega)]
  · simp only [StrideArith.release, habs]
  · simp only [StrideArith.debug, habs, hmin]
    by_cases h : a.toNat ≤ W / 2
    · rw [if_pos h, if_neg (by omega), if_pos h]
    · rw [if_neg h, if_neg h]

example : (StrideArith.debug 255).abs 128 = panic .addOverflow ∧ (StrideArith.release 255).abs 128 = .ok 128 :=
  ⟨(C77_words 8 (by decide) 255 rfl 128 0).2.2.2.2.2.2, (C77_words 8 (by decide) 255 rfl 128 0).2.2.2.2.2.1⟩

example : (StrideArith.release 255).signed 255 = -1 := (C77_words 8 (by decide) 255 rfl 255 0).2.1

end Einsum
