import Verif.Proofs.Index
import Mathlib.Algebra.BigOperators.Group.Finset.Basic
import Mathlib.Algebra.BigOperators.Intervals

/-! # Logical contents of strided arrays, and what each array operation does to them -/

namespace Einsum

variable {A : Type}

/-- `v` has shape `s` and element `T idx` at each valid index `idx`. -/
structure Holds (v : View A) (s : List Nat) (T : List Nat → A) : Prop where
  shape : v.shape = s
  strides : v.strides.length = s.length
  get : ∀ idx, InB s idx → v.read idx = .ok (T idx)

theorem Holds.wf {v : View A} {s T} (h : Holds v s T) : v.Wf :=
  ⟨by rw [h.strides, h.shape], fun idx hi => ⟨_, h.get idx (h.shape ▸ hi)⟩⟩

theorem Holds.congr {v : View A} {s T T'} (h : Holds v s T) (hT : ∀ idx, InB s idx → T idx = T' idx) :
    Holds v s T' := ⟨h.shape, h.strides, fun idx hi => by rw [h.get idx hi, hT idx hi]⟩

theorem Holds.unique {v : View A} {s T T'} (h : Holds v s T) (h' : Holds v s T') {idx : List Nat}
    (hi : InB s idx) : T idx = T' idx := by
  have := h.get idx hi
  rw [h'.get idx hi] at this
  exact (Except.ok.inj this).symm

theorem Holds.readAt {v : View A} {s T} (h : Holds v s T) {idx : List Nat} (hi : InB s idx) :
    readAt v.buf (v.off + dotI v.strides idx) = .ok (T idx) := by
  have := h.get idx hi
  rwa [View.read, h.shape, if_pos hi] at this

theorem Holds.of_readAt {v : View A} {s T} (hs : v.shape = s) (hl : v.strides.length = s.length)
    (h : ∀ idx, InB s idx → Einsum.readAt v.buf (v.off + dotI v.strides idx) = .ok (T idx)) :
    Holds v s T :=
  ⟨hs, hl, fun idx hi => by rw [View.read, hs, if_pos hi, h idx hi]⟩

/-- Every valid array has logical contents. -/
theorem View.Wf.holds [Zero A] {v : View A} (h : v.Wf) : ∃ T, Holds v v.shape T := by
  classical
  refine ⟨fun idx => if hi : InB v.shape idx then (h.2 idx hi).choose else 0, rfl, h.1, fun idx hi => ?_⟩
  rw [dif_pos hi]; exact (h.2 idx hi).choose_spec

theorem Holds.toVec {v : View A} {s T} (h : Holds v s T) : v.toVec = .ok ((allIdx s).map T) := by
  rw [View.toVec, h.shape]
  exact mapE_ok fun idx hi => h.get idx (mem_allIdx.1 hi)

theorem readAt_nat {buf : List A} {n : Nat} {x : A} (h : buf[n]? = some x) :
    readAt buf (n : Int) = .ok x := by
  simp [readAt, h]

/-- A buffer read row-major from its start. -/
theorem holds_of_buf {buf : List A} {s : List Nat} {T : List Nat → A}
    (h : ∀ n, n < s.prod → buf[n]? = some (T (unravel s n))) :
    Holds ⟨buf, 0, s, defaultStrides s⟩ s T := by
  refine Holds.of_readAt rfl (defaultStrides_length s) fun idx hi => ?_
  simp only [Int.zero_add]
  rw [dotI_default hi, readAt_nat (h _ (ravel_lt hi)), unravel_ravel hi]

theorem map_allIdx_getElem? {s : List Nat} {T : List Nat → A} {n : Nat} (h : n < s.prod) :
    ((allIdx s).map T)[n]? = some (T (unravel s n)) := by
  rw [List.getElem?_map, allIdx_getElem? h]; rfl

/-- `from_shape_vec` of the elements of an array. -/
theorem fromShapeVec_map {s s' : List Nat} (hp : s'.prod = s.prod) (T : List Nat → A) :
    ∃ w, fromShapeVec s' ((allIdx s).map T) = some w ∧ w.strides = defaultStrides s' ∧
      Holds w s' (fun idx => T (unravel s (ravel s' idx))) := by
  refine ⟨_, by rw [fromShapeVec, if_pos (by simp [allIdx_length, hp])], rfl, ?_⟩
  apply holds_of_buf
  intro n hn
  rw [map_allIdx_getElem? (hp ▸ hn), ravel_unravel hn]

theorem fromShapeVec_map_self (s : List Nat) (T : List Nat → A) :
    ∃ w, fromShapeVec s ((allIdx s).map T) = some w ∧ w.strides = defaultStrides s ∧ Holds w s T := by
  obtain ⟨w, h1, h2, h3⟩ := fromShapeVec_map (s := s) (s' := s) rfl T
  exact ⟨w, h1, h2, h3.congr fun idx hi => by rw [unravel_ravel hi]⟩

theorem fromShapeVec_ne {s s' : List Nat} (hp : s'.prod ≠ s.prod) (T : List Nat → A) :
    fromShapeVec s' ((allIdx s).map T) = none := by
  rw [fromShapeVec, if_neg (by simpa [allIdx_length] using hp.symm)]

/-- An allocated array holds its data. -/
theorem Alloc.holds (al : Alloc A) (p : List Nat) (s : List Nat) (T : List Nat → A) :
    Holds (al.make p s ((allIdx s).map T)) s T := by
  have hl : ((allIdx s).map T).length = s.prod := by simp [allIdx_length]
  have h1 := al.shape_eq p s _ hl
  have h2 := al.wf p s _ hl
  have h3 := al.toVec_eq p s _ hl
  refine ⟨h1, by rw [h2.1, h1], fun idx hi => ?_⟩
  rw [View.toVec, h1, mapE_eq_ok, List.forall₂_map_right_iff] at h3
  have : ∀ l : List (List Nat), List.Forall₂ (fun a c => (al.make p s ((allIdx s).map T)).read a = .ok (T c)) l l →
      ∀ i ∈ l, (al.make p s ((allIdx s).map T)).read i = .ok (T i) := by
    intro l
    induction l with
    | nil => simp
    | cons a l ih =>
      intro h i hi
      cases h with
      | cons h1 h2 =>
        rcases List.mem_cons.1 hi with rfl | hi
        · exact h1
        · exact ih h2 i hi
  exact this _ h3 idx (mem_allIdx.2 hi)

theorem Holds.toOwned {v : View A} {s T} (h : Holds v s T) (al : Alloc A) :
    ∃ w, v.toOwned al = .ok w ∧ Holds w s T := by
  refine ⟨al.make [] s ((allIdx s).map T), ?_, al.holds _ _ _⟩
  simp [View.toOwned, h.toVec, h.shape]

theorem Holds.mapv {v : View A} {s T} (h : Holds v s T) (al : Alloc A) (f : A → A) :
    ∃ w, v.mapv al f = .ok w ∧ Holds w s (fun idx => f (T idx)) := by
  refine ⟨al.make [] s ((allIdx s).map fun idx => f (T idx)), ?_, al.holds _ _ _⟩
  simp [View.mapv, h.toVec, h.shape, Function.comp_def]

/-! ## sum_axis -/

theorem SumTree.sum_eq [AddCommMonoid A] (t : SumTree) (xs : List A) :
    t.sum xs = (t.leaves.map fun i => xs.getD i 0).sum := by
  induction t with
  | zero => rfl
  | leaf i => simp [SumTree.sum, leaves]
  | add l r hl hr => rw [SumTree.sum, leaves, List.map_append, List.sum_append, hl, hr]
  | fused i t ht => rw [SumTree.sum, leaves, List.map_cons, List.sum_cons, ht]

/-- In a commutative monoid the order of summation is irrelevant. -/
theorem sumOrder_sum [AddCommMonoid A] (al : Alloc A) (p : List Nat) (d : Nat) (f : Nat → A) :
    (al.sumOrder p d).sum ((List.range d).map f) = ∑ k ∈ Finset.range d, f k := by
  rw [SumTree.sum_eq, ((al.sumOrder_perm p d).map _).sum_eq]
  rw [List.map_congr_left (g := f)]
  · induction d with
    | zero => simp
    | succ d ih => rw [List.range_succ, List.map_append, List.sum_append, ih, Finset.sum_range_succ]; simp
  · intro k hk
    simp [List.getD_eq_getElem?_getD, List.getElem?_map, List.getElem?_range (List.mem_range.1 hk)]

theorem InB_insertIdx {s idx : List Nat} {ax d k : Nat} (hs : s[ax]? = some d)
    (hi : InB (s.eraseIdx ax) idx) (hk : k < d) : InB s (idx.insertIdx ax k) := by
  induction s generalizing ax idx with
  | nil => simp at hs
  | cons x s ih =>
    cases ax with
    | zero =>
      simp at hs; subst hs
      simpa using ⟨hk, by simpa using hi⟩
    | succ ax =>
      cases idx with
      | nil => simp at hi
      | cons i idx =>
        simp only [List.eraseIdx_cons_succ, InB_cons] at hi
        simp only [List.getElem?_cons_succ] at hs
        simpa using ⟨hi.1, ih hs hi.2⟩

theorem Holds.sumAxis [AddCommMonoid A] {v : View A} {s T} (h : Holds v s T) (al : Alloc A) {ax d : Nat}
    (hd : s[ax]? = some d) :
    ∃ w, v.sumAxis al ax = .ok w ∧
      Holds w (s.eraseIdx ax) (fun idx => ∑ k ∈ Finset.range d, T (idx.insertIdx ax k)) := by
  refine ⟨al.make [] (s.eraseIdx ax) ((allIdx (s.eraseIdx ax)).map fun idx =>
    ∑ k ∈ Finset.range d, T (idx.insertIdx ax k)), ?_, al.holds _ _ _⟩
  simp only [View.sumAxis, h.shape, hd]
  rw [mapE_ok (g := fun idx => ∑ k ∈ Finset.range d, T (idx.insertIdx ax k))]
  · simp
  · intro idx hi
    rw [mapE_ok (g := fun k => T (idx.insertIdx ax k))]
    · simp [sumOrder_sum]
    · intro k hk
      exact h.get _ (InB_insertIdx hd (mem_allIdx.1 hi) (by simpa using hk))

/-! ## permuted_axes -/

theorem permCheck_iff {axes : List Nat} {n : Nat} :
    (axes.all (· < n) && (List.range n).all (fun a => axes.count a = 1)) = true ↔
      axes.Perm (List.range n) := by
  simp only [Bool.and_eq_true, List.all_eq_true, decide_eq_true_eq, List.mem_range]
  constructor
  · rintro ⟨h1, h2⟩
    rw [List.perm_iff_count]
    intro a
    by_cases ha : a < n
    · rw [h2 a ha, List.count_eq_one_of_mem List.nodup_range (by simpa using ha)]
    · rw [List.count_eq_zero_of_not_mem (fun h => ha (h1 a h)),
        List.count_eq_zero_of_not_mem (by simpa using ha)]
  · intro h
    refine ⟨fun a ha => by simpa using h.mem_iff.1 ha, fun a ha => ?_⟩
    rw [h.count_eq, List.count_eq_one_of_mem List.nodup_range (by simpa using ha)]

theorem dotI_map {ι : Type} (l : List ι) (f : ι → Int) (g : ι → Nat) :
    dotI (l.map f) (l.map g) = (l.map fun a => f a * (g a : Int)).sum := by
  induction l with
  | nil => simp
  | cons a l ih => simp [ih]

theorem InB_map {ι : Type} {l : List ι} {f g : ι → Nat} :
    InB (l.map f) (l.map g) ↔ ∀ a ∈ l, g a < f a := by
  induction l with
  | nil => simp
  | cons a l ih => simp [ih]

theorem eq_map_range_getD {α : Type} (l : List α) (d : α) :
    l = (List.range l.length).map fun a => l.getD a d := by
  apply List.ext_getElem
  · simp
  · intro i h1 h2; simp [h1]

/-- The source index of a permuted index. -/
def unperm (axes idx : List Nat) : List Nat :=
  (List.range axes.length).map fun a => idx.getD (pos a axes) 0

theorem unperm_map {axes : List Nat} {n : Nat} (hp : axes.Perm (List.range n)) (g : Nat → Nat) :
    unperm axes (axes.map g) = (List.range n).map g := by
  have hl : axes.length = n := by simpa using hp.length_eq
  rw [unperm, hl]
  apply List.map_congr_left
  intro a ha
  have hm : a ∈ axes := hp.mem_iff.2 ha
  rw [List.getD_eq_getElem?_getD, List.getElem?_map, getElem?_pos hm]; rfl

theorem eq_map_unperm {axes idx : List Nat} {n : Nat} (hp : axes.Perm (List.range n))
    (hl : idx.length = n) : idx = axes.map fun a => idx.getD (pos a axes) 0 := by
  have hl' : axes.length = n := by simpa using hp.length_eq
  have hn : axes.Nodup := hp.nodup_iff.2 List.nodup_range
  apply List.ext_getElem
  · simp [hl, hl']
  · intro i h1 h2
    simp only [List.getElem_map]
    rw [pos_getElem hn (by omega)]
    simp [h1]

theorem Holds.permutedAxes {v : View A} {s T} (h : Holds v s T) {axes : List Nat}
    (hp : axes.Perm (List.range s.length)) :
    ∃ w, v.permutedAxes axes = .ok w ∧
      Holds w (axes.map fun a => s.getD a 0) (fun idx => T (unperm axes idx)) := by
  have hl : axes.length = s.length := by simpa using hp.length_eq
  refine ⟨_, by rw [View.permutedAxes, h.shape, if_pos (permCheck_iff.2 hp)], ?_⟩
  refine Holds.of_readAt (by simp) (by simp) fun idx hi => ?_
  simp only
  have hil : idx.length = s.length := by rw [hi.length_eq]; simp [hl]
  set g : Nat → Nat := fun a => idx.getD (pos a axes) 0 with hg
  have e : idx = axes.map g := eq_map_unperm hp hil
  have hu : unperm axes idx = (List.range s.length).map g := by rw [unperm, hl]
  rw [e, InB_map] at hi
  have hin : InB s (unperm axes idx) := by
    rw [hu]
    nth_rewrite 1 [eq_map_range_getD s 0]
    rw [InB_map]
    intro a ha
    exact hi a (hp.mem_iff.2 ha)
  rw [← h.readAt hin]
  congr 2
  conv_lhs => rw [e]
  rw [dotI_map, hu]
  nth_rewrite 2 [eq_map_range_getD v.strides 0]
  rw [h.strides, dotI_map]
  exact ((hp.map _).sum_eq)

theorem View.permutedAxes_panic {v : View A} {axes : List Nat}
    (hp : ¬ axes.Perm (List.range v.shape.length)) : v.permutedAxes axes = panic .ndarray := by
  rw [View.permutedAxes, if_neg (fun h => hp (permCheck_iff.1 h))]

/-! ## into_shape, reshaping to a matrix -/

theorem Holds.intoShape {v : View A} {s s' T} (h : Holds v s T) (hst : v.isStandardLayout = true)
    (hp : s'.prod = s.prod) :
    ∃ w, v.intoShape s' = some w ∧ w.strides = defaultStrides s' ∧
      Holds w s' (fun idx => T (unravel s (ravel s' idx))) := by
  refine ⟨_, by rw [View.intoShape, h.shape, if_neg (by simpa using hp), if_pos hst], rfl, ?_⟩
  refine Holds.of_readAt rfl (defaultStrides_length s') fun idx hi => ?_
  simp only
  have hlt : ravel s' idx < s.prod := hp ▸ ravel_lt hi
  have hin := InB_unravel hlt
  rw [← h.readAt hin, dotI_default hi]
  rw [View.isStandardLayout, h.shape] at hst
  rw [dotI_standard h.strides hst hin, ravel_unravel hlt]

theorem View.intoShape_ne {v : View A} {s' : List Nat} (hp : s'.prod ≠ v.shape.prod) :
    v.intoShape s' = none := by rw [View.intoShape, if_pos hp]

end Einsum
