import Verif.Props.Misfit

/-!
# Diagonals of empty arrays and of length zero

For C120; `C79_misfit` is about arrays and diagonals without empty axes.
-/

namespace Einsum

open Spec

/-- The elements of an array lie side by side; for an empty one, those that it has with length one for its one empty axis,
and the stride of this axis is their number. -/
def Spec.SideBySide (s st : List Nat) : Prop :=
  if 0 ∈ s then ∃ k : Nat, s[k]? = some 0 ∧ Fills (s.set k 1) st ∧ st[k]? = some (s.set k 1).prod else Fills s st

/-- The strides that decide which elements are read, if an array is read at all: those of the array if letters are summed and
its elements lie side by side, otherwise, if it is not empty, those of a copy in row-major order. -/
def Spec.Addressed {A : Type} (v : View A) (L out : List Char) (st : List Nat) : Prop :=
  ((∃ c ∈ L, c ∉ out) ∧ v.strides = st.map Int.ofNat ∧ (∀ s ∈ st, 0 < s) ∧ SideBySide v.shape st) ∨
    (((∀ c ∈ L, c ∈ out) ∨ ¬ ∃ st', v.strides = st'.map Int.ofNat ∧ (∀ s ∈ st', 0 < s) ∧ SideBySide v.shape st') ∧
      0 ∉ v.shape ∧ st = rowMajorStrides v.shape)

/-- The diagonals of the lengths `dims` fit into `n` elements; empty ones may end at the address `n`. -/
def Spec.Accommodated (dims : Char → Nat) (L : List Char) (st : List Nat) (n : Nat) : Prop :=
  ((∃ c ∈ L, dims c = 0) ∧ distance st (L.map fun c => dims c - 1) ≤ n) ∨ ((∀ c ∈ L, dims c ≠ 0) ∧ FitsInto dims L st n)

/-! ## Which empty arrays are contiguous -/

theorem contigLoop_ones {shape : List Nat} {strides : List Int} : ∀ {o : List Nat} {c : Nat}, 0 < c →
    contigLoop shape strides c o = true → (∀ i ∈ o, 1 ≤ dimAt shape i) →
    (∀ i ∈ o, c * (o.map (dimAt shape)).prod ≤ strAt strides i) → ∀ i ∈ o, dimAt shape i = 1
  | [], _, _, _, _, _ => by simp
  | i :: o, c, hc, h, hd, hs => by
    simp only [contigLoop, Bool.and_eq_true, Bool.or_eq_true, decide_eq_true_eq] at h
    have hd' : ∀ j ∈ o, 1 ≤ dimAt shape j := fun j hj => hd j (by simp [hj])
    have hpp : 1 ≤ (o.map (dimAt shape)).prod := prod_pos_of hd'
    have h1 : dimAt shape i = 1 := by
      rcases h.1 with g | g
      · exact g
      · have e : strAt strides i = c := g
        have h2 := hs i (by simp)
        have h3 := hd i (by simp)
        rw [List.map_cons, List.prod_cons, e] at h2
        have h4 : dimAt shape i * (o.map (dimAt shape)).prod ≤ 1 :=
          Nat.le_of_mul_le_mul_left (by rw [Nat.mul_one]; exact h2) hc
        have h5 : dimAt shape i ≤ dimAt shape i * (o.map (dimAt shape)).prod := Nat.le_mul_of_pos_right _ hpp
        omega
    intro j hj
    rcases List.mem_cons.1 hj with rfl | hj
    · exact h1
    · have h2 : contigLoop shape strides (c * dimAt shape i) o = true := h.2
      rw [h1, Nat.mul_one] at h2
      exact contigLoop_ones hc h2 hd' (fun l hl => by
        have := hs l (by simp [hl])
        rwa [List.map_cons, List.prod_cons, h1, Nat.one_mul] at this) j hj

theorem contigLoop_set {shape : List Nat} {strides : List Int} {k n : Nat} : ∀ {o : List Nat} {c : Nat}, k ∉ o →
    contigLoop (shape.set k n) strides c o = contigLoop shape strides c o
  | [], _, _ => rfl
  | i :: o, c, h => by
    have hi : (shape.set k n).getD i 0 = shape.getD i 0 := by
      have : k ≠ i := fun e => h (by simp [e])
      simp [List.getD_eq_getElem?_getD, this]
    simp only [contigLoop, hi]
    rw [contigLoop_set fun g => h (by simp [g])]

theorem dimAt_set_ne {shape : List Nat} {k i n : Nat} (h : i ≠ k) : dimAt (shape.set k n) i = dimAt shape i := by
  have : k ≠ i := fun e => h e.symm
  simp [dimAt, List.getD_eq_getElem?_getD, this]

theorem dimAt_set_self {shape : List Nat} {k n : Nat} (h : k < shape.length) : dimAt (shape.set k n) k = n := by
  simp [dimAt, List.getD_eq_getElem?_getD, h]

theorem prod_dimAt {shape o : List Nat} (h : o.Perm (List.range shape.length)) : (o.map (dimAt shape)).prod = shape.prod := by
  rw [(h.map _).prod_eq]
  congr 1
  exact (eq_map_range_getD shape 0).symm

/-- Contiguous arrays, empty or not. -/
theorem contig_iff {shape st : List Nat} (hl : st.length = shape.length) (h1 : shape.length ≠ 1) (hpos : ∀ s ∈ st, 0 < s) :
    isContiguous shape (st.map Int.ofNat) = true ↔ SideBySide shape st := by
  by_cases h0 : 0 ∈ shape
  · rw [SideBySide, if_pos h0]
    have hp0 : shape.prod = 0 := List.prod_eq_zero_iff.2 h0
    have hdef : st.map Int.ofNat ≠ defaultStrides shape := by
      intro e
      rw [default_empty hp0] at e
      obtain ⟨z, hz, hz0⟩ := List.mem_iff_getElem.1 h0
      have : (0 : Int) ∈ st.map Int.ofNat := by rw [e]; exact List.mem_map.2 ⟨0, h0, rfl⟩
      obtain ⟨x, hx, e⟩ := List.mem_map.1 this
      have := hpos x hx
      simp at e
      omega
    have hperm : (strideOrder (st.map Int.ofNat)).Perm (List.range shape.length) := hl ▸ strideOrder_perm st
    have hsort := strideOrder_sorted st
    have hloop : isContiguous shape (st.map Int.ofNat) = contigLoop shape (st.map Int.ofNat) 1 (strideOrder (st.map Int.ofNat)) := by
      unfold isContiguous
      rw [if_neg hdef, if_neg h1]
    have hstr : ∀ i, strAt (st.map Int.ofNat) i = st.getD i 0 := fun i => by
      simp only [strAt, List.getD_eq_getElem?_getD, List.getElem?_map]
      cases st[i]? <;> simp
    have hne : ∀ i, i < shape.length → (st.map Int.ofNat).getD i 0 ≠ 0 := fun i hi => by
      have hi' : i < st.length := by omega
      have := hpos _ (List.getElem_mem hi')
      simp [hi']
      omega
    have split : ∀ k, k < shape.length → ∃ pre post, strideOrder (st.map Int.ofNat) = pre ++ k :: post ∧ k ∉ pre ∧ k ∉ post := by
      intro k hk
      obtain ⟨pre, post, e⟩ := List.append_of_mem (hperm.mem_iff.2 (List.mem_range.2 hk))
      have hn := hperm.nodup_iff.2 List.nodup_range
      rw [e] at hn
      refine ⟨pre, post, e, fun h => (List.nodup_append.1 hn).2.2 k h k (by simp) rfl, ?_⟩
      exact (List.nodup_cons.1 (List.nodup_append.1 hn).2.1).1
    rw [hloop]
    constructor
    · intro h
      obtain ⟨k, hk, hk0⟩ := List.mem_iff_getElem.1 h0
      obtain ⟨pre, post, e, n1, n2⟩ := split k hk
      have hlt : ∀ i ∈ pre ++ k :: post, i < shape.length := fun i hi => by
        rw [← e] at hi; simpa using hperm.mem_iff.1 hi
      rw [e] at h
      obtain ⟨a1, a2⟩ := contigLoop_append h
      have hdk : shape.getD k 0 = 0 := by simp [hk, hk0]
      simp only [contigLoop, Bool.and_eq_true, Bool.or_eq_true, decide_eq_true_eq, hdk, Nat.mul_zero, Nat.one_mul] at a2
      obtain ⟨a2, a3⟩ := a2
      have a2 := a2.resolve_left (by simp)
      have a3 := (contigLoop_zero fun i hi => hne i (hlt i (by simp [hi]))).1 a3
      have e1 : pre.map (dimAt (shape.set k 1)) = pre.map (dimAt shape) := List.map_congr_left fun i hi =>
        dimAt_set_ne fun g => n1 (g ▸ hi)
      have e2 : (post.map (dimAt (shape.set k 1))).prod = 1 := by
        refine List.prod_eq_one fun x hx => ?_
        obtain ⟨i, hi, rfl⟩ := List.mem_map.1 hx
        rw [dimAt_set_ne fun g : i = k => n2 (g ▸ hi)]
        exact a3 i hi
      have hprod : (shape.set k 1).prod = (pre.map (dimAt shape)).prod := by
        rw [← prod_dimAt (o := pre ++ k :: post) (by rw [← e]; simpa using hperm), List.map_append, List.map_cons,
          List.prod_append, List.prod_cons, e1, e2, dimAt_set_self hk]
        simp
      have hst : st.getD k 0 = (shape.set k 1).prod := by rw [hprod, ← hstr]; exact a2
      have hk' : k < st.length := by omega
      have hst' : st[k] = (shape.set k 1).prod := by simpa [hk'] using hst
      have hpp : 0 < (shape.set k 1).prod := hst' ▸ hpos _ (List.getElem_mem hk')
      refine ⟨k, by rw [List.getElem?_eq_getElem hk, hk0], ?_, by rw [List.getElem?_eq_getElem hk', hst']⟩
      refine contig_index (by simpa using hl) hpp ?_
      unfold isContiguous
      split_ifs with g1 g2
      · rfl
      · simp at g2; omega
      · rw [e]
        refine contigLoop_append_of (by rw [contigLoop_set n1]; exact a1) ?_
        have hd1 : (shape.set k 1).getD k 0 = 1 := dimAt_set_self hk
        simp only [contigLoop, hd1, decide_true, Bool.true_or, Bool.true_and]
        rw [contigLoop_set n2]
        have : ∀ {o : List Nat} {c : Nat}, (∀ i ∈ o, shape.getD i 0 = 1) → contigLoop shape (st.map Int.ofNat) c o = true := by
          intro o
          induction o with
          | nil => intros; rfl
          | cons i o ih =>
            intro c hc
            simp only [contigLoop, hc i (by simp), decide_true, Bool.true_or, Bool.true_and]
            exact ih fun j hj => hc j (by simp [hj])
        exact this a3
    · rintro ⟨k, hk, hf, hst⟩
      obtain ⟨hk, hk0⟩ := List.getElem?_eq_some_iff.1 hk
      obtain ⟨hk', hst⟩ := List.getElem?_eq_some_iff.1 hst
      have hpp : 0 < (shape.set k 1).prod := hst ▸ hpos _ (List.getElem_mem hk')
      obtain ⟨pre, post, e, n1, n2⟩ := split k hk
      have hlt : ∀ i ∈ pre ++ k :: post, i < shape.length := fun i hi => by
        rw [← e] at hi; simpa using hperm.mem_iff.1 hi
      have h := contigLoop_of_fills (by simpa using hl) hpp hpos hf
      rw [e] at h hsort ⊢
      obtain ⟨a1, a2⟩ := contigLoop_append h
      have hd1 : (shape.set k 1).getD k 0 = 1 := dimAt_set_self hk
      simp only [contigLoop, hd1, decide_true, Bool.true_or, Bool.true_and, Nat.mul_one, Nat.one_mul] at a2
      have hge : ∀ i ∈ pre ++ k :: post, 1 ≤ dimAt (shape.set k 1) i := fun i hi => by
        have hi : i < (shape.set k 1).length := by simpa using hlt i hi
        have : (shape.set k 1)[i] ≠ 0 := fun g => by
          rw [List.prod_eq_zero (g ▸ List.getElem_mem hi)] at hpp
          omega
        have e : dimAt (shape.set k 1) i = (shape.set k 1)[i] := by
          simp only [dimAt, List.getD_eq_getElem?_getD, List.getElem?_eq_getElem hi, Option.getD_some]
        omega
      have hprod : (shape.set k 1).prod =
          (pre.map (dimAt (shape.set k 1))).prod * (post.map (dimAt (shape.set k 1))).prod := by
        rw [← prod_dimAt (o := pre ++ k :: post) (by rw [← e]; simpa using hperm), List.map_append, List.map_cons,
          List.prod_append, List.prod_cons, dimAt_set_self hk, Nat.one_mul]
      have hones := contigLoop_ones (prod_pos_of fun i hi => hge i (by simp [hi])) a2 (fun i hi => hge i (by simp [hi]))
        (fun i hi => by
          rw [← hprod, hstr, ← hst]
          have := (List.pairwise_cons.1 (List.pairwise_append.1 hsort).2.1).1 i hi
          simpa [hk'] using this)
      have e1 : pre.map (dimAt (shape.set k 1)) = pre.map (dimAt shape) := List.map_congr_left fun i hi =>
        dimAt_set_ne fun g => n1 (g ▸ hi)
      have e2 : (post.map (dimAt (shape.set k 1))).prod = 1 := by
        refine List.prod_eq_one fun x hx => ?_
        obtain ⟨i, hi, rfl⟩ := List.mem_map.1 hx
        exact hones i hi
      refine contigLoop_append_of (by rw [← contigLoop_set n1]; exact a1) ?_
      have hdk : shape.getD k 0 = 0 := by simp [hk, hk0]
      simp only [contigLoop, hdk, Nat.mul_zero, Bool.and_eq_true, Bool.or_eq_true, decide_eq_true_eq, Nat.one_mul]
      refine ⟨.inr ?_, (contigLoop_zero fun i hi => hne i (hlt i (by simp [hi]))).2 fun i hi => ?_⟩
      · have := hstr k
        rw [strAt] at this
        rw [this, ← e1]
        rw [e2, Nat.mul_one] at hprod
        rw [← hprod, ← hst]
        simp [hk']
      · rw [← hones i hi]
        exact (dimAt_set_ne fun g : i = k => n2 (g ▸ hi)).symm
  · rw [SideBySide, if_neg h0]
    have hp : 0 < shape.prod := Nat.pos_of_ne_zero fun e => h0 (List.prod_eq_zero_iff.1 e)
    exact ⟨contig_index hl hp, contig_of_fills hl hp h1 hpos⟩

/-! ## Diagonals of empty arrays and of length zero -/

section
variable {A : Type} {dims : Char → Nat}

theorem sliceMemory_length {t : View A} (hw : t.Wf) {st : List Nat} (hst : t.strides = st.map Int.ofNat)
    (hpos : ∀ s ∈ st, 0 < s) (hc : isContiguous t.shape t.strides = true) :
    ∃ data, t.asSliceMemoryOrder = some data ∧ data.length = t.shape.prod := by
  rcases Nat.eq_zero_or_pos t.shape.prod with h | h
  · refine ⟨[], ?_, by rw [h]; rfl⟩
    unfold View.asSliceMemoryOrder
    rw [if_pos hc, if_pos (any_zero_iff.2 h)]
  · obtain ⟨data, d1, d2, -⟩ := slice_read hw h hc (by rw [hst]; simpa using hpos)
    exact ⟨data, d1, d2⟩

/-- The diagonal view of a contiguous array, if the array or the view is empty. -/
theorem view_empty {t : View A} (hw : t.Wf) {st : List Nat} (hst : t.strides = st.map Int.ofNat)
    (hpos : ∀ s ∈ st, 0 < s) (hc : isContiguous t.shape t.strides = true) {L adj : List Char}
    (hn : t.shape.length = L.length) (hadj : adj.Nodup) (hLa : ∀ c ∈ L, c ∈ adj) (haL : ∀ c ∈ adj, c ∈ L)
    (h0 : t.shape.prod = 0 ∨ ∃ c ∈ L, dims c = 0) :
    (Accommodated dims L st t.shape.prod → (∃ c ∈ L, dims c = 0) ∧
      ∃ w, Diagonalization.view ⟨L.map fun c => pos c adj, adj.map dims⟩ t = .ok w ∧ ∀ F, Rep w adj dims F) ∧
    (¬ Accommodated dims L st t.shape.prod →
      Diagonalization.view ⟨L.map fun c => pos c adj, adj.map dims⟩ t = panic .unwrapErr) := by
  have hl' : st.length = t.shape.length := by rw [← hw.1, hst]; simp
  obtain ⟨r, r1, r2, r3, -⟩ := merged_strides (dims := dims) (hl'.trans hn) hpos hLa hadj
  obtain ⟨data, d1, d2⟩ := sliceMemory_length hw hst hpos hc
  have hview : Diagonalization.view ⟨L.map fun c => pos c adj, adj.map dims⟩ t =
      match fromShapeStrides (adj.map dims) r data with
      | some w => .ok w
      | none => panic .unwrapErr := by
    simp only [Diagonalization.view]
    rw [hst, r1, d1]
    rfl
  have hm : maxOffset (adj.map dims) r = distance st (L.map fun c => dims c - 1) := by
    rw [← r3, maxOffset_sum (by simpa using r2), distance_sum (by simpa using r2), List.length_map, List.length_map]
    refine Finset.sum_congr rfl fun k hk => ?_
    have hk : k < adj.length := by simpa using hk
    simp [hk]
  by_cases hz : ∃ c ∈ L, dims c = 0
  · have hp : (adj.map dims).prod = 0 := by
      obtain ⟨c, hc, e⟩ := hz
      exact List.prod_eq_zero_iff.2 (List.mem_map.2 ⟨c, hLa c hc, e⟩)
    have hfs : fromShapeStrides (adj.map dims) r data =
        if distance st (L.map fun c => dims c - 1) ≤ t.shape.prod then some ⟨data, 0, adj.map dims, r.map Int.ofNat⟩
        else none := by
      unfold fromShapeStrides
      rw [if_neg (by simp [r2])]
      simp only [any_zero_iff.2 hp, hm, d2]
      by_cases g : distance st (L.map fun c => dims c - 1) ≤ t.shape.prod
      · simp [g]
      · simp [g, Nat.lt_of_not_le g]
    have hacc : Accommodated dims L st t.shape.prod ↔ distance st (L.map fun c => dims c - 1) ≤ t.shape.prod := by
      refine ⟨?_, fun h => .inl ⟨hz, h⟩⟩
      rintro (h | h)
      · exact h.2
      · obtain ⟨c, hc, e⟩ := hz
        exact absurd e (h.1 c hc)
    rw [hview, hfs, hacc]
    refine ⟨fun h => ⟨hz, ?_⟩, fun h => by rw [if_neg h]⟩
    rw [if_pos h]
    exact ⟨_, rfl, fun F => rep_of_empty rfl (by simpa using r2) hp F⟩
  · have ht := h0.resolve_right hz
    have hnacc : ¬ Accommodated dims L st t.shape.prod := by
      rintro (h | h)
      · exact hz h.1
      · have := h.2.1
        omega
    refine ⟨fun h => absurd h hnacc, fun _ => ?_⟩
    have hne : (adj.map dims).any (· = 0) = false := by
      rw [List.any_eq_false]
      intro x hx
      obtain ⟨c, hc, rfl⟩ := List.mem_map.1 hx
      simpa using fun e => hz ⟨c, haL c hc, e⟩
    have hfs : fromShapeStrides (adj.map dims) r data = none := by
      unfold fromShapeStrides
      rw [if_neg (by simp [r2])]
      simp [hne, d2, ht]
    rw [hview, hfs]

/-- The diagonal of a copy, if the array or the diagonal is empty. -/
theorem run_empty {t : View A} {f : List Nat → A} (he : Elements t f) {L adj : List Char} (hL : L ≠ [])
    (hn : t.shape.length = L.length) (hadj : adj.Nodup) (hLa : ∀ c ∈ L, c ∈ adj) (haL : ∀ c ∈ adj, c ∈ L)
    (h0 : t.shape.prod = 0 ∨ ∃ c ∈ L, dims c = 0) (al : Alloc A) :
    (0 < t.shape.prod → Accommodated dims L (rowMajorStrides t.shape) t.shape.prod → (∃ c ∈ L, dims c = 0) ∧
      ∃ w, Diagonalization.run ⟨L.map fun c => pos c adj, adj.map dims⟩ al t = .ok w ∧ ∀ F, Rep w adj dims F) ∧
    (¬ (0 < t.shape.prod ∧ Accommodated dims L (rowMajorStrides t.shape) t.shape.prod) →
      ∃ k, Diagonalization.run ⟨L.map fun c => pos c adj, adj.map dims⟩ al t = panic k) := by
  have hT := he.holds
  obtain ⟨cl, h1, h2, h3⟩ := fromShapeVec_map_self t.shape f
  have hcl : Elements cl f := ⟨h3.wf, fun idx hi => h3.get idx (by rwa [h3.shape] at hi)⟩
  have hrun : Diagonalization.run ⟨L.map fun c => pos c adj, adj.map dims⟩ al t =
      Diagonalization.view ⟨L.map fun c => pos c adj, adj.map dims⟩ cl >>= fun v => v.toOwned al := by
    simp [Diagonalization.run, hT.toVec, h1]
  rcases Nat.eq_zero_or_pos t.shape.prod with hp | hp
  · refine ⟨fun h => by omega, fun _ => ⟨.assertFailed, ?_⟩⟩
    rw [hrun]
    simp only [Diagonalization.view, h2]
    rw [diagStrides_panics hp (by
      intro e
      rw [e] at hn
      exact hL (List.eq_nil_of_length_eq_zero hn.symm))]
    rfl
  · obtain ⟨e1, e2⟩ := rowMajor_facts hp
    have key := view_empty (dims := dims) (L := L) hcl.1 (by rw [h2, e1]) e2
      (by rw [h3.shape, h2]; exact isContiguous_default _) (by rw [h3.shape]; exact hn) hadj hLa haL (by rwa [h3.shape])
    rw [h3.shape] at key
    rw [hrun]
    refine ⟨fun _ hf => ?_, fun hf => ⟨_, by rw [key.2 fun g => hf ⟨hp, g⟩]; rfl⟩⟩
    obtain ⟨hz, w, w1, w2⟩ := key.1 hf
    refine ⟨hz, ?_⟩
    obtain ⟨w', w4, w5⟩ := (w2 fun _ => f []).toOwned hadj al
    refine ⟨w', by rw [w1]; exact w4, fun F => rep_of_empty w5.shape w5.strides ?_ F⟩
    obtain ⟨c, hc, e⟩ := hz
    exact List.prod_eq_zero_iff.2 (List.mem_map.2 ⟨c, hLa c hc, e⟩)

theorem addressed_iff {v : View A} {L out : List Char} {st : List Nat} (h : 0 ∉ v.shape) :
    Addressed v L out st ↔ StridesUsed v L out st := by
  unfold Addressed StridesUsed SideBySide
  simp only [h, not_false_eq_true, true_and, if_false]

theorem exists_stridesUsed (v : View A) (L kept : List Char) : ∃ st, StridesUsed v L kept st := by
  by_cases g : (∃ c ∈ L, c ∉ kept) ∧ ∃ st', v.strides = st'.map Int.ofNat ∧ (∀ s ∈ st', 0 < s) ∧ Fills v.shape st'
  · obtain ⟨g1, st, g2⟩ := g
    exact ⟨st, .inl ⟨g1, g2⟩⟩
  · refine ⟨_, .inr ⟨?_, rfl⟩⟩
    rcases not_and_or.1 g with g | g
    · exact .inl fun c hc => by_contra fun g' => g ⟨c, hc, g'⟩
    · exact .inr g

/-- The contractor for one operand with a repeated letter, run on any array with as many axes. -/
theorem misfit_total [CommSemiring A] {sc : SizedContraction} {c : SingletonContraction} {L : List Char} (h1 : sc.Valid dims)
    (h2 : sc.contraction.operandIndices = [L]) (h4 : SingletonContraction.new sc = .ok c) (hn : ¬ L.Nodup)
    {v : View A} {t : List Nat → A} (hv : Elements v t) (hl : v.shape.length = L.length) (al : Alloc A) :
    (∀ st, Addressed v L sc.contraction.outputIndices st → Accommodated dims L st v.shape.prod →
      ∃ w, c.op.run al v = .ok w ∧ w.Wf ∧ w.shape = sc.contraction.outputIndices.map dims ∧
        ((∃ c ∈ L, dims c = 0) → ∀ T, IsEinsum dims [L] [T] sc.contraction.outputIndices w)) ∧
    ((¬ ∃ st, Addressed v L sc.contraction.outputIndices st ∧ Accommodated dims L st v.shape.prod) →
      ∃ k, c.op.run al v = panic k) := by
  by_cases hgen : 0 ∉ v.shape ∧ ∀ c ∈ L, dims c ≠ 0
  · obtain ⟨g1, g2⟩ := hgen
    have hpos : ∀ d ∈ v.shape, 0 < d := fun d hd => Nat.pos_of_ne_zero fun e => g1 (e ▸ hd)
    have hdim : ∀ c ∈ L, 0 < dims c := fun c hc => Nat.pos_of_ne_zero (g2 c hc)
    have hacc : ∀ st, Accommodated dims L st v.shape.prod ↔ FitsInto dims L st v.shape.prod := fun st => by
      refine ⟨?_, fun h => .inr ⟨g2, h⟩⟩
      rintro (⟨⟨c, hc, e⟩, -⟩ | h)
      · exact absurd e (g2 c hc)
      · exact h.2
    simp only [addressed_iff g1, hacc]
    refine ⟨fun st s1 s2 => ?_, fun h => ?_⟩
    · obtain ⟨w, T, w1, -, w2⟩ := (misfit_run h1 h2 h4 hn hdim hv hl hpos s1 al).1 s2
      refine ⟨w, w1, w2.1, w2.2.1, fun ⟨c, hc, e⟩ => absurd e (g2 c hc)⟩
    · obtain ⟨st, hst⟩ := exists_stridesUsed v L sc.contraction.outputIndices
      exact ⟨_, (misfit_run h1 h2 h4 hn hdim hv hl hpos hst al).2 fun g => h ⟨st, hst, g⟩⟩
  have h0 : v.shape.prod = 0 ∨ ∃ c ∈ L, dims c = 0 := by
    by_contra g
    push Not at g
    exact hgen ⟨fun e => g.1 (List.prod_eq_zero_iff.2 e), g.2⟩
  have hpz : 0 < v.shape.prod ↔ 0 ∉ v.shape := by rw [Nat.pos_iff_ne_zero, ne_eq, List.prod_eq_zero_iff]
  obtain ⟨new, d1, d2, d3⟩ := diag_parts h1 h2 hn h4
  set out := sc.contraction.outputIndices
  have hsub := h1.out_sub h2
  have hLa : ∀ c ∈ L, c ∈ out ++ new := fun c hc => by
    rw [List.mem_append, d2]
    by_cases ho : c ∈ out
    · exact .inl ho
    · exact .inr ⟨hc, ho⟩
  have haL : ∀ c ∈ out ++ new, c ∈ L := fun c hc => by
    rcases List.mem_append.1 hc with g | g
    · exact hsub c g
    · exact ((d2 c).1 g).1
  have hl1 : v.shape.length ≠ 1 := fun e => by
    rw [hl] at e
    obtain ⟨a, rfl⟩ := List.length_eq_one_iff.1 e
    exact hn (by simp)
  have hL : L ≠ [] := bad_parts hn
  rcases d3 with ⟨rfl, e⟩ | ⟨hne, e⟩
  · rw [List.append_nil] at hLa haL d1
    obtain ⟨k1, k2⟩ := run_empty (dims := dims) hv hL hl d1 hLa haL h0 al
    have hsum : summed [L] out = [] := by
      rw [List.eq_nil_iff_forall_not_mem]
      intro c hc
      have := mem_summed.1 hc
      simp only [List.flatten_cons, List.flatten_nil, List.append_nil] at this
      exact this.2 (hLa c this.1)
    refine ⟨fun st s1 s2 => ?_, fun h => ?_⟩
    · rcases s1 with ⟨⟨c, hc, ho⟩, -⟩ | ⟨-, s3, rfl⟩
      · exact absurd (hLa c hc) ho
      obtain ⟨hz, w, w1, w2⟩ := k1 (hpz.2 s3) s2
      have hE : ∀ T, IsEinsum dims [L] [T] out w := fun T => Rep.isEinsum_one d1 (w2 _)
      exact ⟨w, by rw [e]; exact w1, (hE t).1, (hE t).2.1, fun _ => hE⟩
    · rw [e]
      exact k2 fun g => h ⟨_, .inr ⟨.inl hLa, hpz.1 g.1, rfl⟩, g.2⟩
  · obtain ⟨c0, hc0⟩ := List.exists_mem_of_ne_nil _ hne
    have hc0 := (d2 c0).1 hc0
    have hcont : v.asSliceMemoryOrder.isSome = isContiguous v.shape v.strides := by
      unfold View.asSliceMemoryOrder
      split
      · rename_i g; rw [g]; split <;> rfl
      · rename_i g; simp at g; rw [g]; rfl
    have key : (∀ st, Addressed v L out st → Accommodated dims L st v.shape.prod → (∃ c ∈ L, dims c = 0) ∧
        ∃ w, (if v.asSliceMemoryOrder.isSome && v.strides.all (fun s => 0 < s) then
        Diagonalization.view ⟨L.map fun c => pos c (out ++ new), (out ++ new).map dims⟩ v
        else Diagonalization.run ⟨L.map fun c => pos c (out ++ new), (out ++ new).map dims⟩ (al.sub 0) v) = .ok w ∧
          ∀ F, Rep w (out ++ new) dims F) ∧
      ((¬ ∃ st, Addressed v L out st ∧ Accommodated dims L st v.shape.prod) →
        ∃ k, (if v.asSliceMemoryOrder.isSome && v.strides.all (fun s => 0 < s) then
        Diagonalization.view ⟨L.map fun c => pos c (out ++ new), (out ++ new).map dims⟩ v
        else Diagonalization.run ⟨L.map fun c => pos c (out ++ new), (out ++ new).map dims⟩ (al.sub 0) v) = panic k) := by
      by_cases g : ∃ st, v.strides = st.map Int.ofNat ∧ (∀ s ∈ st, 0 < s) ∧ SideBySide v.shape st
      · obtain ⟨st, s1, s2, s3⟩ := g
        have hls : st.length = v.shape.length := by rw [← hv.1.1, s1]; simp
        have hc := (contig_iff hls hl1 s2).2 s3
        rw [if_pos (by
          rw [hcont, s1, hc]
          simpa using s2)]
        obtain ⟨k1, k2⟩ := view_empty (dims := dims) hv.1 s1 s2 (s1 ▸ hc) hl d1 hLa haL h0
        refine ⟨fun st' a1 a2 => ?_, fun h => ⟨_, k2 fun a => h ⟨st, .inl ⟨⟨c0, hc0⟩, s1, s2, s3⟩, a⟩⟩⟩
        rcases a1 with ⟨-, b1, -, -⟩ | ⟨b, -⟩
        · have : st' = st := List.map_injective_iff.2 (fun a b => by simp) (b1.symm.trans s1)
          subst this
          exact k1 a2
        · rcases b with b | b
          · exact absurd (b c0 hc0.1) hc0.2
          · exact absurd ⟨st, s1, s2, s3⟩ b
      · rw [if_neg]
        · obtain ⟨k1, k2⟩ := run_empty (dims := dims) hv hL hl d1 hLa haL h0 (al.sub 0)
          refine ⟨fun st' a1 a2 => ?_, fun h => k2 fun a => h ⟨_, .inr ⟨.inr g, hpz.1 a.1, rfl⟩, a.2⟩⟩
          rcases a1 with ⟨-, b⟩ | ⟨-, b, rfl⟩
          · exact absurd ⟨st', b⟩ g
          · exact k1 (hpz.2 b) a2
        · intro hcond
          rw [hcont] at hcond
          simp only [Bool.and_eq_true, List.all_eq_true, decide_eq_true_eq] at hcond
          have es : v.strides = (v.strides.map Int.toNat).map Int.ofNat := by
            rw [List.map_map]
            conv_lhs => rw [← List.map_id v.strides]
            refine List.map_congr_left fun x hx => ?_
            have := hcond.2 x hx
            simp
            omega
          have ep : ∀ s ∈ v.strides.map Int.toNat, 0 < s := fun x hx => by
            obtain ⟨y, hy, rfl⟩ := List.mem_map.1 hx
            have := hcond.2 y hy
            omega
          exact g ⟨_, es, ep, (contig_iff (by simpa using hv.1.1) hl1 ep).1 (es ▸ hcond.1)⟩
    have hrun' : c.op.run al v = (if v.asSliceMemoryOrder.isSome && v.strides.all (fun s => 0 < s) then
        Diagonalization.view ⟨L.map fun c => pos c (out ++ new), (out ++ new).map dims⟩ v
        else Diagonalization.run ⟨L.map fun c => pos c (out ++ new), (out ++ new).map dims⟩ (al.sub 0) v) >>= fun w =>
        Summation.run ⟨(List.range new.length).map (out.length + ·), List.replicate new.length out.length⟩ (al.sub 1) w := by
      rw [e]
      simp only [SingletonOp.run]
      rw [diagSum_run]
    rw [hrun']
    refine ⟨fun st s1 s2 => ?_, fun h => ?_⟩
    · obtain ⟨hz, x, x1, x2⟩ := key.1 st s1 s2
      have hsums : ∀ T : List Nat → A, ∃ w, Summation.run ⟨(List.range new.length).map (out.length + ·),
          List.replicate new.length out.length⟩ (al.sub 1) x = .ok w ∧ IsEinsum dims [L] [T] out w := fun T => by
        obtain ⟨w, w1, w2⟩ := (x2 fun σ => T (L.map σ)).summation d1 hne ((List.range new.length).map (out.length + ·)) (al.sub 1)
        refine ⟨w, w1, Rep.isEinsum_one h1.out.1 ?_⟩
        rw [← sumOver_summed (S := new) (List.nodup_append.1 d1).2.1 fun c => by simpa using d2 c]
        exact w2
      obtain ⟨w, w1, w2⟩ := hsums t
      refine ⟨w, by rw [x1]; exact w1, w2.1, w2.2.1, fun _ T => ?_⟩
      obtain ⟨w', w3, w4⟩ := hsums T
      rw [w1] at w3
      cases w3
      exact w4
    · obtain ⟨k, hk⟩ := key.2 h
      exact ⟨k, by rw [hk]; rfl⟩

end

end Einsum
