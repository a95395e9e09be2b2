import Verif.Props.Resized
import Verif.Props.Strides

/-!
# Compiled diagonals on arrays of any shape (C79)
-/

namespace Einsum

open Spec

/-! ## Specification -/

/-- How far the element with an index is from the first element. -/
def Spec.distance (st : List Nat) (i : List Nat) : Nat := (List.zipWith (· * ·) i st).sum

/-- The strides of an array in row-major order. -/
def Spec.rowMajorStrides : List Nat → List Nat
  | [] => []
  | _ :: ds => ds.prod :: Spec.rowMajorStrides ds

/-- How far apart neighbours along the letter `c` are: all axes of the letter are moved along at once. -/
def Spec.letterStride (st : List Nat) (L : List Char) (c : Char) : Nat := distance st (L.map fun e => if e = c then 1 else 0)

/-- The diagonals of the lengths `dims` stay below the address `n`, and each letter moves beyond all that letters with smaller
strides can reach. -/
def Spec.FitsInto (dims : Char → Nat) (L : List Char) (st : List Nat) (n : Nat) : Prop :=
  distance st (L.map fun c => dims c - 1) < n ∧
    ∀ c ∈ L, 1 < dims c → ((L.dedup.filter fun e => e ≠ c ∧ letterStride st L e ≤ letterStride st L c).map fun e =>
      (dims e - 1) * letterStride st L e).sum < letterStride st L c

/-- The elements of an array with the lengths `s` and the strides `st` lie side by side, without a gap. -/
def Spec.Fills (s st : List Nat) : Prop := ∀ a < s.prod, ∃ idx, InB s idx ∧ distance st idx = a

/-- The strides that decide which elements are read: those of the array if letters are summed and its elements lie side by
side in the order of the addresses, otherwise those of a copy in row-major order. -/
def Spec.StridesUsed {A : Type} (v : View A) (L out : List Char) (st : List Nat) : Prop :=
  ((∃ c ∈ L, c ∉ out) ∧ v.strides = st.map Int.ofNat ∧ (∀ s ∈ st, 0 < s) ∧ Fills v.shape st) ∨
    (((∀ c ∈ L, c ∈ out) ∨ ¬ ∃ st', v.strides = st'.map Int.ofNat ∧ (∀ s ∈ st', 0 < s) ∧ Fills v.shape st') ∧
      st = rowMajorStrides v.shape)

/-- `T` has the elements that an array with the lengths `s`, the strides `st` and the elements `t` has at the same addresses. -/
def Spec.SameAddress {A : Type} (dims : Char → Nat) (L : List Char) (s st : List Nat) (t T : List Nat → A) : Prop :=
  ∀ σ, InRange dims L σ → ∃ idx, InB s idx ∧ distance st idx = distance st (L.map σ) ∧ T (L.map σ) = t idx

/-! ## The test for overlaps -/

theorem sum_le_of_subset {a b : List Nat} (ha : a.Nodup) (hb : b.Nodup) (h : ∀ x ∈ a, x ∈ b) (f : Nat → Nat) :
    (a.map f).sum ≤ (b.map f).sum := by
  rw [← List.sum_toFinset f ha, ← List.sum_toFinset f hb]
  exact Finset.sum_le_sum_of_subset fun x hx => by simpa using h x (by simpa using hx)

theorem overlapLoop_split {shape strides : List Nat} {is : List Nat} {sum : Nat} (hd : ∀ i ∈ is, shape.getD i 0 ≠ 0)
    (h : overlapLoop shape strides sum is = false) :
    ∀ pre k post, is = pre ++ k :: post → 2 ≤ shape.getD k 0 →
      sum + (pre.map fun i => (shape.getD i 0 - 1) * strides.getD i 0).sum < strides.getD k 0 := by
  induction is generalizing sum with
  | nil => intro pre k post e; simp at e
  | cons i is ih =>
    intro pre k post e hk
    have hi := hd i (by simp)
    simp only [overlapLoop] at h
    rw [if_neg hi] at h
    cases pre with
    | nil =>
      obtain ⟨rfl, rfl⟩ : i = k ∧ is = post := by simpa using e
      rw [if_neg (by omega)] at h
      split at h
      · cases h
      · simp only [List.map_nil, List.sum_nil]; omega
    | cons j pre =>
      obtain ⟨rfl, rfl⟩ : i = j ∧ is = pre ++ k :: post := by simpa using e
      rw [List.map_cons, List.sum_cons]
      by_cases h1 : shape.getD i 0 = 1
      · rw [if_pos h1] at h
        have := ih (fun x hx => hd x (by simp [hx])) h pre k post rfl hk
        rw [h1]
        omega
      · rw [if_neg h1] at h
        split at h
        · cases h
        · have := ih (fun x hx => hd x (by simp [hx])) h pre k post rfl hk
          omega

theorem overlap_iff {shape r : List Nat} (hl : r.length = shape.length) (h0 : ∀ i < shape.length, shape.getD i 0 ≠ 0) :
    overlapLoop shape r 0 (strideOrder (r.map Int.ofNat)) = false ↔
      ∀ k < shape.length, 2 ≤ shape.getD k 0 →
        (((List.range shape.length).filter fun j => j ≠ k ∧ r.getD j 0 ≤ r.getD k 0).map fun j =>
          (shape.getD j 0 - 1) * r.getD j 0).sum < r.getD k 0 := by
  have hperm := strideOrder_perm r
  have hsort := strideOrder_sorted r
  rw [hl] at hperm
  generalize strideOrder (r.map Int.ofNat) = o at hperm hsort
  have hnd : o.Nodup := hperm.nodup_iff.2 List.nodup_range
  have hmem : ∀ k, k ∈ o ↔ k < shape.length := fun k => by rw [hperm.mem_iff, List.mem_range]
  have hd : ∀ i ∈ o, shape.getD i 0 ≠ 0 := fun i hi => h0 i ((hmem i).1 hi)
  constructor
  · intro h k hk hk2
    obtain ⟨pre, post, e⟩ := List.append_of_mem ((hmem k).2 hk)
    have h1 := overlapLoop_split hd h pre k post e hk2
    rw [Nat.zero_add] at h1
    refine lt_of_le_of_lt ?_ h1
    have e2 : (((List.range shape.length).filter fun j => j ≠ k ∧ r.getD j 0 ≤ r.getD k 0).map fun j =>
          (shape.getD j 0 - 1) * r.getD j 0).sum =
        ((((List.range shape.length).filter fun j => j ≠ k ∧ r.getD j 0 ≤ r.getD k 0).filter fun j =>
          2 ≤ shape.getD j 0).map fun j => (shape.getD j 0 - 1) * r.getD j 0).sum := by
      have : ∀ l : List Nat, (l.map fun j => (shape.getD j 0 - 1) * r.getD j 0).sum =
          ((l.filter fun j => 2 ≤ shape.getD j 0).map fun j => (shape.getD j 0 - 1) * r.getD j 0).sum := by
        intro l
        induction l with
        | nil => rfl
        | cons j l ih =>
          by_cases hj : 2 ≤ shape.getD j 0
          · rw [List.filter_cons_of_pos (by simpa using hj), List.map_cons, List.map_cons, List.sum_cons, List.sum_cons, ih]
          · rw [List.filter_cons_of_neg (by simpa using hj), List.map_cons, List.sum_cons, ih,
              show shape.getD j 0 - 1 = 0 by omega]
            simp
      exact this _
    rw [e2]
    subst e
    refine sum_le_of_subset ((List.nodup_range.filter _).filter _) (List.nodup_append.1 hnd).1 (fun j hj => ?_) _
    simp only [List.mem_filter, List.mem_range, decide_eq_true_eq] at hj
    obtain ⟨⟨h2, h3, h4⟩, h5⟩ := hj
    by_contra hpre
    have hj' : j ∈ post := by
      have := (hmem j).2 h2
      simp only [List.mem_append, List.mem_cons] at this
      rcases this with h | h | h
      · exact absurd h hpre
      · exact absurd h h3
      · exact h
    obtain ⟨p1, p2, rfl⟩ := List.append_of_mem hj'
    have h6 := overlapLoop_split hd h (pre ++ k :: p1) j p2 (by simp) h5
    have h7 : r.getD k 0 ≤ r.getD j 0 := by
      have := (List.pairwise_append.1 hsort).2.1
      exact (List.pairwise_cons.1 this).1 j (by simp)
    have h8 : r.getD k 0 ≤ ((pre ++ k :: p1).map fun i => (shape.getD i 0 - 1) * r.getD i 0).sum := by
      rw [List.map_append, List.sum_append, List.map_cons, List.sum_cons]
      have : 1 * r.getD k 0 ≤ (shape.getD k 0 - 1) * r.getD k 0 := Nat.mul_le_mul_right _ (by omega)
      omega
    omega
  · intro h
    refine overlapLoop_false hd fun pre k post e hk => ?_
    subst e
    rw [Nat.zero_add]
    refine lt_of_le_of_lt ?_ (h k ((hmem k).1 (by simp)) hk)
    refine sum_le_of_subset (List.nodup_append.1 hnd).1 (List.nodup_range.filter _) (fun j hj => ?_) _
    simp only [List.mem_filter, List.mem_range, decide_eq_true_eq]
    refine ⟨(hmem j).1 (by simp [hj]), ?_, (List.pairwise_append.1 hsort).2.2 j hj k (by simp)⟩
    rintro rfl
    exact (List.nodup_append.1 hnd).2.2 j hj j (by simp) rfl

/-! ## Addresses -/

theorem distance_sum {st i : List Nat} (h : st.length = i.length) :
    distance st i = ∑ k ∈ Finset.range i.length, i.getD k 0 * st.getD k 0 := by
  induction i generalizing st with
  | nil => simp [distance]
  | cons a i ih =>
    cases st with
    | nil => simp at h
    | cons b st =>
      have := ih (st := st) (by simpa using h)
      unfold distance at this ⊢
      rw [List.zipWith_cons_cons, List.sum_cons, this, List.length_cons, Finset.sum_range_succ', Nat.add_comm]
      simp

theorem distance_dotI {st i : List Nat} (h : st.length = i.length) : dotI (st.map Int.ofNat) i = (distance st i : Int) := by
  rw [dotI_sum (by simpa using h), distance_sum h, Nat.cast_sum, List.length_map, h]
  refine Finset.sum_congr rfl fun k hk => ?_
  have hk : k < i.length := by simpa using hk
  have hk' : k < st.length := by omega
  simp [hk, hk']
  ring

theorem rowMajorStrides_eq (s : List Nat) : rowMajorStrides s = sufProds s := by
  induction s with
  | nil => rfl
  | cons d s ih => simp only [rowMajorStrides, sufProds, ih]

/-- Every multiple of `c` that is small enough is an address along the axes of the list. -/
theorem contig_reach {shape : List Nat} {strides : List Int} {c : Nat} {o : List Nat} (hn : o.Nodup)
    (h : contigLoop shape strides c o = true) (hd : ∀ i ∈ o, 1 ≤ dimAt shape i) (q : Nat)
    (hq : q < (o.map (dimAt shape)).prod) : ∃ x : Nat → Nat, (∀ i ∈ o, x i < dimAt shape i) ∧
      (o.map fun i => x i * strAt strides i).sum = c * q := by
  induction o generalizing c q with
  | nil =>
    refine ⟨fun _ => 0, by simp, ?_⟩
    have : q = 0 := by simpa using hq
    simp [this]
  | cons i o ih =>
    have hi := hd i (by simp)
    obtain ⟨hio, hn⟩ := List.nodup_cons.1 hn
    simp only [contigLoop, Bool.and_eq_true, Bool.or_eq_true, decide_eq_true_eq] at h
    rw [List.map_cons, List.prod_cons] at hq
    obtain ⟨x, x1, x2⟩ := ih hn h.2 (fun j hj => hd j (by simp [hj])) (q / dimAt shape i)
      (Nat.div_lt_of_lt_mul hq)
    refine ⟨Function.update x i (q % dimAt shape i), ?_, ?_⟩
    · intro j hj
      by_cases e : j = i
      · subst e; rw [Function.update_self]; exact Nat.mod_lt _ hi
      · rw [Function.update_of_ne e]; exact x1 j (by simpa [e] using hj)
    · rw [List.map_cons, List.sum_cons, Function.update_self]
      have e1 : (o.map fun j => Function.update x i (q % dimAt shape i) j * strAt strides j) = o.map fun j => x j * strAt strides j :=
        List.map_congr_left fun j hj => by
          rw [Function.update_of_ne]
          rintro rfl
          exact hio hj
      rw [e1, x2]
      have e2 : q % dimAt shape i * strAt strides i = q % dimAt shape i * c := by
        rcases h.1 with h1 | h1
        · rw [show dimAt shape i = 1 from h1, Nat.mod_one]; simp
        · rw [show strAt strides i = c from h1]
      rw [e2]
      have := Nat.mod_add_div q (dimAt shape i)
      calc q % dimAt shape i * c + c * shape.getD i 0 * (q / dimAt shape i)
          = c * (q % dimAt shape i + dimAt shape i * (q / dimAt shape i)) := by unfold dimAt; ring
        _ = c * q := by rw [this]

theorem contig_index {shape st : List Nat} (hl : st.length = shape.length) (hp : 0 < shape.prod)
    (h : isContiguous shape (st.map Int.ofNat) = true) (a : Nat) (ha : a < shape.prod) :
    ∃ idx, InB shape idx ∧ distance st idx = a := by
  obtain ⟨o, o1, o2⟩ := exists_order (by simpa using hl) hp h
  have hd : ∀ i ∈ o, 1 ≤ dimAt shape i := fun i hi => by
    have hi : i < shape.length := by simpa using o1.mem_iff.1 hi
    have : shape[i] ≠ 0 := fun e => by
      rw [List.prod_eq_zero (e ▸ List.getElem_mem hi)] at hp
      omega
    simp [dimAt, hi]
    omega
  have e0 : (o.map (dimAt shape)).prod = shape.prod := by
    rw [(o1.map _).prod_eq]
    conv_rhs => rw [eq_map_range_getD shape 0]
  obtain ⟨x, x1, x2⟩ := contig_reach (o1.nodup_iff.2 List.nodup_range) o2 hd a (e0 ▸ ha)
  refine ⟨(List.range shape.length).map x, ?_, ?_⟩
  · rw [InB_iff_getElem]
    refine ⟨by simp, fun k h1 h2 => ?_⟩
    have := x1 k (o1.mem_iff.2 (by simpa using h1))
    simpa [dimAt, h1] using this
  · rw [distance_sum (by simpa using hl), List.length_map, List.length_range]
    rw [(o1.map _).sum_eq, one_mul] at x2
    rw [← x2, ← List.sum_toFinset _ List.nodup_range, List.toFinset_range]
    refine Finset.sum_congr rfl fun k hk => ?_
    have hk : k < shape.length := by simpa using hk
    have hk' : k < st.length := by omega
    simp [hk, strAt, hk']

theorem distance_order {st i o : List Nat} (h : st.length = i.length) (ho : o.Perm (List.range i.length)) :
    distance st i = (o.map fun k => i.getD k 0 * st.getD k 0).sum := by
  rw [distance_sum h, (ho.map _).sum_eq, ← List.sum_toFinset _ List.nodup_range, List.toFinset_range]

/-- Two elements of an array without gaps are at different addresses. -/
theorem fills_injective {s st : List Nat} (h : Fills s st) {i j : List Nat} (hi : InB s i) (hj : InB s j)
    (e : distance st i = distance st j) : i = j := by
  have hsub : List.range s.prod ⊆ (allIdx s).map (distance st) := fun a ha => by
    obtain ⟨idx, h1, h2⟩ := h a (by simpa using ha)
    exact List.mem_map.2 ⟨idx, mem_allIdx.2 h1, h2⟩
  have hp := (List.subperm_of_subset List.nodup_range hsub).perm_of_length_le (by simp [allIdx_eq])
  exact List.inj_on_of_nodup_map (hp.nodup_iff.1 List.nodup_range) (mem_allIdx.2 hi) (mem_allIdx.2 hj) e

theorem contigLoop_snoc {shape : List Nat} {strides : List Int} {k : Nat} : ∀ {pre : List Nat} {c : Nat},
    contigLoop shape strides c pre = true →
    (dimAt shape k = 1 ∨ strAt strides k = c * (pre.map (dimAt shape)).prod) →
    contigLoop shape strides c (pre ++ [k]) = true
  | [], c, _, h => by
    have : shape.getD k 0 = 1 ∨ (strides.getD k 0).natAbs = c := by simpa [dimAt, strAt] using h
    simpa [contigLoop] using this
  | i :: pre, c, h0, h => by
    simp only [contigLoop, Bool.and_eq_true, List.cons_append] at h0 ⊢
    refine ⟨h0.1, contigLoop_snoc h0.2 ?_⟩
    rw [List.map_cons, List.prod_cons, ← mul_assoc] at h
    exact h

/-- The loop of ndarray accepts an array without gaps. -/
theorem contigLoop_of_fills {shape st : List Nat} (hl : st.length = shape.length) (hp : 0 < shape.prod)
    (hpos : ∀ s ∈ st, 0 < s) (h : Fills shape st) :
    contigLoop shape (st.map Int.ofNat) 1 (strideOrder (st.map Int.ofNat)) = true := by
  have hperm : (strideOrder (st.map Int.ofNat)).Perm (List.range shape.length) := hl ▸ strideOrder_perm st
  have hsort := strideOrder_sorted st
  generalize ho : strideOrder (st.map Int.ofNat) = o at hperm hsort
  have hmem : ∀ i, i ∈ o ↔ i < shape.length := fun i => by rw [hperm.mem_iff, List.mem_range]
  have hnd : o.Nodup := hperm.nodup_iff.2 List.nodup_range
  have hd : ∀ i ∈ o, 1 ≤ dimAt shape i := fun i hi => by
    have hi := (hmem i).1 hi
    have : shape[i] ≠ 0 := fun e => by
      rw [List.prod_eq_zero (e ▸ List.getElem_mem hi)] at hp
      omega
    have : shape.getD i 0 = shape[i] := by simp [hi]
    unfold dimAt
    omega
  have hstr : ∀ i, strAt (st.map Int.ofNat) i = st.getD i 0 := fun i => by
    unfold strAt
    by_cases hi : i < st.length <;> simp [hi]
  have hs : ∀ i ∈ o, 0 < st.getD i 0 := fun i hi => by
    have hi : i < st.length := by rw [hl]; exact (hmem i).1 hi
    simpa [hi] using hpos _ (List.getElem_mem hi)
  have e0 : (o.map (dimAt shape)).prod = shape.prod := by
    rw [(hperm.map _).prod_eq]
    conv_rhs => rw [eq_map_range_getD shape 0]
  suffices main : ∀ post pre, o = pre ++ post → contigLoop shape (st.map Int.ofNat) 1 pre = true →
      contigLoop shape (st.map Int.ofNat) 1 o = true from main o [] rfl rfl
  intro post
  induction post with
  | nil => intro pre e hc; rwa [e, List.append_nil]
  | cons k post ih =>
    intro pre e hc
    refine ih (pre ++ [k]) (by simp [e]) (contigLoop_snoc hc ?_)
    rw [one_mul, hstr]
    by_cases hk1 : dimAt shape k = 1
    · exact .inl hk1
    refine .inr ?_
    set c := (pre.map (dimAt shape)).prod with hcdef
    have hko : k ∈ o := by simp [e]
    have hkn := (hmem k).1 hko
    have hdk := hd k hko
    have hnd' := e ▸ hnd
    have hkpre : k ∉ pre := fun hk => (List.nodup_append.1 hnd').2.2 k hk k (by simp) rfl
    have hpre : ∀ i ∈ pre, i ∈ o := fun i hi => by simp [e, hi]
    have hpn : pre.Nodup := (List.nodup_append.1 hnd').1
    have hcpos : 0 < c := Nat.pos_of_ne_zero fun h0 => by
      obtain ⟨i, hi, h0⟩ := List.mem_map.1 (List.prod_eq_zero_iff.1 h0)
      have := hd i (hpre i hi)
      omega
    have hcP : c < shape.prod := by
      have hpost : 0 < (post.map (dimAt shape)).prod := Nat.pos_of_ne_zero fun h0 => by
        obtain ⟨i, hi, h0⟩ := List.mem_map.1 (List.prod_eq_zero_iff.1 h0)
        have := hd i (by simp [e, hi])
        omega
      rw [← e0, e, List.map_append, List.prod_append, List.map_cons, List.prod_cons]
      calc c < c * 2 := by omega
        _ ≤ c * (dimAt shape k * (post.map (dimAt shape)).prod) := Nat.mul_le_mul_left _ (by
          calc 2 ≤ dimAt shape k := by omega
            _ ≤ _ := Nat.le_mul_of_pos_right _ hpost)
    have hdist : ∀ x : Nat → Nat, distance st ((List.range shape.length).map x) = (o.map fun i => x i * st.getD i 0).sum := by
      intro x
      rw [distance_order (o := o) (by simpa using hl) (by simpa using hperm)]
      congr 1
      refine List.map_congr_left fun i hi => ?_
      have := (hmem i).1 hi
      simp [this]
    have hin : ∀ x : Nat → Nat, (∀ i ∈ o, x i < dimAt shape i) → InB shape ((List.range shape.length).map x) := by
      intro x hx
      rw [InB_iff_getElem]
      refine ⟨by simp, fun i g1 g2 => ?_⟩
      have := hx i ((hmem i).2 (by simpa using g1))
      simpa [dimAt, g1] using this
    apply le_antisymm
    · obtain ⟨idx, i1, i2⟩ := h c hcP
      obtain ⟨il, ib⟩ := InB_iff_getElem.1 i1
      have hidx : idx = (List.range shape.length).map fun k => idx.getD k 0 := il ▸ eq_map_range_getD idx 0
      rw [hidx, hdist] at i2
      by_contra hlt
      have hlt : c < st.getD k 0 := by omega
      have hz : ∀ j ∈ k :: post, idx.getD j 0 = 0 := by
        intro j hj
        by_contra hj0
        have hks : st.getD k 0 ≤ st.getD j 0 := by
          rcases List.mem_cons.1 hj with rfl | hj
          · exact le_rfl
          · rw [e] at hsort
            exact List.rel_of_pairwise_cons (List.pairwise_append.1 hsort).2.1 hj
        have hjo : j ∈ o := by rw [e]; exact List.mem_append_right _ hj
        have h2 := List.single_le_sum (l := o.map fun i => idx.getD i 0 * st.getD i 0) (fun _ _ => Nat.zero_le _) _
          (List.mem_map.2 ⟨j, hjo, rfl⟩)
        have h3 : st.getD j 0 ≤ idx.getD j 0 * st.getD j 0 := Nat.le_mul_of_pos_left _ (by omega)
        omega
      rw [e, List.map_append, List.sum_append] at i2
      have z : ((k :: post).map fun i => idx.getD i 0 * st.getD i 0).sum = 0 := by
        rw [List.sum_eq_zero_iff]
        intro x hx
        obtain ⟨j, hj, rfl⟩ := List.mem_map.1 hx
        rw [hz j hj, zero_mul]
      rw [z] at i2
      have h4 := contigLoop_sum hc fun i hi => hd i (hpre i hi)
      have h5 : (pre.map fun i => idx.getD i 0 * st.getD i 0).sum ≤
          (pre.map fun i => (dimAt shape i - 1) * strAt (st.map Int.ofNat) i).sum := by
        refine List.sum_le_sum fun i hi => ?_
        rw [hstr]
        refine Nat.mul_le_mul_right _ ?_
        have hin := (hmem i).1 (hpre i hi)
        have := ib i hin (by omega)
        have e1 : idx.getD i 0 = idx[i]'(by omega) := by simp [il, hin]
        have e2 : dimAt shape i = shape[i] := by simp [dimAt, hin]
        omega
      rw [← hcdef] at h4
      omega
    · by_contra hlt
      have hlt : st.getD k 0 < c := by omega
      obtain ⟨x, x1, x2⟩ := contig_reach hpn hc (fun i hi => hd i (hpre i hi)) _ hlt
      have b1 := hin (fun i => if i ∈ pre then x i else 0) fun i hi => by
        by_cases hip : i ∈ pre
        · simp only [hip, if_true]; exact x1 i hip
        · simp only [hip, if_false]; exact hd i hi
      have b2 := hin (fun i => if i = k then 1 else 0) fun i hi => by
        by_cases hik : i = k
        · subst hik; simp only [if_true]; omega
        · simp only [hik, if_false]; exact hd i hi
      have eq := fills_injective h b1 b2 (by
        rw [hdist, hdist, e, List.map_append, List.sum_append, List.map_append, List.sum_append, List.map_cons, List.sum_cons,
          List.map_cons, List.sum_cons]
        have p1 : (pre.map fun i => (if i ∈ pre then x i else 0) * st.getD i 0).sum = st.getD k 0 := by
          rw [one_mul] at x2
          rw [← x2]
          congr 1
          refine List.map_congr_left fun i hi => ?_
          rw [if_pos hi, hstr]
        have p2 : (pre.map fun i => (if i = k then 1 else 0) * st.getD i 0).sum = 0 := by
          rw [List.sum_eq_zero_iff]
          intro y hy
          obtain ⟨j, hj, rfl⟩ := List.mem_map.1 hy
          rw [if_neg fun e : j = k => hkpre (e ▸ hj), zero_mul]
        have p3 : (post.map fun i => (if i ∈ pre then x i else 0) * st.getD i 0).sum = 0 := by
          rw [List.sum_eq_zero_iff]
          intro y hy
          obtain ⟨j, hj, rfl⟩ := List.mem_map.1 hy
          rw [if_neg fun g => (List.nodup_append.1 hnd').2.2 j g j (by simp [hj]) rfl, zero_mul]
        have p4 : (post.map fun i => (if i = k then 1 else 0) * st.getD i 0).sum = 0 := by
          rw [List.sum_eq_zero_iff]
          intro y hy
          obtain ⟨j, hj, rfl⟩ := List.mem_map.1 hy
          rw [if_neg fun g : j = k => (List.nodup_cons.1 (List.nodup_append.1 hnd').2.1).1 (g ▸ hj), zero_mul]
        rw [p1, p2, p3, p4, if_neg hkpre, if_pos rfl]
        ring)
      have := congrArg (fun l => l.getD k 0) eq
      simp [hkn, hkpre] at this

/-- An array without gaps counts as contiguous, unless it has one axis. -/
theorem contig_of_fills {shape st : List Nat} (hl : st.length = shape.length) (hp : 0 < shape.prod) (h1 : shape.length ≠ 1)
    (hpos : ∀ s ∈ st, 0 < s) (h : Fills shape st) : isContiguous shape (st.map Int.ofNat) = true := by
  unfold isContiguous
  split_ifs
  · rfl
  · exact contigLoop_of_fills hl hp hpos h

section
variable {A : Type} {dims : Char → Nat}

/-- The strides of the diagonal view. -/
theorem merged_strides {L adj : List Char} {st : List Nat} (hl : st.length = L.length) (hpos : ∀ s ∈ st, 0 < s)
    (hLa : ∀ c ∈ L, c ∈ adj) (hadj : adj.Nodup) :
    ∃ r, diagStrides (L.map fun c => pos c adj) ((adj.map dims).map fun _ => 0) 0 (st.map Int.ofNat) = .ok r ∧
      r.length = adj.length ∧ (∀ σ : Char → Nat, distance r (adj.map σ) = distance st (L.map σ)) ∧
      ∀ c ∈ adj, r.getD (pos c adj) 0 = letterStride st L c := by
  obtain ⟨r, hr1, hr2, hr3⟩ := diagStrides_ok (mapping := L.map fun c => pos c adj)
    (acc := (adj.map dims).map fun _ => 0) (ss := st.map Int.ofNat) (idx := 0)
    (by simp [hl]) (by
      intro k hk
      obtain ⟨c, hc, rfl⟩ := List.mem_map.1 hk
      simpa using pos_lt (hLa c hc)) (by simpa using hpos)
  simp only [List.length_map] at hr2 hr3
  have key : ∀ σ : Char → Nat, distance r (adj.map σ) = distance st (L.map σ) := by
    intro σ
    rw [distance_sum (by simpa using hr2), distance_sum (by simpa using hl), List.length_map, List.length_map,
      hr3 fun k => (adj.map σ).getD k 0]
    rw [Finset.sum_eq_zero, Nat.zero_add, hl]
    · refine Finset.sum_congr rfl fun i hi => ?_
      have hi : i < L.length := by simpa using hi
      have hi' : i < st.length := by omega
      rw [show (L.map fun c => pos c adj).getD (0 + i) 0 = pos L[i] adj by simp [hi],
        getD_pos (hLa _ (List.getElem_mem hi))]
      simp [hi, hi']
    · intro k hk
      have : k < adj.length := by simpa using hk
      simp [this]
  refine ⟨r, hr1, hr2, key, fun c hc => ?_⟩
  have := key fun e => if e = c then 1 else 0
  rw [letterStride, ← this, distance_sum (by simpa using hr2), List.length_map, Finset.sum_eq_single (pos c adj)]
  · rw [getD_pos hc]; simp
  · intro b hb hne
    have hb : b < adj.length := by simpa using hb
    have : adj[b] ≠ c := fun e => hne (by rw [← e, pos_getElem hadj hb])
    simp [hb, this]
  · intro h
    exact absurd (by simpa using pos_lt hc) h

theorem fits_iff {L adj : List Char} {st r : List Nat} (hadj : adj.Nodup) (hLa : ∀ c ∈ L, c ∈ adj) (haL : ∀ c ∈ adj, c ∈ L)
    (hr : r.length = adj.length) (h1 : ∀ σ : Char → Nat, distance r (adj.map σ) = distance st (L.map σ))
    (h2 : ∀ c ∈ adj, r.getD (pos c adj) 0 = letterStride st L c) (hpos : ∀ c ∈ L, 0 < dims c) (n : Nat) :
    FitsInto dims L st n ↔ maxOffset (adj.map dims) r < n ∧
      overlapLoop (adj.map dims) r 0 (strideOrder (r.map Int.ofNat)) = false := by
  unfold FitsInto
  refine and_congr ?_ ?_
  · rw [← h1, maxOffset_sum (by simpa using hr), distance_sum (by simpa using hr), List.length_map, List.length_map]
    rw [Finset.sum_congr rfl fun k hk => ?_]
    have hk : k < adj.length := by simpa using hk
    simp [hk]
  · have hstr : ∀ k (hk : k < adj.length), r.getD k 0 = letterStride st L adj[k] := fun k hk => by
      rw [← h2 _ (List.getElem_mem hk), pos_getElem hadj hk]
    have hdim : ∀ k (hk : k < adj.length), (adj.map dims).getD k 0 = dims adj[k] := fun k hk => by simp [hk]
    rw [overlap_iff (by simpa using hr) (fun k hk => by
      have hk : k < adj.length := by simpa using hk
      rw [hdim k hk]
      have := hpos _ (haL _ (List.getElem_mem hk))
      omega)]
    have hp : L.dedup.Perm adj := perm_of_nodup L.nodup_dedup hadj fun c => by
      rw [List.mem_dedup]; exact ⟨hLa c, haL c⟩
    have hrange : adj = (List.range adj.length).map fun k => adj.getD k 'a' := eq_map_range_getD adj 'a'
    have hsum : ∀ k (hk : k < adj.length),
        ((L.dedup.filter fun e => e ≠ adj[k] ∧ letterStride st L e ≤ letterStride st L adj[k]).map fun e =>
          (dims e - 1) * letterStride st L e).sum =
        (((List.range adj.length).filter fun j => j ≠ k ∧ r.getD j 0 ≤ r.getD k 0).map fun j =>
          ((adj.map dims).getD j 0 - 1) * r.getD j 0).sum := by
      intro k hk
      rw [((hp.filter _).map _).sum_eq]
      generalize hc : adj[k] = c
      conv_lhs => rw [hrange]
      rw [List.filter_map, List.map_map]
      have e1 : ((List.range adj.length).filter
          ((fun e => decide (e ≠ c ∧ letterStride st L e ≤ letterStride st L c)) ∘ fun k => adj.getD k 'a')) =
          (List.range adj.length).filter fun j => j ≠ k ∧ r.getD j 0 ≤ r.getD k 0 := by
        refine List.filter_congr fun j hj => ?_
        have hj : j < adj.length := by simpa using hj
        simp only [Function.comp_apply, hstr j hj, hstr k hk, hc]
        have : adj.getD j 'a' = adj[j] := by simp [hj]
        rw [this, ← hc]
        simp only [ne_eq, hadj.getElem_inj_iff]
      rw [e1]
      congr 1
      refine List.map_congr_left fun j hj => ?_
      have hj : j < adj.length := by simpa using (List.mem_filter.1 hj).1
      simp only [Function.comp_apply, hstr j hj, hdim j hj]
      have : adj.getD j 'a' = adj[j] := by simp [hj]
      rw [this]
    rw [List.length_map]
    constructor
    · intro h k hk h3
      rw [hdim k hk] at h3
      rw [← hsum k hk, hstr k hk]
      exact h _ (haL _ (List.getElem_mem hk)) h3
    · intro h c hc h3
      obtain ⟨k, hk, rfl⟩ := List.getElem_of_mem (hLa c hc)
      rw [hsum k hk, ← hstr k hk]
      exact h k hk (by rw [hdim k hk]; exact h3)

/-- The diagonal view of a contiguous array of any shape. -/
theorem view_any {t : View A} {f : List Nat → A} (he : Elements t f) {st : List Nat} (hst : t.strides = st.map Int.ofNat)
    (hpos : ∀ s ∈ st, 0 < s) (hp : 0 < t.shape.prod) (hc : isContiguous t.shape t.strides = true) {L adj : List Char}
    (hn : t.shape.length = L.length) (hadj : adj.Nodup) (hLa : ∀ c ∈ L, c ∈ adj) (haL : ∀ c ∈ adj, c ∈ L)
    (hd : ∀ c ∈ L, 0 < dims c) :
    (FitsInto dims L st t.shape.prod → ∃ w T, Diagonalization.view ⟨L.map fun c => pos c adj, adj.map dims⟩ t = .ok w ∧
      SameAddress dims L t.shape st f T ∧ Rep w adj dims fun σ => T (L.map σ)) ∧
    (¬ FitsInto dims L st t.shape.prod →
      Diagonalization.view ⟨L.map fun c => pos c adj, adj.map dims⟩ t = panic .unwrapErr) := by
  classical
  have hl : t.strides.length = t.shape.length := he.1.1
  have hl' : st.length = t.shape.length := by rw [← hl, hst]; simp
  obtain ⟨r, r1, r2, r3, r4⟩ := merged_strides (dims := dims) (hl'.trans hn) hpos hLa hadj
  obtain ⟨data, d1, d2, d3⟩ := slice_read he.1 hp hc (by rw [hst]; simpa using hpos)
  have hview : Diagonalization.view ⟨L.map fun c => pos c adj, adj.map dims⟩ t =
      match fromShapeStrides (adj.map dims) r data with
      | some w => .ok w
      | none => panic .unwrapErr := by
    simp only [Diagonalization.view]
    rw [hst, r1, d1]
    rfl
  have hne : (adj.map dims).any (· = 0) = false := by
    rw [List.any_eq_false]
    intro x hx
    obtain ⟨c, hc, rfl⟩ := List.mem_map.1 hx
    have := hd c (haL c hc)
    simp
    omega
  have hfs : fromShapeStrides (adj.map dims) r data =
      if FitsInto dims L st t.shape.prod then some ⟨data, 0, adj.map dims, r.map Int.ofNat⟩ else none := by
    unfold fromShapeStrides
    rw [if_neg (by simp [r2])]
    simp only [hne, d2, fits_iff hadj hLa haL r2 r3 r4 hd]
    rw [if_neg (by simp)]
    by_cases g1 : maxOffset (adj.map dims) r < t.shape.prod
    · rw [if_neg (by simp; omega)]
      cases g2 : overlapLoop (adj.map dims) r 0 (strideOrder (r.map Int.ofNat)) with
      | true => simp
      | false => simp [g1]
    · rw [if_pos (by simp; omega), if_neg fun h => g1 h.1]
  constructor
  · intro hf
    rw [hview, hfs, if_pos hf]
    have hreach : ∀ σ, InRange dims L σ → distance st (L.map σ) < t.shape.prod := by
      intro σ hσ
      refine lt_of_le_of_lt ?_ hf.1
      rw [distance_sum (by simp [hl', hn]), distance_sum (by simp [hl', hn]), List.length_map, List.length_map]
      refine Finset.sum_le_sum fun k hk => Nat.mul_le_mul_right _ ?_
      have hk : k < L.length := by simpa using hk
      have := hσ L[k] (List.getElem_mem hk)
      simp [hk]
      omega
    have hidx : ∀ i, ∃ idx, distance st i < t.shape.prod → InB t.shape idx ∧ distance st idx = distance st i := fun i => by
      by_cases h : distance st i < t.shape.prod
      · obtain ⟨idx, h1, h2⟩ := contig_index hl' hp (hst ▸ hc) _ h
        exact ⟨idx, fun _ => ⟨h1, h2⟩⟩
      · exact ⟨[], fun h' => absurd h' h⟩
    choose g hg using hidx
    refine ⟨_, fun i => f (g i), rfl, fun σ hσ => ?_, ⟨rfl, by simp [r2], fun σ hσ => ?_⟩⟩
    · obtain ⟨g1, g2⟩ := hg _ (hreach σ hσ)
      exact ⟨_, g1, g2, rfl⟩
    · have hσL : InRange dims L σ := fun c hc => hσ c (hLa c hc)
      obtain ⟨g1, g2⟩ := hg _ (hreach σ hσL)
      obtain ⟨a, a1, a2⟩ := d3 _ _ g1 (he.2 _ g1)
      rw [View.read, if_pos (inB_of_inRange hσ)]
      simp only [Int.zero_add]
      have ge : (g (L.map σ)).length = t.shape.length := (InB_iff_getElem.1 g1).1
      rw [distance_dotI (by simp [r2]), r3, ← g2, ← distance_dotI (by rw [hl', ge]), ← hst, ← a1, readAt_nat a2]
  · intro hf
    rw [hview, hfs, if_neg hf]

theorem rowMajor_facts {s : List Nat} (hp : 0 < s.prod) :
    defaultStrides s = (rowMajorStrides s).map Int.ofNat ∧ ∀ x ∈ rowMajorStrides s, 0 < x := by
  have h1 : defaultStrides s = (rowMajorStrides s).map Int.ofNat := by
    rw [rowMajorStrides_eq, defaultStrides, if_pos (all_ne_iff.2 hp)]
  refine ⟨h1, fun x hx => ?_⟩
  have := default_pos hp (Int.ofNat x) (by rw [h1]; exact List.mem_map_of_mem hx)
  simpa using this

/-- The diagonal of a copy in row-major order. -/
theorem run_any {t : View A} {f : List Nat → A} (he : Elements t f) (hp : 0 < t.shape.prod) {L adj : List Char}
    (hn : t.shape.length = L.length) (hadj : adj.Nodup) (hLa : ∀ c ∈ L, c ∈ adj) (haL : ∀ c ∈ adj, c ∈ L)
    (hd : ∀ c ∈ L, 0 < dims c) (al : Alloc A) :
    (FitsInto dims L (rowMajorStrides t.shape) t.shape.prod →
      ∃ w T, Diagonalization.run ⟨L.map fun c => pos c adj, adj.map dims⟩ al t = .ok w ∧
        SameAddress dims L t.shape (rowMajorStrides t.shape) f T ∧ Rep w adj dims fun σ => T (L.map σ)) ∧
    (¬ FitsInto dims L (rowMajorStrides t.shape) t.shape.prod →
      Diagonalization.run ⟨L.map fun c => pos c adj, adj.map dims⟩ al t = panic .unwrapErr) := by
  have hT := he.holds
  obtain ⟨cl, h1, h2, h3⟩ := fromShapeVec_map_self t.shape f
  obtain ⟨e1, e2⟩ := rowMajor_facts hp
  have hcl : Elements cl f := ⟨h3.wf, fun idx hi => h3.get idx (by rwa [h3.shape] at hi)⟩
  have key := view_any (dims := dims) hcl (by rw [h2, e1]) e2 (by rw [h3.shape]; exact hp)
    (by rw [h3.shape, h2]; exact isContiguous_default _) (by rw [h3.shape]; exact hn) hadj hLa haL hd
  rw [h3.shape] at key
  have hrun : Diagonalization.run ⟨L.map fun c => pos c adj, adj.map dims⟩ al t =
      Diagonalization.view ⟨L.map fun c => pos c adj, adj.map dims⟩ cl >>= fun v => v.toOwned al := by
    simp [Diagonalization.run, hT.toVec, h1]
  rw [hrun]
  constructor
  · intro hf
    obtain ⟨w, T, w1, w2, w3⟩ := key.1 hf
    obtain ⟨w', w4, w5⟩ := w3.toOwned hadj al
    exact ⟨w', T, by rw [w1]; exact w4, w2, w5⟩
  · intro hf
    rw [key.2 hf]
    rfl

/-- The contractor for one operand with a repeated letter, run on an array of any shape with as many axes. -/
theorem misfit_run [CommSemiring A] {sc : SizedContraction} {c : SingletonContraction} {L : List Char} (h1 : sc.Valid dims)
    (h2 : sc.contraction.operandIndices = [L]) (h4 : SingletonContraction.new sc = .ok c) (hn : ¬ L.Nodup)
    (hdim : ∀ c ∈ L, 0 < dims c) {v : View A} {t : List Nat → A} (hv : Elements v t) (hl : v.shape.length = L.length)
    (hpos : ∀ d ∈ v.shape, 0 < d) {st : List Nat} (hst : StridesUsed v L sc.contraction.outputIndices st) (al : Alloc A) :
    (FitsInto dims L st v.shape.prod → ∃ w T, c.op.run al v = .ok w ∧ SameAddress dims L v.shape st t T ∧
      IsEinsum dims [L] [T] sc.contraction.outputIndices w) ∧
    (¬ FitsInto dims L st v.shape.prod → c.op.run al v = panic .unwrapErr) := by
  obtain ⟨new, d1, d2, d3⟩ := diag_parts h1 h2 hn h4
  set out := sc.contraction.outputIndices
  have hsub := h1.out_sub h2
  have hLa : ∀ c ∈ L, c ∈ out ++ new := fun c hc => by
    rw [List.mem_append, d2]
    by_cases ho : c ∈ out
    · exact .inl ho
    · exact .inr ⟨hc, ho⟩
  have haL : ∀ c ∈ out ++ new, c ∈ L := fun c hc => by
    rcases List.mem_append.1 hc with g | g
    · exact hsub c g
    · exact ((d2 c).1 g).1
  have hpp : 0 < v.shape.prod := Nat.pos_of_ne_zero fun e => by
    have := hpos _ (List.prod_eq_zero_iff.1 e)
    omega
  have hl1 : v.shape.length ≠ 1 := fun e => by
    rw [hl] at e
    obtain ⟨a, rfl⟩ := List.length_eq_one_iff.1 e
    exact hn (by simp)
  rcases d3 with ⟨rfl, e⟩ | ⟨hne, e⟩
  · rw [List.append_nil] at hLa haL d1
    have hst : st = rowMajorStrides v.shape := by
      rcases hst with ⟨⟨c, hc, ho⟩, -⟩ | ⟨-, e⟩
      · exact absurd (hLa c hc) ho
      · exact e
    subst hst
    obtain ⟨k1, k2⟩ := run_any (dims := dims) hv hpp hl d1 hLa haL hdim al
    refine ⟨fun hf => ?_, fun hf => by rw [e]; exact k2 hf⟩
    obtain ⟨w, T, w1, w2, w3⟩ := k1 hf
    refine ⟨w, T, by rw [e]; exact w1, w2, Rep.isEinsum_one d1 ?_⟩
    rwa [show summed [L] out = [] from by
      rw [List.eq_nil_iff_forall_not_mem]
      intro c hc
      have := mem_summed.1 hc
      simp only [List.flatten_cons, List.flatten_nil, List.append_nil] at this
      exact this.2 (hLa c this.1)]
  · obtain ⟨c0, hc0⟩ := List.exists_mem_of_ne_nil _ hne
    have hc0 := (d2 c0).1 hc0
    have key : (FitsInto dims L st v.shape.prod → ∃ w T, (if v.asSliceMemoryOrder.isSome && v.strides.all (fun s => 0 < s) then
        Diagonalization.view ⟨L.map fun c => pos c (out ++ new), (out ++ new).map dims⟩ v
        else Diagonalization.run ⟨L.map fun c => pos c (out ++ new), (out ++ new).map dims⟩ (al.sub 0) v) = .ok w ∧
          SameAddress dims L v.shape st t T ∧ Rep w (out ++ new) dims fun σ => T (L.map σ)) ∧
      (¬ FitsInto dims L st v.shape.prod → (if v.asSliceMemoryOrder.isSome && v.strides.all (fun s => 0 < s) then
        Diagonalization.view ⟨L.map fun c => pos c (out ++ new), (out ++ new).map dims⟩ v
        else Diagonalization.run ⟨L.map fun c => pos c (out ++ new), (out ++ new).map dims⟩ (al.sub 0) v) =
          panic .unwrapErr) := by
      have hcont : v.asSliceMemoryOrder.isSome = isContiguous v.shape v.strides := by
        unfold View.asSliceMemoryOrder
        split
        · rename_i g; rw [g]; split <;> rfl
        · rename_i g; simp at g; rw [g]; rfl
      rcases hst with ⟨-, s1, s2, s3⟩ | ⟨g, rfl⟩
      · have hls : st.length = v.shape.length := by
          rw [← hv.1.1, s1]; simp
        have hc := contig_of_fills hls hpp hl1 s2 s3
        rw [if_pos (by
          rw [hcont, s1, hc]
          simpa using s2)]
        exact view_any hv s1 s2 hpp (s1 ▸ hc) hl d1 hLa haL hdim
      · rw [if_neg]
        · exact run_any hv hpp hl d1 hLa haL hdim _
        · intro hcond
          rw [hcont] at hcond
          simp only [Bool.and_eq_true, List.all_eq_true, decide_eq_true_eq] at hcond
          rcases g with g | g
          · exact hc0.2 (g c0 hc0.1)
          · have es : v.strides = (v.strides.map Int.toNat).map Int.ofNat := by
              rw [List.map_map]
              conv_lhs => rw [← List.map_id v.strides]
              refine List.map_congr_left fun x hx => ?_
              have := hcond.2 x hx
              simp
              omega
            refine g ⟨v.strides.map Int.toNat, es, fun x hx => ?_, ?_⟩
            · obtain ⟨y, hy, rfl⟩ := List.mem_map.1 hx
              have := hcond.2 y hy
              omega
            · exact contig_index (by simpa using hv.1.1) hpp (es ▸ hcond.1)
    have hrun' : c.op.run al v = (if v.asSliceMemoryOrder.isSome && v.strides.all (fun s => 0 < s) then
        Diagonalization.view ⟨L.map fun c => pos c (out ++ new), (out ++ new).map dims⟩ v
        else Diagonalization.run ⟨L.map fun c => pos c (out ++ new), (out ++ new).map dims⟩ (al.sub 0) v) >>= fun w =>
        Summation.run ⟨(List.range new.length).map (out.length + ·), List.replicate new.length out.length⟩ (al.sub 1) w := by
      rw [e]
      simp only [SingletonOp.run]
      rw [diagSum_run]
    rw [hrun']
    refine ⟨fun hf => ?_, fun hf => by rw [key.2 hf]; rfl⟩
    obtain ⟨x, T, x1, x2, x3⟩ := key.1 hf
    obtain ⟨w, w1, w2⟩ := x3.summation d1 hne ((List.range new.length).map (out.length + ·)) (al.sub 1)
    refine ⟨w, T, by rw [x1]; exact w1, x2, Rep.isEinsum_one h1.out.1 ?_⟩
    rw [← sumOver_summed (S := new) (List.nodup_append.1 d1).2.1 fun c => by simpa using d2 c]
    exact w2

/-- C79: the path of one operand with a repeated letter, run on an array of any shape with as many axes, reads the elements
at the addresses of the compiled diagonals, or panics if these do not fit into the array. -/
theorem C79_misfit {B : Type} [CommSemiring A] (h : HashOrd) (s : String) (v₀ : View B) (L out : List Char)
    (dims : Char → Nat) (hd : Denotes s [L] out) (hs : Sized dims [L] [v₀.shape]) (m : OptimizationMethod)
    (p : EinsumPath) (hp : einsumPath h s [v₀] m = .ok (.ok p)) (hn : ¬ L.Nodup) (hdim : ∀ c ∈ L, 0 < dims c) (v : View A)
    (t : List Nat → A) (hv : Elements v t) (hl : v.shape.length = L.length) (hpos : ∀ d ∈ v.shape, 0 < d) (st : List Nat)
    (hst : StridesUsed v L out st) (al : Alloc A) :
    (FitsInto dims L st v.shape.prod → ∃ w T, p.contractOperands al [v] = .ok w ∧ SameAddress dims L v.shape st t T ∧
      IsEinsum dims [L] [T] out w) ∧
    (¬ FitsInto dims L st v.shape.prod → p.contractOperands al [v] = panic .unwrapErr) := by
  obtain ⟨sc, c, rfl, h1, h2, rfl, h4⟩ := path_one hd hs hp
  exact misfit_run h1 h2 h4 hn hdim hv hl hpos hst al

end

namespace Ex
/-- A column of four elements in row-major order. -/
def col41 : View Int := ⟨[5, 6, 7, 8], 0, [4, 1], [1, 1]⟩

/-- The same column in column-major order. -/
def col41F : View Int := ⟨[5, 6, 7, 8], 0, [4, 1], [1, 4]⟩

theorem ecol41 : Elements col41 (elems col41) := elements_of rfl (by decide)

theorem ecol41F : Elements col41F (elems col41F) := elements_of rfl (by decide)

theorem fills41 (k : Nat) : Fills [4, 1] [1, k] := fun a ha => by
  have ha : a < 4 := ha
  exact ⟨[a, 0], by simp [InB, ha], by simp [distance]⟩

theorem used41 : StridesUsed col41 ['i', 'i'] [] [1, 1] := .inl ⟨⟨'i', by simp, by simp⟩, rfl, by simp, fills41 1⟩

theorem used41F : StridesUsed col41F ['i', 'i'] [] [1, 4] := .inl ⟨⟨'i', by simp, by simp⟩, rfl, by simp, fills41 4⟩
end Ex

/-- C79, finding: on equal arrays the same path returns or panics, depending on the order in memory. Compiled for the trace of a
2 by 2 matrix and run on a column of four elements, it returns the sum of the first and the third element if the column is in
row-major order, and panics if it is in column-major order. -/
theorem C79_layout {B : Type} (h : HashOrd) (v₀ : View B) (hs : v₀.shape = [2, 2]) (m : OptimizationMethod) (p : EinsumPath)
    (hp : einsumPath h "ii->" [v₀] m = .ok (.ok p)) (al : Alloc Int) :
    SameArray Ex.col41 Ex.col41F ∧ (∃ w, p.contractOperands al [Ex.col41] = .ok w ∧ w.read [] = .ok (5 + 7)) ∧
      p.contractOperands al [Ex.col41F] = panic .unwrapErr := by
  have hsz : Sized (fun _ => 2) [['i', 'i']] [v₀.shape] := by rw [hs]; exact .cons (by decide) .nil
  refine ⟨?_, ?_, ?_⟩
  · refine ⟨Ex.ecol41.1, Ex.ecol41F.1, rfl, fun idx hi => ?_⟩
    have key : ∀ i ∈ allIdx [4, 1], Ex.col41.read i = Ex.col41F.read i := by decide
    exact key idx (mem_allIdx.2 hi)
  · obtain ⟨w, T, w1, w2, w3⟩ := (C79_misfit h _ v₀ _ _ _ Ex.denotes_ii hsz m p hp (by decide) (by simp) Ex.col41 _ Ex.ecol41 rfl
      (by decide) _ Ex.used41 al).1 (by unfold FitsInto; decide)
    refine ⟨w, w1, ?_⟩
    have hT : ∀ k < 2, T [k, k] = Ex.elems Ex.col41 [2 * k, 0] := by
      intro k hk
      obtain ⟨idx, i1, i2, i3⟩ := w2 (fun _ => k) fun _ _ => hk
      rw [show T [k, k] = _ from i3]
      refine congrArg _ (fills_injective (s := [4, 1]) (st := [1, 1]) ?_ i1 ?_ ?_)
      · exact Ex.fills41 1
      · simp [InB]; omega
      · rw [i2]; simp [distance]; omega
    rw [show w.read [] = _ from w3.2.2 (fun _ => 0) (by simp [InRange])]
    simp [Spec.einsum, term, summed, sumOver, Finset.sum_range_succ, hT]
    decide
  · exact (C79_misfit h _ v₀ _ _ _ Ex.denotes_ii hsz m p hp (by decide) (by simp) Ex.col41F _ Ex.ecol41F rfl
      (by decide) _ Ex.used41F al).2 (by unfold FitsInto; decide)

/-- There is such a path. -/
example (h : HashOrd) : ∃ p, einsumPath h "ii->" [(⟨[1, 2, 3, 4], 0, [2, 2], [2, 1]⟩ : View Int)] .naive = .ok (.ok p) := by
  obtain ⟨p, hp, -⟩ := einsumPath_ok (dims := fun _ => 2) (operands := [(⟨[1, 2, 3, 4], 0, [2, 2], [2, 1]⟩ : View Int)])
    Ex.denotes_ii (.cons (by decide) .nil) h (.inl rfl)
  exact ⟨p, hp⟩

end Einsum
