import Verif.Props.Examples

/-!
# Properties C21 - C23: tensordot
-/

namespace Einsum

open Spec

variable {A : Type}

/-! ## Specification -/

/-- The axes not contracted, in their original order. -/
def Spec.kept (n : Nat) (axes : List Nat) : List Nat := (List.range n).filter fun a => a ∉ axes

/-- The lengths of the listed axes. -/
def Spec.lengths (shape axes : List Nat) : List Nat := axes.map fun a => shape.getD a 0

/-- The index tuple of an array with `n` axes in which axis `axes[k]` has value `vals[k]`. -/
def Spec.place (n : Nat) (axes vals : List Nat) : List Nat :=
  (List.range n).map fun a => vals.getD (axes.idxOf a) 0

/-- The sum over all index tuples of a shape. -/
def Spec.sumIdx [AddCommMonoid A] : List Nat → (List Nat → A) → A
  | [], f => f []
  | d :: ds, f => ∑ v ∈ Finset.range d, Spec.sumIdx ds fun is => f (v :: is)

/-- The arguments `tensordot` accepts: equally many distinct existing axes on both sides, with
the same product of lengths. -/
def Spec.TensordotArgs (ls rs la ra : List Nat) : Prop :=
  la.length = ra.length ∧ la.Nodup ∧ ra.Nodup ∧ (∀ a ∈ la, a < ls.length) ∧ (∀ a ∈ ra, a < rs.length) ∧
    (lengths ls la).prod = (lengths rs ra).prod

instance (ls rs la ra : List Nat) : Decidable (TensordotArgs ls rs la ra) := by
  unfold TensordotArgs; infer_instance

/-! ## Proofs -/

theorem assertThat_not {b : Bool} (h : ¬ b = true) : assertThat b = panic .assertFailed := by
  simp [Bool.not_eq_true _ ▸ h]

theorem getD_append_left' {a b : List Nat} {i d : Nat} (h : i < a.length) : (a ++ b).getD i d = a.getD i d := by
  simp [List.getD_eq_getElem?_getD, List.getElem?_append_left h]

theorem getD_append_right' {a b : List Nat} {i d : Nat} (h : a.length ≤ i) :
    (a ++ b).getD i d = b.getD (i - a.length) d := by
  simp [List.getD_eq_getElem?_getD, List.getElem?_append_right h]

theorem usub_of_lt {a b : Nat} (h : a < b) : usub a b = panic .subUnderflow := by
  simp [usub, Nat.not_le.2 h]

theorem sum_unravel_sumIdx [AddCommMonoid A] (s : List Nat) (f : List Nat → A) :
    ∑ x ∈ Finset.range s.prod, f (unravel s x) = sumIdx s f := by
  induction s generalizing f with
  | nil => simp [sumIdx, unravel, one_nsmul]
  | cons d ds ih =>
    have e : ∀ v, sumIdx ds (fun is => f (v :: is)) =
        ∑ x ∈ Finset.range ds.prod, f (unravel (d :: ds) (v * ds.prod + x)) := by
      intro v
      rw [← ih]
      refine Finset.sum_congr rfl fun x hx => ?_
      have hx' := Finset.mem_range.1 hx
      have hp : 0 < ds.prod := by omega
      rw [unravel, Nat.mul_add_mod_self_right, Nat.mod_eq_of_lt hx', Nat.mul_comm,
        Nat.mul_add_div hp, Nat.div_eq_of_lt hx', Nat.add_zero]
    simp only [sumIdx, e, List.prod_cons]
    clear e ih
    induction d with
    | zero => simp
    | succ d ih =>
      rw [Nat.succ_mul, Finset.sum_range_add, Finset.sum_range_succ]
      congr 1

theorem pos_eq_idxOf {l : List Nat} {a : Nat} (hn : l.Nodup) (h : a ∈ l) : pos a l = l.idxOf a := by
  have hlt := List.idxOf_lt_length_of_mem h
  have := pos_getElem hn hlt
  rwa [List.getElem_idxOf] at this

theorem unperm_eq_place {axes idx : List Nat} {n : Nat} (hp : axes.Perm (List.range n)) :
    unperm axes idx = place n axes idx := by
  unfold unperm place
  rw [hp.length_eq, List.length_range]
  refine List.map_congr_left fun a ha => ?_
  rw [pos_eq_idxOf (hp.nodup_iff.2 List.nodup_range) (hp.mem_iff.2 ha)]

theorem uncontractedAxes_eq (n : Nat) (axes : List Nat) : uncontractedAxes n axes = kept n axes := by
  unfold uncontractedAxes kept
  refine List.filter_congr fun a _ => ?_
  simp

theorem kept_perm {n : Nat} {axes : List Nat} (hn : axes.Nodup) (ha : ∀ a ∈ axes, a < n) :
    (kept n axes ++ axes).Perm (List.range n) := by
  refine perm_of_nodup ?_ List.nodup_range fun a => ?_
  · rw [List.nodup_append]
    refine ⟨List.nodup_range.filter _, hn, ?_⟩
    rintro a h1 b h2 rfl
    simp [kept, h2] at h1
  · simp only [List.mem_append, kept, List.mem_filter, List.mem_range, decide_eq_true_eq]
    constructor
    · rintro (h | h)
      · exact h.1
      · exact ha a h
    · intro h
      by_cases hc : a ∈ axes
      · exact .inr hc
      · exact .inl ⟨h, hc⟩

theorem mapE_index {s axes : List Nat} (h : ∀ a ∈ axes, a < s.length) :
    mapE (index s) axes = .ok (lengths s axes) := by
  unfold lengths
  apply mapE_ok
  intro a ha
  rw [index_getElem (h a ha)]
  simp [h a ha]

theorem mapE_index_panic {s axes : List Nat} (h : ¬ ∀ a ∈ axes, a < s.length) :
    ∃ k, mapE (index s) axes = panic k := by
  induction axes with
  | nil => simp at h
  | cons a axes ih =>
    by_cases ha : a < s.length
    · obtain ⟨k, hk⟩ := ih (by
        intro h'
        refine h fun b hb => ?_
        rcases List.mem_cons.1 hb with rfl | hb
        · exact ha
        · exact h' b hb)
      refine ⟨k, ?_⟩
      simp only [mapE, index_getElem ha]
      rw [hk]; rfl
    · refine ⟨.indexOutOfBounds, ?_⟩
      have : index s a = panic .indexOutOfBounds := by
        unfold index
        rw [List.getElem?_eq_none (by omega)]
      simp only [mapE, this]
      rfl

theorem lengths_append (s a b : List Nat) : lengths s (a ++ b) = lengths s a ++ lengths s b :=
  List.map_append

/-- The constructor, for distinct existing axes. -/
theorem fromAxes_ok {ls rs la ra order : List Nat} (hlen : la.length = ra.length) (hla : la.Nodup)
    (hra : ra.Nodup) (hl : ∀ a ∈ la, a < ls.length) (hr : ∀ a ∈ ra, a < rs.length) :
    TensordotGeneral.fromShapesAndAxisNumbers ls rs la ra order =
      if (lengths rs ra).prod = (lengths ls la).prod then
        .ok ⟨⟨kept ls.length la ++ la⟩, ⟨ra ++ kept rs.length ra⟩,
          ⟨(lengths ls (kept ls.length la)).prod, (lengths rs (kept rs.length ra)).prod,
            (lengths ls la).prod, lengths ls (kept ls.length la) ++ lengths rs (kept rs.length ra)⟩,
          ⟨order⟩⟩
      else panic .assertFailed := by
  have pl := kept_perm hla hl
  have pr := kept_perm hra hr
  unfold TensordotGeneral.fromShapesAndAxisNumbers
  simp only [uncontractedAxes_eq]
  rw [assertThat_of (by simpa using hlen), bind_ok,
    assertThat_of (by simpa using (hset_length_eq_iff.2 hla).symm), bind_ok,
    assertThat_of (by simpa [hlen] using (hset_length_eq_iff.2 hra).symm), bind_ok,
    mapE_index (fun a ha => by simpa using pl.mem_iff.1 ha), bind_ok,
    mapE_index (fun a ha => by simpa using (List.perm_append_comm.trans pr).mem_iff.1 ha), bind_ok,
    lengths_append, lengths_append, fromShapes_split (by simp [lengths]) (by simp [lengths, hlen])]
  split <;> rfl

theorem tensordot_holds [AddCommMonoid A] [Mul A] {l r : View A} {ls rs la ra : List Nat} {T U : List Nat → A}
    (hl : Holds l ls T) (hr : Holds r rs U) (h : TensordotArgs ls rs la ra) (al : Alloc A) :
    ∃ w T', tensordot al l r la ra = .ok w ∧
      Holds w (lengths ls (kept ls.length la) ++ lengths rs (kept rs.length ra)) T' ∧
      ∀ a b, InB (lengths ls (kept ls.length la)) a → InB (lengths rs (kept rs.length ra)) b →
        T' (a ++ b) = ∑ x ∈ Finset.range (lengths ls la).prod,
          T (place ls.length (kept ls.length la ++ la) (a ++ unravel (lengths ls la) x)) *
          U (place rs.length (ra ++ kept rs.length ra) (unravel (lengths rs ra) x ++ b)) := by
  obtain ⟨hlen, hla, hra, hal, har, hprod⟩ := h
  have pl := kept_perm hla hal
  have pr := List.perm_append_comm.trans (kept_perm hra har)
  obtain ⟨l', l1, l2⟩ := hl.permutedAxes pl
  obtain ⟨r', r1, r2⟩ := hr.permutedAxes pr
  change Holds l' (lengths ls _) _ at l2
  change Holds r' (lengths rs _) _ at r2
  rw [lengths_append] at l2 r2
  obtain ⟨t, T', t1, t2, t3⟩ := l2.fixedRun_split r2 hprod.symm (al.sub 0)
  set O := lengths ls (kept ls.length la) ++ lengths rs (kept rs.length ra) with hO
  obtain ⟨p, p1, p2⟩ := t2.permutedAxes (List.Perm.refl (List.range O.length))
  obtain ⟨w, w1, w2⟩ := p2.toOwned (al.sub 1)
  have e1 : ((List.range O.length).map fun a => O.getD a 0) = O := (eq_map_range_getD O 0).symm
  rw [e1] at w2
  have n1 := pl.length_eq
  have n2 := pr.length_eq
  simp only [List.length_append, List.length_range] at n1 n2
  have hOl : O.length = ls.length + rs.length - 2 * la.length := by
    simp only [hO, List.length_append, lengths, List.length_map]
    omega
  refine ⟨w, T', ?_, w2.congr fun idx hi => ?_, fun a b ha hb => ?_⟩
  · unfold tensordot
    rw [assertThat_of (by simpa using hlen), bind_ok, hl.shape, hr.shape,
      usub_of_le (by omega), bind_ok, fromAxes_ok hlen hla hra hal har, if_pos hprod.symm, bind_ok]
    unfold TensordotGeneral.run Permutation.view Permutation.run
    rw [l1, bind_ok, r1, bind_ok, t1, bind_ok, ← hOl, p1, bind_ok, w1]
  · congr 1
    have := eq_map_unperm (List.Perm.refl (List.range O.length)) (idx := idx) hi.length_eq
    have e2 := unperm_map (List.Perm.refl (List.range O.length))
      (fun a => idx.getD (pos a (List.range O.length)) 0)
    rw [← this] at e2
    exact e2
  · rw [t3 a b ha hb]
    refine Finset.sum_congr rfl fun x hx => ?_
    rw [unperm_eq_place pl, unperm_eq_place pr]

/-! ## Properties -/

/-- C21: `tensordot` over paired axes of equal lengths returns the array with the remaining axes of the
left operand followed by those of the right operand, in original order, whose elements are the sums of
products over the contracted axes. -/
theorem C21_tensordot [AddCommMonoid A] [Mul A] (al : Alloc A) (l r : View A) (T U : List Nat → A)
    (la ra : List Nat) (hl : Elements l T) (hr : Elements r U) (hlen : la.length = ra.length)
    (hla : la.Nodup) (hra : ra.Nodup) (hal : ∀ a ∈ la, a < l.shape.length)
    (har : ∀ a ∈ ra, a < r.shape.length) (heq : lengths l.shape la = lengths r.shape ra) :
    ∃ w, tensordot al l r la ra = .ok w ∧ w.Wf ∧
      w.shape = lengths l.shape (kept l.shape.length la) ++ lengths r.shape (kept r.shape.length ra) ∧
      ∀ a b, InB (lengths l.shape (kept l.shape.length la)) a →
        InB (lengths r.shape (kept r.shape.length ra)) b →
        w.read (a ++ b) = .ok (sumIdx (lengths l.shape la) fun c =>
          T (place l.shape.length (kept l.shape.length la ++ la) (a ++ c)) *
          U (place r.shape.length (kept r.shape.length ra ++ ra) (b ++ c))) := by
  obtain ⟨w, T', w1, w2, w3⟩ := tensordot_holds hl.holds hr.holds ⟨hlen, hla, hra, hal, har, by rw [heq]⟩ al
  refine ⟨w, w1, w2.wf, w2.shape, fun a b ha hb => ?_⟩
  rw [w2.get (a ++ b) ((InB_append ha.length_eq).2 ⟨ha, hb⟩), w3 a b ha hb, ← sum_unravel_sumIdx]
  congr 1
  refine Finset.sum_congr rfl fun x hx => ?_
  congr 2
  -- the two ways of listing the right operand's axes
  rw [heq]
  set c := unravel (lengths r.shape ra) x with hc
  have hcl : c.length = ra.length := by rw [hc, unravel_length]; simp [lengths]
  have hbl : b.length = (kept r.shape.length ra).length := by rw [hb.length_eq]; simp [lengths]
  unfold place
  refine List.map_congr_left fun i hi => ?_
  have hi' : i < r.shape.length := List.mem_range.1 hi
  by_cases hm : i ∈ ra
  · have hk : i ∉ kept r.shape.length ra := by simp [kept, hm]
    have hlt := List.idxOf_lt_length_of_mem hm
    rw [List.idxOf_append_of_mem hm, List.idxOf_append_of_notMem hk,
      getD_append_left' (by omega), getD_append_right' (by omega)]
    congr 1
    omega
  · have hk : i ∈ kept r.shape.length ra := by simp [kept, hm, hi']
    have hlt := List.idxOf_lt_length_of_mem hk
    rw [List.idxOf_append_of_mem hk, List.idxOf_append_of_notMem hm,
      getD_append_right' (by omega), getD_append_left' (by omega)]
    congr 1
    omega

/-- C21: `tensordot` equals the documented `einsum`: with letters `L` and `R` for the axes of the operands,
equal exactly for the contracted pairs of axes, it is `einsum("L,R->…")` whose output is the remaining
letters of `L` followed by those of `R`. -/
theorem C21_einsum [CommSemiring A] (h : HashOrd) (al al' : Alloc A) (l r : View A)
    (la ra : List Nat) (L R C out : List Char) (s : String) (dims : Char → Nat)
    (hd : Denotes s [L, R] out) (hs : Sized dims [L, R] [l.shape, r.shape]) (hl : l.Wf) (hr : r.Wf)
    (hL : L.Nodup) (hR : R.Nodup) (hC : ∀ c, c ∈ C ↔ c ∈ L ∧ c ∈ R) (hCn : C.Nodup)
    (hla : la = C.map L.idxOf) (hra : ra = C.map R.idxOf)
    (ho : out = (L.filter fun c => c ∉ R) ++ R.filter fun c => c ∉ L) :
    ∃ w r', tensordot al l r la ra = .ok w ∧ einsum h al' s [l, r] = .ok (.ok r') ∧ SameArray w r' := by
  have hCL : ∀ c ∈ C, c ∈ L := fun c hc => ((hC c).1 hc).1
  have hCR : ∀ c ∈ C, c ∈ R := fun c hc => ((hC c).1 hc).2
  obtain ⟨r', e1, e2⟩ := einsum_ok (operands := [l, r]) ⟨hd, hs, .cons hl.elements (.cons hr.elements .nil)⟩
    (by
      intro ix hi
      simp only [List.mem_cons, List.not_mem_nil, or_false] at hi
      rcases hi with rfl | rfl
      · exact .inl hL
      · exact .inl hR) h al'
  have hsl : l.shape = L.map dims := by cases hs with | cons h1 _ => exact h1
  have hsr : r.shape = R.map dims := by cases hs with | cons _ h2 => cases h2 with | cons h3 _ => exact h3
  have hkL : (L.filter fun c => c ∉ R) = L.filter fun c => c ∉ C :=
    List.filter_congr fun c hc => by simp [hC, hc]
  have hkR : (R.filter fun c => c ∉ L) = R.filter fun c => c ∉ C :=
    List.filter_congr fun c hc => by simp [hC, hc]
  rw [hkL, hkR] at ho
  have hn : ((L.filter fun c => c ∉ C) ++ R.filter fun c => c ∉ C).Nodup := ho ▸ hd.outputOk.1
  have hpos : ∀ (X : List Char), X.Nodup → (∀ c ∈ C, c ∈ X) → C.map X.idxOf = C.map fun c => pos c X := by
    intro X hX hCX
    refine List.map_congr_left fun c hc => ?_
    have hlt := List.idxOf_lt_length_of_mem (hCX c hc)
    have := pos_getElem hX hlt
    rw [List.getElem_idxOf] at this
    exact this.symm
  have rl : Rep l L dims fun σ => l.elem (L.map σ) := by
    have := hl.elements.holds
    rw [hsl] at this
    exact this.rep
  have rr : Rep r R dims fun σ => r.elem (R.map σ) := by
    have := hr.elements.holds
    rw [hsr] at this
    exact this.rep
  obtain ⟨w, w1, w2⟩ := rl.tensordot rr hL hR hCn hCL hCR hn (out := out) (by rw [ho]) al
  have hord : (out.map fun c => pos c ((L.filter fun c => c ∉ C) ++ R.filter fun c => c ∉ C)) =
      List.range out.length := by
    rw [← ho]
    refine List.ext_getElem (by simp) fun i h1 h2 => ?_
    simp only [List.getElem_map, List.getElem_range]
    exact pos_getElem hd.outputOk.1 _
  refine ⟨w, r', ?_, e1, ?_⟩
  · unfold tensordot
    have hlen : out.length = l.shape.length + r.shape.length - 2 * la.length := by
      have p1 := (filter_append_perm_of hL hCn hCL).length_eq
      have p2 := (filter_append_perm_of hR hCn hCR).length_eq
      rw [hsl, hsr, hla, ho]
      simp only [List.length_append, List.length_map] at p1 p2 ⊢
      omega
    have hle : 2 * la.length ≤ l.shape.length + r.shape.length := by
      have p1 := (filter_append_perm_of hL hCn hCL).length_eq
      have p2 := (filter_append_perm_of hR hCn hCR).length_eq
      rw [hsl, hsr, hla]
      simp only [List.length_append, List.length_map] at p1 p2 ⊢
      omega
    rw [assertThat_of (by simp [hla, hra]), bind_ok, usub_of_le hle, bind_ok, ← hlen, hsl, hsr, hla, hra,
      hpos L hL hCL, hpos R hR hCR, fromAxisNumbers_ok hL hR hCn hCL hCR, bind_ok, ← hord]
    exact w1
  · refine Spec.IsEinsum.same (dims := dims) (inputs := [L, R]) (ts := [l, r].map View.elem)
      hd.outputOk.1 ?_ e2
    refine Rep.isEinsum hd.outputOk.1 (w2.congr fun σ _ => ?_)
    unfold Spec.einsum
    rw [sumOver_perm (perm_of_nodup hCn (summed_nodup [L, R] out) fun c => ?_)]
    · congr 1
      funext σ
      simp [term]
    · rw [mem_summed, ho, hC]
      simp only [List.flatten_cons, List.flatten_nil, List.append_nil, List.mem_append, List.mem_filter,
        decide_eq_true_eq, hC]
      tauto

/-- C22: `tensordot` returns exactly for the accepted arguments, and panics for all others. -/
theorem C22_args [AddCommMonoid A] [Mul A] (al : Alloc A) (l r : View A) (la ra : List Nat) (hl : l.Wf) (hr : r.Wf) :
    (TensordotArgs l.shape r.shape la ra → ∃ w, tensordot al l r la ra = .ok w ∧ w.Wf) ∧
    (¬ TensordotArgs l.shape r.shape la ra → ∃ k, tensordot al l r la ra = panic k) := by
  constructor
  · intro h
    obtain ⟨w, T', w1, w2, -⟩ := tensordot_holds hl.elements.holds hr.elements.holds h al
    exact ⟨w, w1, w2.wf⟩
  · intro h
    unfold tensordot
    by_cases h1 : la.length = ra.length
    swap
    · exact ⟨.assertFailed, by rw [assertThat_not (by simpa using h1)]; rfl⟩
    rw [assertThat_of (by simpa using h1), bind_ok]
    by_cases h2 : 2 * la.length ≤ l.shape.length + r.shape.length
    swap
    · exact ⟨.subUnderflow, by rw [usub_of_lt (by omega)]; rfl⟩
    rw [usub_of_le h2, bind_ok]
    generalize List.range _ = order
    suffices hx : ∃ k, TensordotGeneral.fromShapesAndAxisNumbers l.shape r.shape la ra order = panic k by
      obtain ⟨k, hk⟩ := hx
      exact ⟨k, by rw [hk]; rfl⟩
    by_cases h3 : la.Nodup
    swap
    · refine ⟨.assertFailed, ?_⟩
      unfold TensordotGeneral.fromShapesAndAxisNumbers
      simp only []
      rw [assertThat_of (by simpa using h1), bind_ok, assertThat_not]
      · rfl
      · intro e
        exact h3 (hset_length_eq_iff.1 (by simpa using (of_decide_eq_true e).symm))
    by_cases h4 : ra.Nodup
    swap
    · refine ⟨.assertFailed, ?_⟩
      unfold TensordotGeneral.fromShapesAndAxisNumbers
      simp only []
      rw [assertThat_of (by simpa using h1), bind_ok,
        assertThat_of (by simpa using (hset_length_eq_iff.2 h3).symm), bind_ok, assertThat_not]
      · rfl
      · intro e
        exact h4 (hset_length_eq_iff.1 (by rw [← h1]; simpa using (of_decide_eq_true e).symm))
    by_cases h5 : ∀ a ∈ la, a < l.shape.length
    swap
    · obtain ⟨k, hk⟩ := mapE_index_panic (s := l.shape) (axes := kept l.shape.length la ++ la)
        fun hx => h5 fun a ha => hx a (by simp [ha])
      refine ⟨k, ?_⟩
      unfold TensordotGeneral.fromShapesAndAxisNumbers
      simp only [uncontractedAxes_eq]
      rw [assertThat_of (by simpa using h1), bind_ok,
        assertThat_of (by simpa using (hset_length_eq_iff.2 h3).symm), bind_ok,
        assertThat_of (by simpa [h1] using (hset_length_eq_iff.2 h4).symm), bind_ok, hk]
      rfl
    by_cases h6 : ∀ a ∈ ra, a < r.shape.length
    swap
    · obtain ⟨k, hk⟩ := mapE_index_panic (s := r.shape) (axes := ra ++ kept r.shape.length ra)
        fun hx => h6 fun a ha => hx a (by simp [ha])
      refine ⟨k, ?_⟩
      unfold TensordotGeneral.fromShapesAndAxisNumbers
      simp only [uncontractedAxes_eq]
      rw [assertThat_of (by simpa using h1), bind_ok,
        assertThat_of (by simpa using (hset_length_eq_iff.2 h3).symm), bind_ok,
        assertThat_of (by simpa [h1] using (hset_length_eq_iff.2 h4).symm), bind_ok,
        mapE_index (fun a ha => by simpa using (kept_perm h3 h5).mem_iff.1 ha), bind_ok, hk]
      rfl
    refine ⟨.assertFailed, ?_⟩
    rw [fromAxes_ok h1 h3 h4 h5 h6, if_neg]
    intro e
    exact h ⟨h1, h3, h4, h5, h6, e.symm⟩

/-- C23 (finding): paired axes of different lengths are not rejected when only the products of the lengths
agree; the returned elements then pair the contracted index tuples of the two operands by their row-major
position. -/
theorem C23_products_only [AddCommMonoid A] [Mul A] (al : Alloc A) (l r : View A) (T U : List Nat → A)
    (la ra : List Nat) (hl : Elements l T) (hr : Elements r U) (h : TensordotArgs l.shape r.shape la ra) :
    ∃ w, tensordot al l r la ra = .ok w ∧ w.Wf ∧
      w.shape = lengths l.shape (kept l.shape.length la) ++ lengths r.shape (kept r.shape.length ra) ∧
      ∀ a b, InB (lengths l.shape (kept l.shape.length la)) a →
        InB (lengths r.shape (kept r.shape.length ra)) b →
        w.read (a ++ b) = .ok (∑ x ∈ Finset.range (lengths l.shape la).prod,
          T (place l.shape.length (kept l.shape.length la ++ la) (a ++ unravel (lengths l.shape la) x)) *
          U (place r.shape.length (ra ++ kept r.shape.length ra) (unravel (lengths r.shape ra) x ++ b))) := by
  obtain ⟨w, T', w1, w2, w3⟩ := tensordot_holds hl.holds hr.holds h al
  exact ⟨w, w1, w2.wf, w2.shape, fun a b ha hb => by
    rw [w2.get (a ++ b) ((InB_append ha.length_eq).2 ⟨ha, hb⟩), w3 a b ha hb]⟩

/-- C23, the refuted claim: "`tensordot` panics whenever some paired axes have different lengths". -/
theorem C23_counterexample : ¬ ∀ (l r : View Int) (la ra : List Nat), l.Wf → r.Wf →
    lengths l.shape la ≠ lengths r.shape ra →
    ∃ k, tensordot (Alloc.rowMajor Int) l r la ra = panic k := by
  intro hall
  obtain ⟨k, hk⟩ := hall Ex.m23 Ex.m32 [0, 1] [0, 1] Ex.e23.1 Ex.e32.1 (by decide)
  obtain ⟨w, hw, -⟩ := (C22_args (Alloc.rowMajor Int) Ex.m23 Ex.m32 [0, 1] [0, 1] Ex.e23.1 Ex.e32.1).1
    (by decide)
  rw [hw] at hk
  simp [panic] at hk

/-! ## Examples -/

example := C21_tensordot (Alloc.colMajor Int) Ex.m332 Ex.m32 _ _ [2, 1] [1, 0] Ex.e332 Ex.e32 rfl
  (by decide) (by decide) (by decide) (by decide) (by decide)

theorem Ex.denotes_td : Denotes "ajk,kj->a" [['a', 'j', 'k'], ['k', 'j']] ['a'] :=
  .inl ⟨by decide, ⟨by simp, by simp [Letter], by simp [Letter]⟩, by simp [OutputOk, Used]⟩

example : ∃ w r', tensordot (Alloc.rowMajor Int) Ex.m332 Ex.m23 [1, 2] [1, 0] = .ok w ∧
    einsum HashOrd.reversed (Alloc.colMajor Int) "ajk,kj->a" [Ex.m332, Ex.m23] = .ok (.ok r') ∧
    SameArray w r' :=
  C21_einsum _ _ _ _ _ _ _ ['a', 'j', 'k'] ['k', 'j'] ['j', 'k'] ['a'] _
    (fun c => if c = 'k' then 2 else 3) Ex.denotes_td (.cons (by decide) (.cons (by decide) .nil))
    Ex.e332.1 Ex.e23.1 (by decide) (by decide) (by simp; tauto) (by decide) (by decide) (by decide)
    (by decide)

example : ∃ k, tensordot (Alloc.rowMajor Int) Ex.m23 Ex.m32 [1] [1] = panic k :=
  (C22_args _ _ _ _ _ Ex.e23.1 Ex.e32.1).2 (by decide)

example : ∃ w, tensordot (Alloc.rowMajor Int) Ex.m23 Ex.m32 [0, 1] [0, 1] = .ok w := by
  obtain ⟨w, h, -⟩ := C23_products_only (Alloc.rowMajor Int) Ex.m23 Ex.m32 _ _ [0, 1] [0, 1] Ex.e23 Ex.e32
    (by decide)
  exact ⟨w, h⟩

end Einsum
