import Verif.Model.Pair
import Verif.Proofs.Views

/-! # More array operations: matrix product, broadcasting, outer iteration -/

namespace Einsum

variable {A : Type}

/-! ## Reshaping to a matrix -/

theorem Holds.asMatrix {t : View A} {s T} (h : Holds t s T) {rows cols : Nat}
    (hp : rows * cols = s.prod) :
    ∃ w, asMatrix t rows cols = .ok w ∧ w.strides = defaultStrides [rows, cols] ∧
      Holds w [rows, cols] (fun idx => T (unravel s (ravel [rows, cols] idx))) := by
  have hp' : [rows, cols].prod = s.prod := by simpa using hp
  unfold Einsum.asMatrix
  by_cases hst : t.isStandardLayout = true
  · obtain ⟨w, h1, h2, h3⟩ := h.intoShape hst hp'
    exact ⟨w, by simp [hst, h1], h2, h3⟩
  · obtain ⟨w, h1, h2, h3⟩ := fromShapeVec_map hp' T
    exact ⟨w, by simp [hst, h.toVec, h1], h2, h3⟩

theorem Holds.asMatrix_panic {t : View A} {s T} (h : Holds t s T) {rows cols : Nat}
    (hp : rows * cols ≠ s.prod) : Einsum.asMatrix t rows cols = panic .unwrapErr := by
  have hp' : [rows, cols].prod ≠ s.prod := by simpa using hp
  unfold Einsum.asMatrix
  by_cases hst : t.isStandardLayout = true
  · have : t.intoShape [rows, cols] = none := View.intoShape_ne (by rw [h.shape]; exact hp')
    simp [hst, this]
  · simp [hst, h.toVec, fromShapeVec_ne hp' T]

/-! ## dot -/

theorem InB_two {m n : Nat} {idx : List Nat} (h : InB [m, n] idx) :
    ∃ i j, idx = [i, j] ∧ i < m ∧ j < n := by
  match idx, h with
  | [i, j], h => exact ⟨i, j, rfl, h.1, h.2.1⟩

theorem SumTree.dot_eq [Zero A] [Add A] [Mul A] (t : SumTree) (ps : List (A × A))
    (h : ∀ i ∈ t.leaves, i < ps.length) : t.dot ps = t.sum (ps.map fun p => p.1 * p.2) := by
  have key : ∀ i, i < ps.length → (ps.getD i (0, 0)).1 * (ps.getD i (0, 0)).2 = (ps.map fun p => p.1 * p.2).getD i 0 := by
    intro i hi
    simp [List.getD_eq_getElem?_getD, hi]
  induction t with
  | zero => rfl
  | leaf i => exact key i (h i (by simp [leaves]))
  | add l r hl hr =>
    simp only [leaves, List.mem_append] at h
    rw [SumTree.dot, SumTree.sum, hl fun i hi => h i (.inl hi), hr fun i hi => h i (.inr hi)]
  | fused i t ht =>
    simp only [leaves, List.mem_cons] at h
    rw [SumTree.dot, SumTree.sum, ht fun i hi => h i (.inr hi), ← key i (h i (.inl rfl))]
    rfl

theorem sumOrder_dot [AddCommMonoid A] [Mul A] (al : Alloc A) (p : List Nat) (d : Nat) (f g : Nat → A) :
    (al.sumOrder p d).dot ((List.range d).map fun k => (f k, g k)) = ∑ k ∈ Finset.range d, f k * g k := by
  rw [SumTree.dot_eq _ _ fun i hi => by simpa using (al.sumOrder_perm p d).mem_iff.1 hi, List.map_map]
  exact sumOrder_sum al p d fun k => f k * g k

/-- Element `(i, j)` of the matrix product. -/
def dotElem [AddCommMonoid A] [Mul A] (k : Nat) (P Q : List Nat → A) (i j : Nat) : A :=
  ∑ x ∈ Finset.range k, P [i, x] * Q [x, j]

theorem dot_elem_ok [AddCommMonoid A] [Mul A] (al : Alloc A) {l r : View A} {m k n : Nat} {P Q : List Nat → A}
    (hl : Holds l [m, k] P) (hr : Holds r [k, n] Q) {i j : Nat} (hi : i < m) (hj : j < n) :
    (do
      let ps ← mapE (fun x => do
          let a ← l.read [i, x]
          let b ← r.read [x, j]
          return (a, b))
        (List.range k)
      return (al.sumOrder [i, j] k).dot ps : M A) = .ok (dotElem k P Q i j) := by
  rw [mapE_ok (g := fun x => (P [i, x], Q [x, j]))]
  · simp [sumOrder_dot, dotElem]
  · intro x hx
    have hx : x < k := by simpa using hx
    rw [hl.get [i, x] ⟨hi, hx, trivial⟩, hr.get [x, j] ⟨hx, hj, trivial⟩]
    rfl

theorem Holds.dot [AddCommMonoid A] [Mul A] {l r : View A} {m k n : Nat} {P Q : List Nat → A}
    (hl : Holds l [m, k] P) (hr : Holds r [k, n] Q) (al : Alloc A) :
    ∃ w, l.dot al r = .ok w ∧
      Holds w [m, n] (fun idx => dotElem k P Q (idx.getD 0 0) (idx.getD 1 0)) ∧
      (l.strides = defaultStrides [m, k] → r.strides = defaultStrides [k, n] →
        w.isStandardLayout = true) := by
  unfold View.dot
  simp only [hl.shape, hr.shape, if_true]
  by_cases hcm : l.strides[0]? = some 1 ∧ r.strides[0]? = some 1
  · simp only [hcm, and_self, if_true]
    rw [mapE_ok (g := fun ji : List Nat => dotElem k P Q (ji.getD 1 0) (ji.getD 0 0))]
    · refine ⟨_, rfl, ?_, ?_⟩
      · refine Holds.of_readAt rfl (fortranStrides_length _) fun idx hi => ?_
        obtain ⟨i, j, rfl, h1, h2⟩ := InB_two hi
        have hin : InB [n, m] [j, i] := ⟨h2, h1, trivial⟩
        simp only [Int.zero_add]
        have e : dotI (fortranStrides [m, n]) [i, j] = ((ravel [n, m] [j, i] : Nat) : Int) := by
          rw [fortranStrides, if_pos hi.all_ne]
          simp [preProds]
          ring
        rw [e, readAt_nat (map_allIdx_getElem? (ravel_lt hin)), unravel_ravel hin]
        rfl
      · intro hls hrs
        rw [hls, hrs] at hcm
        have hk : ∀ a b : Nat, (defaultStrides [a, b])[0]? = some 1 → b = 1 ∧ a ≠ 0 := by
          intro a b h
          by_cases hab : [a, b].all (· ≠ 0) = true
          · rw [defaultStrides, if_pos hab] at h
            simp [sufProds] at h hab
            exact ⟨by omega, hab.1⟩
          · rw [defaultStrides, if_neg hab] at h
            simp at h
        obtain ⟨_, hm⟩ := hk _ _ hcm.1
        obtain ⟨hn, _⟩ := hk _ _ hcm.2
        subst hn
        simp [View.isStandardLayout, isStandard, fortranStrides, defaultStrides, preProds, sufProds, hm]
    · intro ji hji
      obtain ⟨j, i, rfl, h1, h2⟩ := InB_two (mem_allIdx.1 hji)
      exact dot_elem_ok al hl hr h2 h1
  · rw [if_neg hcm]
    rw [mapE_ok (g := fun ij : List Nat => dotElem k P Q (ij.getD 0 0) (ij.getD 1 0))]
    · refine ⟨_, rfl, ?_, ?_⟩
      · apply holds_of_buf
        intro p hp
        rw [map_allIdx_getElem? hp]
      · intro _ _
        exact isStandard_default _
    · intro ij hij
      obtain ⟨i, j, rfl, h1, h2⟩ := InB_two (mem_allIdx.1 hij)
      exact dot_elem_ok al hl hr h1 h2

/-! ## TensordotFixedPosition -/

/-- The general effect of the fixed-position contraction, in terms of row-major positions. -/
theorem Holds.fixedRun [AddCommMonoid A] [Mul A] {l r : View A} {sl sr T U}
    (hl : Holds l sl T) (hr : Holds r sr U) (f : TensordotFixedPosition) (al : Alloc A)
    (h1 : f.lenUncontractedLhs * f.lenContractedAxes = sl.prod)
    (h2 : f.lenContractedAxes * f.lenUncontractedRhs = sr.prod)
    (h3 : f.outputShape.prod = f.lenUncontractedLhs * f.lenUncontractedRhs) :
    ∃ w, f.run al l r = .ok w ∧ Holds w f.outputShape (fun idx =>
      ∑ x ∈ Finset.range f.lenContractedAxes,
        T (unravel sl (ravel f.outputShape idx / f.lenUncontractedRhs * f.lenContractedAxes + x)) *
        U (unravel sr (x * f.lenUncontractedRhs + ravel f.outputShape idx % f.lenUncontractedRhs))) := by
  obtain ⟨lm, e1, s1, H1⟩ := hl.asMatrix h1
  obtain ⟨rm, e2, s2, H2⟩ := hr.asMatrix h2
  obtain ⟨p, e3, H3, hst⟩ := H1.dot H2 al
  obtain ⟨w, e4, _, H4⟩ := H3.intoShape (s' := f.outputShape) (hst s1 s2) (by simpa using h3)
  refine ⟨w, by simp [TensordotFixedPosition.run, e1, e2, e3, e4], H4.congr fun idx hi => ?_⟩
  simp [unravel, dotElem]

/-- The contraction of `u ++ c` with `c' ++ v` where `c` and `c'` have equally many elements. -/
theorem Holds.fixedRun_split [AddCommMonoid A] [Mul A] {l r : View A} {u c c' v : List Nat} {T U}
    (hl : Holds l (u ++ c) T) (hr : Holds r (c' ++ v) U) (hc : c'.prod = c.prod) (al : Alloc A) :
    ∃ w T', TensordotFixedPosition.run ⟨u.prod, v.prod, c.prod, u ++ v⟩ al l r = .ok w ∧
      Holds w (u ++ v) T' ∧ ∀ a b, InB u a → InB v b →
        T' (a ++ b) = ∑ x ∈ Finset.range c.prod, T (a ++ unravel c x) * U (unravel c' x ++ b) := by
  obtain ⟨w, e, H⟩ := hl.fixedRun hr ⟨u.prod, v.prod, c.prod, u ++ v⟩ al
    (by simp) (by simp [hc]) (by simp)
  refine ⟨w, _, e, H, fun a b ha hb => ?_⟩
  simp only
  apply Finset.sum_congr rfl
  intro x hx
  have hx : x < c.prod := by simpa using hx
  have hb' := ravel_lt hb
  have hab : ravel (u ++ v) (a ++ b) = ravel u a * v.prod + ravel v b := ravel_append ha.length_eq
  have hd : ravel (u ++ v) (a ++ b) / v.prod = ravel u a := by
    rw [hab, Nat.mul_comm, Nat.mul_add_div hb.pos, Nat.div_eq_of_lt hb', Nat.add_zero]
  have hm : ravel (u ++ v) (a ++ b) % v.prod = ravel v b := by
    rw [hab, Nat.mul_comm, Nat.mul_add_mod, Nat.mod_eq_of_lt hb']
  rw [hd, hm, unravel_append (ravel_lt ha) hx, unravel_append (hc ▸ hx) hb', unravel_ravel ha,
    unravel_ravel hb]

/-! The shape loops. -/

theorem lhsLoop_contracted {N k : Nat} (hk : k ≤ N) (c : List Nat) (axis : Nat) (ha : N - k ≤ axis)
    (pu pc : Nat) (o : List Nat) :
    lhsLoop N k axis c (pu, pc, o) = .ok (pu, pc * c.prod, o) := by
  induction c generalizing axis pc with
  | nil => simp [lhsLoop]
  | cons n c ih =>
    simp only [lhsLoop, usub_of_le hk, bind_ok]
    rw [if_neg (by omega), ih (axis + 1) (by omega)]
    simp [mul_assoc]

theorem lhsLoop_split {N k : Nat} (hk : k ≤ N) (u c : List Nat) (axis : Nat)
    (ha : axis + u.length = N - k) (pu pc : Nat) (o : List Nat) :
    lhsLoop N k axis (u ++ c) (pu, pc, o) = .ok (pu * u.prod, pc * c.prod, o ++ u) := by
  induction u generalizing axis pu o with
  | nil =>
    rw [List.nil_append, lhsLoop_contracted hk c axis (by simp at ha; omega)]; simp
  | cons n u ih =>
    simp only [List.cons_append, lhsLoop, usub_of_le hk, bind_ok]
    rw [if_pos (by simp at ha; omega), ih (axis + 1) (by simp at ha; omega)]
    simp [mul_assoc]

theorem rhsLoop_outer {k : Nat} (v : List Nat) (axis : Nat) (ha : k ≤ axis) (pu pc : Nat) (o : List Nat) :
    rhsLoop k axis v (pu, pc, o) = (pu * v.prod, pc, o ++ v) := by
  induction v generalizing axis pu o with
  | nil => simp [rhsLoop]
  | cons n v ih =>
    simp only [rhsLoop]
    rw [if_neg (by omega), ih (axis + 1) (by omega)]
    simp [mul_assoc]

theorem rhsLoop_split {k : Nat} (c v : List Nat) (axis : Nat) (ha : axis + c.length = k)
    (pu pc : Nat) (o : List Nat) :
    rhsLoop k axis (c ++ v) (pu, pc, o) = (pu * v.prod, pc * c.prod, o ++ v) := by
  induction c generalizing axis pc with
  | nil => rw [List.nil_append, rhsLoop_outer v axis (by simp at ha; omega)]; simp
  | cons n c ih =>
    simp only [List.cons_append, rhsLoop]
    rw [if_pos (by simp at ha; omega), ih (axis + 1) (by simp at ha; omega)]
    simp [mul_assoc]

theorem fromShapes_split {u c c' v : List Nat} {k : Nat} (hk : c.length = k) (hk' : c'.length = k) :
    TensordotFixedPosition.fromShapes (u ++ c) (c' ++ v) k =
      if c'.prod = c.prod then .ok ⟨u.prod, v.prod, c.prod, u ++ v⟩ else panic .assertFailed := by
  unfold TensordotFixedPosition.fromShapes
  rw [lhsLoop_split (by simp; omega) u c 0 (by simp; omega)]
  simp only [bind_ok, rhsLoop_split (k := k) c' v 0 (by omega), Nat.one_mul, List.nil_append]
  by_cases h : c'.prod = c.prod <;> simp [h]

/-! ## first -/

theorem Holds.first {v : View A} {s T} (h : Holds v s T) (hp : 0 < s.prod) :
    v.first = .ok (some (T (s.map fun _ => 0))) := by
  have hin : InB s (s.map fun _ => 0) := by
    have e : s = s.map id := by simp
    nth_rewrite 1 [e]
    rw [InB_map]
    intro a ha
    rcases Nat.eq_zero_or_pos a with h0 | h0
    · subst h0
      rw [List.prod_eq_zero ha] at hp; omega
    · exact h0
  rw [View.first, h.shape, any_zero_false_iff.2 hp, h.get _ hin]
  rfl

theorem Holds.first_empty {v : View A} {s T} (h : Holds v s T) (hp : s.prod = 0) :
    v.first = .ok none := by
  rw [View.first, h.shape, any_zero_iff.2 hp]; rfl

/-! ## Broadcasting -/

theorem dotI_append {a b : List Int} {i j : List Nat} (h : a.length = i.length) :
    dotI (a ++ b) (i ++ j) = dotI a i + dotI b j := by
  induction a generalizing i with
  | nil =>
    have : i = [] := by simpa using h.symm
    subst this; simp
  | cons x a ih =>
    cases i with
    | nil => simp at h
    | cons y i => simp [ih (i := i) (by simpa using h)]; ring

theorem dotI_reverse {a : List Int} {i : List Nat} (h : a.length = i.length) :
    dotI a.reverse i.reverse = dotI a i := by
  induction a generalizing i with
  | nil => simp
  | cons x a ih =>
    cases i with
    | nil => simp at h
    | cons y i =>
      have h' : a.length = i.length := by simpa using h
      simp only [List.reverse_cons]
      rw [dotI_append (by simpa using h'), ih h']
      simp; ring

theorem InB_reverse {s i : List Nat} : InB s.reverse i.reverse ↔ InB s i := by
  induction s generalizing i with
  | nil => cases i <;> simp
  | cons d ds ih =>
    cases i with
    | nil =>
      simp only [List.reverse_nil, InB_cons_nil, iff_false]
      intro h; have := h.length_eq; simp at this
    | cons a is =>
      simp only [List.reverse_cons]
      by_cases hl : is.length = ds.length
      · rw [InB_append (by simpa using hl), ih]
        simp [and_comm]
      · constructor
        · intro h; have := h.length_eq; simp at this; omega
        · intro h; have := h.length_eq; simp at this; omega

/-- Source index of a broadcast index, innermost axis first. -/
def bcIdxRev : List Nat → List Nat → List Nat
  | d :: ds, i :: is => (if d = 1 then 0 else i) :: bcIdxRev ds is
  | _, _ => []

theorem broadcastRev_sound {s : List Nat} {st : List Int} {new : List Nat} {ss : List Int}
    (hl : st.length = s.length) (h : broadcastRev s st new = some ss) :
    ss.length = new.length ∧ ∀ i, InB new i →
      InB s (bcIdxRev s i) ∧ dotI ss i = dotI st (bcIdxRev s i) := by
  induction s generalizing st new ss with
  | nil =>
    simp only [broadcastRev, Option.some.injEq] at h
    subst h
    refine ⟨by simp, fun i hi => ⟨by simp [bcIdxRev], ?_⟩⟩
    simp only [bcIdxRev, dotI_nil_right]
    clear hl
    induction new generalizing i with
    | nil => simp
    | cons n new ih =>
      cases i with
      | nil => simp
      | cons a i => simpa using ih i hi.2
  | cons d ds ih =>
    cases st with
    | nil => simp at hl
    | cons x st =>
      cases new with
      | nil => simp [broadcastRev] at h
      | cons n ns =>
        simp only [broadcastRev] at h
        have hl' : st.length = ds.length := by simpa using hl
        split at h
        · rename_i hdn
          subst hdn
          obtain ⟨ss', h1, rfl⟩ := Option.map_eq_some_iff.1 h
          obtain ⟨h2, h3⟩ := ih hl' h1
          refine ⟨by simp [h2], fun i hi => ?_⟩
          cases i with
          | nil => simp at hi
          | cons a i =>
            obtain ⟨h4, h5⟩ := h3 i hi.2
            have ha := hi.1
            simp only [bcIdxRev, InB_cons, dotI_cons, h5]
            by_cases hd : d = 1
            · have : a = 0 := by omega
              simp [hd, h4, this]
            · simp [hd, h4, ha]
        · split at h
          · rename_i hd
            obtain ⟨ss', h1, rfl⟩ := Option.map_eq_some_iff.1 h
            obtain ⟨h2, h3⟩ := ih hl' h1
            refine ⟨by simp [h2], fun i hi => ?_⟩
            cases i with
            | nil => simp at hi
            | cons a i =>
              obtain ⟨h4, h5⟩ := h3 i hi.2
              simp [bcIdxRev, h5, hd, h4]
          · simp at h

/-- Source index of a broadcast index. -/
def bcIdx (s i : List Nat) : List Nat := (bcIdxRev s.reverse i.reverse).reverse

theorem Holds.broadcast {v w : View A} {s s' T} (h : Holds v s T) (hw : v.broadcast s' = some w) :
    Holds w s' (fun idx => T (bcIdx s idx)) := by
  rw [View.broadcast, h.shape] at hw
  obtain ⟨ss, h1, rfl⟩ := Option.map_eq_some_iff.1 hw
  obtain ⟨h2, h3⟩ := broadcastRev_sound (by simp [h.strides]) h1
  refine Holds.of_readAt rfl (by simpa using h2) fun idx hi => ?_
  obtain ⟨h4, h5⟩ := h3 idx.reverse (InB_reverse.2 hi)
  have h6 : InB s (bcIdx s idx) := by
    rw [bcIdx, ← InB_reverse, List.reverse_reverse]; exact h4
  simp only
  have e1 : dotI ss.reverse idx = dotI ss idx.reverse := by
    have := dotI_reverse (a := ss.reverse) (i := idx) (by simp [h2, hi.length_eq])
    rw [← this, List.reverse_reverse]
  have e2 : dotI v.strides.reverse (bcIdxRev s.reverse idx.reverse) = dotI v.strides (bcIdx s idx) := by
    have := dotI_reverse (a := v.strides) (i := bcIdx s idx) (by rw [h.strides, h6.length_eq])
    rw [← this, bcIdx, List.reverse_reverse]
  rw [e1, h5, e2, h.readAt h6]

theorem broadcastRev_ok {s : List Nat} {st : List Int} {new : List Nat} (hl : st.length = s.length)
    (h : List.Forall₂ (fun d n => d = n ∨ d = 1) s new) : ∃ ss, broadcastRev s st new = some ss := by
  induction h generalizing st with
  | nil => exact ⟨[], rfl⟩
  | @cons d n s new h1 _ ih =>
    cases st with
    | nil => simp at hl
    | cons x st =>
      obtain ⟨ss, hss⟩ := ih (st := st) (by simpa using hl)
      simp only [broadcastRev, hss]
      split
      · exact ⟨_, rfl⟩
      · rw [if_pos (by tauto)]; exact ⟨_, rfl⟩

theorem Holds.broadcast_ok {v : View A} {s s' T} (h : Holds v s T)
    (hc : List.Forall₂ (fun d n => d = n ∨ d = 1) s s') : ∃ w, v.broadcast s' = some w := by
  rw [View.broadcast, h.shape]
  obtain ⟨ss, hss⟩ := broadcastRev_ok (s := s.reverse) (st := v.strides.reverse) (new := s'.reverse)
    (by simp [h.strides]) (by simpa using hc)
  exact ⟨_, by rw [hss]; rfl⟩

theorem bcIdxRev_self {s i : List Nat} (h : InB s i) : bcIdxRev s i = i := by
  induction s generalizing i with
  | nil => simp at h; simp [h, bcIdxRev]
  | cons d ds ih =>
    cases i with
    | nil => simp at h
    | cons a i =>
      have := h.1
      simp only [bcIdxRev, ih h.2]
      split
      · congr 1; omega
      · rfl

theorem bcIdx_self {s i : List Nat} (h : InB s i) : bcIdx s i = i := by
  rw [bcIdx, bcIdxRev_self (InB_reverse.2 h), List.reverse_reverse]

theorem forall₂_same_or {s : List Nat} : List.Forall₂ (fun d n => d = n ∨ d = 1) s s := by
  induction s with
  | nil => exact .nil
  | cons d s ih => exact .cons (.inl rfl) ih

theorem Holds.broadcast_self {v : View A} {s T} (h : Holds v s T) :
    ∃ w, v.broadcast s = some w ∧ Holds w s T := by
  obtain ⟨w, hw⟩ := h.broadcast_ok forall₂_same_or
  exact ⟨w, hw, (h.broadcast hw).congr fun idx hi => by rw [bcIdx_self hi]⟩

theorem commonRev_self (s : List Nat) : commonRev s s = some s := by
  induction s with
  | nil => rfl
  | cons d s ih => simp [commonRev, ih]

theorem commonShape_self (s : List Nat) : commonShape s s = some s := by
  simp [commonShape, commonRev_self]

theorem broadcastWith_eq {l r l' r' : View A} (h : l.broadcastWith r = some (l', r')) :
    ∃ s, commonShape l.shape r.shape = some s ∧ l.broadcast s = some l' ∧ r.broadcast s = some r' := by
  unfold View.broadcastWith at h
  cases h1 : commonShape l.shape r.shape with
  | none => rw [h1] at h; cases h
  | some s =>
    rw [h1] at h
    cases h2 : l.broadcast s with
    | none => simp [h2] at h
    | some a =>
      cases h3 : r.broadcast s with
      | none => simp [h2, h3] at h
      | some b =>
        simp only [Option.bind_eq_bind, Option.bind_some, h2, h3, Option.pure_def, Option.some.injEq, Prod.mk.injEq] at h
        exact ⟨s, rfl, by rw [h2, h.1], by rw [h3, h.2]⟩

theorem broadcastWith_of {l r l' r' : View A} {s : List Nat} (h1 : commonShape l.shape r.shape = some s)
    (h2 : l.broadcast s = some l') (h3 : r.broadcast s = some r') : l.broadcastWith r = some (l', r') := by
  simp [View.broadcastWith, h1, h2, h3]

theorem Holds.mul_of [Mul A] {l r l' r' : View A} {s T U} (h : l.broadcastWith r = some (l', r')) (hl : Holds l' s T)
    (hr : Holds r' s U) (al : Alloc A) : ∃ w, l.mul al r = .ok w ∧ Holds w s (fun idx => T idx * U idx) := by
  refine ⟨al.make [] s ((allIdx s).map fun idx => T idx * U idx), ?_, al.holds _ _ _⟩
  simp only [View.mul, h, hl.shape]
  rw [mapE_ok (g := fun idx => T idx * U idx)]
  · simp
  · intro idx hi
    have hi := mem_allIdx.1 hi
    simp [hl.get idx hi, hr.get idx hi]

theorem Holds.mul [Mul A] {l r : View A} {s T U} (hl : Holds l s T) (hr : Holds r s U) (al : Alloc A) :
    ∃ w, l.mul al r = .ok w ∧ Holds w s (fun idx => T idx * U idx) := by
  obtain ⟨l', h1, h2⟩ := hl.broadcast_self
  obtain ⟨r', h3, h4⟩ := hr.broadcast_self
  exact Holds.mul_of (broadcastWith_of (by rw [hl.shape, hr.shape]; exact commonShape_self s) h1 h3) h2 h4 al

/-! ## outer_iter, insert_axis -/

theorem Holds.outerIter {v : View A} {d : Nat} {ds : List Nat} {T} (h : Holds v (d :: ds) T) :
    ∃ ls : Nat → View A, v.outerIter = .ok ((List.range d).map ls) ∧
      ∀ i < d, Holds (ls i) ds (fun idx => T (i :: idx)) := by
  have hl := h.strides
  cases hst : v.strides with
  | nil => simp [hst] at hl
  | cons x st =>
    refine ⟨fun i => ⟨v.buf, v.off + x * (i : Int), ds, st⟩, ?_, ?_⟩
    · simp [View.outerIter, h.shape, hst]
    · intro i hi
      refine Holds.of_readAt rfl (by simpa [hst] using hl) fun idx hin => ?_
      have := h.readAt (idx := i :: idx) ⟨hi, hin⟩
      rw [hst, dotI_cons] at this
      simpa [Int.add_assoc] using this

theorem InB_eraseIdx_of_insert {s idx : List Nat} {ax : Nat} (hax : ax ≤ s.length)
    (hi : InB (s.insertIdx ax 1) idx) : InB s (idx.eraseIdx ax) := by
  induction s generalizing ax idx with
  | nil =>
    have : ax = 0 := by simpa using hax
    subst this
    cases idx with
    | nil => simp at hi
    | cons a i => simpa using hi.2
  | cons x s ih =>
    cases ax with
    | zero =>
      cases idx with
      | nil => simp at hi
      | cons a i => simpa using hi.2
    | succ ax =>
      cases idx with
      | nil => simp at hi
      | cons a i =>
        simp only [List.insertIdx_succ_cons, InB_cons] at hi
        simpa using ⟨hi.1, ih (by simpa using hax) hi.2⟩

theorem dotI_eraseIdx {s : List Nat} {st : List Int} {idx : List Nat} {ax : Nat} (hl : st.length = s.length)
    (hax : ax ≤ s.length) (hi : InB (s.insertIdx ax 1) idx) :
    dotI (st.insertIdx ax 1) idx = dotI st (idx.eraseIdx ax) := by
  induction s generalizing ax idx st with
  | nil =>
    have : ax = 0 := by simpa using hax
    subst this
    have : st = [] := by simpa using hl
    subst this
    cases idx with
    | nil => simp
    | cons a i =>
      have : a = 0 := by have := hi.1; omega
      simp [this]
  | cons x s ih =>
    cases st with
    | nil => simp at hl
    | cons y st =>
      cases ax with
      | zero =>
        cases idx with
        | nil => simp at hi
        | cons a i =>
          have : a = 0 := by have := hi.1; omega
          simp [this]
      | succ ax =>
        cases idx with
        | nil => simp at hi
        | cons a i =>
          simp only [List.insertIdx_succ_cons, InB_cons] at hi
          simp [ih (by simpa using hl) (by simpa using hax) hi.2]

theorem Holds.insertAxis {v : View A} {s T} (h : Holds v s T) {ax : Nat} (hax : ax ≤ s.length) :
    ∃ w, v.insertAxis ax = .ok w ∧ Holds w (s.insertIdx ax 1) (fun idx => T (idx.eraseIdx ax)) := by
  refine ⟨_, by rw [View.insertAxis, h.shape, if_pos hax], ?_⟩
  refine Holds.of_readAt (by simp) ?_ fun idx hi => ?_
  · simp only
    rw [List.length_insertIdx_of_le_length (by rw [h.strides]; exact hax),
      List.length_insertIdx_of_le_length hax, h.strides]
  · simp only
    rw [dotI_eraseIdx h.strides hax hi]
    exact h.readAt (InB_eraseIdx_of_insert hax hi)

end Einsum
