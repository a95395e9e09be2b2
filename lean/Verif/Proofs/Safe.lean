import Verif.Proofs.Call

/-! # Every operation on valid arrays panics or returns a valid array -/

namespace Einsum

variable {A α β : Type}

/-- `m` panics, or returns a value satisfying `Q`; in particular there is no undefined behaviour. -/
def Safe (m : M α) (Q : α → Prop) : Prop := (∃ k, m = panic k) ∨ ∃ w, m = .ok w ∧ Q w

theorem Safe.bind {m : M α} {f : α → M β} {Q : α → Prop} {R : β → Prop} (h : Safe m Q)
    (h' : ∀ w, Q w → Safe (f w) R) : Safe (m >>= f) R := by
  rcases h with ⟨k, rfl⟩ | ⟨w, rfl, hw⟩
  · exact .inl ⟨k, rfl⟩
  · exact h' w hw

theorem Safe.ok {a : α} {Q : α → Prop} (h : Q a) : Safe (.ok a) Q := .inr ⟨a, rfl, h⟩

theorem Safe.panic {k : PanicKind} {Q : α → Prop} : Safe (Einsum.panic k) Q := .inl ⟨k, rfl⟩

theorem Safe.imp {m : M α} {Q R : α → Prop} (h : Safe m Q) (hQ : ∀ w, Q w → R w) : Safe m R := by
  rcases h with h | ⟨w, h, hw⟩
  · exact .inl h
  · exact .inr ⟨w, h, hQ w hw⟩

theorem Safe.of_exists {m : M α} {Q : α → Prop} (h : ∃ w, m = .ok w ∧ Q w) : Safe m Q := .inr h

theorem safe_assertThat (b : Bool) : Safe (assertThat b) fun _ => b = true := by
  cases b
  · exact .panic
  · exact .ok rfl

theorem safe_index (l : List α) (i : Nat) : Safe (index l i) (· ∈ l) := by
  unfold index
  split
  · rename_i a h; exact .ok (List.mem_of_getElem? h)
  · exact .panic

theorem safe_unwrapO (o : Option α) : Safe (unwrapO o) (fun a => o = some a) := by
  cases o
  · exact .panic
  · exact .ok rfl

/-! ## Array operations -/

theorem View.Wf.toVec [Zero A] {v : View A} (h : v.Wf) :
    ∃ d, v.toVec = .ok d ∧ d.length = v.shape.prod := by
  obtain ⟨T, hT⟩ := h.holds
  exact ⟨_, hT.toVec, by simp [allIdx_length]⟩

theorem wf_default {buf : List A} {s : List Nat} (h : s.prod ≤ buf.length) :
    View.Wf ⟨buf, 0, s, defaultStrides s⟩ := by
  refine ⟨defaultStrides_length s, fun idx hi => ?_⟩
  have := ravel_lt hi
  refine ⟨buf[ravel s idx]'(by simp only at this; omega), ?_⟩
  rw [View.read, if_pos hi]
  simp only [Int.zero_add]
  rw [dotI_default hi]
  exact readAt_nat (List.getElem?_eq_getElem _)

theorem fromShapeVec_wf {s : List Nat} {d : List A} {w : View A} (h : fromShapeVec s d = some w) :
    w.Wf ∧ w.shape = s := by
  unfold fromShapeVec at h
  split at h
  · cases h
    exact ⟨wf_default (by omega), rfl⟩
  · cases h

theorem View.Wf.toOwned [Zero A] {v : View A} (h : v.Wf) (al : Alloc A) :
    ∃ w, v.toOwned al = .ok w ∧ w.Wf ∧ w.shape = v.shape := by
  obtain ⟨T, hT⟩ := h.holds
  obtain ⟨w, w1, w2⟩ := hT.toOwned al
  exact ⟨w, w1, w2.wf, w2.shape⟩

theorem View.Wf.permutedAxes [Zero A] {v : View A} (h : v.Wf) (axes : List Nat) :
    Safe (v.permutedAxes axes) View.Wf := by
  by_cases hp : axes.Perm (List.range v.shape.length)
  · obtain ⟨T, hT⟩ := h.holds
    obtain ⟨w, w1, w2⟩ := hT.permutedAxes hp
    exact .inr ⟨w, w1, w2.wf⟩
  · exact .inl ⟨_, View.permutedAxes_panic hp⟩

theorem View.Wf.sumAxis [Zero A] [Add A] {v : View A} (h : v.Wf) (ax : Nat) (al : Alloc A) :
    Safe (v.sumAxis al ax) View.Wf := by
  unfold View.sumAxis
  split
  · exact .panic
  · rename_i d hd
    have : ∃ data, mapE (fun idx => do
        let xs ← mapE (fun k => v.read (idx.insertIdx ax k)) (List.range d)
        return (al.sumOrder idx d).sum xs) (allIdx (v.shape.eraseIdx ax)) = .ok data := by
      refine mapE_exists fun idx hi => ?_
      obtain ⟨xs, hxs⟩ := mapE_exists (f := fun k => v.read (idx.insertIdx ax k)) (l := List.range d)
        fun k hk => h.2 _ (InB_insertIdx hd (mem_allIdx.1 hi) (List.mem_range.1 hk))
      exact ⟨(al.sumOrder idx d).sum xs, by rw [hxs]; rfl⟩
    obtain ⟨data, hdata⟩ := this
    simp only [hdata]
    exact .ok (al.wf _ _ _ (by rw [mapE_length hdata, allIdx_length]))

theorem View.Wf.mapv [Zero A] {v : View A} (h : v.Wf) (f : A → A) (al : Alloc A) :
    Safe (v.mapv al f) View.Wf := by
  obtain ⟨T, hT⟩ := h.holds
  obtain ⟨w, w1, w2⟩ := hT.mapv al f
  exact .inr ⟨w, w1, w2.wf⟩

theorem View.Wf.first [Zero A] {v : View A} (h : v.Wf) : Safe v.first fun _ => True := by
  obtain ⟨T, hT⟩ := h.holds
  rcases Nat.eq_zero_or_pos v.shape.prod with h0 | h0
  · exact .inr ⟨_, hT.first_empty h0, trivial⟩
  · exact .inr ⟨_, hT.first h0, trivial⟩

theorem View.Wf.broadcast [Zero A] {v w : View A} (h : v.Wf) {s : List Nat}
    (hw : v.broadcast s = some w) : w.Wf ∧ w.shape = s := by
  obtain ⟨T, hT⟩ := h.holds
  exact ⟨(hT.broadcast hw).wf, (hT.broadcast hw).shape⟩

theorem View.Wf.mul [Zero A] [Mul A] {l r : View A} (hl : l.Wf) (hr : r.Wf) (al : Alloc A) :
    Safe (l.mul al r) View.Wf := by
  unfold View.mul
  split
  · exact .panic
  · rename_i l' r' hb
    obtain ⟨s, -, hl', hr'⟩ := broadcastWith_eq hb
    obtain ⟨g1, g2⟩ := hl.broadcast hl'
    obtain ⟨h1, h2⟩ := hr.broadcast hr'
    have : ∃ data, mapE (fun idx => do
        let x ← l'.read idx
        let y ← r'.read idx
        return x * y) (allIdx l'.shape) = .ok data := by
      refine mapE_exists fun idx hi => ?_
      obtain ⟨x, hx⟩ := g1.2 idx (mem_allIdx.1 hi)
      obtain ⟨y, hy⟩ := h1.2 idx (h2 ▸ g2 ▸ mem_allIdx.1 hi)
      exact ⟨x * y, by rw [hx, bind_ok, hy]; rfl⟩
    obtain ⟨data, hdata⟩ := this
    simp only [hdata]
    exact .ok (al.wf _ _ _ (by rw [mapE_length hdata, allIdx_length]))

theorem View.Wf.insertAxis [Zero A] {v : View A} (h : v.Wf) (ax : Nat) :
    Safe (v.insertAxis ax) View.Wf := by
  by_cases hax : ax ≤ v.shape.length
  · obtain ⟨T, hT⟩ := h.holds
    obtain ⟨w, w1, w2⟩ := hT.insertAxis hax
    exact .inr ⟨w, w1, w2.wf⟩
  · unfold View.insertAxis
    rw [if_neg hax]
    exact .panic

theorem sufProds_append_one (s : List Nat) (d : Nat) :
    sufProds (s ++ [d]) = (sufProds s).map (· * d) ++ [1] := by
  induction s with
  | nil => simp [sufProds]
  | cons a s ih => simp [sufProds, ih, List.prod_append]

theorem preProds_mul (a b : Nat) (s : List Nat) : preProds (a * b) s = (preProds a s).map (· * b) := by
  induction s generalizing a with
  | nil => rfl
  | cons d ds ih =>
    rw [preProds, preProds, List.map_cons, ← ih, Nat.mul_right_comm]

theorem preProds_eq (s : List Nat) : preProds 1 s = (sufProds s.reverse).reverse := by
  induction s with
  | nil => rfl
  | cons d ds ih =>
    rw [List.reverse_cons, sufProds_append_one, List.reverse_append, ← List.map_reverse, ← ih,
      ← preProds_mul]
    rfl

theorem fortranStrides_eq (s : List Nat) : fortranStrides s = (defaultStrides s.reverse).reverse := by
  unfold fortranStrides defaultStrides
  have : s.reverse.all (· ≠ 0) = s.all (· ≠ 0) := by
    rw [Bool.eq_iff_iff]; simp
  rw [this]
  split
  · rw [preProds_eq, List.map_reverse]
  · simp

theorem dotI_fortran {s idx : List Nat} (h : InB s idx) :
    dotI (fortranStrides s) idx = (ravel s.reverse idx.reverse : Int) := by
  have h' : InB s.reverse idx.reverse := InB_reverse.2 h
  rw [fortranStrides_eq, ← dotI_default h', ← dotI_reverse (by simp [defaultStrides_length, h.length_eq]),
    List.reverse_reverse]

/-- A row-major or column-major array covers a block of its buffer starting at its offset. -/
theorem block_of_wf {v : View A} (h : v.Wf)
    (hs : v.isStandardLayout = true ∨ isStandard v.shape.reverse v.strides.reverse = true)
    {n : Nat} (hn : n < v.shape.prod) : ∃ x, readAt v.buf (v.off + (n : Int)) = .ok x := by
  rcases hs with hs | hs
  · have hi := InB_unravel hn
    obtain ⟨x, hx⟩ := h.2 _ hi
    rw [View.read, if_pos hi, dotI_standard h.1 hs hi, ravel_unravel hn] at hx
    exact ⟨x, hx⟩
  · have hn' : n < v.shape.reverse.prod := by rwa [List.prod_reverse]
    have hi := InB_unravel hn'
    have hi' : InB v.shape (unravel v.shape.reverse n).reverse := by
      rw [← InB_reverse, List.reverse_reverse]; exact hi
    obtain ⟨x, hx⟩ := h.2 _ hi'
    rw [View.read, if_pos hi', ← dotI_reverse (by rw [h.1, hi'.length_eq]), List.reverse_reverse,
      dotI_standard (by simp [h.1]) hs hi, ravel_unravel hn'] at hx
    exact ⟨x, hx⟩

theorem View.Wf.intoShape {v w : View A} (h : v.Wf) {s : List Nat} (hw : v.intoShape s = some w) :
    w.Wf ∧ w.shape = s := by
  unfold View.intoShape at hw
  split at hw
  · cases hw
  · rename_i hp
    have hp : s.prod = v.shape.prod := by simpa using hp
    split at hw
    · rename_i hs
      cases hw
      refine ⟨⟨defaultStrides_length s, fun idx hi => ?_⟩, rfl⟩
      rw [View.read, if_pos hi]
      simp only
      rw [dotI_default hi]
      exact block_of_wf h (.inl hs) (hp ▸ ravel_lt hi)
    · split at hw
      · rename_i hs
        cases hw
        refine ⟨⟨fortranStrides_length s, fun idx hi => ?_⟩, rfl⟩
        rw [View.read, if_pos hi]
        simp only
        rw [dotI_fortran hi]
        simp only [Bool.and_eq_true] at hs
        refine block_of_wf h (.inr hs.2) ?_
        have := ravel_lt (InB_reverse.2 hi)
        rw [List.prod_reverse] at this
        exact hp ▸ this
      · cases hw

theorem View.Wf.asMatrix [Zero A] {t : View A} (h : t.Wf) (rows cols : Nat) :
    Safe (asMatrix t rows cols) View.Wf := by
  unfold Einsum.asMatrix
  split
  · split
    · rename_i v hv; exact .ok (h.intoShape hv).1
    · exact .panic
  · obtain ⟨d, hd, -⟩ := h.toVec
    rw [hd, bind_ok]
    split
    · rename_i v hv; exact .ok (fromShapeVec_wf hv).1
    · exact .panic

theorem wf_fortran {buf : List A} {s : List Nat} (h : s.prod ≤ buf.length) :
    View.Wf ⟨buf, 0, s, fortranStrides s⟩ := by
  refine ⟨fortranStrides_length s, fun idx hi => ?_⟩
  have := ravel_lt (InB_reverse.2 hi)
  rw [List.prod_reverse] at this
  simp only at this
  refine ⟨buf[ravel s.reverse idx.reverse]'(by omega), ?_⟩
  rw [View.read, if_pos hi]
  simp only [Int.zero_add]
  rw [dotI_fortran hi]
  exact readAt_nat (List.getElem?_eq_getElem _)

theorem View.Wf.dot [Zero A] [Add A] [Mul A] [MulAdd A] {l r : View A} (hl : l.Wf) (hr : r.Wf)
    (al : Alloc A) : Safe (l.dot al r) View.Wf := by
  unfold View.dot
  split
  · rename_i m k k' n h1 h2
    split
    · rename_i hk
      subst hk
      have he : ∀ i < m, ∀ j < n, ∃ y, (do
          let ps ← mapE (fun x => do
            let a ← l.read [i, x]
            let b ← r.read [x, j]
            return (a, b)) (List.range k)
          return (al.sumOrder [i, j] k).dot ps : M A) = .ok y := by
        intro i hi j hj
        obtain ⟨ps, hps⟩ := mapE_exists (f := fun x => do
            let a ← l.read [i, x]
            let b ← r.read [x, j]
            return (a, b)) (l := List.range k) fun x hx => by
          have hx := List.mem_range.1 hx
          obtain ⟨a, ha⟩ := hl.2 [i, x] (by rw [h1]; exact ⟨hi, hx, trivial⟩)
          obtain ⟨b, hb⟩ := hr.2 [x, j] (by rw [h2]; exact ⟨hx, hj, trivial⟩)
          exact ⟨(a, b), by rw [ha, bind_ok, hb]; rfl⟩
        exact ⟨(al.sumOrder [i, j] k).dot ps, by rw [hps]; rfl⟩
      simp only
      split
      · refine Safe.bind (Q := fun d => d.length = n * m) ?_ fun d hd =>
          .ok (wf_fortran (by simp [hd, Nat.mul_comm]))
        obtain ⟨d, hd⟩ := mapE_exists (l := allIdx [n, m]) (f := fun ji : List Nat => (do
            let ps ← mapE (fun x => do
              let a ← l.read [ji.getD 1 0, x]
              let b ← r.read [x, ji.getD 0 0]
              return (a, b)) (List.range k)
            return (al.sumOrder [ji.getD 1 0, ji.getD 0 0] k).dot ps : M A)) fun ji hji => by
          obtain ⟨j, i, rfl, hj, hi⟩ := InB_two (mem_allIdx.1 hji)
          exact he i hi j hj
        exact .inr ⟨d, hd, (mapE_length hd).trans (by rw [allIdx_length]; simp)⟩
      · refine Safe.bind (Q := fun d => d.length = m * n) ?_ fun d hd =>
          .ok (wf_default (by simp [hd]))
        obtain ⟨d, hd⟩ := mapE_exists (l := allIdx [m, n]) (f := fun ij : List Nat => (do
            let ps ← mapE (fun x => do
              let a ← l.read [ij.getD 0 0, x]
              let b ← r.read [x, ij.getD 1 0]
              return (a, b)) (List.range k)
            return (al.sumOrder [ij.getD 0 0, ij.getD 1 0] k).dot ps : M A)) fun ij hij => by
          obtain ⟨i, j, rfl, hi, hj⟩ := InB_two (mem_allIdx.1 hij)
          exact he i hi j hj
        exact .inr ⟨d, hd, (mapE_length hd).trans (by rw [allIdx_length]; simp)⟩
    · exact .panic
  · exact .panic

theorem View.Wf.outerIter [Zero A] {v : View A} (h : v.Wf) :
    Safe v.outerIter fun l => ∀ w ∈ l, w.Wf := by
  obtain ⟨T, hT⟩ := h.holds
  rcases hs : v.shape with _ | ⟨d, ds⟩
  · unfold View.outerIter
    rw [hs]
    exact .panic
  · rw [hs] at hT
    obtain ⟨ls, l1, l2⟩ := hT.outerIter
    refine .inr ⟨_, l1, fun w hw => ?_⟩
    obtain ⟨i, hi, rfl⟩ := List.mem_map.1 hw
    exact (l2 i (List.mem_range.1 hi)).wf

/-! ## Contractors -/

theorem dotI_le_maxOffset {s st idx : List Nat} (h : InB s idx) :
    ∃ a : Nat, dotI (st.map Int.ofNat) idx = (a : Int) ∧ a ≤ maxOffset s st := by
  induction s generalizing st idx with
  | nil => cases idx with
    | nil => exact ⟨0, by simp, Nat.zero_le _⟩
    | cons => simp at h
  | cons d ds ih =>
    cases idx with
    | nil => simp at h
    | cons i is =>
      rw [InB_cons] at h
      cases st with
      | nil => exact ⟨0, by simp, Nat.zero_le _⟩
      | cons t ts =>
        obtain ⟨a, h1, h2⟩ := ih (st := ts) h.2
        refine ⟨t * i + a, ?_, ?_⟩
        · simp only [List.map_cons, dotI_cons, h1]
          push_cast
          rfl
        · rw [maxOffset]
          have : t * i ≤ (d - 1) * t := by
            rw [Nat.mul_comm]
            exact Nat.mul_le_mul_right _ (by omega)
          omega

/-- The strided view constructor only accepts views that stay inside the slice. -/
theorem fromShapeStrides_wf {s st : List Nat} {d : List A} {w : View A}
    (h : fromShapeStrides s st d = some w) : w.Wf ∧ w.shape = s := by
  unfold fromShapeStrides at h
  split at h
  · cases h
  · rename_i hl
    simp only at h
    split at h
    · cases h
    · split at h
      · cases h
      · rename_i hm
        split at h
        · cases h
        · cases h
          refine ⟨⟨by simp; omega, fun idx hi => ?_⟩, rfl⟩
          have hne : s.any (· = 0) = false := hi.not_any
          obtain ⟨a, h1, h2⟩ := dotI_le_maxOffset (st := st) hi
          simp only [hne, Bool.not_false, Bool.true_and, decide_eq_true_eq, Nat.not_le] at hm
          simp only at h2
          rw [View.read, if_pos hi]
          simp only [Int.zero_add, h1]
          exact ⟨d[a]'(by omega), readAt_nat (List.getElem?_eq_getElem _)⟩

theorem Diagonalization.view_safe (self : Diagonalization) {t : View A} :
    Safe (self.view t) View.Wf := by
  unfold Diagonalization.view
  refine Safe.bind (Q := fun _ => True) ?_ fun st _ => ?_
  · rcases diagStrides_weak self.inputToOutputMapping (self.outputShape.map fun _ => 0) 0 t.strides with
      h | ⟨r, h, -⟩
    · exact .inl h
    · exact .inr ⟨r, h, trivial⟩
  · refine Safe.bind (safe_unwrapO _) fun d _ => ?_
    split
    · rename_i v hv; exact .ok (fromShapeStrides_wf hv).1
    · exact .panic

theorem Diagonalization.run_safe [Zero A] (self : Diagonalization) {t : View A} (h : t.Wf) (al : Alloc A) :
    Safe (self.run al t) View.Wf := by
  unfold Diagonalization.run
  obtain ⟨d, hd, -⟩ := h.toVec
  rw [hd, bind_ok]
  split
  · exact .panic
  · refine Safe.bind self.view_safe fun v hv => ?_
    obtain ⟨w, w1, w2, -⟩ := hv.toOwned al
    exact .inr ⟨w, w1, w2⟩

theorem sumAxes_safe [Zero A] [Add A] (axs : List Nat) {v : View A} (h : v.Wf) (al : Alloc A) :
    Safe (sumAxes al axs v) View.Wf := by
  induction axs generalizing v al with
  | nil => exact .ok h
  | cons ax axs ih => exact Safe.bind (h.sumAxis ax _) fun w hw => ih hw _

theorem Summation.run_safe [Zero A] [Add A] (self : Summation) {v : View A} (h : v.Wf) (al : Alloc A) :
    Safe (self.run al v) View.Wf :=
  Safe.bind (safe_index _ _) fun _ _ => Safe.bind (h.sumAxis _ _) fun _ hw => sumAxes_safe _ hw _

theorem Permutation.run_safe [Zero A] (self : Permutation) {v : View A} (h : v.Wf) (al : Alloc A) :
    Safe (self.run al v) View.Wf :=
  Safe.bind (h.permutedAxes _) fun w hw => by
    obtain ⟨x, x1, x2, -⟩ := hw.toOwned al
    exact .inr ⟨x, x1, x2⟩

/-- Any singleton contractor on any valid array. -/
theorem SingletonOp.run_safe [Zero A] [Add A] (op : SingletonOp) {v : View A} (h : v.Wf) (al : Alloc A) :
    Safe (op.run al v) View.Wf := by
  cases op with
  | identity =>
    obtain ⟨x, x1, x2, -⟩ := h.toOwned al
    exact .inr ⟨x, x1, x2⟩
  | permutation p => exact p.run_safe h al
  | summation s => exact s.run_safe h al
  | diagonalization d => exact d.run_safe h al
  | permutationAndSummation p =>
    exact Safe.bind (h.permutedAxes _) fun (w : View A) hw => p.summation.run_safe hw al
  | diagonalizationAndSummation d =>
    simp only [SingletonOp.run, DiagonalizationAndSummation.run]
    split
    · exact Safe.bind d.diagonalization.view_safe fun w hw => d.summation.run_safe hw (al.sub 1)
    · exact Safe.bind (d.diagonalization.run_safe h _) fun w hw => d.summation.run_safe hw (al.sub 1)

theorem TensordotFixedPosition.run_safe [Zero A] [Add A] [Mul A] [MulAdd A] (self : TensordotFixedPosition)
    {l r : View A} (hl : l.Wf) (hr : r.Wf) (al : Alloc A) : Safe (self.run al l r) View.Wf := by
  refine Safe.bind (hl.asMatrix _ _) fun l' hl' => Safe.bind (hr.asMatrix _ _) fun r' hr' =>
    Safe.bind (hl'.dot hr' al) fun p hp => ?_
  split
  · rename_i v hv; exact .ok (hp.intoShape hv).1
  · exact .panic

theorem insertAxes_safe [Zero A] (is : List Nat) {v : View A} (h : v.Wf) :
    Safe (insertAxes is v) View.Wf := by
  induction is generalizing v with
  | nil => exact .ok h
  | cons i is ih => exact Safe.bind (h.insertAxis i) fun w hw => ih hw

theorem stackLoop_safe [Zero A] [Add A] [Mul A] [MulAdd A] (fixed : TensordotFixedPosition) (al : Alloc A) (sub : List Nat)
    (N n i : Nat)
    (hi : i + n = N) (ls rs : List (View A)) (hl : ∀ v ∈ ls, v.Wf) (hr : ∀ v ∈ rs, v.Wf) (buf : List A)
    (hb : buf.length = N * sub.prod) :
    Safe (stackLoop fixed al sub sub.prod i n ls rs buf) fun b => b.length = N * sub.prod := by
  induction n generalizing i ls rs buf with
  | zero => exact .ok hb
  | succ n ih =>
    rw [stackLoop]
    refine Safe.bind (safe_unwrapO _) fun l h1 => Safe.bind (safe_unwrapO _) fun r h2 => ?_
    refine Safe.bind (fixed.run_safe (hl l (List.mem_of_mem_head? h1)) (hr r (List.mem_of_mem_head? h2)) _)
      fun res hres => ?_
    split
    · exact .panic
    · rename_i res' hres'
      obtain ⟨w1, w2⟩ := hres.broadcast hres'
      obtain ⟨d, hd, hdl⟩ := w1.toVec
      rw [hd, bind_ok]
      refine ih (i + 1) (by omega) _ _ (fun v hv => hl v (List.mem_of_mem_tail hv))
        (fun v hv => hr v (List.mem_of_mem_tail hv)) _ ?_
      have h3 : i * sub.prod ≤ N * sub.prod := Nat.mul_le_mul_right _ (by omega)
      have h4 : (i + 1) * sub.prod ≤ N * sub.prod := Nat.mul_le_mul_right _ (by omega)
      have h5 : (i + 1) * sub.prod = i * sub.prod + sub.prod := Nat.succ_mul _ _
      simp only [List.length_append, List.length_take, List.length_drop, hb, hdl, w2]
      omega

theorem StackedTensordotGeneral.run_safe [Zero A] [Add A] [Mul A] [MulAdd A] (self : StackedTensordotGeneral)
    {l r : View A} (hl : l.Wf) (hr : r.Wf) (al : Alloc A) : Safe (self.run al l r) View.Wf := by
  unfold StackedTensordotGeneral.run
  refine Safe.bind (hl.permutedAxes _) fun lp hlp => ?_
  obtain ⟨ld, hld, -⟩ := hlp.toVec
  rw [hld, bind_ok]
  split
  · exact .panic
  rename_i lre hlre
  refine Safe.bind (hr.permutedAxes _) fun rp hrp => ?_
  obtain ⟨rd, hrd, -⟩ := hrp.toVec
  rw [hrd, bind_ok]
  split
  · exact .panic
  rename_i rre hrre
  refine Safe.bind (fromShapeVec_wf hlre).1.outerIter fun ls hls =>
    Safe.bind (fromShapeVec_wf hrre).1.outerIter fun rs hrs => ?_
  split
  · exact .panic
  rename_i n sub hsub
  refine Safe.bind (stackLoop_safe _ _ _ n n 0 (by omega) ls rs hls hrs _ (by simp)) fun buf hbuf => ?_
  simp only
  split
  · exact .panic
  · rename_i res hres
    exact self.outputPermutation.run_safe (View.Wf.intoShape (wf_default (by simp [hbuf])) hres).1 _

/-- Any pair contractor on any two valid arrays. -/
theorem PairOp.run_safe [Zero A] [Add A] [Mul A] [MulAdd A] (op : PairOp) {l r : View A} (hl : l.Wf) (hr : r.Wf)
    (al : Alloc A) : Safe (op.run al l r) View.Wf := by
  cases op with
  | hadamardProduct => exact hl.mul hr al
  | hadamardProductGeneral p =>
    exact Safe.bind (hl.permutedAxes _) fun l' hl' => Safe.bind (hr.permutedAxes _) fun r' hr' => hl'.mul hr' al
  | tensordotFixedPosition p => exact p.run_safe hl hr al
  | tensordotGeneral p =>
    exact Safe.bind (hl.permutedAxes _) fun l' hl' => Safe.bind (hr.permutedAxes _) fun r' hr' =>
      Safe.bind (p.tensordotFixedPosition.run_safe hl' hr' _) fun t ht => p.outputPermutation.run_safe ht _
  | scalarMatrixProduct =>
    exact Safe.bind hl.first fun f _ => Safe.bind (safe_unwrapO f) fun x _ => hr.mapv _ al
  | scalarMatrixProductGeneral p =>
    exact Safe.bind (hr.permutedAxes _) fun r' hr' =>
      Safe.bind hl.first fun f _ => Safe.bind (safe_unwrapO f) fun x _ => hr'.mapv _ al
  | matrixScalarProduct =>
    exact Safe.bind hr.first fun f _ => Safe.bind (safe_unwrapO f) fun x _ => hl.mapv _ al
  | matrixScalarProductGeneral p =>
    exact Safe.bind (hl.permutedAxes _) fun l' hl' =>
      Safe.bind hr.first fun f _ => Safe.bind (safe_unwrapO f) fun x _ => hl'.mapv _ al
  | broadcastProductGeneral p =>
    exact Safe.bind (hl.permutedAxes _) fun l1 h1 => Safe.bind (hr.permutedAxes _) fun r1 g1 =>
      Safe.bind (insertAxes_safe _ h1) fun l2 h2 => Safe.bind (insertAxes_safe _ g1) fun r2 g2 =>
      Safe.bind (safe_unwrapO _) fun l3 h3 => Safe.bind (safe_unwrapO _) fun r3 g3 =>
      (h2.broadcast h3).1.mul (g2.broadcast g3).1 al
  | stackedTensordotGeneral p => exact p.run_safe hl hr al

theorem simplifyOperand_safe [Zero A] [Add A] (s : Option SimplificationMethodAndOutput) {v : View A}
    (h : v.Wf) (al : Alloc A) : Safe (simplifyOperand al s v) View.Wf := by
  cases s with
  | none => exact .ok h
  | some s => exact s.op.run_safe h al

theorem PairContraction.run_safe [Zero A] [Add A] [Mul A] [MulAdd A] (p : PairContraction) {l r : View A} (hl : l.Wf)
    (hr : r.Wf) (al : Alloc A) : Safe (p.run al l r) View.Wf :=
  Safe.bind (simplifyOperand_safe _ hl _) fun _ hl' => Safe.bind (simplifyOperand_safe _ hr _) fun _ hr' =>
    p.op.run_safe hl' hr' _

theorem fetch_safe {operands inter : List (View A)} (h : ∀ v ∈ operands, v.Wf) (h' : ∀ v ∈ inter, v.Wf)
    (n : OperandNumber) : Safe (fetch operands inter n) View.Wf := by
  cases n with
  | input p => exact (safe_index _ _).imp fun w hw => h w hw
  | intermediateResult p => exact (safe_index _ _).imp fun w hw => h' w hw

theorem runSteps_safe [Zero A] [Add A] [Mul A] [MulAdd A] {operands : List (View A)} (h : ∀ v ∈ operands, v.Wf)
    (steps : List (PairContraction × PairStep)) (inter : List (View A)) (h' : ∀ v ∈ inter, v.Wf)
    (al : Alloc A) : Safe (runSteps al operands steps inter) fun l => ∀ v ∈ l, v.Wf := by
  induction steps generalizing inter al with
  | nil => exact .ok h'
  | cons s steps ih =>
    obtain ⟨step, orderStep⟩ := s
    rw [runSteps]
    refine Safe.bind (fetch_safe h h' _) fun l hl => Safe.bind (fetch_safe h h' _) fun r hr =>
      Safe.bind (step.run_safe hl hr _) fun w hw => ih _ (fun v hv => ?_) _
    rcases List.mem_append.1 hv with hv | hv
    · exact h' v hv
    · rw [List.mem_singleton.1 hv]; exact hw

/-- Any path on any valid arrays. -/
theorem EinsumPath.contractOperands_safe [Zero A] [Add A] [Mul A] [MulAdd A] (p : EinsumPath)
    {operands : List (View A)} (h : ∀ v ∈ operands, v.Wf) (al : Alloc A) :
    Safe (p.contractOperands al operands) View.Wf := by
  unfold EinsumPath.contractOperands
  split
  · rename_i c _ _ _
    exact Safe.bind (safe_index _ _) fun t ht => c.op.run_safe (h t ht) al
  · exact Safe.bind (runSteps_safe h _ [] (by simp) al) fun inter hi =>
      (safe_unwrapO _).imp fun w hw => hi w (List.mem_of_getLast? hw)
  · exact .panic

/-! ## The memory slice of a contiguous array -/

theorem memStart_eq {off : Int} {s : List Nat} {st : List Int} (hl : st.length = s.length)
    (hp : ∀ d ∈ s, d ≠ 0) :
    memStart off s st = off + dotI st ((s.zip st).map fun p => if p.2 < 0 then p.1 - 1 else 0) := by
  induction s generalizing off st with
  | nil => cases st <;> simp [memStart] at hl ⊢
  | cons d ds ih =>
    cases st with
    | nil => simp at hl
    | cons x xs =>
      have hd : d ≠ 0 := hp d (by simp)
      rw [memStart, ih (by simpa using hl) fun e he => hp e (by simp [he])]
      simp only [List.zip_cons_cons, List.map_cons, dotI_cons]
      split
      · have : ((d - 1 : Nat) : Int) = (d : Int) - 1 := by omega
        rw [this]; ring
      · simp

theorem InB_zipmap {s : List Nat} {st : List Int} (hl : st.length = s.length) (hp : ∀ d ∈ s, d ≠ 0)
    (q : Int → Bool) : InB s ((s.zip st).map fun p => if q p.2 then p.1 - 1 else 0) := by
  induction s generalizing st with
  | nil => cases st <;> simp at hl ⊢
  | cons d ds ih =>
    cases st with
    | nil => simp at hl
    | cons x xs =>
      have hd : d ≠ 0 := hp d (by simp)
      simp only [List.zip_cons_cons, List.map_cons, InB_cons]
      exact ⟨by split <;> omega, ih (by simpa using hl) fun e he => hp e (by simp [he])⟩

theorem span_eq {s : List Nat} {st : List Int} (hl : st.length = s.length) (hp : ∀ d ∈ s, d ≠ 0) :
    dotI st ((s.zip st).map fun p => if ¬ p.2 < 0 then p.1 - 1 else 0) =
      dotI st ((s.zip st).map fun p => if p.2 < 0 then p.1 - 1 else 0) +
        ((∑ i ∈ Finset.range s.length, (dimAt s i - 1) * strAt st i : Nat) : Int) := by
  induction s generalizing st with
  | nil => cases st <;> simp at hl ⊢
  | cons d ds ih =>
    cases st with
    | nil => simp at hl
    | cons x xs =>
      have hd : d ≠ 0 := hp d (by simp)
      simp only [List.zip_cons_cons, List.map_cons, dotI_cons]
      rw [ih (by simpa using hl) fun e he => hp e (by simp [he]), List.length_cons,
        Finset.sum_range_succ']
      simp only [dimAt, strAt, List.getD_cons_succ, List.getD_cons_zero]
      have e1 : ((d - 1 : Nat) : Int) = (d : Int) - 1 := by omega
      rcases lt_or_ge x 0 with hx | hx
      · have e2 : (x.natAbs : Int) = -x := by omega
        simp only [hx, not_true_eq_false, if_true, if_false, Nat.cast_add, Nat.cast_mul, e1, e2]
        simp
        ring
      · have e2 : (x.natAbs : Int) = x := by omega
        simp only [not_lt.2 hx, not_false_eq_true, if_true, if_false, Nat.cast_add, Nat.cast_mul, e1, e2]
        simp
        ring

/-- `as_slice_memory_order` of a valid array is a block of exactly the array's size, inside its buffer. -/
theorem View.Wf.slice {t : View A} (h : t.Wf) {d : List A} (hd : t.asSliceMemoryOrder = some d) :
    d.length = t.shape.prod ∧ (0 < t.shape.prod → 0 ≤ memStart t.off t.shape t.strides ∧
      memStart t.off t.shape t.strides + (t.shape.prod : Int) ≤ (t.buf.length : Int)) := by
  unfold View.asSliceMemoryOrder at hd
  split at hd
  swap
  · cases hd
  rename_i hc
  split at hd
  · rename_i hz
    have hz := any_zero_iff.1 hz
    cases hd
    exact ⟨by simp [hz], by omega⟩
  · rename_i hz
    have hpos : 0 < t.shape.prod := any_zero_false_iff.1 ((Bool.not_eq_true _).mp hz)
    have hne : ∀ d ∈ t.shape, d ≠ 0 := by
      have := all_ne_iff.2 hpos
      simp only [List.all_eq_true, decide_eq_true_eq] at this
      exact this
    have hr : ∀ idx, InB t.shape idx → 0 ≤ t.off + dotI t.strides idx ∧
        t.off + dotI t.strides idx < (t.buf.length : Int) := by
      intro idx hi
      obtain ⟨x, hx⟩ := h.2 idx hi
      rw [View.read, if_pos hi, readAt] at hx
      split at hx
      · rename_i h0
        refine ⟨h0, ?_⟩
        split at hx
        · rename_i y hy
          have := (List.getElem?_eq_some_iff.1 hy).1
          omega
        · cases hx
      · cases hx
    have h1 := (hr _ (InB_zipmap h.1 hne fun x => decide (x < 0))).1
    have h2 := (hr _ (InB_zipmap h.1 hne fun x => decide (¬ x < 0))).2
    simp only [decide_eq_true_eq] at h1 h2
    rw [span_eq h.1 hne] at h2
    rw [← memStart_eq h.1 hne] at h1
    rw [← Int.add_assoc, ← memStart_eq h.1 hne] at h2
    have h3 := contig_span h.1 hpos hc
    cases hd
    have key : 0 ≤ memStart t.off t.shape t.strides ∧
        memStart t.off t.shape t.strides + (t.shape.prod : Int) ≤ (t.buf.length : Int) := by
      constructor
      · exact h1
      · rw [← h3]; push_cast at h2 ⊢; omega
    refine ⟨?_, fun _ => key⟩
    simp only [List.length_take, List.length_drop]
    omega

end Einsum
