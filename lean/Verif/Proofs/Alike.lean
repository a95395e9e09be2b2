import Verif.Proofs.Safe
import Mathlib.Tactic.Linarith

/-!
# Views with equal shape, strides and elements

They may begin anywhere in buffers that agree nowhere else.  Operations that allocate give exactly equal results;
operations that return views of their argument keep the relation.
-/

namespace Einsum

open Spec

variable {A α β γ δ : Type}

/-- Both fail in the same way, or both return related values. -/
def MRel (R : α → β → Prop) (m : M α) (m' : M β) : Prop :=
  (∃ e, m = .error e ∧ m' = .error e) ∨ ∃ a b, m = .ok a ∧ m' = .ok b ∧ R a b

theorem MRel.bind {R : α → β → Prop} {S : γ → δ → Prop} {m : M α} {m' : M β} {k : α → M γ} {k' : β → M δ}
    (h : MRel R m m') (hk : ∀ a b, R a b → MRel S (k a) (k' b)) : MRel S (m >>= k) (m' >>= k') := by
  rcases h with ⟨e, rfl, rfl⟩ | ⟨a, b, rfl, rfl, hab⟩
  · exact .inl ⟨e, rfl, rfl⟩
  · exact hk a b hab

theorem MRel.bind_eq {R : α → β → Prop} {m : M α} {m' : M β} {k : α → M γ} {k' : β → M γ}
    (h : MRel R m m') (hk : ∀ a b, R a b → k a = k' b) : m >>= k = m' >>= k' := by
  rcases h with ⟨e, rfl, rfl⟩ | ⟨a, b, rfl, rfl, hab⟩
  · rfl
  · exact hk a b hab

theorem MRel.ok {R : α → β → Prop} {a : α} {b : β} (h : R a b) : MRel R (.ok a) (.ok b) := .inr ⟨a, b, rfl, rfl, h⟩

theorem MRel.panic {R : α → β → Prop} (k : PanicKind) : MRel R (panic k) (Einsum.panic k) := .inl ⟨_, rfl, rfl⟩

theorem MRel.refl {R : α → α → Prop} (m : M α) (h : ∀ a, m = .ok a → R a a) : MRel R m m := by
  cases m with
  | error e => exact .inl ⟨e, rfl, rfl⟩
  | ok a => exact .inr ⟨a, a, rfl, rfl, h a rfl⟩

theorem Spec.Alike.shape {v w : View A} (h : Alike v w) : v.shape = w.shape := h.same.2.2.1

theorem alike_self {v : View A} (h : v.Wf) : Alike v v := ⟨⟨h, h, rfl, fun _ _ => rfl⟩, rfl⟩

theorem Spec.Alike.read {v w : View A} (h : Alike v w) (idx : List Nat) : v.read idx = w.read idx := by
  by_cases hi : InB v.shape idx
  · exact h.same.2.2.2 idx hi
  · rw [View.read, View.read, if_neg hi, if_neg (h.shape ▸ hi)]

theorem Spec.Alike.holds [Zero A] {v w : View A} (h : Alike v w) : ∃ T, Holds v v.shape T ∧ Holds w v.shape T := by
  obtain ⟨T, hT⟩ := h.same.1.holds
  exact ⟨T, hT, h.shape.symm, by rw [h.same.2.1.1, h.shape], fun idx hi => by rw [← h.same.2.2.2 idx hi]; exact hT.get idx hi⟩

theorem alike_of_holds {v w : View A} {s : List Nat} {T : List Nat → A} (hv : Holds v s T) (hw : Holds w s T)
    (hst : v.strides = w.strides) : Alike v w :=
  ⟨⟨hv.wf, hw.wf, hv.shape.trans hw.shape.symm, fun idx hi => by
    rw [hv.get idx (hv.shape ▸ hi), hw.get idx (hv.shape ▸ hi)]⟩, hst⟩

/-! ## Operations -/

theorem Spec.Alike.toVec {v w : View A} (h : Alike v w) : v.toVec = w.toVec := by
  unfold View.toVec
  rw [h.shape, funext h.read]

theorem Spec.Alike.toOwned {v w : View A} (h : Alike v w) (al : Alloc A) : v.toOwned al = w.toOwned al := by
  unfold View.toOwned
  rw [h.toVec, h.shape]

theorem Spec.Alike.mapv {v w : View A} (h : Alike v w) (al : Alloc A) (f : A → A) : v.mapv al f = w.mapv al f := by
  unfold View.mapv
  rw [h.toVec, h.shape]

theorem Spec.Alike.first {v w : View A} (h : Alike v w) : v.first = w.first := by
  unfold View.first
  rw [h.shape, h.read]

theorem Spec.Alike.sumAxis [Zero A] [Add A] {v w : View A} (h : Alike v w) (al : Alloc A) (ax : Nat) :
    v.sumAxis al ax = w.sumAxis al ax := by
  unfold View.sumAxis
  simp only [h.shape, h.read]

theorem Spec.Alike.permutedAxes [Zero A] {v w : View A} (h : Alike v w) (axes : List Nat) :
    MRel Alike (v.permutedAxes axes) (w.permutedAxes axes) := by
  by_cases hp : axes.Perm (List.range v.shape.length)
  · obtain ⟨T, h1, h2⟩ := h.holds
    obtain ⟨v', v1, v2⟩ := h1.permutedAxes hp
    obtain ⟨w', w1, w2⟩ := h2.permutedAxes hp
    refine .inr ⟨v', w', v1, w1, alike_of_holds v2 w2 ?_⟩
    rw [View.permutedAxes, if_pos (permCheck_iff.2 hp)] at v1
    rw [View.permutedAxes, if_pos (permCheck_iff.2 (h.shape ▸ hp))] at w1
    cases v1
    cases w1
    simp only [h.strides]
  · rw [View.permutedAxes_panic hp, View.permutedAxes_panic (h.shape ▸ hp)]
    exact .panic _

theorem Spec.Alike.insertAxis [Zero A] {v w : View A} (h : Alike v w) (ax : Nat) :
    MRel Alike (v.insertAxis ax) (w.insertAxis ax) := by
  by_cases hp : ax ≤ v.shape.length
  · obtain ⟨T, h1, h2⟩ := h.holds
    obtain ⟨v', v1, v2⟩ := h1.insertAxis hp
    obtain ⟨w', w1, w2⟩ := h2.insertAxis hp
    refine .inr ⟨v', w', v1, w1, alike_of_holds v2 w2 ?_⟩
    rw [View.insertAxis, if_pos hp] at v1
    rw [View.insertAxis, if_pos (h.shape ▸ hp)] at w1
    cases v1
    cases w1
    simp only [h.strides]
  · rw [View.insertAxis, View.insertAxis, if_neg hp, if_neg (h.shape ▸ hp)]
    exact .panic _

theorem Spec.Alike.broadcast [Zero A] {v w : View A} (h : Alike v w) (s : List Nat) :
    MRel Alike (unwrapO (v.broadcast s)) (unwrapO (w.broadcast s)) ∧
      ((v.broadcast s = none ∧ w.broadcast s = none) ∨
        ∃ v' w', v.broadcast s = some v' ∧ w.broadcast s = some w' ∧ Alike v' w') := by
  obtain ⟨T, h1, h2⟩ := h.holds
  cases hb : broadcastRev v.shape.reverse v.strides.reverse s.reverse with
  | none =>
    have e1 : v.broadcast s = none := by rw [View.broadcast, hb]; rfl
    have e2 : w.broadcast s = none := by rw [View.broadcast, ← h.shape, ← h.strides, hb]; rfl
    rw [e1, e2]
    exact ⟨.panic _, .inl ⟨rfl, rfl⟩⟩
  | some ss =>
    have e1 : v.broadcast s = some { v with shape := s, strides := ss.reverse } := by rw [View.broadcast, hb]; rfl
    have e2 : w.broadcast s = some { w with shape := s, strides := ss.reverse } := by
      rw [View.broadcast, ← h.shape, ← h.strides, hb]; rfl
    have key := alike_of_holds (h1.broadcast e1) (h2.broadcast e2) rfl
    rw [e1, e2]
    exact ⟨.ok key, .inr ⟨_, _, rfl, rfl, key⟩⟩

theorem Spec.Alike.mul [Zero A] [Mul A] {l l' r r' : View A} (hl : Alike l l') (hr : Alike r r') (al : Alloc A) :
    l.mul al r = l'.mul al r' := by
  unfold View.mul View.broadcastWith
  rw [← hl.shape, ← hr.shape]
  cases commonShape l.shape r.shape with
  | none => rfl
  | some s =>
    rcases (hl.broadcast s).2 with ⟨g1, g2⟩ | ⟨v', w', g1, g2, g3⟩
    · simp [g1, g2]
    · rcases (hr.broadcast s).2 with ⟨h1, h2⟩ | ⟨v, w, h1, h2, h3⟩
      · simp [g1, g2, h1, h2]
      · simp [g1, g2, h1, h2, g3.read, h3.read, g3.shape]

theorem Spec.Alike.dot [Zero A] [Add A] [Mul A] [MulAdd A] {l l' r r' : View A} (hl : Alike l l') (hr : Alike r r')
    (al : Alloc A) : l.dot al r = l'.dot al r' := by
  unfold View.dot
  simp only [hl.shape, hr.shape, hl.strides, hr.strides, hl.read, hr.read]

theorem Spec.Alike.asMatrix [Zero A] {v w : View A} (h : Alike v w) (rows cols : Nat) :
    MRel Alike (asMatrix v rows cols) (asMatrix w rows cols) := by
  obtain ⟨T, h1, h2⟩ := h.holds
  by_cases hp : rows * cols = v.shape.prod
  · obtain ⟨v', v1, v2, v3⟩ := h1.asMatrix hp
    obtain ⟨w', w1, w2, w3⟩ := h2.asMatrix hp
    exact .inr ⟨v', w', v1, w1, alike_of_holds v3 w3 (v2.trans w2.symm)⟩
  · rw [h1.asMatrix_panic hp, h2.asMatrix_panic hp]
    exact .panic _

/-! ## The memory block of a contiguous array -/

/-- Along the stride order every number below the element count is written with one digit per axis. -/
theorem contig_digits {shape : List Nat} {strides : List Int} {c : Nat} {o : List Nat} (hn : o.Nodup)
    (h : contigLoop shape strides c o = true) {j : Nat} (hj : j < (o.map (dimAt shape)).prod) :
    ∃ g : Nat → Nat, (∀ i ∈ o, g i < dimAt shape i) ∧ (o.map fun i => strAt strides i * g i).sum = c * j := by
  induction o generalizing c j with
  | nil =>
    have : j = 0 := by simpa using hj
    exact ⟨fun _ => 0, by simp, by simp [this]⟩
  | cons i o ih =>
    simp only [contigLoop, Bool.and_eq_true, Bool.or_eq_true, decide_eq_true_eq] at h
    rw [List.map_cons, List.prod_cons] at hj
    have hn' := List.nodup_cons.1 hn
    have hd : 0 < dimAt shape i := by
      rcases Nat.eq_zero_or_pos (dimAt shape i) with h0 | h0
      · rw [h0] at hj; simp at hj
      · exact h0
    obtain ⟨g, g1, g2⟩ := ih hn'.2 h.2 (j := j / dimAt shape i) (Nat.div_lt_of_lt_mul hj)
    refine ⟨Function.update g i (j % dimAt shape i), fun k hk => ?_, ?_⟩
    · rcases List.mem_cons.1 hk with rfl | hk'
      · rw [Function.update_self]; exact Nat.mod_lt _ hd
      · have : k ≠ i := by rintro rfl; exact hn'.1 hk'
        rw [Function.update_of_ne this]; exact g1 k hk'
    · have hcongr : (o.map fun k => strAt strides k * Function.update g i (j % dimAt shape i) k) =
          o.map fun k => strAt strides k * g k := by
        refine List.map_congr_left fun k hk => ?_
        have : k ≠ i := by rintro rfl; exact hn'.1 hk
        rw [Function.update_of_ne this]
      rw [List.map_cons, List.sum_cons, hcongr, g2, Function.update_self]
      have hdm := Nat.div_add_mod j (dimAt shape i)
      rcases h.1 with h1 | h1
      · have h1 : dimAt shape i = 1 := h1
        rw [h1, Nat.mod_one, Nat.div_one]
        have : shape.getD i 0 = 1 := h1
        rw [this]; ring
      · have h1 : strAt strides i = c := h1
        rw [h1]
        conv_rhs => rw [← hdm]
        ring

/-- The element with given digits, counted from the low end of memory. -/
theorem addr_digits {s : List Nat} {st : List Int} (hl : st.length = s.length) (g : Nat → Nat)
    (hg : ∀ i < s.length, g i < dimAt s i) : ∃ idx, InB s idx ∧ ∀ off : Int,
      off + dotI st idx = memStart off s st + ((∑ i ∈ Finset.range s.length, strAt st i * g i : Nat) : Int) := by
  induction s generalizing st g with
  | nil => cases st with
    | nil => exact ⟨[], trivial, fun off => by simp [memStart]⟩
    | cons => simp at hl
  | cons d ds ih =>
    cases st with
    | nil => simp at hl
    | cons x xs =>
      have h0 : g 0 < d := by simpa using hg 0 (by simp)
      obtain ⟨idx, i1, i2⟩ := ih (st := xs) (by simpa using hl) (fun i => g (i + 1)) fun i hi => by
        simpa using hg (i + 1) (by simpa using hi)
      have hsum : (∑ i ∈ Finset.range (d :: ds).length, strAt (x :: xs) i * g i : Nat) =
          (∑ i ∈ Finset.range ds.length, strAt xs i * g (i + 1)) + x.natAbs * g 0 := by
        rw [List.length_cons, Finset.sum_range_succ']
        simp [strAt]
      rw [hsum]
      by_cases hx : x < 0
      · refine ⟨(d - 1 - g 0) :: idx, ⟨by omega, i1⟩, fun off => ?_⟩
        rw [dotI_cons, memStart, if_pos hx]
        have := i2 (off + x * ((d : Int) - 1))
        have e1 : ((d - 1 - g 0 : Nat) : Int) = (d : Int) - 1 - g 0 := by omega
        have e2 : (x.natAbs : Int) = -x := by omega
        rw [e1]
        push_cast at this ⊢
        rw [show |x| = -x from abs_of_neg hx]
        linarith
      · refine ⟨g 0 :: idx, ⟨h0, i1⟩, fun off => ?_⟩
        rw [dotI_cons, memStart, if_neg hx]
        have := i2 off
        push_cast at this ⊢
        rw [show |x| = x from abs_of_nonneg (by omega)]
        linarith

/-- Every element of the block is an element of the array. -/
theorem slice_getElem {t : View A} (h : t.Wf) (hp : 0 < t.shape.prod) (hc : isContiguous t.shape t.strides = true)
    {j : Nat} (hj : j < t.shape.prod) : ∃ idx, InB t.shape idx ∧ ∀ u : View A, u.Wf → u.shape = t.shape →
      u.strides = t.strides → ∀ data, u.asSliceMemoryOrder = some data → u.read idx = readAt data (j : Int) := by
  obtain ⟨o, o1, o2⟩ := exists_order h.1 hp hc
  have hn : o.Nodup := o1.nodup_iff.2 List.nodup_range
  have hprod : (o.map (dimAt t.shape)).prod = t.shape.prod := by
    conv_rhs => rw [eq_map_range_getD t.shape 0]
    exact (o1.map _).prod_eq
  obtain ⟨g, g1, g2⟩ := contig_digits hn o2 (j := j) (by rwa [hprod])
  obtain ⟨idx, i1, i2⟩ := addr_digits h.1 g fun i hi => g1 i (o1.mem_iff.2 (by simpa using hi))
  have ht : o.toFinset = Finset.range t.shape.length := by ext i; simp [o1.mem_iff]
  have hs : (∑ i ∈ Finset.range t.shape.length, strAt t.strides i * g i) = j := by
    rw [← ht, List.sum_toFinset _ hn, g2, Nat.one_mul]
  rw [hs] at i2
  refine ⟨idx, i1, fun u hu e1 e2 data hd => ?_⟩
  obtain ⟨l1, l2⟩ := hu.slice hd
  rw [e1] at l1 l2
  obtain ⟨l3, l4⟩ := l2 hp
  unfold View.asSliceMemoryOrder at hd
  rw [e1, e2, if_pos hc, any_zero_false_iff.2 hp] at hd
  simp only [Bool.false_eq_true, if_false, Option.some.injEq] at hd
  rw [View.read, e1, if_pos i1, e2, i2]
  rw [e2] at l3
  unfold readAt
  rw [if_pos (by omega), if_pos (by omega), ← hd]
  have : (memStart u.off t.shape t.strides + (j : Int)).toNat = (memStart u.off t.shape t.strides).toNat + j := by omega
  rw [this, List.getElem?_take, if_pos (by simpa using hj), List.getElem?_drop]
  simp

theorem Spec.Alike.asSlice {v w : View A} (h : Alike v w) : v.asSliceMemoryOrder = w.asSliceMemoryOrder := by
  by_cases hc : isContiguous v.shape v.strides = true
  swap
  · rw [View.asSliceMemoryOrder, View.asSliceMemoryOrder, ← h.shape, ← h.strides, if_neg hc, if_neg hc]
  by_cases hp : 0 < v.shape.prod
  swap
  · have hz := any_zero_iff.2 (Nat.eq_zero_of_not_pos hp)
    rw [View.asSliceMemoryOrder, View.asSliceMemoryOrder, ← h.shape, ← h.strides, if_pos hc, if_pos hc, hz]
    rfl
  have hz := any_zero_false_iff.2 hp
  obtain ⟨d, hd⟩ : ∃ d, v.asSliceMemoryOrder = some d := by
    rw [View.asSliceMemoryOrder, if_pos hc, hz]; exact ⟨_, rfl⟩
  obtain ⟨d', hd'⟩ : ∃ d, w.asSliceMemoryOrder = some d := by
    rw [View.asSliceMemoryOrder, ← h.shape, ← h.strides, if_pos hc, hz]; exact ⟨_, rfl⟩
  rw [hd, hd']
  have l1 := (h.same.1.slice hd).1
  have l2 := (h.same.2.1.slice hd').1
  rw [← h.shape] at l2
  congr 1
  apply List.ext_getElem (l1.trans l2.symm)
  intro j j1 j2
  obtain ⟨idx, i1, i2⟩ := slice_getElem h.same.1 hp hc (j := j) (by omega)
  have e1 := i2 v h.same.1 rfl rfl d hd
  have e2 := i2 w h.same.2.1 h.shape.symm h.strides.symm d' hd'
  rw [h.read, e2, readAt_nat (List.getElem?_eq_getElem j1), readAt_nat (List.getElem?_eq_getElem j2)] at e1
  exact (Except.ok.inj e1).symm

/-! ## Contractors -/

theorem Spec.Alike.diagView {v w : View A} (h : Alike v w) (d : Diagonalization) : d.view v = d.view w := by
  unfold Diagonalization.view
  rw [h.strides, h.asSlice]

theorem Spec.Alike.diagRun {v w : View A} (h : Alike v w) (d : Diagonalization) (al : Alloc A) : d.run al v = d.run al w := by
  unfold Diagonalization.run
  rw [h.toVec, h.shape]

section ops
variable [Zero A] [Add A]

theorem Spec.Alike.sumRun {v w : View A} (h : Alike v w) (s : Summation) (al : Alloc A) : s.run al v = s.run al w := by
  unfold Summation.run
  simp only [h.sumAxis]

theorem Spec.Alike.singletonRun {v w : View A} (h : Alike v w) (op : SingletonOp) (al : Alloc A) :
    op.run al v = op.run al w := by
  cases op with
  | identity => exact h.toOwned al
  | permutation p => exact (h.permutedAxes _).bind_eq fun _ _ h' => h'.toOwned al
  | summation s => exact h.sumRun s al
  | diagonalization d => exact h.diagRun d al
  | permutationAndSummation p => exact (h.permutedAxes _).bind_eq fun _ _ h' => h'.sumRun _ al
  | diagonalizationAndSummation d =>
    show d.run al v = d.run al w
    unfold DiagonalizationAndSummation.run
    rw [h.asSlice, h.strides, h.diagView, h.diagRun]

variable [Mul A] [MulAdd A]

theorem Spec.Alike.fixedRun {l l' r r' : View A} (hl : Alike l l') (hr : Alike r r') (p : TensordotFixedPosition)
    (al : Alloc A) : p.run al l r = p.run al l' r' :=
  (hl.asMatrix _ _).bind_eq fun _ _ h1 => (hr.asMatrix _ _).bind_eq fun _ _ h2 => by rw [h1.dot h2]

omit [Zero A] [Add A] [MulAdd A] in
theorem Spec.Alike.scalarMatrix {l l' r r' : View A} (hl : Alike l l') (hr : Alike r r') (al : Alloc A) :
    ScalarMatrixProduct.run al l r = ScalarMatrixProduct.run al l' r' := by
  unfold ScalarMatrixProduct.run
  simp only [hl.first, hr.mapv]

omit [Zero A] [Add A] [MulAdd A] in
theorem Spec.Alike.matrixScalar {l l' r r' : View A} (hl : Alike l l') (hr : Alike r r') (al : Alloc A) :
    MatrixScalarProduct.run al l r = MatrixScalarProduct.run al l' r' := by
  unfold MatrixScalarProduct.run
  simp only [hr.first, hl.mapv]

omit [Add A] [Mul A] [MulAdd A] in
theorem Spec.Alike.insertAxes {v w : View A} (h : Alike v w) (is : List Nat) :
    MRel Alike (Einsum.insertAxes is v) (Einsum.insertAxes is w) := by
  induction is generalizing v w with
  | nil => exact .ok h
  | cons i is ih => exact (h.insertAxis i).bind fun _ _ h' => ih h'

theorem Spec.Alike.stackedRun {l l' r r' : View A} (hl : Alike l l') (hr : Alike r r') (p : StackedTensordotGeneral)
    (al : Alloc A) : p.run al l r = p.run al l' r' := by
  refine (hl.permutedAxes _).bind_eq fun a b hab => ?_
  rw [hab.toVec]
  refine congrArg _ (funext fun ld => ?_)
  cases fromShapeVec p.lhsOutputShape ld with
  | none => rfl
  | some lre =>
    refine (hr.permutedAxes _).bind_eq fun c d hcd => ?_
    rw [hcd.toVec]

theorem Spec.Alike.pairRun {l l' r r' : View A} (hl : Alike l l') (hr : Alike r r') (op : PairOp) (al : Alloc A) :
    op.run al l r = op.run al l' r' := by
  cases op with
  | hadamardProduct => exact hl.mul hr al
  | hadamardProductGeneral p =>
    exact (hl.permutedAxes _).bind_eq fun _ _ h1 => (hr.permutedAxes _).bind_eq fun _ _ h2 => h1.mul h2 al
  | tensordotFixedPosition p => exact hl.fixedRun hr p al
  | tensordotGeneral p =>
    exact (hl.permutedAxes _).bind_eq fun _ _ h1 => (hr.permutedAxes _).bind_eq fun _ _ h2 => by
      rw [h1.fixedRun h2]
  | scalarMatrixProduct => exact hl.scalarMatrix hr al
  | scalarMatrixProductGeneral p => exact (hr.permutedAxes _).bind_eq fun _ _ h2 => hl.scalarMatrix h2 al
  | matrixScalarProduct => exact hl.matrixScalar hr al
  | matrixScalarProductGeneral p => exact (hl.permutedAxes _).bind_eq fun _ _ h1 => h1.matrixScalar hr al
  | broadcastProductGeneral p =>
    exact (hl.permutedAxes _).bind_eq fun _ _ h1 => (hr.permutedAxes _).bind_eq fun _ _ h2 =>
      (h1.insertAxes _).bind_eq fun _ _ h3 => (h2.insertAxes _).bind_eq fun _ _ h4 =>
      (h3.broadcast _).1.bind_eq fun _ _ h5 => (h4.broadcast _).1.bind_eq fun _ _ h6 => h5.mul h6 al
  | stackedTensordotGeneral p => exact hl.stackedRun hr p al

/-! ## Paths -/

omit [Mul A] [MulAdd A] in
theorem simplify_alike {v w : View A} (h : Alike v w) (s : Option SimplificationMethodAndOutput) (al : Alloc A) :
    MRel Alike (simplifyOperand al s v) (simplifyOperand al s w) := by
  cases s with
  | none => exact .ok h
  | some s =>
    show MRel Alike (s.op.run al v) (s.op.run al w)
    rw [h.singletonRun]
    refine .refl _ fun a ha => alike_self ?_
    rcases s.op.run_safe h.same.2.1 al with ⟨k, hk⟩ | ⟨x, hx, hx'⟩
    · rw [ha] at hk; cases hk
    · rw [ha] at hx; cases hx; exact hx'

theorem Spec.Alike.contractionRun {l l' r r' : View A} (hl : Alike l l') (hr : Alike r r') (p : PairContraction) (al : Alloc A) :
    p.run al l r = p.run al l' r' :=
  (simplify_alike hl _ _).bind_eq fun _ _ h1 => (simplify_alike hr _ _).bind_eq fun _ _ h2 => h1.pairRun h2 _ _

omit [Zero A] [Add A] [Mul A] [MulAdd A] in
theorem index_alike {ops ops' : List (View A)} (h : List.Forall₂ Alike ops ops') (i : Nat) :
    MRel Alike (index ops i) (index ops' i) := by
  unfold index
  induction h generalizing i with
  | nil => exact .panic _
  | cons h _ ih =>
    cases i with
    | zero => exact .ok h
    | succ i => simpa using ih i

theorem runSteps_alike {ops ops' : List (View A)} (h : List.Forall₂ Alike ops ops')
    (steps : List (PairContraction × PairStep)) (inter : List (View A)) (hi : ∀ v ∈ inter, v.Wf) (al : Alloc A) :
    runSteps al ops steps inter = runSteps al ops' steps inter := by
  have hinter : ∀ inter : List (View A), (∀ v ∈ inter, v.Wf) → List.Forall₂ Alike inter inter := by
    intro l hl
    rw [List.forall₂_same]
    exact fun v hv => alike_self (hl v hv)
  induction steps generalizing inter al with
  | nil => rfl
  | cons s steps ih =>
    obtain ⟨p, o⟩ := s
    have hf : ∀ n, MRel Alike (fetch ops inter n) (fetch ops' inter n) := by
      intro n
      cases n with
      | input i => exact index_alike h i
      | intermediateResult i => exact index_alike (hinter inter hi) i
    refine (hf _).bind_eq fun l l' hl => (hf _).bind_eq fun r r' hr => ?_
    rw [hl.contractionRun hr]
    cases hw : p.run (al.sub 0) l' r' with
    | error e => rfl
    | ok w =>
      refine ih (inter ++ [w]) (fun v hv => ?_) (al.sub 1)
      rcases List.mem_append.1 hv with hv | hv
      · exact hi v hv
      · rcases p.run_safe hl.same.2.1 hr.same.2.1 (al.sub 0) with ⟨k, hk⟩ | ⟨x, hx, hx'⟩
        · rw [hw] at hk; cases hk
        · rw [hw] at hx
          cases hx
          rw [List.mem_singleton.1 hv]
          exact hx'

theorem contractOperands_alike {ops ops' : List (View A)} (h : List.Forall₂ Alike ops ops') (p : EinsumPath)
    (al : Alloc A) : p.contractOperands al ops = p.contractOperands al ops' := by
  unfold EinsumPath.contractOperands
  split
  · exact (index_alike h 0).bind_eq fun _ _ h' => h'.singletonRun _ al
  · rw [runSteps_alike h _ [] (by simp) al]
  · rfl

omit [Zero A] [Add A] [Mul A] [MulAdd A] in
theorem shapes_alike {ops ops' : List (View A)} (h : List.Forall₂ Alike ops ops') :
    ops.map View.shape = ops'.map View.shape := by
  induction h with
  | nil => rfl
  | cons h _ ih => rw [List.map_cons, List.map_cons, ih, h.shape]

theorem einsum_alike {ops ops' : List (View A)} (h : List.Forall₂ Alike ops ops') (hash : HashOrd) (al : Alloc A)
    (s : String) : einsum hash al s ops = einsum hash al s ops' := by
  unfold einsum validateAndSize
  rw [shapes_alike h]
  cases SizedContraction.fromStringAndShapes (hash.sub 0) s (ops'.map View.shape) with
  | error e => rfl
  | ok sc =>
    simp only [SizedContraction.contractOperands]
    simp only [contractOperands_alike h]

theorem tensordot_alike {l l' r r' : View A} (hl : Alike l l') (hr : Alike r r') (al : Alloc A) (la ra : List Nat) :
    tensordot al l r la ra = tensordot al l' r' la ra := by
  unfold tensordot
  simp only [hl.shape, hr.shape]
  have key : ∀ t : TensordotGeneral, t.run al l r = t.run al l' r' := fun t => hl.pairRun hr (.tensordotGeneral t) al
  simp only [key]

end ops

end Einsum
