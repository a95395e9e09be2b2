import Verif.Proofs.Assign
import Verif.Props.Main

/-!
# C50: contracting into a given array
-/

namespace Einsum

open Spec

variable {A : Type}

theorem sourceIndex_self {s idx : List Nat} (h : InB s idx) : sourceIndex s idx = idx := by
  rw [← bcIdx_eq (Nat.le_of_eq h.length_eq.symm), bcIdx_self h]

theorem broadcasts_self (s : List Nat) : Broadcasts s s := by
  refine ⟨Nat.le_refl _, ?_⟩
  rw [Nat.sub_self, List.drop_zero]
  exact forall₂_same_or

theorem inB_sourceIndex {s t idx : List Nat} (hb : Broadcasts s t) (hi : InB t idx) : InB s (sourceIndex s idx) := by
  have hr := hi.length_eq
  have h1 : InB (t.drop (t.length - s.length)) (idx.drop (idx.length - s.length)) := by
    have h2 : InB (t.take (t.length - s.length) ++ t.drop (t.length - s.length))
        (idx.take (idx.length - s.length) ++ idx.drop (idx.length - s.length)) := by
      simpa using hi
    exact ((InB_append (by simp; omega)).1 h2).2
  rw [sourceIndex]
  have h3 := hb.2
  clear hb hi
  generalize t.drop (t.length - s.length) = t' at h1 h3
  generalize idx.drop (idx.length - s.length) = i' at h1 ⊢
  clear hr
  induction h3 generalizing i' with
  | nil => simp
  | @cons d n s t' h _ ih =>
    cases i' with
    | nil => simp at h1
    | cons a i' =>
      have := h1.1
      simp only [List.zipWith_cons_cons, InB_cons]
      refine ⟨?_, ih _ h1.2⟩
      split <;> omega

/-- An assigned view is still a valid array. -/
theorem Spec.Assigned.wf {out out' : View A} {t : List Nat → A} (h : Assigned out out' t) (hw : out.Wf) :
    out'.Wf := ⟨by rw [h.strides, h.shape, hw.1], fun idx hi => ⟨_, h.inside idx (h.shape ▸ hi)⟩⟩

/-- C50: for any contractor with any fields and any valid arrays, `contract_and_assign_pair` panics exactly when
`contract_pair` does or its result cannot be broadcast; otherwise the view holds the broadcast result and nothing
outside it has changed. -/
theorem C50_any [Zero A] [Add A] [Mul A] [MulAdd A] (op : PairOp) (al : Alloc A) (l r out : View A) (hl : l.Wf) (hr : r.Wf)
    (ho : out.Wf) (hx : Exclusive out) :
    (∃ k, op.run al l r = panic k ∧ op.contractAndAssign al l r out = panic k) ∨
    ∃ w t, op.run al l r = .ok w ∧ Elements w t ∧
      (¬ Broadcasts w.shape out.shape → op.contractAndAssign al l r out = panic .ndarray) ∧
      (Broadcasts w.shape out.shape → ∃ out', op.contractAndAssign al l r out = .ok out' ∧
        Assigned out out' fun idx => t (sourceIndex w.shape idx)) := by
  rcases op.run_safe hl hr al with ⟨k, hk⟩ | ⟨w, hw, hw'⟩
  · exact .inl ⟨k, hk, by rw [PairOp.contractAndAssign, hk]; rfl⟩
  · obtain ⟨T, hT⟩ := hw'.holds
    obtain ⟨h1, h2⟩ := assign_spec hw' ho hx hT.get
    refine .inr ⟨w, T, hw, ⟨hw', hT.get⟩, ?_, ?_⟩
    · intro hb; rw [PairOp.contractAndAssign, hw, bind_ok, h2 hb]
    · intro hb
      obtain ⟨out', h3, h4⟩ := h1 hb
      exact ⟨out', by rw [PairOp.contractAndAssign, hw, bind_ok, h3], h4⟩

/-- C50: the compiled contraction of a valid two-operand call, into a view of any layout to whose shape the
output can be broadcast. -/
theorem C50_einsum [CommSemiring A] (h h' : HashOrd) (al : Alloc A) (s : String) (v w dst : View A)
    (ix jx out : List Char) (dims : Char → Nat) (t u : List Nat → A)
    (hc : Call s [v, w] [ix, jx] out dims [t, u]) (hn : NoEmptyDiagonal dims [ix, jx])
    (hd : dst.Wf) (hx : Exclusive dst) :
    ∃ sc p, validateAndSize h s [v, w] = .ok sc ∧ PairContraction.new h' sc = .ok p ∧
      (¬ Broadcasts (out.map dims) dst.shape → p.contractAndAssign al v w dst = panic .ndarray) ∧
      (Broadcasts (out.map dims) dst.shape → ∃ dst' f, p.contractAndAssign al v w dst = .ok dst' ∧
        Assigned dst dst' f ∧ ∀ idx σ, InB dst.shape idx → out.map σ = sourceIndex (out.map dims) idx →
          f idx = Spec.einsum dims [ix, jx] [t, u] out σ) := by
  obtain ⟨sc, p, r, h1, h2, h3, h4, h5, h6⟩ := C25_pair h h' al s v w ix jx out dims t u hc hn
  obtain ⟨T, hT⟩ := h4.holds
  obtain ⟨g1, g2⟩ := assign_spec h4 hd hx hT.get
  refine ⟨sc, p, h1, h2, ?_, ?_⟩
  · intro hb
    rw [PairContraction.contractAndAssign, h3, bind_ok, g2 (by rwa [h5])]
  · intro hb
    obtain ⟨dst', g3, g4⟩ := g1 (by rwa [h5])
    refine ⟨dst', _, by rw [PairContraction.contractAndAssign, h3, bind_ok, g3], g4, ?_⟩
    intro idx σ hi hσ
    have hin : InRange dims out σ := by
      have := inB_sourceIndex hb hi
      rw [← hσ] at this
      exact InB_map.1 this
    have e1 := h6 σ hin
    have e2 := hT.get (out.map σ) (by rw [h5]; exact inB_of_inRange hin)
    rw [e1] at e2
    rw [h5, ← hσ, ← Except.ok.inj e2]
    rw [Spec.einsum]
    refine sumOver_congr fun σ => ?_
    simp [term]

/-- C50: a destination of exactly the output's shape. -/
theorem C50_same_shape [CommSemiring A] (h h' : HashOrd) (al : Alloc A) (s : String) (v w dst : View A)
    (ix jx out : List Char) (dims : Char → Nat) (t u : List Nat → A)
    (hc : Call s [v, w] [ix, jx] out dims [t, u]) (hn : NoEmptyDiagonal dims [ix, jx])
    (hd : dst.Wf) (hx : Exclusive dst) (hs : dst.shape = out.map dims) :
    ∃ sc p dst', validateAndSize h s [v, w] = .ok sc ∧ PairContraction.new h' sc = .ok p ∧
      p.contractAndAssign al v w dst = .ok dst' ∧ IsEinsum dims [ix, jx] [t, u] out dst' ∧
      dst'.buf.length = dst.buf.length ∧
      ∀ n : Nat, (∀ idx, InB dst.shape idx → address dst idx ≠ n) → dst'.buf[n]? = dst.buf[n]? := by
  obtain ⟨sc, p, h1, h2, -, h3⟩ := C50_einsum h h' al s v w dst ix jx out dims t u hc hn hd hx
  obtain ⟨dst', f, h4, h5, h6⟩ := h3 (by rw [hs]; exact broadcasts_self _)
  refine ⟨sc, p, dst', h1, h2, h4, ⟨h5.wf hd, by rw [h5.shape, hs], fun σ hσ => ?_⟩, h5.length, h5.outside⟩
  have hi : InB (out.map dims) (out.map σ) := inB_of_inRange hσ
  rw [h5.inside _ (hs ▸ hi), h6 (out.map σ) σ (hs ▸ hi) (sourceIndex_self hi).symm]

/-- C50: the stacking loop written with assignments to the subviews of the zero-initialised intermediate array
computes what `stackLoop` computes on blocks of its buffer. -/
theorem C50_stacking [Zero A] [Add A] [Mul A] [MulAdd A] (fixed : TensordotFixedPosition) (al : Alloc A) (sub : List Nat)
    (n : Nat) (ls rs : List (View A)) :
    stackLoopAssign fixed al 0 n ls rs
        ⟨List.replicate (n * sub.prod) 0, 0, n :: sub, defaultStrides (n :: sub)⟩ =
      (stackLoop fixed al sub sub.prod 0 n ls rs (List.replicate (n * sub.prod) 0) >>= fun b =>
        .ok ⟨b, 0, n :: sub, defaultStrides (n :: sub)⟩) :=
  stackLoopAssign_eq fixed al sub n n 0 (by omega) ls rs _ (by simp)

namespace Ex

/-- Every other element of a buffer of eight, with rows reversed, as a 2 by 2 destination. -/
def dst22 : View Int := ⟨[10, 11, 12, 13, 14, 15, 16, 17], 6, [2, 2], [-4, -2]⟩

/-- A 2 by 2 by 2 destination. -/
def dst222 : View Int := ⟨[0, 0, 0, 0, 0, 0, 0, 0], 0, [2, 2, 2], [4, 2, 1]⟩

theorem wf_dst22 : dst22.Wf := (elements_of (v := dst22) (t := elems dst22) rfl (by decide)).1
theorem wf_dst222 : dst222.Wf := (elements_of (v := dst222) (t := elems dst222) rfl (by decide)).1

theorem exclusive_dst22 : Exclusive dst22 := fun a b ha hb =>
  (by decide : ∀ a ∈ allIdx [2, 2], ∀ b ∈ allIdx [2, 2], address dst22 a = address dst22 b → a = b)
    a (mem_allIdx.2 ha) b (mem_allIdx.2 hb)

theorem exclusive_dst222 : Exclusive dst222 := fun a b ha hb =>
  (by decide : ∀ a ∈ allIdx [2, 2, 2], ∀ b ∈ allIdx [2, 2, 2], address dst222 a = address dst222 b → a = b)
    a (mem_allIdx.2 ha) b (mem_allIdx.2 hb)

end Ex

/-- The product of `m23` and `m32` written into every other element of a buffer. -/
example : ∃ sc p dst', validateAndSize HashOrd.reversed "ij,jk->ik" [Ex.m23, Ex.m32] = .ok sc ∧
    PairContraction.new HashOrd.insertion sc = .ok p ∧
    p.contractAndAssign (Alloc.colMajor Int) Ex.m23 Ex.m32 Ex.dst22 = .ok dst' ∧
    IsEinsum Ex.dims [['i', 'j'], ['j', 'k']] [Ex.elems Ex.m23, Ex.elems Ex.m32] ['i', 'k'] dst' ∧
    dst'.buf[3]? = some 13 := by
  obtain ⟨sc, p, d, h1, h2, h3, h4, -, h5⟩ := C50_same_shape HashOrd.reversed HashOrd.insertion
    (Alloc.colMajor Int) _ _ _ Ex.dst22 _ _ _ _ _ _ Ex.call_matmul Ex.ned_matmul Ex.wf_dst22 Ex.exclusive_dst22 rfl
  refine ⟨sc, p, d, h1, h2, h3, h4, ?_⟩
  rw [h5 3 fun idx hi => (by decide : ∀ idx ∈ allIdx [2, 2], address Ex.dst22 idx ≠ 3) idx (mem_allIdx.2 hi)]
  rfl

/-- Broadcast to an extra leading axis. -/
example : ∃ sc p dst' f, validateAndSize HashOrd.reversed "ij,jk->ik" [Ex.m23, Ex.m32] = .ok sc ∧
    PairContraction.new HashOrd.insertion sc = .ok p ∧
    p.contractAndAssign (Alloc.colMajor Int) Ex.m23 Ex.m32 Ex.dst222 = .ok dst' ∧ Assigned Ex.dst222 dst' f := by
  obtain ⟨sc, p, h1, h2, -, h3⟩ := C50_einsum HashOrd.reversed HashOrd.insertion (Alloc.colMajor Int) _ _ _
    Ex.dst222 _ _ _ _ _ _ Ex.call_matmul Ex.ned_matmul Ex.wf_dst222 Ex.exclusive_dst222
  obtain ⟨d, f, h4, h5, -⟩ := h3 ⟨by decide, .cons (.inl rfl) (.cons (.inl rfl) .nil)⟩
  exact ⟨sc, p, d, f, h1, h2, h4, h5⟩

/-- A destination of the wrong shape. -/
example : ∃ sc p, validateAndSize HashOrd.reversed "ij,jk->ik" [Ex.m23, Ex.m32] = .ok sc ∧
    PairContraction.new HashOrd.insertion sc = .ok p ∧
    p.contractAndAssign (Alloc.colMajor Int) Ex.m23 Ex.m32 Ex.m23 = panic .ndarray := by
  obtain ⟨sc, p, h1, h2, h3, -⟩ := C50_einsum HashOrd.reversed HashOrd.insertion (Alloc.colMajor Int) _ _ _
    Ex.m23 _ _ _ _ _ _ Ex.call_matmul Ex.ned_matmul Ex.e23.1 fun a b ha hb =>
      (by decide : ∀ a ∈ allIdx [2, 3], ∀ b ∈ allIdx [2, 3], address Ex.m23 a = address Ex.m23 b → a = b)
        a (mem_allIdx.2 ha) b (mem_allIdx.2 hb)
  refine ⟨sc, p, h1, h2, h3 fun hb => ?_⟩
  have := hb.2
  simp [Ex.m23, Ex.dims] at this

/-- `C50_any` for an elementwise product into a destination with gaps. -/
example : (PairOp.hadamardProduct).contractAndAssign (Alloc.rowMajor Int) Ex.dst22 Ex.dst22 Ex.dst22 =
    .ok ⟨[100, 11, 144, 13, 196, 15, 256, 17], 6, [2, 2], [-4, -2]⟩ := by with_unfolding_all rfl

theorem writeAll_inside {ps : List (Int × A)} {buf buf' : List A} (h : writeAll ps buf = .ok buf') :
    buf'.length = buf.length ∧ ∀ p ∈ ps, 0 ≤ p.1 ∧ p.1 < buf.length := by
  induction ps generalizing buf with
  | nil => cases h; simp
  | cons p ps ih =>
    obtain ⟨b, h1, h2⟩ := bind_eq_ok.1 h
    unfold writeAt at h1
    split_ifs at h1 with g
    cases h1
    obtain ⟨e1, e2⟩ := ih h2
    rw [List.length_set] at e1 e2
    refine ⟨e1, fun q hq => ?_⟩
    rcases List.mem_cons.1 hq with rfl | hq
    · omega
    · exact e2 q hq

/-- C50: whatever the operands, nothing is ever written outside the buffer of the destination: if the call returns, every
element of the destination lies in the buffer. -/
theorem C50_inside [Zero A] [Add A] [Mul A] [MulAdd A] (p : PairContraction) (al : Alloc A) (l r dst dst' : View A)
    (h : p.contractAndAssign al l r dst = .ok dst') :
    dst'.buf.length = dst.buf.length ∧
      ∀ idx, InB dst.shape idx → 0 ≤ address dst idx ∧ address dst idx < dst.buf.length := by
  unfold PairContraction.contractAndAssign at h
  obtain ⟨w, -, h⟩ := bind_eq_ok.1 h
  unfold View.assign at h
  split at h
  · cases h
  · rename_i src hs
    obtain ⟨data, h1, h⟩ := bind_eq_ok.1 h
    obtain ⟨buf, h2, h⟩ := bind_eq_ok.1 h
    cases h
    obtain ⟨e1, e2⟩ := writeAll_inside h2
    refine ⟨e1, fun idx hi => ?_⟩
    have hsh : src.shape = dst.shape := by
      unfold View.broadcast at hs
      obtain ⟨x, -, rfl⟩ := Option.map_eq_some_iff.1 hs
      rfl
    have hl : data.length = (allIdx dst.shape).length := by
      rw [← hsh]
      exact mapE_length h1
    obtain ⟨k, hk, rfl⟩ := List.mem_iff_getElem.1 (mem_allIdx.2 hi)
    exact e2 _ (List.mem_iff_getElem.2 ⟨k, by simp [hl, hk], by simp; rfl⟩)
/-- The hypothesis of `C50_inside`. -/
example : ∃ (p : PairContraction) (d : View Int),
    p.contractAndAssign (Alloc.colMajor Int) Ex.m23 Ex.m32 Ex.dst22 = .ok d ∧
    0 ≤ address Ex.dst22 [1, 1] ∧ address Ex.dst22 [1, 1] < Ex.dst22.buf.length := by
  obtain ⟨sc, p, d, -, -, h3, -⟩ := C50_same_shape HashOrd.reversed HashOrd.insertion
    (Alloc.colMajor Int) _ _ _ Ex.dst22 _ _ _ _ _ _ Ex.call_matmul Ex.ned_matmul Ex.wf_dst22 Ex.exclusive_dst22 rfl
  exact ⟨p, d, h3, (C50_inside p _ _ _ _ d h3).2 [1, 1] (by decide)⟩

end Einsum
