import Verif.Proofs.Alike
import Verif.Props.Lawless
import Verif.Props.Safety
import Verif.Model.Assign

/-!
# Only the elements matter (C62), and relations between elements (C63)
-/

namespace Einsum

open Spec

variable {A B : Type}

section alike
variable [Zero A] [Add A] [Mul A] [MulAdd A]

/-- C62 for `einsum`: operands with the same shapes, strides and elements give the same outcome, wherever in memory
they are and whatever surrounds them; also if the call fails. -/
theorem C62_einsum (h : HashOrd) (al : Alloc A) (s : String) (operands operands' : List (View A))
    (ho : List.Forall₂ Alike operands operands') : einsum h al s operands = einsum h al s operands' :=
  einsum_alike ho h al s

/-- C62 for every path, compiled or put together by hand. -/
theorem C62_path (p : EinsumPath) (al : Alloc A) (operands operands' : List (View A))
    (ho : List.Forall₂ Alike operands operands') : p.contractOperands al operands = p.contractOperands al operands' :=
  contractOperands_alike ho p al

/-- C62 for sized contractions. -/
theorem C62_sized (h : HashOrd) (al : Alloc A) (sc : SizedContraction) (operands operands' : List (View A))
    (ho : List.Forall₂ Alike operands operands') :
    sc.contractOperands h al operands = sc.contractOperands h al operands' := by
  unfold SizedContraction.contractOperands
  simp only [contractOperands_alike ho]

/-- C62 for `tensordot`. -/
theorem C62_tensordot (al : Alloc A) (l l' r r' : View A) (la ra : List Nat) (hl : Alike l l') (hr : Alike r r') :
    tensordot al l r la ra = tensordot al l' r' la ra :=
  tensordot_alike hl hr al la ra

omit [Mul A] [MulAdd A] in
/-- C62 for the contractors of one array. -/
theorem C62_singleton (op : SingletonOp) (al : Alloc A) (v v' : View A) (hv : Alike v v') : op.run al v = op.run al v' :=
  hv.singletonRun op al

/-- C62 for the contractors of two arrays. -/
theorem C62_pair (op : PairOp) (al : Alloc A) (l l' r r' : View A) (hl : Alike l l') (hr : Alike r r') :
    op.run al l r = op.run al l' r' :=
  hl.pairRun hr op al

/-- C62 for the contractors of two arrays that write into an existing array. -/
theorem C62_assign (op : PairOp) (al : Alloc A) (l l' r r' out : View A) (hl : Alike l l') (hr : Alike r r') :
    op.contractAndAssign al l r out = op.contractAndAssign al l' r' out := by
  unfold PairOp.contractAndAssign
  rw [hl.pairRun hr]

end alike

namespace Ex

/-- `m23` in the middle of another buffer. -/
def m23' : View Int := ⟨[-7, 99, 1, 2, 3, 4, 5, 6, 1000], 2, [2, 3], [3, 1]⟩

theorem alike23 : Alike m23 m23' := by
  refine ⟨⟨e23.1, (elements_of rfl (by decide) : Elements m23' (elems m23')).1, rfl, fun idx hi => ?_⟩, rfl⟩
  have h : ∀ idx ∈ allIdx m23.shape, m23.read idx = m23'.read idx := by decide
  exact h idx (mem_allIdx.2 hi)

end Ex

example := C62_einsum HashOrd.reversed (Alloc.colMajor Int) "ij,jk->ik" [Ex.m23, Ex.m32] [Ex.m23', Ex.m32]
  (.cons Ex.alike23 (.cons (alike_self Ex.e32.1) .nil))

/-- Also for a call that fails. -/
example := C62_einsum HashOrd.reversed (Alloc.colMajor Int) "ij,jk->iq" [Ex.m23, Ex.m32] [Ex.m23', Ex.m32]
  (.cons Ex.alike23 (.cons (alike_self Ex.e32.1) .nil))

example (p : EinsumPath) := C62_path p (Alloc.colMajor Int) [Ex.m23, Ex.m32] [Ex.m23', Ex.m32]
  (.cons Ex.alike23 (.cons (alike_self Ex.e32.1) .nil))

example (sc : SizedContraction) := C62_sized HashOrd.reversed (Alloc.colMajor Int) sc [Ex.m23, Ex.m32] [Ex.m23', Ex.m32]
  (.cons Ex.alike23 (.cons (alike_self Ex.e32.1) .nil))

example := C62_tensordot (Alloc.rowMajor Int) Ex.m23 Ex.m23' Ex.m32 Ex.m32 [0] [1] Ex.alike23 (alike_self Ex.e32.1)

example (op : PairOp) (out : View Int) := C62_assign op (Alloc.rowMajor Int) Ex.m23 Ex.m23' Ex.m32 Ex.m32 out Ex.alike23
  (alike_self Ex.e32.1)

example (op : SingletonOp) := C62_singleton op (Alloc.rowMajor Int) Ex.m23 Ex.m23' Ex.alike23

example (op : PairOp) := C62_pair op (Alloc.rowMajor Int) Ex.m23 Ex.m23' Ex.m23' Ex.m23 Ex.alike23
  ⟨⟨Ex.alike23.same.2.1, Ex.alike23.same.1, rfl, fun i _ => (Ex.alike23.read i).symm⟩, rfl⟩

/-! ## Pairs of related elements as an element type -/

/-- A pair of related elements. -/
structure Pairs (R : A → B → Prop) where
  fst : A
  snd : B
  rel : R fst snd

/-- The two projections of an array of pairs are related. -/
theorem related_map {R : A → B → Prop} {u : View (Pairs R)} (hu : u.Wf) : Related R (u.map Pairs.fst) (u.map Pairs.snd) := by
  refine ⟨rfl, rfl, ⟨(view_wf_map _).2 hu, (view_wf_map _).2 hu⟩, fun idx x y hx hy => ?_⟩
  rw [View.read_map] at hx hy
  cases hr : u.read idx with
  | error e => rw [hr] at hx; cases hx
  | ok p =>
    rw [hr] at hx hy
    cases hx
    cases hy
    exact p.rel

theorem sameOutcome_map {R : A → B → Prop} {m : M (View (Pairs R))} (hm : (∃ k, m = panic k) ∨ ∃ w, m = .ok w ∧ w.Wf) :
    SameOutcome (Related R) (m.map (View.map Pairs.fst)) (m.map (View.map Pairs.snd)) := by
  rcases hm with ⟨k, rfl⟩ | ⟨w, rfl, hw⟩
  · rfl
  · exact related_map hw

theorem readAt_some {buf : List A} {a : Int} {x : A} (h : readAt buf a = .ok x) : 0 ≤ a ∧ buf[a.toNat]? = some x := by
  unfold readAt at h
  split at h
  · next h0 =>
    refine ⟨h0, ?_⟩
    split at h
    · next y hy => cases h; exact hy
    · cases h
  · cases h

section pairs
variable [Zero A] [Add A] [Mul A] [MulAdd A] [Zero B] [Add B] [Mul B] [MulAdd B] {R : A → B → Prop}

abbrev Spec.Preserved.zeroI (hR : Preserved R) : Zero (Pairs R) := ⟨⟨0, 0, hR.zero⟩⟩
abbrev Spec.Preserved.addI (hR : Preserved R) : Add (Pairs R) := ⟨fun p q => ⟨p.1 + q.1, p.2 + q.2, hR.add _ _ _ _ p.3 q.3⟩⟩
abbrev Spec.Preserved.mulI (hR : Preserved R) : Mul (Pairs R) := ⟨fun p q => ⟨p.1 * q.1, p.2 * q.2, hR.mul _ _ _ _ p.3 q.3⟩⟩
abbrev Spec.Preserved.mulAddI (hR : Preserved R) : MulAdd (Pairs R) :=
  ⟨fun p q r => ⟨Einsum.mulAdd p.1 q.1 r.1, Einsum.mulAdd p.2 q.2 r.2, hR.mulAdd _ _ _ _ _ _ p.3 q.3 r.3⟩⟩

open Classical in
/-- The pair at hand, or two zeros. -/
noncomputable def pickPair (hR : Preserved R) (a : A) (b : B) : Pairs R := if h : R a b then ⟨a, b, h⟩ else ⟨0, 0, hR.zero⟩

/-- An array of pairs with the elements of two related arrays. -/
noncomputable def zipViews (hR : Preserved R) (v : View A) (w : View B) : View (Pairs R) where
  buf := (List.range v.buf.length).map fun k =>
    pickPair hR (v.buf.getD k 0) (w.buf.getD ((k : Int) + w.off - v.off).toNat 0)
  off := v.off
  shape := v.shape
  strides := v.strides

theorem zipViews_read (hR : Preserved R) {v : View A} {w : View B} (hr : Related R v w) {idx : List Nat}
    (hi : InB v.shape idx) : ∃ p : Pairs R, (zipViews hR v w).read idx = .ok p ∧ v.read idx = .ok p.1 ∧ w.read idx = .ok p.2 := by
  obtain ⟨x, hx⟩ := hr.wf.1.2 idx hi
  obtain ⟨y, hy⟩ := hr.wf.2.2 idx (hr.shape ▸ hi)
  have hxy := hr.elements idx x y hx hy
  refine ⟨⟨x, y, hxy⟩, ?_, hx, hy⟩
  rw [View.read, if_pos hi] at hx
  rw [View.read, if_pos (hr.shape ▸ hi)] at hy
  obtain ⟨x1, x2⟩ := readAt_some hx
  obtain ⟨y1, y2⟩ := readAt_some hy
  rw [View.read, if_pos (show InB (zipViews hR v w).shape idx from hi)]
  show readAt _ (v.off + dotI v.strides idx) = _
  rw [← hr.strides] at y1 y2
  unfold readAt
  rw [if_pos x1]
  have hlt : (v.off + dotI v.strides idx).toNat < v.buf.length := by
    by_contra hh
    rw [List.getElem?_eq_none (by omega)] at x2
    cases x2
  have e : (((v.off + dotI v.strides idx).toNat : Int) + w.off - v.off).toNat = (w.off + dotI v.strides idx).toNat := by
    omega
  simp only [zipViews, List.getElem?_map, List.getElem?_range hlt, Option.map_some, e, List.getD_eq_getElem?_getD, x2, y2,
    Option.getD_some, pickPair]
  rw [dif_pos]
  simp only [e, List.getD_eq_getElem?_getD, x2, y2, Option.getD_some, hxy]

theorem zipViews_wf (hR : Preserved R) {v : View A} {w : View B} (hr : Related R v w) : (zipViews hR v w).Wf :=
  ⟨hr.wf.1.1, fun _ hi => (zipViews_read hR hr hi).imp fun _ h => h.1⟩

theorem zipViews_fst (hR : Preserved R) {v : View A} {w : View B} (hr : Related R v w) :
    Alike v ((zipViews hR v w).map Pairs.fst) := by
  refine ⟨⟨hr.wf.1, (view_wf_map _).2 (zipViews_wf hR hr), rfl, fun idx hi => ?_⟩, rfl⟩
  obtain ⟨p, p1, p2, p3⟩ := zipViews_read hR hr hi
  rw [View.read_map, p1, p2]
  rfl

theorem zipViews_snd (hR : Preserved R) {v : View A} {w : View B} (hr : Related R v w) :
    Alike w ((zipViews hR v w).map Pairs.snd) := by
  refine ⟨⟨hr.wf.2, (view_wf_map _).2 (zipViews_wf hR hr), hr.shape.symm, fun idx hi => ?_⟩, hr.strides.symm⟩
  obtain ⟨p, p1, p2, p3⟩ := zipViews_read hR hr (hr.shape ▸ hi)
  rw [View.read_map, p1, p3]
  rfl

theorem zip_operands (hR : Preserved R) {ops : List (View A)} {ops' : List (View B)}
    (h : List.Forall₂ (Related R) ops ops') : ∃ us : List (View (Pairs R)), (∀ u ∈ us, u.Wf) ∧
      List.Forall₂ Alike ops (us.map (View.map Pairs.fst)) ∧ List.Forall₂ Alike ops' (us.map (View.map Pairs.snd)) := by
  induction h with
  | nil => exact ⟨[], by simp, .nil, .nil⟩
  | cons h _ ih =>
    obtain ⟨us, h1, h2, h3⟩ := ih
    exact ⟨zipViews hR _ _ :: us, by simpa using ⟨zipViews_wf hR h, h1⟩, .cons (zipViews_fst hR h) h2,
      .cons (zipViews_snd hR h) h3⟩

/-- C63 for `einsum`: operands with related elements give the same error or panic, or arrays with related elements. -/
theorem C63_einsum (hR : Preserved R) (h : HashOrd) (al : UniformAlloc) (s : String) (operands : List (View A))
    (operands' : List (View B)) (ho : List.Forall₂ (Related R) operands operands') :
    SameOutcome (SameOutcome (Related R)) (einsum h (al.alloc A) s operands) (einsum h (al.alloc B) s operands') := by
  let _ := hR.zeroI
  let _ := hR.addI
  let _ := hR.mulI
  let _ := hR.mulAddI
  obtain ⟨us, h1, h2, h3⟩ := zip_operands hR ho
  have f1 : OpHom (Pairs.fst : Pairs R → A) := ⟨rfl, fun _ _ => rfl, fun _ _ => rfl, fun _ _ _ => rfl⟩
  have f2 : OpHom (Pairs.snd : Pairs R → B) := ⟨rfl, fun _ _ => rfl, fun _ _ => rfl, fun _ _ _ => rfl⟩
  rw [einsum_alike h2, einsum_alike h3, einsum_map f1 (al.compat _), einsum_map f2 (al.compat _)]
  have hs := C41_einsum h (al.alloc (Pairs R)) s us h1
  cases hm : einsum h (al.alloc (Pairs R)) s us with
  | error e => rfl
  | ok x =>
    cases x with
    | error e => rfl
    | ok r =>
      refine related_map ?_
      rw [hm] at hs
      rcases hs with ⟨k, hk⟩ | ⟨e, he⟩ | ⟨r', hr, hw⟩
      · cases hk
      · cases he
      · cases hr; exact hw

/-- C63 for every path, compiled or put together by hand. -/
theorem C63_path (hR : Preserved R) (p : EinsumPath) (al : UniformAlloc) (operands : List (View A))
    (operands' : List (View B)) (ho : List.Forall₂ (Related R) operands operands') :
    SameOutcome (Related R) (p.contractOperands (al.alloc A) operands) (p.contractOperands (al.alloc B) operands') := by
  let _ := hR.zeroI
  let _ := hR.addI
  let _ := hR.mulI
  let _ := hR.mulAddI
  obtain ⟨us, h1, h2, h3⟩ := zip_operands hR ho
  have f1 : OpHom (Pairs.fst : Pairs R → A) := ⟨rfl, fun _ _ => rfl, fun _ _ => rfl, fun _ _ _ => rfl⟩
  have f2 : OpHom (Pairs.snd : Pairs R → B) := ⟨rfl, fun _ _ => rfl, fun _ _ => rfl, fun _ _ _ => rfl⟩
  rw [contractOperands_alike h2, contractOperands_alike h3, p.contractOperands_map f1 (al.compat _),
    p.contractOperands_map f2 (al.compat _)]
  exact sameOutcome_map (p.contractOperands_safe h1 _)

/-- C63 for `tensordot`. -/
theorem C63_tensordot (hR : Preserved R) (al : UniformAlloc) (l r : View A) (l' r' : View B) (la ra : List Nat)
    (hl : Related R l l') (hr : Related R r r') :
    SameOutcome (Related R) (tensordot (al.alloc A) l r la ra) (tensordot (al.alloc B) l' r' la ra) := by
  let _ := hR.zeroI
  let _ := hR.addI
  let _ := hR.mulI
  let _ := hR.mulAddI
  have f1 : OpHom (Pairs.fst : Pairs R → A) := ⟨rfl, fun _ _ => rfl, fun _ _ => rfl, fun _ _ _ => rfl⟩
  have f2 : OpHom (Pairs.snd : Pairs R → B) := ⟨rfl, fun _ _ => rfl, fun _ _ => rfl, fun _ _ _ => rfl⟩
  rw [tensordot_alike (zipViews_fst hR hl) (zipViews_fst hR hr), tensordot_alike (zipViews_snd hR hl) (zipViews_snd hR hr),
    tensordot_map f1 (al.compat _), tensordot_map f2 (al.compat _)]
  exact sameOutcome_map (C41_tensordot _ _ _ _ _ (zipViews_wf hR hl) (zipViews_wf hR hr))

end pairs

/-! ## Closed sets, monotonicity, enclosures -/

section closed
variable [Zero A] [Add A] [Mul A] [MulAdd A]

theorem closed_preserved {P : A → Prop} (h0 : P 0) (ha : ∀ x y, P x → P y → P (x + y)) (hm : ∀ x y, P x → P y → P (x * y))
    (hf : ∀ x y z, P x → P y → P z → P (mulAdd x y z)) : Preserved fun (x : A) (_ : PUnit.{1}) => P x :=
  ⟨h0, fun _ _ _ _ h1 h2 => ha _ _ h1 h2, fun _ _ _ _ h1 h2 => hm _ _ h1 h2, fun _ _ _ _ _ _ h1 h2 h3 => hf _ _ _ h1 h2 h3⟩

omit [Zero A] [Add A] [Mul A] [MulAdd A] in
theorem related_unit {P : A → Prop} {v : View A} (hv : v.Wf) (hp : ∀ idx x, v.read idx = .ok x → P x) :
    Related (fun (x : A) (_ : PUnit.{1}) => P x) v (v.map fun _ => PUnit.unit) :=
  ⟨rfl, rfl, ⟨hv, (view_wf_map _).2 hv⟩, fun idx x _ hx _ => hp idx x hx⟩

omit [Zero A] [Add A] [Mul A] [MulAdd A] in
theorem related_units {P : A → Prop} {ops : List (View A)} (hw : ∀ v ∈ ops, v.Wf)
    (hp : ∀ v ∈ ops, ∀ idx x, v.read idx = .ok x → P x) :
    List.Forall₂ (Related fun (x : A) (_ : PUnit.{1}) => P x) ops (ops.map (View.map fun _ => PUnit.unit)) := by
  rw [List.forall₂_map_right_iff, List.forall₂_same]
  exact fun v hv => related_unit (hw v hv) (hp v hv)

omit [Zero A] [Add A] [Mul A] [MulAdd A] in
theorem sameOutcome_unit {P : A → Prop} {m : M (View A)} {m' : M (View PUnit.{1})}
    (h : SameOutcome (Related fun (x : A) (_ : PUnit.{1}) => P x) m m') {r : View A} (hr : m = .ok r) {idx : List Nat} {x : A}
    (hx : r.read idx = .ok x) : P x := by
  subst hr
  cases m' with
  | error e => exact h.elim
  | ok w =>
    have h : Related _ r w := h
    have hi : InB r.shape idx := by
      by_contra hi
      rw [View.read, if_neg hi] at hx
      cases hx
    obtain ⟨y, hy⟩ := h.wf.2.2 idx (h.shape ▸ hi)
    exact h.elements idx x y hx hy

/-- C63: a set that contains 0 and is closed under the operations is not left, by `einsum`, … -/
theorem C63_closed {P : A → Prop} (h0 : P 0) (ha : ∀ x y, P x → P y → P (x + y)) (hm : ∀ x y, P x → P y → P (x * y))
    (hf : ∀ x y z, P x → P y → P z → P (mulAdd x y z)) (h : HashOrd) (al : UniformAlloc) (s : String)
    (operands : List (View A)) (hw : ∀ v ∈ operands, v.Wf)
    (hp : ∀ v ∈ operands, ∀ idx x, v.read idx = .ok x → P x) (r : View A)
    (hr : einsum h (al.alloc A) s operands = .ok (.ok r)) (idx : List Nat) (x : A) (hx : r.read idx = .ok x) : P x := by
  have key := C63_einsum (closed_preserved h0 ha hm hf) h al s operands _ (related_units hw hp)
  rw [hr] at key
  cases hm' : einsum h (al.alloc PUnit) s (operands.map (View.map fun _ => PUnit.unit)) with
  | error e => rw [hm'] at key; exact key.elim
  | ok y =>
    rw [hm'] at key
    cases y with
    | error e => exact key.elim
    | ok w => exact sameOutcome_unit (m := .ok r) (m' := .ok w) key rfl hx

/-- … by paths, … -/
theorem C63_closed_path {P : A → Prop} (h0 : P 0) (ha : ∀ x y, P x → P y → P (x + y))
    (hm : ∀ x y, P x → P y → P (x * y)) (hf : ∀ x y z, P x → P y → P z → P (mulAdd x y z)) (p : EinsumPath)
    (al : UniformAlloc) (operands : List (View A)) (hw : ∀ v ∈ operands, v.Wf)
    (hp : ∀ v ∈ operands, ∀ idx x, v.read idx = .ok x → P x) (r : View A)
    (hr : p.contractOperands (al.alloc A) operands = .ok r) (idx : List Nat) (x : A) (hx : r.read idx = .ok x) : P x :=
  sameOutcome_unit (C63_path (closed_preserved h0 ha hm hf) p al operands _ (related_units hw hp)) hr hx

/-- … and by `tensordot`. -/
theorem C63_closed_tensordot {P : A → Prop} (h0 : P 0) (ha : ∀ x y, P x → P y → P (x + y))
    (hm : ∀ x y, P x → P y → P (x * y)) (hf : ∀ x y z, P x → P y → P z → P (mulAdd x y z)) (al : UniformAlloc)
    (l r : View A) (la ra : List Nat) (hl : l.Wf) (hr : r.Wf) (hpl : ∀ idx x, l.read idx = .ok x → P x)
    (hpr : ∀ idx x, r.read idx = .ok x → P x) (w : View A) (hw : tensordot (al.alloc A) l r la ra = .ok w)
    (idx : List Nat) (x : A) (hx : w.read idx = .ok x) : P x :=
  sameOutcome_unit (C63_tensordot (closed_preserved h0 ha hm hf) al l r _ _ la ra (related_unit hl hpl)
    (related_unit hr hpr)) hw hx

end closed

/-- Elements of `m23` are positive. -/
theorem Ex.pos23 : ∀ idx x, Ex.m23.read idx = .ok x → 0 ≤ x := by
  intro idx x hx
  by_cases hi : InB Ex.m23.shape idx
  · have h : ∀ idx ∈ allIdx Ex.m23.shape, ∀ x ∈ Ex.m23.buf, Ex.m23.read idx = .ok x → 0 ≤ x := by decide
    refine h idx (mem_allIdx.2 hi) x ?_ hx
    rw [View.read, if_pos hi] at hx
    exact List.mem_of_getElem? (readAt_some hx).2
  · rw [View.read, if_neg hi] at hx
    cases hx

example := C63_closed (A := Int) (P := fun x => 0 ≤ x) le_rfl (fun _ _ => add_nonneg) (fun _ _ => mul_nonneg)
  (fun _ _ _ h1 h2 h3 => add_nonneg (mul_nonneg h1 h2) h3) HashOrd.reversed UniformAlloc.colMajor "ij,ij->j"
  [Ex.m23, Ex.m23] (by simp [Ex.e23.1]) (by simpa using Ex.pos23)

example (p : EinsumPath) := C63_closed_path (A := Int) (P := fun x => 0 ≤ x) le_rfl (fun _ _ => add_nonneg)
  (fun _ _ => mul_nonneg) (fun _ _ _ h1 h2 h3 => add_nonneg (mul_nonneg h1 h2) h3) p UniformAlloc.colMajor
  [Ex.m23, Ex.m23] (by simp [Ex.e23.1]) (by simpa using Ex.pos23)

example := C63_closed_tensordot (A := Int) (P := fun x => 0 ≤ x) le_rfl (fun _ _ => add_nonneg) (fun _ _ => mul_nonneg)
  (fun _ _ _ h1 h2 h3 => add_nonneg (mul_nonneg h1 h2) h3) UniformAlloc.colMajor Ex.m23 Ex.m23 [0] [0] Ex.e23.1 Ex.e23.1
  Ex.pos23 Ex.pos23

theorem preserved_le [Semiring A] [PartialOrder A] [IsOrderedRing A] : Preserved fun x y : A => 0 ≤ x ∧ x ≤ y where
  zero := ⟨le_rfl, le_rfl⟩
  add _ _ _ _ h1 h2 := ⟨add_nonneg h1.1 h2.1, add_le_add h1.2 h2.2⟩
  mul _ _ _ _ h1 h2 := ⟨mul_nonneg h1.1 h2.1, mul_le_mul h1.2 h2.2 h2.1 (h1.1.trans h1.2)⟩
  mulAdd _ _ _ _ _ _ h1 h2 h3 := ⟨add_nonneg (mul_nonneg h1.1 h2.1) h3.1,
    add_le_add (mul_le_mul h1.2 h2.2 h2.1 (h1.1.trans h1.2)) h3.2⟩

/-- C63: over an ordered semiring, `einsum` of nonnegative arrays is monotone: larger elements give larger elements. -/
theorem C63_monotone [Semiring A] [PartialOrder A] [IsOrderedRing A] (h : HashOrd) (al : UniformAlloc) (s : String)
    (operands operands' : List (View A)) (ho : List.Forall₂ (Related fun x y => 0 ≤ x ∧ x ≤ y) operands operands')
    (r r' : View A) (hr : einsum h (al.alloc A) s operands = .ok (.ok r))
    (hr' : einsum h (al.alloc A) s operands' = .ok (.ok r')) (idx : List Nat) (x y : A) (hx : r.read idx = .ok x)
    (hy : r'.read idx = .ok y) : x ≤ y := by
  have key := C63_einsum preserved_le h al s operands operands' ho
  rw [hr, hr'] at key
  exact (Related.elements key idx x y hx hy).2

/-- `m23` with larger elements. -/
def Ex.big23 : View Int := ⟨[0, 1, 9, 3, 8, 5, 7], 1, [2, 3], [3, 1]⟩

theorem Ex.le23 : Related (fun x y => 0 ≤ x ∧ x ≤ y) Ex.m23 Ex.big23 := by
  refine ⟨rfl, rfl, ⟨Ex.e23.1, (elements_of rfl (by decide) : Elements Ex.big23 (Ex.elems Ex.big23)).1⟩, fun idx x y hx hy => ?_⟩
  by_cases hi : InB Ex.m23.shape idx
  · have h : ∀ idx ∈ allIdx Ex.m23.shape, ∀ x ∈ Ex.m23.buf, ∀ y ∈ Ex.big23.buf, Ex.m23.read idx = .ok x →
        Ex.big23.read idx = .ok y → 0 ≤ x ∧ x ≤ y := by decide
    refine h idx (mem_allIdx.2 hi) x ?_ y ?_ hx hy
    · rw [View.read, if_pos hi] at hx
      exact List.mem_of_getElem? (readAt_some hx).2
    · rw [View.read, if_pos (show InB Ex.big23.shape idx from hi)] at hy
      exact List.mem_of_getElem? (readAt_some hy).2
  · rw [View.read, if_neg hi] at hx
    cases hx

example := C63_monotone HashOrd.reversed UniformAlloc.colMajor "ij,ij->j" [Ex.m23, Ex.m23] [Ex.big23, Ex.big23]
  (.cons Ex.le23 (.cons Ex.le23 .nil))

example := C63_einsum (R := fun x y : Int => 0 ≤ x ∧ x ≤ y) preserved_le HashOrd.reversed UniformAlloc.fused "ij,ik"
  [Ex.m23, Ex.m23] [Ex.big23, Ex.big23] (.cons Ex.le23 (.cons Ex.le23 .nil))

example (p : EinsumPath) := C63_path (R := fun x y : Int => 0 ≤ x ∧ x ≤ y) preserved_le p UniformAlloc.fused
  [Ex.m23, Ex.m23] [Ex.big23, Ex.big23] (.cons Ex.le23 (.cons Ex.le23 .nil))

example := C63_tensordot (R := fun x y : Int => 0 ≤ x ∧ x ≤ y) preserved_le UniformAlloc.fused
  Ex.m23 Ex.m23 Ex.big23 Ex.big23 [0, 1] [0, 1] Ex.le23 Ex.le23

/-! Interval arithmetic encloses. -/

/-- An interval, by its ends. -/
structure Interval (K : Type) where
  lo : K
  hi : K

section interval
variable {K : Type} [CommRing K] [LinearOrder K] [IsStrictOrderedRing K]

instance : Zero (Interval K) := ⟨⟨0, 0⟩⟩
instance : Add (Interval K) := ⟨fun a b => ⟨a.lo + b.lo, a.hi + b.hi⟩⟩
instance : Mul (Interval K) := ⟨fun a b =>
  ⟨min (min (a.lo * b.lo) (a.lo * b.hi)) (min (a.hi * b.lo) (a.hi * b.hi)),
    max (max (a.lo * b.lo) (a.lo * b.hi)) (max (a.hi * b.lo) (a.hi * b.hi))⟩⟩

/-- The number lies in the interval. -/
def Interval.Has (x : K) (i : Interval K) : Prop := i.lo ≤ x ∧ x ≤ i.hi

theorem mul_between {a b x y : K} (h1 : a ≤ x) (h2 : x ≤ b) : min (a * y) (b * y) ≤ x * y ∧ x * y ≤ max (a * y) (b * y) := by
  rcases le_total 0 y with h | h
  · exact ⟨min_le_iff.2 (.inl (mul_le_mul_of_nonneg_right h1 h)), le_max_iff.2 (.inr (mul_le_mul_of_nonneg_right h2 h))⟩
  · exact ⟨min_le_iff.2 (.inr (mul_le_mul_of_nonpos_right h2 h)), le_max_iff.2 (.inl (mul_le_mul_of_nonpos_right h1 h))⟩

theorem Interval.Has.mul {x y : K} {i j : Interval K} (hx : Interval.Has x i) (hy : Interval.Has y j) :
    Interval.Has (x * y) (i * j) := by
  have h0 := mul_between (y := y) hx.1 hx.2
  have h1 := mul_between (y := i.lo) hy.1 hy.2
  have h2 := mul_between (y := i.hi) hy.1 hy.2
  rw [mul_comm y, mul_comm j.lo, mul_comm j.hi] at h1 h2
  exact ⟨(le_min (min_le_left _ _ |>.trans h1.1) (min_le_right _ _ |>.trans h2.1)).trans h0.1,
    h0.2.trans (max_le (h1.2.trans (le_max_left _ _)) (h2.2.trans (le_max_right _ _)))⟩

theorem Interval.Has.add {x y : K} {i j : Interval K} (hx : Interval.Has x i) (hy : Interval.Has y j) :
    Interval.Has (x + y) (i + j) := ⟨add_le_add hx.1 hy.1, add_le_add hx.2 hy.2⟩

theorem preserved_has : Preserved (Interval.Has (K := K)) where
  zero := ⟨le_rfl, le_rfl⟩
  add _ _ _ _ h1 h2 := h1.add h2
  mul _ _ _ _ h1 h2 := h1.mul h2
  mulAdd _ _ _ _ _ _ h1 h2 h3 := (h1.mul h2).add h3

/-- C63: `einsum` over intervals encloses `einsum` over numbers: if each element lies in the corresponding interval, each
element of the result lies in the corresponding interval of the result. -/
theorem C63_enclosure (h : HashOrd) (al : UniformAlloc) (s : String) (operands : List (View K))
    (boxes : List (View (Interval K))) (ho : List.Forall₂ (Related Interval.Has) operands boxes) :
    SameOutcome (SameOutcome (Related Interval.Has)) (einsum h (al.alloc K) s operands)
      (einsum h (al.alloc (Interval K)) s boxes) :=
  C63_einsum preserved_has h al s operands boxes ho

end interval

/-- The elements of `m23`, each known up to 1. -/
def Ex.box23 : View (Interval Int) := Ex.m23.map fun x => ⟨x - 1, x + 1⟩

theorem Ex.in23 : Related Interval.Has Ex.m23 Ex.box23 := by
  refine ⟨rfl, rfl, ⟨Ex.e23.1, (view_wf_map _).2 Ex.e23.1⟩, fun idx x y hx hy => ?_⟩
  rw [Ex.box23, View.read_map, hx] at hy
  cases hy
  exact ⟨show x - 1 ≤ x by omega, show x ≤ x + 1 by omega⟩

example := C63_enclosure HashOrd.reversed UniformAlloc.colMajor "ij,kj->ik" [Ex.m23, Ex.m23] [Ex.box23, Ex.box23]
  (.cons Ex.in23 (.cons Ex.in23 .nil))

end Einsum
