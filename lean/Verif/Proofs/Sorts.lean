import Verif.Proofs.Positive
import Verif.Proofs.Shrink

/-!
# Elements of operands and elements of results

A pair contractor multiplies only elements of its operands and adds only such products.  So a predicate `P` on the
elements of the operands and a predicate `Q` on the elements of the result may differ: nothing is said about the sum of
two elements with `P`, nor about the product of two elements with `Q`.  No law is assumed, and axes may be empty.
-/

namespace Einsum

open Spec

variable {A : Type}

/-- All elements satisfy `P`. -/
def All (P : A → Prop) (v : View A) : Prop := ∀ x ∈ v.buf, P x

variable {P Q : A → Prop}

theorem All.read {v : View A} (h : All P v) (idx : List Nat) : Post (v.read idx) P := by
  intro x hx
  unfold View.read at hx
  split at hx
  · unfold readAt at hx
    split at hx
    · cases hb : v.buf[(v.off + dotI v.strides idx).toNat]? with
      | none => rw [hb] at hx; cases hx
      | some y =>
        rw [hb] at hx
        cases hx
        exact h _ (List.mem_of_getElem? hb)
    · cases hx
  · cases hx

theorem All.toVec {v : View A} (h : All P v) :
    Post v.toVec fun data => data.length = v.shape.prod ∧ ∀ x ∈ data, P x := by
  refine (Post.mapE fun idx _ => h.read idx).mono fun bs hb => ⟨?_, hb.2⟩
  rw [hb.1, allIdx_length]

theorem All.make {al : Alloc A} (ht : al.Tight) {p shape : List Nat} {data : List A}
    (hl : data.length = shape.prod) (hd : ∀ x ∈ data, P x) : All P (al.make p shape data) :=
  fun x hx => hd x (ht p shape data hl x hx)

theorem All.fromShapeVec {shape : List Nat} {data : List A} (hd : ∀ x ∈ data, P x) :
    ∀ v, fromShapeVec shape data = some v → All P v := by
  intro v hv
  unfold Einsum.fromShapeVec at hv
  split at hv
  · cases hv; exact hd
  · cases hv

theorem All.fromShapeStrides {shape strides : List Nat} {data : List A}
    (hd : ∀ x ∈ data, P x) : ∀ v, fromShapeStrides shape strides data = some v → All P v := by
  intro v hv
  unfold Einsum.fromShapeStrides at hv
  dsimp only at hv
  split at hv
  · cases hv
  · split at hv
    · cases hv
    · split at hv
      · cases hv
      · split at hv
        · cases hv
        · cases hv; exact hd

theorem All.intoShape {v : View A} (h : All P v) {shape : List Nat} :
    ∀ w, v.intoShape shape = some w → All P w := by
  intro w hw
  unfold View.intoShape at hw
  split at hw
  · cases hw
  · split at hw
    · cases hw; exact h
    · split at hw
      · cases hw; exact h
      · cases hw

theorem All.permutedAxes {v : View A} (h : All P v) (axes : List Nat) : Post (v.permutedAxes axes) (All P) := by
  unfold View.permutedAxes
  split
  · exact .ok h
  · exact .panic

theorem All.toOwned {al : Alloc A} (ht : al.Tight) {v : View A} (h : All P v) : Post (v.toOwned al) (All P) :=
  .bind h.toVec fun _ hd => .ok (.make ht hd.1 hd.2)

theorem All.mapv {al : Alloc A} (ht : al.Tight) {v : View A} (h : All P v) {f : A → A} (hf : ∀ x, P x → Q (f x)) :
    Post (v.mapv al f) (All Q) :=
  .bind h.toVec fun data hd => .ok (.make ht (by simpa using hd.1) (by
    intro x hx
    obtain ⟨y, hy, rfl⟩ := List.mem_map.1 hx
    exact hf y (hd.2 y hy)))

theorem All.first {v : View A} (h : All P v) : Post v.first fun o => ∀ x, o = some x → P x := by
  unfold View.first
  split
  · exact .ok (by simp)
  · exact .bind (h.read _) fun x hx => .ok (by rintro y ⟨⟩; exact hx)

theorem All.insertAxis {v : View A} (h : All P v) (ax : Nat) : Post (v.insertAxis ax) (All P) := by
  unfold View.insertAxis
  split
  · exact .ok h
  · exact .panic

theorem All.broadcast {v : View A} (h : All P v) {shape : List Nat} :
    ∀ w, v.broadcast shape = some w → All P w ∧ w.shape = shape := by
  intro w hw
  unfold View.broadcast at hw
  obtain ⟨ss, -, rfl⟩ := Option.map_eq_some_iff.1 hw
  exact ⟨h, rfl⟩

theorem All.outerIter {v : View A} (h : All P v) : Post v.outerIter fun vs => ∀ w ∈ vs, All P w := by
  unfold View.outerIter
  split
  · refine .ok fun w hw => ?_
    obtain ⟨i, -, rfl⟩ := List.mem_map.1 hw
    exact h
  · exact .panic

theorem All.asSlice {v : View A} (h : All P v) : ∀ data, v.asSliceMemoryOrder = some data → ∀ x ∈ data, P x := by
  intro data hd
  unfold View.asSliceMemoryOrder at hd
  split at hd
  · split at hd
    · cases hd; simp
    · cases hd
      intro x hx
      exact h x (List.mem_of_mem_drop (List.mem_of_mem_take hx))
  · cases hd

theorem All.permute {p : Permutation} {v : View A} (h : All P v) : Post (p.view v) (All P) := h.permutedAxes _

theorem All.permutation {al : Alloc A} (ht : al.Tight) {p : Permutation} {v : View A} (h : All P v) :
    Post (p.run al v) (All P) :=
  .bind (h.permutedAxes _) fun _ hw => hw.toOwned ht

theorem All.asMatrix {v : View A} (h : All P v) (rows cols : Nat) : Post (asMatrix v rows cols) (All P) := by
  unfold Einsum.asMatrix
  refine .ite ?_ (.bind h.toVec fun data hd => ?_)
  · cases hw : v.intoShape [rows, cols] with
    | none => exact .panic
    | some w => exact .ok (h.intoShape w hw)
  · cases hw : Einsum.fromShapeVec [rows, cols] data with
    | none => exact .panic
    | some w => exact .ok (All.fromShapeVec hd.2 w hw)

theorem All.insertAxes (is : List Nat) {v : View A} (h : All P v) : Post (insertAxes is v) (All P) := by
  induction is generalizing v with
  | nil => exact .ok h
  | cons i is ih => exact .bind (h.insertAxis i) fun _ hw => ih hw

/-! ## Sums -/

/-- Zero and sums satisfy `P`. -/
structure SumClosed [Zero A] [Add A] (P : A → Prop) : Prop where
  zero : P 0
  add : ∀ x y, P x → P y → P (x + y)

/-- Products of elements with `P`, and sums of such products, satisfy `Q`. -/
structure Sorts [Zero A] [Add A] [Mul A] [MulAdd A] (P Q : A → Prop) : Prop extends SumClosed Q where
  mul : ∀ x y, P x → P y → Q (x * y)
  mulAdd : ∀ x y z, P x → P y → Q z → Q (mulAdd x y z)

variable [Zero A] [Add A] [Mul A] [MulAdd A] {al : Alloc A}

omit [Mul A] [MulAdd A] in
theorem SumClosed.sum (hc : SumClosed P) {xs : List A} (hx : ∀ x ∈ xs, P x) (t : SumTree) : P (t.sum xs) := by
  have hd : ∀ i, P (xs.getD i 0) := by
    intro i
    rw [List.getD_eq_getElem?_getD]
    cases hi : xs[i]? with
    | none => exact hc.zero
    | some x => exact hx x (List.mem_of_getElem? hi)
  induction t with
  | zero => exact hc.zero
  | leaf i => exact hd i
  | add l r ihl ihr => exact hc.add _ _ ihl ihr
  | fused i t iht => exact hc.add _ _ (hd i) iht

theorem Sorts.dot (hc : Sorts P Q) {ps : List (A × A)} (hx : ∀ p ∈ ps, P p.1 ∧ P p.2) (t : SumTree)
    (ht : ∀ i ∈ t.leaves, i < ps.length) : Q (t.dot ps) := by
  have hp : ∀ i, i < ps.length → P (ps.getD i (0, 0)).1 ∧ P (ps.getD i (0, 0)).2 := by
    intro i hi
    rw [List.getD_eq_getElem?_getD, List.getElem?_eq_getElem hi]
    exact hx _ (List.getElem_mem hi)
  induction t with
  | zero => exact hc.zero
  | leaf i =>
    have hi := hp i (ht i (by simp [SumTree.leaves]))
    exact hc.mul _ _ hi.1 hi.2
  | add l r ihl ihr =>
    simp only [SumTree.leaves, List.mem_append] at ht
    exact hc.add _ _ (ihl fun i hi => ht i (.inl hi)) (ihr fun i hi => ht i (.inr hi))
  | fused i t iht =>
    simp only [SumTree.leaves, List.mem_cons] at ht
    have hi := hp i (ht i (.inl rfl))
    exact hc.mulAdd _ _ _ hi.1 hi.2 (iht fun i hi => ht i (.inr hi))

theorem Sorts.dotOrder (hc : Sorts P Q) {ps : List (A × A)} (hx : ∀ p ∈ ps, P p.1 ∧ P p.2) {p : List Nat}
    {n : Nat} (hl : ps.length = n) : Q ((al.sumOrder p n).dot ps) :=
  hc.dot hx _ fun i hi => by
    have := (al.sumOrder_perm p n).mem_iff.1 hi
    rw [List.mem_range] at this
    omega

omit [Mul A] [MulAdd A] in
theorem All.sumAxis (hc : SumClosed P) (ht : al.Tight) {v : View A} (h : All P v) (ax : Nat) :
    Post (v.sumAxis al ax) (All P) := by
  unfold View.sumAxis
  split
  · exact .panic
  · refine .bind (Q := fun data => data.length = (v.shape.eraseIdx ax).prod ∧ ∀ x ∈ data, P x)
      ((Post.mapE fun idx _ => .bind (Post.mapE fun k _ => h.read _) fun xs hx => .ok (hc.sum hx.2 _)).mono
        fun bs hb => ⟨?_, hb.2⟩)
      fun data hd => .ok (.make ht hd.1 hd.2)
    rw [hb.1, allIdx_length]

theorem All.mul (hc : Sorts P Q) (ht : al.Tight) {l r : View A} (hl : All P l) (hr : All P r) :
    Post (l.mul al r) (All Q) := by
  unfold View.mul
  split
  · exact .panic
  · next l' r' hb =>
    obtain ⟨s, -, hl', hr'⟩ := broadcastWith_eq hb
    have hl' := (hl.broadcast l' hl').1
    have hr' := (hr.broadcast r' hr').1
    refine .bind (Q := fun data => data.length = l'.shape.prod ∧ ∀ x ∈ data, Q x)
      ((Post.mapE fun idx _ => .bind (hl'.read _) fun x hx => .bind (hr'.read _) fun y hy => .ok (hc.mul x y hx hy)).mono
        fun bs hb => ⟨by rw [hb.1, allIdx_length], hb.2⟩)
      fun data hd => .ok (.make ht hd.1 hd.2)

theorem All.dot (hc : Sorts P Q) {l r : View A} (hl : All P l) (hr : All P r) :
    Post (l.dot al r) (All Q) := by
  unfold View.dot
  split
  · next m k k' n hls hrs =>
    have he : ∀ i j : Nat, Post (do
        let ps ← Einsum.mapE (fun x => do
            let a ← l.read [i, x]
            let b ← r.read [x, j]
            return (a, b))
          (List.range k)
        return (al.sumOrder [i, j] k).dot ps) Q := fun i j =>
      .bind (Post.mapE (Q := fun p : A × A => P p.1 ∧ P p.2) fun x _ =>
          .bind (hl.read _) fun a ha => .bind (hr.read _) fun b hb => .ok ⟨ha, hb⟩)
        fun ps hp => .ok (hc.dotOrder hp.2 (by rw [hp.1, List.length_range]))
    refine .ite ?_ .panic
    dsimp only
    refine .ite ?_ ?_
    · exact .bind (Post.mapE fun ji _ => he _ _) fun data hd => .ok hd.2
    · exact .bind (Post.mapE fun ij _ => he _ _) fun data hd => .ok hd.2
  · exact .panic

/-! ## Singleton contractors -/

omit [Mul A] [MulAdd A] in
theorem All.sumAxes (hc : SumClosed P) (axs : List Nat) {al : Alloc A} (ht : al.Tight) {v : View A}
    (h : All P v) : Post (sumAxes al axs v) (All P) := by
  induction axs generalizing al v with
  | nil => exact .ok h
  | cons ax axs ih => exact .bind (h.sumAxis hc (ht.sub 0) ax) fun _ hw => ih (ht.sub 1) hw

omit [Mul A] [MulAdd A] in
theorem All.summation (hc : SumClosed P) (ht : al.Tight) {s : Summation} {v : View A} (h : All P v) :
    Post (s.run al v) (All P) :=
  .bind .trivial fun _ _ => .bind (h.sumAxis hc (ht.sub 0) _) fun _ hw => hw.sumAxes hc _ (ht.sub 1)

omit [Zero A] [Add A] [Mul A] [MulAdd A] in
theorem All.diagView {d : Diagonalization} {v : View A} (h : All P v) : Post (d.view v) (All P) := by
  refine .bind .trivial fun strides _ => .bind (.unwrapO h.asSlice) fun data hdata => ?_
  cases hv : Einsum.fromShapeStrides d.outputShape strides data with
  | none => exact .panic
  | some w => exact .ok (All.fromShapeStrides hdata w hv)

omit [Zero A] [Add A] [Mul A] [MulAdd A] in
theorem All.diagRun (ht : al.Tight) {d : Diagonalization} {v : View A}
    (h : All P v) : Post (d.run al v) (All P) := by
  refine .bind h.toVec fun data hdata => ?_
  cases hv : Einsum.fromShapeVec v.shape data with
  | none => exact .panic
  | some w => exact .bind ((All.fromShapeVec hdata.2 w hv).diagView) fun _ hw => hw.toOwned ht

omit [Mul A] [MulAdd A] in
theorem All.singleton (hc : SumClosed P) (ht : al.Tight) {op : SingletonOp} {v : View A}
    (h : All P v) : Post (op.run al v) (All P) := by
  cases op with
  | identity => exact h.toOwned ht
  | permutation p => exact h.permutation ht
  | summation s => exact h.summation hc ht
  | diagonalization d => exact h.diagRun ht
  | permutationAndSummation p => exact .bind h.permute fun _ hw => hw.summation hc ht
  | diagonalizationAndSummation d =>
    unfold SingletonOp.run DiagonalizationAndSummation.run
    dsimp only
    split
    · exact .bind h.diagView fun _ hw => hw.summation hc (ht.sub 1)
    · exact .bind (h.diagRun (ht.sub 0)) fun _ hw => hw.summation hc (ht.sub 1)

omit [Mul A] [MulAdd A] in
theorem All.simplify (hc : SumClosed P) (ht : al.Tight) {o : Option SimplificationMethodAndOutput} {v : View A}
    (h : All P v) : Post (simplifyOperand al o v) (All P) := by
  cases o with
  | none => exact .ok h
  | some s => exact h.singleton hc ht

/-! ## Pair contractors -/

theorem All.fixed (hc : Sorts P Q) {p : TensordotFixedPosition} {l r : View A} (hl : All P l)
    (hr : All P r) : Post (p.run al l r) (All Q) := by
  refine .bind (hl.asMatrix _ _) fun l' hl' => .bind (hr.asMatrix _ _) fun r' hr' => .bind (hl'.dot hc hr')
    fun w hw => ?_
  cases hv : w.intoShape p.outputShape with
  | none => exact .panic
  | some v => exact .ok (hw.intoShape v hv)

theorem All.general (hc : Sorts P Q) (ht : al.Tight) {p : TensordotGeneral} {l r : View A} (hl : All P l)
    (hr : All P r) : Post (p.run al l r) (All Q) :=
  .bind hl.permute fun _ hl' => .bind hr.permute fun _ hr' => .bind (hl'.fixed hc hr') fun _ hw =>
    hw.permutation (ht.sub 1)

theorem All.scalarMatrix (hc : Sorts P Q) (ht : al.Tight) {l r : View A} (hl : All P l) (hr : All P r) :
    Post (ScalarMatrixProduct.run al l r) (All Q) :=
  .bind hl.first fun _ hf => .bind (.unwrapO hf) fun y hy => hr.mapv ht fun x hx => hc.mul x y hx hy

theorem All.matrixScalar (hc : Sorts P Q) (ht : al.Tight) {l r : View A} (hl : All P l) (hr : All P r) :
    Post (MatrixScalarProduct.run al l r) (All Q) :=
  .bind hr.first fun _ hf => .bind (.unwrapO hf) fun y hy => hl.mapv ht fun x hx => hc.mul x y hx hy

theorem All.stackLoop (hc : Sorts P Q) (fixed : TensordotFixedPosition) {al : Alloc A} {sub : List Nat}
    (n i : Nat) {ls rs : List (View A)} (hls : ∀ v ∈ ls, All P v)
    (hrs : ∀ v ∈ rs, All P v) {buf : List A} (hb : ∀ x ∈ buf, Q x) :
    Post (stackLoop fixed al sub sub.prod i n ls rs buf) fun buf' => ∀ x ∈ buf', Q x := by
  induction n generalizing i ls rs buf with
  | zero => exact .ok hb
  | succ n ih =>
    refine .bind (.unwrapO fun l hl => hls l (List.mem_of_head? hl)) fun l hl =>
      .bind (.unwrapO fun r hr => hrs r (List.mem_of_head? hr)) fun r hr => .bind (hl.fixed hc hr) fun w hw => ?_
    cases hv : w.broadcast sub with
    | none => exact .panic
    | some w' =>
      obtain ⟨hw', hsh⟩ := hw.broadcast w' hv
      refine .bind hw'.toVec fun data hd => ?_
      refine ih (i + 1) (fun v hv => hls v (List.mem_of_mem_tail hv)) (fun v hv => hrs v (List.mem_of_mem_tail hv)) ?_
      intro x hx
      simp only [List.mem_append] at hx
      rcases hx with (hx | hx) | hx
      · exact hb x (List.mem_of_mem_take hx)
      · exact hd.2 x hx
      · exact hb x (List.mem_of_mem_drop hx)

theorem All.stacked (hc : Sorts P Q) (ht : al.Tight) {p : StackedTensordotGeneral} {l r : View A} (hl : All P l)
    (hr : All P r) : Post (p.run al l r) (All Q) := by
  refine .bind hl.permute fun lp hlp => .bind hlp.toVec fun ld hld => ?_
  cases hlre : Einsum.fromShapeVec p.lhsOutputShape ld with
  | none => exact .panic
  | some lre =>
    have hlre := All.fromShapeVec hld.2 lre hlre
    refine .bind hr.permute fun rp hrp => .bind hrp.toVec fun rd hrd => ?_
    cases hrre : Einsum.fromShapeVec p.rhsOutputShape rd with
    | none => exact .panic
    | some rre =>
      have hrre := All.fromShapeVec hrd.2 rre hrre
      refine .bind hlre.outerIter fun ls hls => .bind hrre.outerIter fun rs hrs => ?_
      cases hi : p.intermediateShape with
      | nil => exact .panic
      | cons n sub =>
        dsimp only
        refine .bind (All.stackLoop hc _ n 0 hls hrs (fun x hx => by
          rw [(List.mem_replicate.1 hx).2]; exact hc.zero)) fun buf hb => ?_
        have hinter : All Q (⟨buf, 0, n :: sub, defaultStrides (n :: sub)⟩ : View A) := hb
        cases hv : View.intoShape (⟨buf, 0, n :: sub, defaultStrides (n :: sub)⟩ : View A) p.outputShape with
        | none => exact .panic
        | some res => exact (hinter.intoShape res hv).permutation (ht.sub 1)

theorem All.pair (hc : Sorts P Q) (ht : al.Tight) {op : PairOp} {l r : View A} (hl : All P l)
    (hr : All P r) : Post (op.run al l r) (All Q) := by
  cases op with
  | hadamardProduct => exact hl.mul hc ht hr
  | hadamardProductGeneral p => exact .bind hl.permute fun _ hl' => .bind hr.permute fun _ hr' => hl'.mul hc ht hr'
  | tensordotFixedPosition p => exact hl.fixed hc hr
  | tensordotGeneral p => exact hl.general hc ht hr
  | scalarMatrixProduct => exact hl.scalarMatrix hc ht hr
  | scalarMatrixProductGeneral p => exact .bind hr.permute fun _ hr' => hl.scalarMatrix hc ht hr'
  | matrixScalarProduct => exact hl.matrixScalar hc ht hr
  | matrixScalarProductGeneral p => exact .bind hl.permute fun _ hl' => hl'.matrixScalar hc ht hr
  | broadcastProductGeneral p =>
    exact .bind hl.permute fun _ hl' => .bind hr.permute fun _ hr' => .bind (hl'.insertAxes _) fun _ hl'' =>
      .bind (hr'.insertAxes _) fun _ hr'' => .bind (.unwrapO fun w hw => (hl''.broadcast w hw).1) fun _ hl''' =>
      .bind (.unwrapO fun w hw => (hr''.broadcast w hw).1) fun _ hr''' => hl'''.mul hc ht hr'''
  | stackedTensordotGeneral p => exact hl.stacked hc ht hr

/-- A compiled pair contraction adds elements with `P` before it multiplies, and only elements with `Q` after. -/
theorem All.contraction (hp : SumClosed P) (hc : Sorts P Q) (ht : al.Tight) {p : PairContraction} {l r : View A}
    (hl : All P l) (hr : All P r) : Post (p.run al l r) (All Q) :=
  .bind (hl.simplify hp (ht.sub 0)) fun _ hl' => .bind (hr.simplify hp (ht.sub 1)) fun _ hr' =>
    hl'.pair hc (ht.sub 2) hr'

end Einsum
