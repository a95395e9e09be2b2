import Verif.Model.Assign
import Verif.Proofs.Views
import Verif.SpecExpr

/-!
# Element maps commute with everything the model does at run time

No algebraic law is used: `f` only has to respect `0`, `+`, `*` and fused multiply-add.
-/

namespace Einsum

open Spec

variable {A B : Type}

@[simp] theorem View.map_shape (f : A → B) (v : View A) : (v.map f).shape = v.shape := rfl
@[simp] theorem View.map_strides (f : A → B) (v : View A) : (v.map f).strides = v.strides := rfl
@[simp] theorem View.map_buf (f : A → B) (v : View A) : (v.map f).buf = v.buf.map f := rfl
@[simp] theorem View.map_off (f : A → B) (v : View A) : (v.map f).off = v.off := rfl

/-- The two allocators choose the same layouts and summation orders. -/
structure Compat (f : A → B) (al : Alloc A) (al' : Alloc B) : Prop where
  make : ∀ p shape data, al'.make p shape (data.map f) = (al.make p shape data).map f
  sumOrder : ∀ p n, al'.sumOrder p n = al.sumOrder p n

theorem Compat.sub {f : A → B} {al : Alloc A} {al' : Alloc B} (h : Compat f al al') (k : Nat) :
    Compat f (al.sub k) (al'.sub k) :=
  ⟨fun p => h.make (k :: p), fun p => h.sumOrder (k :: p)⟩

theorem bind_nat {α α' β β' : Type} {m : M α} {m' : M α'} {g : α → α'} {k : α → M β} {k' : α' → M β'} {h : β → β'}
    (hm : m' = m.map g) (hk : ∀ a, k' (g a) = (k a).map h) : m' >>= k' = (m >>= k).map h := by
  subst hm
  cases m with
  | error e => rfl
  | ok a => exact hk a

theorem bind_nat_id {α β β' : Type} {m : M α} {k : α → M β} {k' : α → M β'} {h : β → β'}
    (hk : ∀ a, k' a = (k a).map h) : m >>= k' = (m >>= k).map h := by
  cases m with
  | error e => rfl
  | ok a => exact hk a

@[simp] theorem map_ok {α β : Type} (g : α → β) (a : α) : Except.map (ε := Fault) g (.ok a) = .ok (g a) := rfl
@[simp] theorem map_panic {α β : Type} (g : α → β) (k : PanicKind) : Except.map g (panic k : M α) = panic k := rfl

theorem ite_nat {α β : Type} (g : α → β) {c c' : Prop} [Decidable c] [Decidable c'] (hc : c' ↔ c) {a b : α} {a' b' : β}
    (ha : a' = g a) (hb : b' = g b) : (if c' then a' else b') = g (if c then a else b) := by
  by_cases h : c
  · rw [if_pos h, if_pos (hc.2 h), ha]
  · rw [if_neg h, if_neg (fun x => h (hc.1 x)), hb]

theorem mapE_nat {α β β' : Type} {g : α → M β} {g' : α → M β'} {h : β → β'} (l : List α)
    (hg : ∀ a, g' a = (g a).map h) : mapE g' l = (mapE g l).map (List.map h) := by
  induction l with
  | nil => rfl
  | cons a l ih => exact bind_nat (hg a) fun b => bind_nat ih fun bs => rfl

theorem unwrapO_nat {α β : Type} (g : α → β) (o : Option α) : unwrapO (o.map g) = (unwrapO o).map g := by
  cases o <;> rfl

theorem index_nat {α β : Type} (g : α → β) (l : List α) (i : Nat) : index (l.map g) i = (index l i).map g := by
  unfold index
  rw [List.getElem?_map]
  cases l[i]? <;> rfl

variable (f : A → B)

theorem readAt_nat_map (buf : List A) (a : Int) : readAt (buf.map f) a = (readAt buf a).map f := by
  unfold readAt
  split
  · rw [List.getElem?_map]
    cases buf[a.toNat]? <;> rfl
  · rfl

theorem View.read_map (v : View A) (idx : List Nat) : (v.map f).read idx = (v.read idx).map f := by
  exact ite_nat _ Iff.rfl (readAt_nat_map f _ _) rfl

theorem View.toVec_map (v : View A) : (v.map f).toVec = v.toVec.map (List.map f) :=
  mapE_nat _ fun idx => v.read_map f idx

theorem fromShapeVec_nat (shape : List Nat) (data : List A) :
    fromShapeVec shape (data.map f) = (fromShapeVec shape data).map (View.map f) := by
  unfold fromShapeVec
  rw [List.length_map]
  split <;> rfl

theorem View.intoShape_map (v : View A) (shape : List Nat) :
    (v.map f).intoShape shape = (v.intoShape shape).map (View.map f) := by
  exact ite_nat _ Iff.rfl rfl (ite_nat _ Iff.rfl rfl (ite_nat _ Iff.rfl rfl rfl))

theorem View.permutedAxes_map (v : View A) (axes : List Nat) :
    (v.map f).permutedAxes axes = (v.permutedAxes axes).map (View.map f) := by
  exact ite_nat _ Iff.rfl rfl rfl

variable {f} {al : Alloc A} {al' : Alloc B}

theorem View.toOwned_map (hc : Compat f al al') (v : View A) :
    (v.map f).toOwned al' = (v.toOwned al).map (View.map f) :=
  bind_nat (v.toVec_map f) fun _ => congrArg Except.ok (hc.make _ _ _)

theorem View.mapv_map (hc : Compat f al al') (v : View A) {g : A → A} {g' : B → B} (hg : ∀ x, g' (f x) = f (g x)) :
    (v.map f).mapv al' g' = (v.mapv al g).map (View.map f) :=
  bind_nat (v.toVec_map f) fun data => congrArg Except.ok (by
    rw [← hc.make, List.map_map, List.map_map]
    exact congrArg _ (List.map_congr_left fun x _ => hg x))

theorem View.first_map (v : View A) : (v.map f).first = v.first.map (Option.map f) := by
  exact ite_nat _ Iff.rfl rfl (bind_nat (v.read_map f _) fun x => rfl)

theorem View.broadcast_map (v : View A) (shape : List Nat) :
    (v.map f).broadcast shape = (v.broadcast shape).map (View.map f) := by
  unfold View.broadcast
  rw [Option.map_map]
  rfl

theorem View.insertAxis_map (v : View A) (ax : Nat) :
    (v.map f).insertAxis ax = (v.insertAxis ax).map (View.map f) := by
  exact ite_nat _ Iff.rfl rfl rfl

theorem View.outerIter_map (v : View A) :
    (v.map f).outerIter = v.outerIter.map (List.map (View.map f)) := by
  obtain ⟨buf, off, shape, strides⟩ := v
  cases shape with
  | nil => rfl
  | cons d ds =>
    cases strides with
    | nil => rfl
    | cons s ss =>
      simp only [View.outerIter, View.map, map_ok, List.map_map]
      rfl

theorem View.asSliceMemoryOrder_map (v : View A) :
    (v.map f).asSliceMemoryOrder = v.asSliceMemoryOrder.map (List.map f) := by
  refine ite_nat _ Iff.rfl (ite_nat _ Iff.rfl rfl ?_) rfl
  rw [Option.map_some, List.map_take, List.map_drop]
  rfl

theorem fromShapeStrides_map (shape strides : List Nat) (data : List A) :
    fromShapeStrides shape strides (data.map f) = (fromShapeStrides shape strides data).map (View.map f) := by
  unfold fromShapeStrides
  simp only [List.length_map]
  split
  · rfl
  · split
    · rfl
    · split
      · rfl
      · split <;> rfl

theorem View.assign_map (out src : View A) :
    (out.map f).assign (src.map f) = (out.assign src).map (View.map f) := by
  unfold View.assign
  rw [View.map_shape, View.broadcast_map]
  cases src.broadcast out.shape with
  | none => rfl
  | some src' =>
    refine bind_nat (src'.toVec_map f) fun data => ?_
    refine bind_nat (g := List.map f) ?_ fun buf => rfl
    simp only [View.map_off, View.map_strides, View.map_buf]
    generalize out.buf = buf
    generalize (allIdx out.shape).map (fun idx => out.off + dotI out.strides idx) = as
    induction as generalizing data buf with
    | nil => rfl
    | cons a as ih =>
      cases data with
      | nil => rfl
      | cons x data =>
        simp only [List.map_cons, List.zip_cons_cons, writeAll]
        refine bind_nat (g := List.map f) ?_ fun b => ih data b
        unfold writeAt
        rw [List.length_map]
        split
        · rw [map_ok, List.map_set]
        · rfl

theorem Permutation.run_map (hc : Compat f al al') (p : Permutation) (v : View A) :
    p.run al' (v.map f) = (p.run al v).map (View.map f) :=
  bind_nat (v.permutedAxes_map f _) fun w => w.toOwned_map hc

theorem Diagonalization.view_map (d : Diagonalization) (v : View A) :
    d.view (v.map f) = (d.view v).map (View.map f) := by
  refine bind_nat_id fun st => ?_
  rw [View.asSliceMemoryOrder_map, unwrapO_nat]
  refine bind_nat rfl fun data => ?_
  rw [fromShapeStrides_map]
  cases fromShapeStrides d.outputShape st data <;> rfl

theorem Diagonalization.run_map (hc : Compat f al al') (d : Diagonalization) (v : View A) :
    d.run al' (v.map f) = (d.run al v).map (View.map f) := by
  refine bind_nat (v.toVec_map f) fun data => ?_
  rw [View.map_shape, fromShapeVec_nat]
  cases fromShapeVec v.shape data with
  | none => rfl
  | some c => exact bind_nat (d.view_map c) fun w => w.toOwned_map hc

theorem asMatrix_map (v : View A) (rows cols : Nat) :
    asMatrix (v.map f) rows cols = (asMatrix v rows cols).map (View.map f) := by
  refine ite_nat _ Iff.rfl ?_ ?_
  · rw [View.intoShape_map]
    cases v.intoShape [rows, cols] <;> rfl
  · refine bind_nat (v.toVec_map f) fun data => ?_
    rw [fromShapeVec_nat]
    cases fromShapeVec [rows, cols] data <;> rfl

theorem insertAxes_map (is : List Nat) (v : View A) :
    insertAxes is (v.map f) = (insertAxes is v).map (View.map f) := by
  induction is generalizing v with
  | nil => rfl
  | cons i is ih => exact bind_nat (v.insertAxis_map i) fun w => ih w

theorem unwrapO_broadcast_map (v : View A) (shape : List Nat) :
    unwrapO ((v.map f).broadcast shape) = (unwrapO (v.broadcast shape)).map (View.map f) := by
  rw [View.broadcast_map, unwrapO_nat]

theorem fetch_map (operands inter : List (View A)) (n : OperandNumber) :
    fetch (operands.map (View.map f)) (inter.map (View.map f)) n = (fetch operands inter n).map (View.map f) := by
  cases n <;> exact index_nat _ _ _

theorem map_shapes (operands : List (View A)) :
    (operands.map (View.map f)).map View.shape = operands.map View.shape := by
  rw [List.map_map]; rfl

section ops
variable [Zero A] [Add A] [Mul A] [MulAdd A] [Zero B] [Add B] [Mul B] [MulAdd B]

theorem SumTree.sum_map (hf : OpHom f) (t : SumTree) (xs : List A) : t.sum (xs.map f) = f (t.sum xs) := by
  induction t with
  | zero => exact hf.zero.symm
  | leaf i =>
    simp only [SumTree.sum, List.getD_eq_getElem?_getD, List.getElem?_map]
    cases xs[i]? with
    | none => exact hf.zero.symm
    | some x => rfl
  | add l r hl hr => rw [SumTree.sum, SumTree.sum, hl, hr, hf.add]
  | fused i t ht =>
    have : (xs.map f).getD i 0 = f (xs.getD i 0) := by
      simp only [List.getD_eq_getElem?_getD, List.getElem?_map]
      cases xs[i]? with
      | none => exact hf.zero.symm
      | some x => rfl
    rw [SumTree.sum, SumTree.sum, ht, this, hf.add]

theorem SumTree.dot_map (hf : OpHom f) (t : SumTree) (ps : List (A × A)) :
    t.dot (ps.map fun p => (f p.1, f p.2)) = f (t.dot ps) := by
  have key : ∀ i, (ps.map fun p => (f p.1, f p.2)).getD i (0, 0) = (f (ps.getD i (0, 0)).1, f (ps.getD i (0, 0)).2) := by
    intro i
    simp only [List.getD_eq_getElem?_getD, List.getElem?_map]
    cases ps[i]? with
    | none => exact Prod.ext hf.zero.symm hf.zero.symm
    | some x => rfl
  induction t with
  | zero => exact hf.zero.symm
  | leaf i => rw [SumTree.dot, SumTree.dot, key, hf.mul]
  | add l r hl hr => rw [SumTree.dot, SumTree.dot, hl, hr, hf.add]
  | fused i t ht => rw [SumTree.dot, SumTree.dot, key, ht, hf.mulAdd]

theorem View.sumAxis_map (hf : OpHom f) (hc : Compat f al al') (v : View A) (ax : Nat) :
    (v.map f).sumAxis al' ax = (v.sumAxis al ax).map (View.map f) := by
  unfold View.sumAxis
  rw [View.map_shape]
  cases v.shape[ax]? with
  | none => rfl
  | some d =>
    refine bind_nat (mapE_nat (h := f) _ fun idx => ?_) fun _ => congrArg Except.ok (hc.make _ _ _)
    refine bind_nat (mapE_nat (h := f) _ fun k => v.read_map f _) fun xs => ?_
    rw [hc.sumOrder]
    exact congrArg Except.ok (SumTree.sum_map hf _ _)

theorem View.mul_map (hf : OpHom f) (hc : Compat f al al') (l r : View A) :
    (l.map f).mul al' (r.map f) = (l.mul al r).map (View.map f) := by
  unfold View.mul View.broadcastWith
  simp only [View.map_shape, View.broadcast_map]
  cases commonShape l.shape r.shape with
  | none => rfl
  | some s =>
    cases hl : l.broadcast s with
    | none => simp [hl]
    | some l' =>
      cases hr : r.broadcast s with
      | none => simp [hl, hr]
      | some r' =>
        simp only [Option.bind_eq_bind, Option.bind_some, hl, hr, Option.map_some, Option.pure_def]
        refine bind_nat (mapE_nat (h := f) _ fun idx => ?_) fun _ => congrArg Except.ok (hc.make _ _ _)
        exact bind_nat (l'.read_map f _) fun x => bind_nat (r'.read_map f _) fun y => congrArg Except.ok (hf.mul x y).symm

theorem View.dot_map (hf : OpHom f) (hc : Compat f al al') (l r : View A) :
    (l.map f).dot al' (r.map f) = (l.dot al r).map (View.map f) := by
  have helem : ∀ k i j, (do
        let ps ← mapE (fun x => do
            let a ← (l.map f).read [i, x]
            let b ← (r.map f).read [x, j]
            return (a, b))
          (List.range k)
        return (al'.sumOrder [i, j] k).dot ps : M B) = Except.map f (do
        let ps ← mapE (fun x => do
            let a ← l.read [i, x]
            let b ← r.read [x, j]
            return (a, b))
          (List.range k)
        return (al.sumOrder [i, j] k).dot ps : M A) := by
    intro k i j
    refine bind_nat (mapE_nat (h := fun p : A × A => (f p.1, f p.2)) _ fun x => ?_) fun ps => ?_
    · exact bind_nat (l.read_map f _) fun x => bind_nat (r.read_map f _) fun y => rfl
    · rw [hc.sumOrder]
      exact congrArg Except.ok (SumTree.dot_map hf _ _)
  unfold View.dot
  simp only [View.map_shape, View.map_strides]
  split
  · refine ite_nat _ Iff.rfl (ite_nat _ Iff.rfl ?_ ?_) rfl
    · refine bind_nat (mapE_nat (h := f) _ fun ji => helem _ _ _) fun data => ?_
      rfl
    · refine bind_nat (mapE_nat (h := f) _ fun ij => helem _ _ _) fun data => ?_
      rfl
  · rfl

/-! ## Singleton contractors -/

theorem sumAxes_map (hf : OpHom f) (axs : List Nat) {al : Alloc A} {al' : Alloc B} (hc : Compat f al al') (v : View A) :
    sumAxes al' axs (v.map f) = (sumAxes al axs v).map (View.map f) := by
  induction axs generalizing al al' v with
  | nil => rfl
  | cons ax axs ih => exact bind_nat (v.sumAxis_map hf (hc.sub 0) ax) fun w => ih (hc.sub 1) w

theorem Summation.run_map (hf : OpHom f) (hc : Compat f al al') (s : Summation) (v : View A) :
    s.run al' (v.map f) = (s.run al v).map (View.map f) :=
  bind_nat_id fun ax => bind_nat (v.sumAxis_map hf (hc.sub 0) ax) fun w => sumAxes_map hf _ (hc.sub 1) w

theorem SingletonOp.run_map (hf : OpHom f) (hc : Compat f al al') (op : SingletonOp) (v : View A) :
    op.run al' (v.map f) = (op.run al v).map (View.map f) := by
  cases op with
  | identity => exact v.toOwned_map hc
  | permutation p => exact p.run_map hc v
  | summation s => exact s.run_map hf hc v
  | diagonalization d => exact d.run_map hc v
  | permutationAndSummation p => exact bind_nat (v.permutedAxes_map f _) fun w => p.summation.run_map hf hc w
  | diagonalizationAndSummation d =>
    refine ite_nat _ ?_ (bind_nat (d.diagonalization.view_map v) fun w => d.summation.run_map hf (hc.sub 1) w)
      (bind_nat (d.diagonalization.run_map (hc.sub 0) v) fun w => d.summation.run_map hf (hc.sub 1) w)
    rw [View.asSliceMemoryOrder_map, View.map_strides, Option.isSome_map]

/-! ## Pair contractors -/

theorem TensordotFixedPosition.run_map (hf : OpHom f) (hc : Compat f al al') (p : TensordotFixedPosition)
    (l r : View A) : p.run al' (l.map f) (r.map f) = (p.run al l r).map (View.map f) := by
  refine bind_nat (asMatrix_map l _ _) fun l' => bind_nat (asMatrix_map r _ _) fun r' =>
    bind_nat (l'.dot_map hf hc r') fun w => ?_
  rw [View.intoShape_map]
  cases w.intoShape p.outputShape <;> rfl

theorem scalarMatrix_map (hf : OpHom f) (hc : Compat f al al') (l r : View A) :
    ScalarMatrixProduct.run al' (l.map f) (r.map f) = (ScalarMatrixProduct.run al l r).map (View.map f) :=
  bind_nat l.first_map fun o => bind_nat (unwrapO_nat f o) fun x => r.mapv_map hc fun y => (hf.mul y x).symm

theorem matrixScalar_map (hf : OpHom f) (hc : Compat f al al') (l r : View A) :
    MatrixScalarProduct.run al' (l.map f) (r.map f) = (MatrixScalarProduct.run al l r).map (View.map f) :=
  bind_nat r.first_map fun o => bind_nat (unwrapO_nat f o) fun x => l.mapv_map hc fun y => (hf.mul y x).symm

theorem stackLoop_map (hf : OpHom f) (hc : Compat f al al') (fixed : TensordotFixedPosition) (sub : List Nat)
    (block i n : Nat) (ls rs : List (View A)) (buf : List A) :
    stackLoop fixed al' sub block i n (ls.map (View.map f)) (rs.map (View.map f)) (buf.map f) =
      (stackLoop fixed al sub block i n ls rs buf).map (List.map f) := by
  induction n generalizing i ls rs buf with
  | zero => rfl
  | succ n ih =>
    rw [stackLoop, stackLoop, List.head?_map, List.head?_map, unwrapO_nat, unwrapO_nat]
    refine bind_nat rfl fun l => bind_nat rfl fun r => bind_nat (fixed.run_map hf (hc.sub i) l r) fun w => ?_
    rw [View.broadcast_map]
    cases w.broadcast sub with
    | none => rfl
    | some w' =>
      refine bind_nat (w'.toVec_map f) fun data => ?_
      rw [← List.map_tail, ← List.map_tail, ← List.map_take, ← List.map_drop, ← List.map_append, ← List.map_append]
      exact ih _ _ _ _

theorem StackedTensordotGeneral.run_map (hf : OpHom f) (hc : Compat f al al') (p : StackedTensordotGeneral)
    (l r : View A) : p.run al' (l.map f) (r.map f) = (p.run al l r).map (View.map f) := by
  refine bind_nat (l.permutedAxes_map f _) fun lp => bind_nat (lp.toVec_map f) fun ld => ?_
  rw [fromShapeVec_nat]
  cases fromShapeVec p.lhsOutputShape ld with
  | none => rfl
  | some lre =>
    refine bind_nat (r.permutedAxes_map f _) fun rp => bind_nat (rp.toVec_map f) fun rd => ?_
    rw [fromShapeVec_nat]
    cases fromShapeVec p.rhsOutputShape rd with
    | none => rfl
    | some rre =>
      refine bind_nat lre.outerIter_map fun ls => bind_nat rre.outerIter_map fun rs => ?_
      cases p.intermediateShape with
      | nil => rfl
      | cons n sub =>
        have h0 : List.replicate (n * sub.prod) (0 : B) = (List.replicate (n * sub.prod) (0 : A)).map f := by
          rw [List.map_replicate, hf.zero]
        simp only [h0]
        refine bind_nat (stackLoop_map hf (hc.sub 0) _ _ _ _ _ _ _ _) fun buf => ?_
        have h1 := View.intoShape_map f (⟨buf, 0, n :: sub, defaultStrides (n :: sub)⟩ : View A) p.outputShape
        simp only [View.map] at h1
        rw [h1]
        cases View.intoShape (⟨buf, 0, n :: sub, defaultStrides (n :: sub)⟩ : View A) p.outputShape with
        | none => rfl
        | some res => exact p.outputPermutation.run_map (hc.sub 1) res

theorem PairOp.run_map (hf : OpHom f) (hc : Compat f al al') (op : PairOp) (l r : View A) :
    op.run al' (l.map f) (r.map f) = (op.run al l r).map (View.map f) := by
  cases op with
  | hadamardProduct => exact l.mul_map hf hc r
  | hadamardProductGeneral p =>
    exact bind_nat (l.permutedAxes_map f _) fun l' => bind_nat (r.permutedAxes_map f _) fun r' => l'.mul_map hf hc r'
  | tensordotFixedPosition p => exact p.run_map hf hc l r
  | tensordotGeneral p =>
    exact bind_nat (l.permutedAxes_map f _) fun l' => bind_nat (r.permutedAxes_map f _) fun r' =>
      bind_nat (p.tensordotFixedPosition.run_map hf (hc.sub 0) l' r') fun w => p.outputPermutation.run_map (hc.sub 1) w
  | scalarMatrixProduct => exact scalarMatrix_map hf hc l r
  | scalarMatrixProductGeneral p =>
    exact bind_nat (r.permutedAxes_map f _) fun r' => scalarMatrix_map hf hc l r'
  | matrixScalarProduct => exact matrixScalar_map hf hc l r
  | matrixScalarProductGeneral p =>
    exact bind_nat (l.permutedAxes_map f _) fun l' => matrixScalar_map hf hc l' r
  | broadcastProductGeneral p =>
    exact bind_nat (l.permutedAxes_map f _) fun l1 => bind_nat (r.permutedAxes_map f _) fun r1 =>
      bind_nat (insertAxes_map _ l1) fun l2 => bind_nat (insertAxes_map _ r1) fun r2 =>
      bind_nat (unwrapO_broadcast_map l2 _) fun l3 => bind_nat (unwrapO_broadcast_map r2 _) fun r3 =>
      l3.mul_map hf hc r3
  | stackedTensordotGeneral p => exact p.run_map hf hc l r

/-! ## Paths -/

theorem simplifyOperand_map (hf : OpHom f) (hc : Compat f al al') (s : Option SimplificationMethodAndOutput)
    (v : View A) : simplifyOperand al' s (v.map f) = (simplifyOperand al s v).map (View.map f) := by
  cases s with
  | none => rfl
  | some s => exact s.op.run_map hf hc v

theorem PairContraction.run_map (hf : OpHom f) (hc : Compat f al al') (p : PairContraction) (l r : View A) :
    p.run al' (l.map f) (r.map f) = (p.run al l r).map (View.map f) :=
  bind_nat (simplifyOperand_map hf (hc.sub 0) _ l) fun l' => bind_nat (simplifyOperand_map hf (hc.sub 1) _ r) fun r' =>
    p.op.run_map hf (hc.sub 2) l' r'

theorem runSteps_map (hf : OpHom f) {al : Alloc A} {al' : Alloc B} (hc : Compat f al al') (operands : List (View A))
    (steps : List (PairContraction × PairStep)) (inter : List (View A)) :
    runSteps al' (operands.map (View.map f)) steps (inter.map (View.map f)) =
      (runSteps al operands steps inter).map (List.map (View.map f)) := by
  induction steps generalizing al al' inter with
  | nil => rfl
  | cons s steps ih =>
    obtain ⟨p, o⟩ := s
    refine bind_nat (fetch_map _ _ _) fun l => bind_nat (fetch_map _ _ _) fun r =>
      bind_nat (p.run_map hf (hc.sub 0) l r) fun w => ?_
    have := ih (hc.sub 1) (inter ++ [w])
    rwa [List.map_append] at this

theorem EinsumPath.contractOperands_map (hf : OpHom f) (hc : Compat f al al') (p : EinsumPath)
    (operands : List (View A)) :
    p.contractOperands al' (operands.map (View.map f)) = (p.contractOperands al operands).map (View.map f) := by
  unfold EinsumPath.contractOperands
  split
  · exact bind_nat (index_nat _ _ _) fun t => SingletonOp.run_map hf hc _ t
  · refine bind_nat (runSteps_map hf hc operands _ []) fun inter => ?_
    rw [List.getLast?_map, unwrapO_nat]
  · rfl

/-- The whole crate: applying an operation-preserving map to the elements before or after is the same. -/
theorem einsum_map (hf : OpHom f) (hc : Compat f al al') (h : HashOrd) (s : String) (operands : List (View A)) :
    einsum h al' s (operands.map (View.map f)) = (einsum h al s operands).map (Except.map (View.map f)) := by
  unfold einsum validateAndSize
  rw [map_shapes]
  cases SizedContraction.fromStringAndShapes (h.sub 0) s (operands.map View.shape) with
  | error e => rfl
  | ok sc =>
    refine bind_nat (g := View.map f) ?_ fun r => rfl
    exact bind_nat_id fun p => p.contractOperands_map hf hc operands

theorem tensordot_map (hf : OpHom f) (hc : Compat f al al') (l r : View A) (la ra : List Nat) :
    tensordot al' (l.map f) (r.map f) la ra = (tensordot al l r la ra).map (View.map f) :=
  bind_nat_id fun _ => bind_nat_id fun _ => bind_nat_id fun t =>
    PairOp.run_map hf hc (.tensordotGeneral t) l r

end ops

end Einsum
