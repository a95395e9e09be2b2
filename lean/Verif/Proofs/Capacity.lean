import Verif.Model.Capacity
import Verif.Props.Intermediates
import Verif.Props.Checks
import Verif.Props.Tensordot

/-!
# Execution with limits on arrays: lemmas
-/

namespace Einsum

open Spec

/-! ## With limits a computation panics or is unchanged -/

/-- `x` is `y`, or a panic. -/
def Limited {α : Type} (x y : M α) : Prop := x = y ∨ ∃ k, x = panic k

namespace Limited

variable {α β : Type} {x y : M α}

theorem refl (x : M α) : Limited x x := .inl rfl

theorem panic (k : PanicKind) (y : M α) : Limited (Einsum.panic k) y := .inr ⟨k, rfl⟩

theorem bind {f g : α → M β} (h : Limited x y) (hf : ∀ a, Limited (f a) (g a)) : Limited (x >>= f) (y >>= g) := by
  rcases h with rfl | ⟨k, rfl⟩
  · cases x with
    | ok a => exact hf a
    | error e => exact .inl rfl
  · exact .inr ⟨k, rfl⟩

theorem grant {b : Bool} (h : Limited x y) : Limited (Einsum.grant b >>= fun _ => x) y := by
  cases b
  · exact .inr ⟨_, rfl⟩
  · exact h

end Limited

section
variable {A : Type} (room : Room)

theorem toOwnedR_limited (al : Alloc A) (v : View A) : Limited (v.toOwnedR room al) (v.toOwned al) := .grant (.refl _)

theorem mapvR_limited (al : Alloc A) (f : A → A) (v : View A) : Limited (v.mapvR room al f) (v.mapv al f) :=
  .grant (.refl _)

theorem mulR_limited [Mul A] (al : Alloc A) (l r : View A) : Limited (l.mulR room al r) (l.mul al r) := by
  unfold View.mulR
  split
  · next h =>
    have : l.mul al r = panic .ndarray := by simp [View.mul, View.broadcastWith, h]
    rw [this]
    exact .refl _
  · exact .grant (.refl _)

theorem copyInto_limited (v : View A) (s : List Nat) :
    Limited (copyInto room v s) (v.toVec >>= fun data => match fromShapeVec s data with
      | some w => .ok w
      | none => panic .unwrapErr) := .grant (.refl _)

theorem dotR_limited [Zero A] [Add A] [Mul A] [MulAdd A] (al : Alloc A) (l r : View A) :
    Limited (l.dotR room al r) (l.dot al r) := by
  unfold View.dotR
  split
  · exact .grant (.refl _)
  · exact .panic _ _

theorem permutationR_limited (p : Permutation) (al : Alloc A) (t : View A) : Limited (p.runR room al t) (p.run al t) :=
  (Limited.refl _).bind fun v => toOwnedR_limited room al v

theorem viewR_limited (d : Diagonalization) (t : View A) : Limited (d.viewR room t) (d.view t) :=
  (Limited.refl _).bind fun _ => (Limited.refl _).bind fun _ => .grant (.refl _)

theorem diagonalization_eq (d : Diagonalization) (al : Alloc A) (t : View A) :
    d.run al t = (t.toVec >>= fun data => match fromShapeVec t.shape data with
      | some w => .ok w
      | none => panic .unwrapErr) >>= fun cloned => d.view cloned >>= fun v => v.toOwned al := by
  unfold Diagonalization.run
  cases t.toVec with
  | error e => rfl
  | ok data =>
    simp only [bind_ok]
    cases fromShapeVec t.shape data <;> rfl

theorem diagonalizationR_limited (d : Diagonalization) (al : Alloc A) (t : View A) :
    Limited (d.runR room al t) (d.run al t) := by
  rw [diagonalization_eq]
  exact (copyInto_limited room t t.shape).bind fun c => (viewR_limited room d c).bind fun v => toOwnedR_limited room al v

theorem intoShapeR_limited (v : View A) (s : List Nat) :
    Limited (match v.intoShapeR room s with | some w => (.ok w : M (View A)) | none => panic .unwrapErr)
      (match v.intoShape s with | some w => .ok w | none => panic .unwrapErr) := by
  unfold View.intoShapeR
  cases room.shape s with
  | false => exact .inr ⟨_, rfl⟩
  | true => exact .refl _

theorem asMatrixR_limited (t : View A) (rows cols : Nat) : Limited (asMatrixR room t rows cols) (asMatrix t rows cols) := by
  unfold asMatrixR asMatrix
  split
  · exact intoShapeR_limited room t _
  · exact copyInto_limited room t _

section sums
variable [Zero A] [Add A]

theorem sumAxisR_limited (al : Alloc A) (ax : Nat) (v : View A) : Limited (v.sumAxisR room al ax) (v.sumAxis al ax) :=
  .grant (.refl _)

theorem sumAxesR_limited (al : Alloc A) (axs : List Nat) (v : View A) :
    Limited (sumAxesR room al axs v) (sumAxes al axs v) := by
  induction axs generalizing al v with
  | nil => exact .refl _
  | cons ax axs ih => exact (sumAxisR_limited room _ ax v).bind fun r => ih _ r

theorem summationR_limited (s : Summation) (al : Alloc A) (t : View A) : Limited (s.runR room al t) (s.run al t) :=
  (Limited.refl _).bind fun ax => (sumAxisR_limited room _ ax t).bind fun r => sumAxesR_limited room _ _ r

theorem singletonOpR_limited (al : Alloc A) (t : View A) (op : SingletonOp) :
    Limited (op.runR room al t) (op.run al t) := by
  cases op with
  | identity => exact toOwnedR_limited room al t
  | permutation p => exact permutationR_limited room p al t
  | summation s => exact summationR_limited room s al t
  | diagonalization d => exact diagonalizationR_limited room d al t
  | permutationAndSummation p => exact (Limited.refl _).bind fun v => summationR_limited room _ al v
  | diagonalizationAndSummation d =>
    simp only [SingletonOp.runR, SingletonOp.run, DiagonalizationAndSummation.runR, DiagonalizationAndSummation.run]
    split
    · exact (viewR_limited room _ t).bind fun v => summationR_limited room _ _ v
    · exact (diagonalizationR_limited room _ _ t).bind fun v => summationR_limited room _ _ v

theorem simplifyOperandR_limited (al : Alloc A) (s : Option SimplificationMethodAndOutput) (t : View A) :
    Limited (simplifyOperandR room al s t) (simplifyOperand al s t) := by
  cases s with
  | none => exact .refl _
  | some s => exact singletonOpR_limited room al t s.op

end sums

variable [Zero A] [Add A] [Mul A] [MulAdd A]

theorem fixedR_limited (p : TensordotFixedPosition) (al : Alloc A) (l r : View A) :
    Limited (p.runR room al l r) (p.run al l r) :=
  (asMatrixR_limited room l _ _).bind fun _ => (asMatrixR_limited room r _ _).bind fun _ =>
    (dotR_limited room al _ _).bind fun v => intoShapeR_limited room v _

theorem tensordotGeneralR_limited (p : TensordotGeneral) (al : Alloc A) (l r : View A) :
    Limited (p.runR room al l r) (p.run al l r) :=
  (Limited.refl _).bind fun _ => (Limited.refl _).bind fun _ => (fixedR_limited room _ _ _ _).bind fun t =>
    permutationR_limited room _ _ t

omit [Zero A] [Add A] [Mul A] [MulAdd A] in
theorem unwrap_limited {b : Bool} {o : Option (View A)} : Limited (unwrapO (if b then o else none)) (unwrapO o) := by
  cases b
  · exact .inr ⟨_, rfl⟩
  · exact .refl _

theorem stackLoopR_limited (p : TensordotFixedPosition) (al : Alloc A) (sub : List Nat) (block i n : Nat)
    (ls rs : List (View A)) (buf : List A) :
    Limited (stackLoopR room p al sub block i n ls rs buf) (stackLoop p al sub block i n ls rs buf) := by
  induction n generalizing i ls rs buf with
  | zero => exact .refl _
  | succ n ih =>
    refine (Limited.refl _).bind fun l => (Limited.refl _).bind fun r => (fixedR_limited room p _ l r).bind fun res => ?_
    unfold View.broadcastR
    cases room.shape sub with
    | false => exact .inr ⟨_, rfl⟩
    | true =>
      simp only [if_true]
      cases res.broadcast sub with
      | none => exact .refl _
      | some w => exact (Limited.refl _).bind fun data => ih _ _ _ _

theorem stacked_eq (p : StackedTensordotGeneral) (al : Alloc A) (l r : View A) :
    p.run al l r = (do
      let lp ← p.lhsPermutation.view l
      let lre ← (lp.toVec >>= fun data => match fromShapeVec p.lhsOutputShape data with
        | some w => .ok w
        | none => panic .unwrapErr)
      let rp ← p.rhsPermutation.view r
      let rre ← (rp.toVec >>= fun data => match fromShapeVec p.rhsOutputShape data with
        | some w => .ok w
        | none => panic .unwrapErr)
      let ls ← lre.outerIter
      let rs ← rre.outerIter
      match p.intermediateShape with
      | [] => panic .ndarray
      | n :: subShape => do
        let buf ← stackLoop p.tensordotFixedPosition (al.sub 0) subShape subShape.prod 0 n ls rs
          (List.replicate (n * subShape.prod) 0)
        let inter : View A := ⟨buf, 0, n :: subShape, defaultStrides (n :: subShape)⟩
        match inter.intoShape p.outputShape with
        | none => panic .unwrapErr
        | some res => p.outputPermutation.run (al.sub 1) res) := by
  unfold StackedTensordotGeneral.run
  cases p.lhsPermutation.view l with
  | error e => rfl
  | ok lp =>
    simp only [bind_ok]
    cases lp.toVec with
    | error e => rfl
    | ok ld =>
      simp only [bind_ok]
      cases fromShapeVec p.lhsOutputShape ld with
      | none => rfl
      | some lre =>
        simp only [bind_ok]
        cases p.rhsPermutation.view r with
        | error e => rfl
        | ok rp =>
          simp only [bind_ok]
          cases rp.toVec with
          | error e => rfl
          | ok rd =>
            simp only [bind_ok]
            cases fromShapeVec p.rhsOutputShape rd <;> rfl

theorem stackedR_limited (p : StackedTensordotGeneral) (al : Alloc A) (l r : View A) :
    Limited (p.runR room al l r) (p.run al l r) := by
  rw [stacked_eq]
  refine (Limited.refl _).bind fun lp => (copyInto_limited room lp _).bind fun lre => (Limited.refl _).bind fun rp =>
    (copyInto_limited room rp _).bind fun rre => .grant ((Limited.refl _).bind fun ls => (Limited.refl _).bind fun rs => ?_)
  cases p.intermediateShape with
  | nil => exact .refl _
  | cons n sub =>
    refine (stackLoopR_limited room _ _ _ _ _ _ _ _ _).bind fun buf => ?_
    simp only [View.intoShapeR]
    cases room.shape p.outputShape with
    | false => exact .inr ⟨_, rfl⟩
    | true =>
      simp only [if_true]
      cases View.intoShape _ p.outputShape with
      | none => exact .refl _
      | some w => exact permutationR_limited room _ _ w

theorem pairOpR_limited (al : Alloc A) (l r : View A) (op : PairOp) : Limited (op.runR room al l r) (op.run al l r) := by
  cases op with
  | hadamardProduct => exact mulR_limited room al l r
  | hadamardProductGeneral p =>
    exact (Limited.refl _).bind fun _ => (Limited.refl _).bind fun _ => mulR_limited room al _ _
  | tensordotFixedPosition p => exact fixedR_limited room p al l r
  | tensordotGeneral p => exact tensordotGeneralR_limited room p al l r
  | scalarMatrixProduct => exact (Limited.refl _).bind fun _ => (Limited.refl _).bind fun _ => mapvR_limited room al _ _
  | scalarMatrixProductGeneral p =>
    exact (Limited.refl _).bind fun _ => (Limited.refl _).bind fun _ => (Limited.refl _).bind fun _ =>
      mapvR_limited room al _ _
  | matrixScalarProduct => exact (Limited.refl _).bind fun _ => (Limited.refl _).bind fun _ => mapvR_limited room al _ _
  | matrixScalarProductGeneral p =>
    exact (Limited.refl _).bind fun _ => (Limited.refl _).bind fun _ => (Limited.refl _).bind fun _ =>
      mapvR_limited room al _ _
  | broadcastProductGeneral p =>
    exact (Limited.refl _).bind fun _ => (Limited.refl _).bind fun _ => (Limited.refl _).bind fun _ =>
      (Limited.refl _).bind fun _ => unwrap_limited.bind fun _ => unwrap_limited.bind fun _ => mulR_limited room al _ _
  | stackedTensordotGeneral p => exact stackedR_limited room p al l r

theorem pairR_limited (p : PairContraction) (al : Alloc A) (l r : View A) :
    Limited (p.runR room al l r) (p.run al l r) :=
  (simplifyOperandR_limited room _ _ l).bind fun _ => (simplifyOperandR_limited room _ _ r).bind fun _ =>
    pairOpR_limited room _ _ _ _

theorem runStepsR_limited (al : Alloc A) (operands : List (View A)) (steps : List (PairContraction × PairStep))
    (inter : List (View A)) : Limited (runStepsR room al operands steps inter) (runSteps al operands steps inter) := by
  induction steps generalizing al inter with
  | nil => exact .refl _
  | cons st steps ih =>
    exact (Limited.refl _).bind fun _ => (Limited.refl _).bind fun _ => (pairR_limited room _ _ _ _).bind fun _ => ih _ _

theorem contractOperandsR_limited (p : EinsumPath) (al : Alloc A) (operands : List (View A)) :
    Limited (p.contractOperandsR room al operands) (p.contractOperands al operands) := by
  unfold EinsumPath.contractOperandsR EinsumPath.contractOperands
  cases p.steps <;> cases p.contractionOrder
  · exact (Limited.refl _).bind fun t => singletonOpR_limited room al t _
  · exact .refl _
  · exact .refl _
  · exact (runStepsR_limited room _ _ _ _).bind fun _ => .refl _

end

/-! ## Shapes -/

section
variable {A : Type}

theorem toOwned_shape {al : Alloc A} {v w : View A} (h : v.toOwned al = .ok w) : w.shape = v.shape := by
  obtain ⟨d, h1, h2⟩ := bind_eq_ok.1 h
  cases h2
  exact al.shape_eq _ _ _ (toVec_length h1)

theorem mapv_shape {al : Alloc A} {f : A → A} {v w : View A} (h : v.mapv al f = .ok w) : w.shape = v.shape := by
  obtain ⟨d, h1, h2⟩ := bind_eq_ok.1 h
  cases h2
  exact al.shape_eq _ _ _ (by rw [List.length_map, toVec_length h1])

theorem mul_shape [Mul A] {al : Alloc A} {l r w : View A} (h : l.mul al r = .ok w) :
    commonShape l.shape r.shape = some w.shape := by
  unfold View.mul at h
  split at h
  · cases h
  · next hb =>
    obtain ⟨s, e1, e2, -⟩ := broadcastWith_eq hb
    obtain ⟨d, h1, h2⟩ := bind_eq_ok.1 h
    cases h2
    rw [al.shape_eq _ _ _ (by rw [mapE_length h1, allIdx_length]), broadcast_shape e2, e1]

theorem sumAxis_shape [Zero A] [Add A] {al : Alloc A} {ax : Nat} {v w : View A} (h : v.sumAxis al ax = .ok w) :
    w.shape = v.shape.eraseIdx ax := by
  unfold View.sumAxis at h
  split at h
  · cases h
  · obtain ⟨d, h1, h2⟩ := bind_eq_ok.1 h
    cases h2
    exact al.shape_eq _ _ _ (by rw [mapE_length h1, allIdx_length])

theorem permutedAxes_shape {v w : View A} {axes : List Nat} (h : v.permutedAxes axes = .ok w) :
    w.shape = axes.map fun a => v.shape.getD a 0 := by
  unfold View.permutedAxes at h
  split at h
  · cases h; rfl
  · cases h

theorem permutedAxes_shape_perm {v w : View A} {axes : List Nat} (h : v.permutedAxes axes = .ok w) :
    w.shape.Perm v.shape := by
  rw [permutedAxes_shape h]
  refine ((permutedAxes_inv h).map _).trans (.of_eq ?_)
  apply List.ext_getElem (by simp)
  intro i h1 h2
  simp [List.getD_eq_getElem?_getD, h2]

theorem permutedAxes_labels {dims : Char → Nat} {v w : View A} {L M : List Char} (hv : v.shape = L.map dims)
    (hM : ∀ c ∈ M, c ∈ L) (h : v.permutedAxes (M.map fun c => pos c L) = .ok w) : w.shape = M.map dims := by
  rw [permutedAxes_shape h, hv, List.map_map]
  exact List.map_congr_left fun c hc => getD_pos (hM c hc) _ _

theorem permutation_shape {p : Permutation} {al : Alloc A} {v w : View A} (h : p.run al v = .ok w) :
    ∃ u, v.permutedAxes p.permutation = .ok u ∧ w.shape = u.shape := by
  obtain ⟨u, h1, h2⟩ := bind_eq_ok.1 h
  exact ⟨u, h1, toOwned_shape h2⟩

theorem view_shape {d : Diagonalization} {v w : View A} (h : d.view v = .ok w) : w.shape = d.outputShape := by
  obtain ⟨ss, -, h2⟩ := bind_eq_ok.1 h
  obtain ⟨sl, -, h3⟩ := bind_eq_ok.1 h2
  split at h3
  · next u hu =>
    cases h3
    unfold fromShapeStrides at hu
    split at hu
    · cases hu
    · simp only at hu
      repeat' split at hu
      all_goals cases hu
      rfl
  · cases h3

theorem diagonalization_shape {d : Diagonalization} {al : Alloc A} {v w : View A} (h : d.run al v = .ok w) :
    w.shape = d.outputShape := by
  rw [diagonalization_eq] at h
  obtain ⟨c, -, h2⟩ := bind_eq_ok.1 h
  obtain ⟨u, h3, h4⟩ := bind_eq_ok.1 h2
  rw [toOwned_shape h4, view_shape h3]

theorem sumAxes_shape [Zero A] [Add A] {al : Alloc A} {k n : Nat} {v w : View A} (hl : v.shape.length = k + n)
    (h : sumAxes al (List.replicate n k) v = .ok w) : w.shape = v.shape.take k := by
  induction n generalizing al v with
  | zero =>
    cases h
    rw [List.take_of_length_le (by omega)]
  | succ n ih =>
    rw [List.replicate_succ] at h
    obtain ⟨u, h1, h2⟩ := bind_eq_ok.1 h
    have e := sumAxis_shape h1
    rw [ih (by rw [e, List.length_eraseIdx_of_lt (by omega)]; omega) h2, e]
    exact List.take_eraseIdx_eq_take_of_le _ _ _ (Nat.le_refl _)

theorem summation_shape [Zero A] [Add A] {al : Alloc A} {orig : List Nat} {k n : Nat} {v w : View A}
    (hl : v.shape.length = k + n) (h : Summation.run ⟨orig, List.replicate n k⟩ al v = .ok w) :
    w.shape = v.shape.take k := by
  cases n with
  | zero => cases h
  | succ n =>
    simp only [Summation.run, List.replicate_succ, index_cons_zero, bind_ok, List.tail_cons] at h
    obtain ⟨u, h1, h2⟩ := bind_eq_ok.1 h
    have e := sumAxis_shape h1
    rw [sumAxes_shape (by rw [e, List.length_eraseIdx_of_lt (by omega)]; omega) h2, e]
    exact List.take_eraseIdx_eq_take_of_le _ _ _ (Nat.le_refl _)

variable [Zero A] [Add A] [Mul A] [MulAdd A]

theorem tensordot_shape {p : TensordotGeneral} {al : Alloc A} {l r w : View A} (h : p.run al l r = .ok w) :
    ∃ u v : View A, u.shape = p.tensordotFixedPosition.outputShape ∧
      u.permutedAxes p.outputPermutation.permutation = .ok v ∧ w.shape = v.shape := by
  obtain ⟨l', -, h2⟩ := bind_eq_ok.1 h
  obtain ⟨r', -, h3⟩ := bind_eq_ok.1 h2
  obtain ⟨u, h4, h5⟩ := bind_eq_ok.1 h3
  obtain ⟨v, h6, h7⟩ := permutation_shape h5
  exact ⟨u, v, (tensordotFixed_counts h4).2.2.2.1, h6, h7⟩

theorem stacked_shape {p : StackedTensordotGeneral} {al : Alloc A} {l r w : View A} (h : p.run al l r = .ok w) :
    ∃ u v : View A, u.shape = p.outputShape ∧
      u.permutedAxes p.outputPermutation.permutation = .ok v ∧ w.shape = v.shape := by
  rw [stacked_eq] at h
  obtain ⟨_, -, h⟩ := bind_eq_ok.1 h
  obtain ⟨_, -, h⟩ := bind_eq_ok.1 h
  obtain ⟨_, -, h⟩ := bind_eq_ok.1 h
  obtain ⟨_, -, h⟩ := bind_eq_ok.1 h
  obtain ⟨_, -, h⟩ := bind_eq_ok.1 h
  obtain ⟨_, -, h⟩ := bind_eq_ok.1 h
  split at h
  · cases h
  · obtain ⟨_, -, h⟩ := bind_eq_ok.1 h
    simp only at h
    split at h
    · cases h
    · next u hu =>
      obtain ⟨v, h6, h7⟩ := permutation_shape h
      exact ⟨u, v, (intoShape_prod hu).2, h6, h7⟩

end

/-! ## A result that is returned could be allocated -/

section
variable {A : Type} {room : Room}

theorem Limited.ok {α : Type} {x y : M α} {a : α} (h : Limited x y) (hx : x = .ok a) : y = .ok a := by
  rcases h with rfl | ⟨k, rfl⟩
  · exact hx
  · cases hx

theorem grant_ok {b : Bool} {α : Type} {x : M α} {a : α} (h : (grant b >>= fun _ => x) = .ok a) :
    b = true ∧ x = .ok a := by
  cases b
  · cases h
  · exact ⟨rfl, h⟩

theorem toOwnedR_needs {al : Alloc A} {v w : View A} (h : v.toOwnedR room al = .ok w) : room.alloc w.shape = true := by
  obtain ⟨h1, h2⟩ := grant_ok h
  rwa [toOwned_shape h2]

theorem mapvR_needs {al : Alloc A} {f : A → A} {v w : View A} (h : v.mapvR room al f = .ok w) :
    room.alloc w.shape = true := by
  obtain ⟨h1, h2⟩ := grant_ok h
  rwa [mapv_shape h2]

theorem mulR_needs [Mul A] {al : Alloc A} {l r w : View A} (h : l.mulR room al r = .ok w) : room.alloc w.shape = true := by
  unfold View.mulR at h
  split at h
  · cases h
  · next hs =>
    obtain ⟨h1, h2⟩ := grant_ok h
    rw [mul_shape h2] at hs
    cases hs
    exact h1

theorem permutationR_needs {p : Permutation} {al : Alloc A} {v w : View A} (h : p.runR room al v = .ok w) :
    room.alloc w.shape = true := by
  obtain ⟨_, -, h⟩ := bind_eq_ok.1 h
  exact toOwnedR_needs h

section
variable [Zero A] [Add A]

theorem sumAxisR_needs {al : Alloc A} {ax : Nat} {v w : View A} (h : v.sumAxisR room al ax = .ok w) :
    room.alloc w.shape = true := by
  obtain ⟨h1, h2⟩ := grant_ok h
  rwa [sumAxis_shape h2]

theorem sumAxesR_needs {al : Alloc A} {axs : List Nat} {v w : View A} (hv : room.alloc v.shape = true)
    (h : sumAxesR room al axs v = .ok w) : room.alloc w.shape = true := by
  induction axs generalizing al v with
  | nil => cases h; exact hv
  | cons ax axs ih =>
    obtain ⟨u, h1, h2⟩ := bind_eq_ok.1 h
    exact ih (sumAxisR_needs h1) h2

theorem summationR_needs {s : Summation} {al : Alloc A} {v w : View A} (h : s.runR room al v = .ok w) :
    room.alloc w.shape = true := by
  obtain ⟨_, -, h⟩ := bind_eq_ok.1 h
  obtain ⟨u, h1, h2⟩ := bind_eq_ok.1 h
  exact sumAxesR_needs (sumAxisR_needs h1) h2

theorem singletonOpR_needs {op : SingletonOp} {al : Alloc A} {v w : View A} (h : op.runR room al v = .ok w) :
    room.alloc w.shape = true := by
  cases op with
  | identity => exact toOwnedR_needs h
  | permutation p => exact permutationR_needs h
  | summation s => exact summationR_needs h
  | diagonalization d =>
    obtain ⟨_, -, h⟩ := bind_eq_ok.1 h
    obtain ⟨_, -, h⟩ := bind_eq_ok.1 h
    exact toOwnedR_needs h
  | permutationAndSummation p =>
    obtain ⟨_, -, h⟩ := bind_eq_ok.1 h
    exact summationR_needs h
  | diagonalizationAndSummation d =>
    simp only [SingletonOp.runR, DiagonalizationAndSummation.runR] at h
    split at h <;>
    · obtain ⟨_, -, h⟩ := bind_eq_ok.1 h
      exact summationR_needs h

end

variable [Zero A] [Add A] [Mul A] [MulAdd A]

theorem tensordotGeneralR_needs {p : TensordotGeneral} {al : Alloc A} {l r w : View A} (h : p.runR room al l r = .ok w) :
    room.alloc w.shape = true := by
  obtain ⟨_, -, h⟩ := bind_eq_ok.1 h
  obtain ⟨_, -, h⟩ := bind_eq_ok.1 h
  obtain ⟨_, -, h⟩ := bind_eq_ok.1 h
  exact permutationR_needs h

theorem pairOpR_needs {op : PairOp} (hop : ∀ p, op ≠ .tensordotFixedPosition p) {al : Alloc A} {l r w : View A}
    (h : op.runR room al l r = .ok w) : room.alloc w.shape = true := by
  cases op with
  | hadamardProduct => exact mulR_needs h
  | hadamardProductGeneral p =>
    obtain ⟨_, -, h⟩ := bind_eq_ok.1 h
    obtain ⟨_, -, h⟩ := bind_eq_ok.1 h
    exact mulR_needs h
  | tensordotFixedPosition p => exact absurd rfl (hop p)
  | tensordotGeneral p => exact tensordotGeneralR_needs h
  | scalarMatrixProduct =>
    obtain ⟨_, -, h⟩ := bind_eq_ok.1 h
    obtain ⟨_, -, h⟩ := bind_eq_ok.1 h
    exact mapvR_needs h
  | scalarMatrixProductGeneral p =>
    obtain ⟨_, -, h⟩ := bind_eq_ok.1 h
    obtain ⟨_, -, h⟩ := bind_eq_ok.1 h
    obtain ⟨_, -, h⟩ := bind_eq_ok.1 h
    exact mapvR_needs h
  | matrixScalarProduct =>
    obtain ⟨_, -, h⟩ := bind_eq_ok.1 h
    obtain ⟨_, -, h⟩ := bind_eq_ok.1 h
    exact mapvR_needs h
  | matrixScalarProductGeneral p =>
    obtain ⟨_, -, h⟩ := bind_eq_ok.1 h
    obtain ⟨_, -, h⟩ := bind_eq_ok.1 h
    obtain ⟨_, -, h⟩ := bind_eq_ok.1 h
    exact mapvR_needs h
  | broadcastProductGeneral p =>
    obtain ⟨_, -, h⟩ := bind_eq_ok.1 h
    obtain ⟨_, -, h⟩ := bind_eq_ok.1 h
    obtain ⟨_, -, h⟩ := bind_eq_ok.1 h
    obtain ⟨_, -, h⟩ := bind_eq_ok.1 h
    obtain ⟨_, -, h⟩ := bind_eq_ok.1 h
    obtain ⟨_, -, h⟩ := bind_eq_ok.1 h
    exact mulR_needs h
  | stackedTensordotGeneral p =>
    obtain ⟨_, -, h⟩ := bind_eq_ok.1 h
    obtain ⟨_, -, h⟩ := bind_eq_ok.1 h
    obtain ⟨_, -, h⟩ := bind_eq_ok.1 h
    obtain ⟨_, -, h⟩ := bind_eq_ok.1 h
    obtain ⟨-, h⟩ := grant_ok h
    obtain ⟨_, -, h⟩ := bind_eq_ok.1 h
    obtain ⟨_, -, h⟩ := bind_eq_ok.1 h
    split at h
    · cases h
    · obtain ⟨_, -, h⟩ := bind_eq_ok.1 h
      simp only at h
      split at h
      · cases h
      · exact permutationR_needs h

end

/-! ## Within the limits nothing changes -/

/-- All arrays of at most `N` elements, lengths of zero counting as one, can be created. -/
def Room.Upto (room : Room) (N : Nat) : Prop := ∀ s, Fits N s → room.shape s = true ∧ room.alloc s = true

section
variable {A : Type} {room : Room} {N : Nat}

theorem Fits.perm {s t : List Nat} (h : Fits N s) (hp : t.Perm s) : Fits N t := by
  unfold Fits at *; rwa [nzProd_perm hp]

theorem Fits.sublist {s t : List Nat} (h : Fits N s) (hp : t.Sublist s) : Fits N t := (nzProd_sublist hp).trans h

theorem grant_of {b : Bool} (h : b = true) {α : Type} (x : M α) : (grant b >>= fun _ => x) = x := by
  subst h; rfl

theorem toOwnedR_eq (hr : room.Upto N) {v : View A} (hv : Fits N v.shape) (al : Alloc A) :
    v.toOwnedR room al = v.toOwned al := grant_of (hr _ hv).2 _

theorem mapvR_eq (hr : room.Upto N) {v : View A} (hv : Fits N v.shape) (al : Alloc A) (f : A → A) :
    v.mapvR room al f = v.mapv al f := grant_of (hr _ hv).2 _

theorem mulR_eq [Mul A] (hr : room.Upto N) {l r : View A} (hl : ∀ s, commonShape l.shape r.shape = some s → Fits N s)
    (al : Alloc A) : l.mulR room al r = l.mul al r := by
  unfold View.mulR
  split
  · next h => simp [View.mul, View.broadcastWith, h]
  · next s h => exact grant_of (hr _ (hl s h)).2 _

theorem broadcastR_eq (hr : room.Upto N) {s : List Nat} (hs : Fits N s) (v : View A) :
    v.broadcastR room s = v.broadcast s := by rw [View.broadcastR, (hr _ hs).1, if_pos rfl]

theorem intoShapeR_eq (hr : room.Upto N) {s : List Nat} (hs : Fits N s) (v : View A) :
    v.intoShapeR room s = v.intoShape s := by rw [View.intoShapeR, (hr _ hs).1, if_pos rfl]

theorem copyInto_eq (hr : room.Upto N) {s : List Nat} (hs : Fits N s) (v : View A) :
    copyInto room v s = v.toVec >>= fun data => match fromShapeVec s data with
      | some w => .ok w
      | none => panic .unwrapErr := grant_of (hr _ hs).2 _

theorem permutationR_eq (hr : room.Upto N) {v : View A} (hv : Fits N v.shape) (p : Permutation) (al : Alloc A) :
    p.runR room al v = p.run al v :=
  bind_congr_ok fun _ h => toOwnedR_eq hr (hv.perm (permutedAxes_shape_perm h)) al

theorem viewR_eq (hr : room.Upto N) {d : Diagonalization} (hd : Fits N d.outputShape) (v : View A) :
    d.viewR room v = d.view v :=
  bind_congr_ok fun _ _ => bind_congr_ok fun _ _ => grant_of (hr _ hd).1 _

theorem diagonalizationR_eq (hr : room.Upto N) {d : Diagonalization} (hd : Fits N d.outputShape) {v : View A}
    (hv : Fits N v.shape) (al : Alloc A) : d.runR room al v = d.run al v := by
  rw [diagonalization_eq, Diagonalization.runR, copyInto_eq hr hv]
  refine bind_congr_ok fun c _ => ?_
  rw [viewR_eq hr hd]
  exact bind_congr_ok fun u hu => toOwnedR_eq hr (by rwa [view_shape hu]) al

theorem asMatrixR_eq (hr : room.Upto N) {rows cols : Nat} (hs : Fits N [rows, cols]) (t : View A) :
    asMatrixR room t rows cols = asMatrix t rows cols := by
  unfold asMatrixR asMatrix
  rw [intoShapeR_eq hr hs, copyInto_eq hr hs]
  rfl

section
variable [Zero A] [Add A]

theorem sumAxisR_eq (hr : room.Upto N) {v : View A} (hv : Fits N v.shape) (al : Alloc A) (ax : Nat) :
    v.sumAxisR room al ax = v.sumAxis al ax := grant_of (hr _ (hv.sublist (List.eraseIdx_sublist ..))).2 _

theorem sumAxesR_eq (hr : room.Upto N) {v : View A} (hv : Fits N v.shape) (al : Alloc A) (axs : List Nat) :
    sumAxesR room al axs v = sumAxes al axs v := by
  induction axs generalizing al v with
  | nil => rfl
  | cons ax axs ih =>
    rw [sumAxesR, sumAxes, sumAxisR_eq hr hv]
    exact bind_congr_ok fun u hu => ih (by rw [sumAxis_shape hu]; exact hv.sublist (List.eraseIdx_sublist ..)) _

theorem summationR_eq (hr : room.Upto N) {v : View A} (hv : Fits N v.shape) (al : Alloc A) (s : Summation) :
    s.runR room al v = s.run al v := by
  refine bind_congr_ok fun ax _ => ?_
  rw [sumAxisR_eq hr hv]
  exact bind_congr_ok fun u hu => sumAxesR_eq hr (by rw [sumAxis_shape hu]; exact hv.sublist (List.eraseIdx_sublist ..)) _ _

/-- The arrays made by a contractor of one array of shape `s` have at most `N` elements. -/
def SingletonOp.Within (N : Nat) (s : List Nat) : SingletonOp → Prop
  | .identity | .permutation _ | .summation _ | .permutationAndSummation _ => Fits N s
  | .diagonalization d => Fits N s ∧ Fits N d.outputShape
  | .diagonalizationAndSummation d => Fits N s ∧ Fits N d.diagonalization.outputShape

theorem singletonOpR_eq (hr : room.Upto N) {op : SingletonOp} {v : View A} (h : op.Within N v.shape) (al : Alloc A) :
    op.runR room al v = op.run al v := by
  cases op with
  | identity => exact toOwnedR_eq hr h al
  | permutation p => exact permutationR_eq hr h p al
  | summation s => exact summationR_eq hr h al s
  | diagonalization d => exact diagonalizationR_eq hr h.2 h.1 al
  | permutationAndSummation p =>
    exact bind_congr_ok fun u hu => summationR_eq hr (Fits.perm h (permutedAxes_shape_perm hu)) al _
  | diagonalizationAndSummation d =>
    simp only [SingletonOp.runR, SingletonOp.run, DiagonalizationAndSummation.runR, DiagonalizationAndSummation.run]
    split
    · rw [viewR_eq hr h.2]
      exact bind_congr_ok fun u hu => summationR_eq hr (by rw [view_shape hu]; exact h.2) _ _
    · rw [diagonalizationR_eq hr h.2 h.1]
      exact bind_congr_ok fun u hu => summationR_eq hr (by rw [diagonalization_shape hu]; exact h.2) _ _

end

variable [Zero A] [Add A] [Mul A] [MulAdd A]

/-- The matrices and the result of a `TensordotFixedPosition` have at most `N` elements. -/
def TensordotFixedPosition.Within (N : Nat) (p : TensordotFixedPosition) : Prop :=
  Fits N [p.lenUncontractedLhs, p.lenContractedAxes] ∧ Fits N [p.lenContractedAxes, p.lenUncontractedRhs] ∧
    Fits N [p.lenUncontractedLhs, p.lenUncontractedRhs] ∧ Fits N p.outputShape

theorem fixedR_eq (hr : room.Upto N) {p : TensordotFixedPosition} (h : p.Within N) (al : Alloc A) (l r : View A) :
    p.runR room al l r = p.run al l r := by
  unfold TensordotFixedPosition.runR TensordotFixedPosition.run
  rw [asMatrixR_eq hr h.1, asMatrixR_eq hr h.2.1]
  refine bind_congr_ok fun lm hl => bind_congr_ok fun rm hrm => ?_
  have e : lm.dotR room al rm = lm.dot al rm := by
    unfold View.dotR
    rw [(asMatrix_ok hl).2, (asMatrix_ok hrm).2]
    exact grant_of (hr _ h.2.2.1).2 _
  rw [e]
  refine bind_congr_ok fun w _ => ?_
  rw [intoShapeR_eq hr h.2.2.2]
  rfl

theorem tensordotGeneralR_eq (hr : room.Upto N) {p : TensordotGeneral} (h : p.tensordotFixedPosition.Within N)
    (al : Alloc A) (l r : View A) : p.runR room al l r = p.run al l r := by
  refine bind_congr_ok fun _ _ => bind_congr_ok fun _ _ => ?_
  rw [fixedR_eq hr h]
  exact bind_congr_ok fun u hu => permutationR_eq hr (by rw [(tensordotFixed_counts hu).2.2.2.1]; exact h.2.2.2) _ _

theorem stackLoopR_eq (hr : room.Upto N) {p : TensordotFixedPosition} (h : p.Within N) {sub : List Nat} (hs : Fits N sub)
    (al : Alloc A) (block i n : Nat) (ls rs : List (View A)) (buf : List A) :
    stackLoopR room p al sub block i n ls rs buf = stackLoop p al sub block i n ls rs buf := by
  induction n generalizing i ls rs buf with
  | zero => rfl
  | succ n ih =>
    refine bind_congr_ok fun l _ => bind_congr_ok fun r _ => ?_
    rw [fixedR_eq hr h]
    refine bind_congr_ok fun res _ => ?_
    rw [broadcastR_eq hr hs]
    cases res.broadcast sub with
    | none => rfl
    | some w => exact bind_congr_ok fun data _ => ih _ _ _ _

/-- The arrays made by a `StackedTensordotGeneral` have at most `N` elements. -/
def StackedTensordotGeneral.Within (N : Nat) (p : StackedTensordotGeneral) : Prop :=
  Fits N p.lhsOutputShape ∧ Fits N p.rhsOutputShape ∧ Fits N p.intermediateShape ∧ Fits N p.outputShape ∧
    p.tensordotFixedPosition.Within N

theorem stackedR_eq (hr : room.Upto N) {p : StackedTensordotGeneral} (h : p.Within N) (al : Alloc A) (l r : View A) :
    p.runR room al l r = p.run al l r := by
  rw [stacked_eq, StackedTensordotGeneral.runR]
  refine bind_congr_ok fun lp _ => ?_
  rw [copyInto_eq hr h.1]
  refine bind_congr_ok fun lre _ => bind_congr_ok fun rp _ => ?_
  rw [copyInto_eq hr h.2.1]
  refine bind_congr_ok fun rre _ => ?_
  rw [grant_of (hr _ h.2.2.1).2]
  refine bind_congr_ok fun ls _ => bind_congr_ok fun rs _ => ?_
  have hi := h.2.2.1
  cases hc : p.intermediateShape with
  | nil => rfl
  | cons n sub =>
    rw [hc] at hi
    simp only
    rw [stackLoopR_eq hr h.2.2.2.2 (hi.sublist (List.sublist_cons_self ..))]
    refine bind_congr_ok fun buf _ => ?_
    rw [intoShapeR_eq hr h.2.2.2.1]
    cases hs : View.intoShape _ p.outputShape with
    | none => rfl
    | some w => exact permutationR_eq hr (by rw [(intoShape_prod hs).2]; exact h.2.2.2.1) _ _

/-- The arrays made by a contractor of arrays of shapes `s` and `t` have at most `N` elements. -/
def PairOp.Within (N : Nat) (s t : List Nat) : PairOp → Prop
  | .hadamardProduct => ∀ c, commonShape s t = some c → Fits N c
  | .hadamardProductGeneral p => ∀ c, commonShape (p.lhsPermutation.permutation.map fun a => s.getD a 0)
      (p.rhsPermutation.permutation.map fun a => t.getD a 0) = some c → Fits N c
  | .matrixScalarProduct | .matrixScalarProductGeneral _ => Fits N s
  | .scalarMatrixProduct | .scalarMatrixProductGeneral _ => Fits N t
  | .tensordotFixedPosition p => p.Within N
  | .tensordotGeneral p => p.tensordotFixedPosition.Within N
  | .broadcastProductGeneral p => Fits N p.outputSizes
  | .stackedTensordotGeneral p => p.Within N

theorem pairOpR_eq (hr : room.Upto N) {op : PairOp} {l r : View A} (h : op.Within N l.shape r.shape) (al : Alloc A) :
    op.runR room al l r = op.run al l r := by
  cases op with
  | hadamardProduct => exact mulR_eq hr h al
  | hadamardProductGeneral p =>
    exact bind_congr_ok fun u hu => bind_congr_ok fun v hv => mulR_eq hr
      (by rw [permutedAxes_shape hu, permutedAxes_shape hv]; exact h) al
  | tensordotFixedPosition p => exact fixedR_eq hr h al l r
  | tensordotGeneral p => exact tensordotGeneralR_eq hr h al l r
  | scalarMatrixProduct => exact bind_congr_ok fun _ _ => bind_congr_ok fun _ _ => mapvR_eq hr h al _
  | scalarMatrixProductGeneral p =>
    exact bind_congr_ok fun u hu => bind_congr_ok fun _ _ => bind_congr_ok fun _ _ =>
      mapvR_eq hr (Fits.perm h (permutedAxes_shape_perm hu)) al _
  | matrixScalarProduct => exact bind_congr_ok fun _ _ => bind_congr_ok fun _ _ => mapvR_eq hr h al _
  | matrixScalarProductGeneral p =>
    exact bind_congr_ok fun u hu => bind_congr_ok fun _ _ => bind_congr_ok fun _ _ =>
      mapvR_eq hr (Fits.perm h (permutedAxes_shape_perm hu)) al _
  | broadcastProductGeneral p =>
    simp only [PairOp.runR, PairOp.run, BroadcastProductGeneral.runR, BroadcastProductGeneral.run]
    refine bind_congr_ok fun _ _ => bind_congr_ok fun _ _ => bind_congr_ok fun _ _ => bind_congr_ok fun _ _ => ?_
    simp only [broadcastR_eq hr h]
    refine bind_congr_ok fun u hu => bind_congr_ok fun v hv => mulR_eq hr ?_ al
    have key : ∀ {x y : View A}, unwrapO (x.broadcast p.outputSizes) = .ok y → y.shape = p.outputSizes := fun {x y} e => by
      cases hb : x.broadcast p.outputSizes with
      | none => rw [hb] at e; cases e
      | some b =>
        rw [hb] at e
        cases e
        exact broadcast_shape hb
    rw [key hu, key hv, commonShape_self]
    rintro _ ⟨⟩
    exact h
  | stackedTensordotGeneral p => exact stackedR_eq hr h al l r

end

/-! ## Compiled contractors -/

section
variable {sc : SizedContraction} {dims : Char → Nat} {L R : List Char} {N : Nat}

theorem nzProd_append (a b : List Nat) : nzProd (a ++ b) = nzProd a * nzProd b := by
  simp [nzProd, List.filter_append, List.prod_append]

theorem max_prod_le (a : List Nat) : max 1 a.prod ≤ nzProd a := by
  have h1 := nzProd_pos a
  have h2 := prod_le_nzProd a
  omega

theorem fits_matrix {a b : List Nat} (h : Fits N (a ++ b)) : Fits N [a.prod, b.prod] := by
  unfold Fits at *
  rw [nzProd_append] at h
  rw [nzProd_cons, nzProd_cons]
  refine (Nat.mul_le_mul (max_prod_le a) ?_).trans h
  simpa [nzProd] using max_prod_le b

theorem fits_stack {a b : List Nat} (h : Fits N (a ++ b)) : Fits N (a.prod :: b) := by
  unfold Fits at *
  rw [nzProd_append] at h
  rw [nzProd_cons]
  exact (Nat.mul_le_mul_right _ (max_prod_le a)).trans h

/-- A contractor of one array with the labels `L` stays within the limits of the array and returns one with the labels
`out`. -/
def SingletonOp.Sizes (op : SingletonOp) (dims : Char → Nat) (L out : List Char) : Prop :=
  (∀ N, Fits N (L.map dims) → op.Within N (L.map dims)) ∧
  ∀ (A : Type) [Zero A] [Add A] (al : Alloc A) (v w : View A), v.shape = L.map dims → op.run al v = .ok w →
    w.shape = out.map dims

theorem singleton_sizes (hv : sc.Valid dims) (hops : sc.contraction.operandIndices = [L]) {p : SingletonContraction}
    (hp : SingletonContraction.new sc = .ok p) : p.op.Sizes dims L sc.contraction.outputIndices := by
  have hsub := hv.out_sub hops
  have hout := hv.out.1
  set out := sc.contraction.outputIndices with hO
  have hsum : SingletonSummary.new sc = .ok ⟨(hset L).length - out.length,
      ((charCounts L).filter fun e => 1 < e.2).length,
      ((out.zip L).filter fun p => p.1 ≠ p.2).length⟩ := by
    unfold SingletonSummary.new
    rw [hops]
    simp only [List.length_singleton, decide_true, assertThat_true, bind_ok, index_cons_zero]
    exact summary_ok hout hsub
  have hle := length_le_of_sub hout hsub
  unfold SingletonContraction.new at hp
  rw [hsum] at hp
  simp only [bind_ok, getStrategy_eq, diag_zero_iff, summed_zero_iff hout hsub] at hp
  by_cases hn : L.Nodup
  · rw [if_pos hn] at hp
    by_cases hs : ∀ c ∈ L, c ∈ out
    · rw [if_pos hs] at hp
      have hperm : out.Perm L := perm_of_nodup hout hn fun c => ⟨hsub c, hs c⟩
      by_cases hr : ∃ S, L = out ++ S
      · rw [if_pos ((reord_zero_iff hle).2 hr)] at hp
        cases hp
        obtain ⟨S, hS⟩ := hr
        have hSnil : S = [] := by
          have := hperm.length_eq
          rw [hS, List.length_append] at this
          exact List.length_eq_zero_iff.1 (by omega)
        rw [hSnil, List.append_nil] at hS
        exact ⟨fun _ h => h, fun A _ _ al v w hvs h => by rw [toOwned_shape h, hvs, hS]⟩
      · rw [if_neg (mt (reord_zero_iff hle).1 hr)] at hp
        simp only [SingletonOp.new, Permutation.new_ok hops hperm.length_eq.symm hsub, ← hO, bind_ok] at hp
        cases hp
        refine ⟨fun _ h => h, fun A _ _ al v w hvs h => ?_⟩
        obtain ⟨u, h1, h2⟩ := permutation_shape h
        rw [h2, permutedAxes_labels hvs hsub h1]
    · rw [if_neg hs] at hp
      have hlt : out.length < L.length := by
        rcases Nat.lt_or_ge out.length L.length with h | h
        · exact h
        · exfalso
          have := (hout.subperm hsub).perm_of_length_le h
          exact hs fun c hc => this.mem_iff.2 hc
      by_cases hr : ∃ S, L = out ++ S
      · rw [if_pos ((reord_zero_iff hle).2 hr)] at hp
        simp only [SingletonOp.new, Summation.new, hops, ← hO, index_cons_zero, usub_of_le hle,
          Summation.fromSizes_ok (show 1 ≤ L.length - out.length by omega), bind_ok] at hp
        cases hp
        obtain ⟨S, rfl⟩ := hr
        refine ⟨fun _ h => h, fun A _ _ al v w hvs h => ?_⟩
        rw [summation_shape (by rw [hvs]; simp) h, hvs, List.map_append, List.take_left' (by simp)]
      · rw [if_neg (mt (reord_zero_iff hle).1 hr)] at hp
        simp only [SingletonOp.new, PermutationAndSummation.new_ok hops hlt hn hsub, ← hO, bind_ok] at hp
        cases hp
        refine ⟨fun _ h => h, fun A _ _ al v w hvs h => ?_⟩
        obtain ⟨u, h1, h2⟩ := bind_eq_ok.1 h
        have e := permutedAxes_labels hvs (M := out ++ L.filter fun c => c ∉ out) (fun c hc => by
          rcases List.mem_append.1 hc with h | h
          · exact hsub c h
          · exact (List.mem_filter.1 h).1) h1
        have hl : u.shape.length = out.length + (L.length - out.length) := by
          have := (permutedAxes_shape_perm h1).length_eq
          rw [hvs, List.length_map] at this
          omega
        rw [summation_shape hl h2, e, List.map_append, List.take_left' (by simp)]
  · rw [if_neg hn] at hp
    obtain ⟨new, hd, hdn, hnew⟩ := Diagonalization.new_ok hv hops
    rw [← hO] at hd hdn hnew
    have haL : ∀ c ∈ out ++ new, c ∈ L := fun c hc => by
      rcases List.mem_append.1 hc with h | h
      · exact hsub c h
      · exact ((hnew c).1 h).1
    have hfit : ∀ N, Fits N (L.map dims) → Fits N ((out ++ new).map dims) := fun N h => h.sub hdn haL
    by_cases hs : ∀ c ∈ L, c ∈ out
    · rw [if_pos hs] at hp
      simp only [SingletonOp.new, hd, bind_ok] at hp
      cases hp
      have : new = [] := List.eq_nil_iff_forall_not_mem.2 fun c hc => ((hnew c).1 hc).2 (hs c ((hnew c).1 hc).1)
      subst this
      refine ⟨fun N h => ⟨h, hfit N h⟩, fun A _ _ al v w hvs h => ?_⟩
      rw [diagonalization_shape h, List.append_nil]
    · rw [if_neg hs] at hp
      have hne : 1 ≤ new.length := by
        rcases Nat.eq_zero_or_pos new.length with h | h
        · exfalso
          refine hs fun c hc => ?_
          by_contra ho
          have := (hnew c).2 ⟨hc, ho⟩
          rw [List.length_eq_zero_iff.1 h] at this
          simp at this
        · exact h
      have hsz : ((out ++ new).map dims).length - out.length = new.length := by simp
      simp only [SingletonOp.new, DiagonalizationAndSummation.new, hd, ← hO, bind_ok,
        usub_of_le (show out.length ≤ ((out ++ new).map dims).length by simp), hsz, Summation.fromSizes_ok hne] at hp
      cases hp
      refine ⟨fun N h => ⟨h, hfit N h⟩, fun A _ _ al v w hvs h => ?_⟩
      simp only [SingletonOp.run, DiagonalizationAndSummation.run] at h
      split at h
      · obtain ⟨u, h1, h2⟩ := bind_eq_ok.1 h
        rw [summation_shape (by rw [view_shape h1]; simp) h2, view_shape h1, List.map_append, List.take_left' (by simp)]
      · obtain ⟨u, h1, h2⟩ := bind_eq_ok.1 h
        rw [summation_shape (by rw [diagonalization_shape h1]; simp) h2, diagonalization_shape h1, List.map_append,
          List.take_left' (by simp)]

/-- A contractor of two arrays with the labels `L` and `R` is not `TensordotFixedPosition`, stays within the limits of the
arrays and of the result, and returns an array with the labels `out`. -/
def PairOp.Sizes (op : PairOp) (dims : Char → Nat) (L R out : List Char) : Prop :=
  (∀ p, op ≠ .tensordotFixedPosition p) ∧
  (∀ N, Fits N (L.map dims) → Fits N (R.map dims) → Fits N (out.map dims) → op.Within N (L.map dims) (R.map dims)) ∧
  ∀ (A : Type) [Zero A] [Add A] [Mul A] [MulAdd A] (al : Alloc A) (l r w : View A), l.shape = L.map dims →
    r.shape = R.map dims → op.run al l r = .ok w → w.shape = out.map dims

theorem fixed_within {u v c : List Char} (h1 : Fits N ((u ++ c).map dims)) (h2 : Fits N ((c ++ v).map dims))
    (h3 : Fits N ((u ++ v).map dims)) : TensordotFixedPosition.Within N
      ⟨(u.map dims).prod, (v.map dims).prod, (c.map dims).prod, (u ++ v).map dims⟩ := by
  refine ⟨fits_matrix ?_, fits_matrix ?_, fits_matrix ?_, h3⟩ <;> rwa [← List.map_append]

theorem pairOp_sizes (hv : sc.Valid dims) (hops : sc.contraction.operandIndices = [L, R]) (hL : L.Nodup) (hR : R.Nodup)
    (hLR : ∀ c ∈ L, c ∈ R ∨ c ∈ sc.contraction.outputIndices)
    (hRL : ∀ c ∈ R, c ∈ L ∨ c ∈ sc.contraction.outputIndices) {s : PairSummary} {op : PairOp}
    (hs : PairSummary.new sc = .ok s) (hop : PairOp.new sc s.getStrategy = .ok op) :
    op.Sizes dims L R sc.contraction.outputIndices := by
  have hsub := hv.out_sub2 hops
  have hon := hv.out.1
  obtain ⟨a, b, c, d, e, ha, hb, hc, hd⟩ := pairSummary_ok hL hR hon
  have e' : PairSummary.new sc = .ok ⟨a, b, c, d⟩ := by
    unfold PairSummary.new
    rw [hops]
    simp only [List.length_cons, List.length_nil, Nat.zero_add, Nat.reduceAdd, decide_true,
      assertThat_true, bind_ok, index_cons_zero, index_one]
    exact e
  rw [hs] at e'
  cases e'
  rw [pairStrategy_eq] at hop
  by_cases c1 : d = 0 ∧ b = 0 ∧ c = 0
  · rw [if_pos c1] at hop
    rw [hb, hc, hd] at c1
    obtain ⟨x1, x2, x3⟩ := c1
    rw [hadamardGeneral_new hops hL hR
      (perm_of_nodup hon hL fun x => ⟨fun h => (hsub x h).elim id (x3 x), fun h => x1 x h (x2 x h)⟩)
      (perm_of_nodup hon hR fun x => ⟨fun h => (hsub x h).elim (x2 x) id, fun h => x1 x (x3 x h) h⟩)] at hop
    cases hop
    have pick : ∀ {M : List Char}, (∀ x ∈ sc.contraction.outputIndices, x ∈ M) →
        ((sc.contraction.outputIndices.map fun c => pos c M).map fun a => (M.map dims).getD a 0) =
          sc.contraction.outputIndices.map dims := fun hM => by
      rw [List.map_map]
      exact List.map_congr_left fun x hx => getD_pos (hM x hx) _ _
    have hoL : ∀ x ∈ sc.contraction.outputIndices, x ∈ L := fun x h => (hsub x h).elim id (x3 x)
    have hoR : ∀ x ∈ sc.contraction.outputIndices, x ∈ R := fun x h => (hsub x h).elim (x2 x) id
    refine ⟨fun _ => nofun, fun N h _ _ c hc => ?_, fun A _ _ _ _ al l r w hl hr h => ?_⟩
    · simp only [pick hoL, pick hoR, commonShape_self] at hc
      cases hc
      refine Fits.perm h (List.Perm.map _ ?_)
      exact perm_of_nodup hon hL fun x => ⟨hoL x, fun h => x1 x h (x2 x h)⟩
    · obtain ⟨u, h1, h⟩ := bind_eq_ok.1 h
      obtain ⟨v, h2, h⟩ := bind_eq_ok.1 h
      have := mul_shape h
      rw [permutedAxes_labels hl hoL h1, permutedAxes_labels hr hoR h2, commonShape_self] at this
      exact (Option.some.inj this).symm
  rw [if_neg c1] at hop
  by_cases c2 : d = 0 ∧ b = 0 ∧ a = 0
  · rw [if_pos c2] at hop
    rw [hb, ha, hd] at c2
    obtain ⟨x1, x2, x3⟩ := c2
    have : L = [] := by
      rw [List.eq_nil_iff_forall_not_mem]
      intro x hx
      exact x3 x hx (x2 x hx) (x1 x hx (x2 x hx))
    subst this
    rw [scalarMatrixGeneral_new hops hR (perm_of_nodup hon hR fun x =>
      ⟨fun h => by simpa using hsub x h, fun h => by simpa using hRL x h⟩)] at hop
    cases hop
    refine ⟨fun _ => nofun, fun N _ h _ => h, fun A _ _ _ _ al l r w hl hr h => ?_⟩
    obtain ⟨u, h1, h⟩ := bind_eq_ok.1 h
    obtain ⟨_, -, h⟩ := bind_eq_ok.1 h
    obtain ⟨_, -, h⟩ := bind_eq_ok.1 h
    rw [mapv_shape h, permutedAxes_labels hr (fun x h => by simpa using hsub x h) h1]
  rw [if_neg c2] at hop
  by_cases c3 : d = 0 ∧ c = 0 ∧ a = 0
  · rw [if_pos c3] at hop
    rw [hc, ha, hd] at c3
    obtain ⟨x1, x2, x3⟩ := c3
    have : R = [] := by
      rw [List.eq_nil_iff_forall_not_mem]
      intro x hx
      exact x3 x (x2 x hx) hx (x1 x (x2 x hx) hx)
    subst this
    rw [matrixScalarGeneral_new hops hL (perm_of_nodup hon hL fun x =>
      ⟨fun h => by simpa using hsub x h, fun h => by simpa using hLR x h⟩)] at hop
    cases hop
    refine ⟨fun _ => nofun, fun N h _ _ => h, fun A _ _ _ _ al l r w hl hr h => ?_⟩
    obtain ⟨u, h1, h⟩ := bind_eq_ok.1 h
    obtain ⟨_, -, h⟩ := bind_eq_ok.1 h
    obtain ⟨_, -, h⟩ := bind_eq_ok.1 h
    rw [mapv_shape h, permutedAxes_labels hl (fun x h => by simpa using hsub x h) h1]
  rw [if_neg c3] at hop
  by_cases c4 : a = 0
  · rw [if_pos c4] at hop
    obtain ⟨C, ⟨-, nC, -, cL, cR, nUV, po⟩, hnew⟩ := tensordotGeneral_new hv hops hL hR hLR hRL (ha.1 c4)
    rw [hnew] at hop
    cases hop
    refine ⟨fun _ => nofun, fun N h1 h2 h3 => fixed_within ?_ ?_ ?_, fun A _ _ _ _ al l r w hl hr h => ?_⟩
    · exact h1.perm ((filter_append_perm_of hL nC cL).map dims)
    · exact h2.perm ((List.perm_append_comm.trans (filter_append_perm_of hR nC cR)).map dims)
    · exact h3.perm (po.symm.map dims)
    · obtain ⟨u, v, h1, h2, h3⟩ := tensordot_shape h
      rw [h3, permutedAxes_labels h1 (fun x h => po.mem_iff.1 h) h2]
  · rw [if_neg c4] at hop
    obtain ⟨S, U, V, C, -, ⟨pL, pR, po, -, -⟩, hnew⟩ := stackedGeneral_new hv hops hL hR hLR hRL
    rw [hnew] at hop
    cases hop
    refine ⟨fun _ => nofun, fun N h1 h2 h3 => ?_, fun A _ _ _ _ al l r w hl hr h => ?_⟩
    · have f1 : Fits N ((S ++ (U ++ C)).map dims) := h1.perm (pL.map dims)
      have f2 : Fits N ((S ++ (C ++ V)).map dims) := h2.perm (pR.map dims)
      have f3 : Fits N ((S ++ (U ++ V)).map dims) := h3.perm (po.symm.map dims)
      refine ⟨fits_stack ?_, fits_stack ?_, fits_stack ?_, f3, fixed_within ?_ ?_ ?_⟩
      · rwa [← List.map_append]
      · rwa [← List.map_append]
      · rwa [← List.map_append]
      · exact f1.sublist ((List.sublist_append_right S _).map dims)
      · exact f2.sublist ((List.sublist_append_right S _).map dims)
      · exact f3.sublist ((List.sublist_append_right S _).map dims)
    · obtain ⟨u, v, h1, h2, h3⟩ := stacked_shape h
      rw [h3, permutedAxes_labels h1 (fun x h => po.mem_iff.1 h) h2]

theorem simplification_sizes (hv : sc.Valid dims) {h : HashOrd} {out : List Char}
    (hL : ∀ c ∈ L, c ∈ sc.contraction.operandIndices.flatten) {s : Option SimplificationMethodAndOutput}
    (hs : SimplificationMethodAndOutput.fromIndicesAndSizes h L R out sc = .ok s) :
    ∀ o, s = some o → o.op.Sizes dims L (newIndicesOr s L) := by
  rintro o rfl
  set D := desiredIndices (h.sub 0) L R out with hD
  have hout : OutputOk [L] D := ⟨nodup_desired, fun c hc => used_iff.2 (by simpa using (mem_desired.1 hc).1)⟩
  obtain ⟨sc', h1, h2, h3, h4⟩ := hv.subset (h.sub 1) (ops := [L]) (by simpa using hL) hout
  unfold SimplificationMethodAndOutput.fromIndicesAndSizes at hs
  simp only [← hD, h1, unwrapR_ok, bind_ok] at hs
  obtain ⟨p, h5, h6⟩ := bind_eq_ok.1 hs
  obtain ⟨h7, h8⟩ := singleton_sizes h2 h3 h5
  rw [h4] at h8
  have key : o.op = p.op ∧ newIndicesOr (some o) L = D := by
    cases hm : p.method <;> rw [hm] at h6 <;> simp only at h6
    all_goals first
      | cases h6
      | (obtain ⟨str, -, h6⟩ := bind_eq_ok.1 h6
         cases h6
         exact ⟨rfl, rfl⟩)
  rw [key.1, key.2]
  exact ⟨h7, fun A _ _ => h8 A⟩

/-- What a compiled pair contraction does with limits. -/
theorem pairR_sizes (hv : sc.Valid dims) (hops : sc.contraction.operandIndices = [L, R]) {h : HashOrd}
    {p : PairContraction} (hp : PairContraction.new h sc = .ok p) {A : Type} [Zero A] [Add A] [Mul A] [MulAdd A]
    (room : Room) (al : Alloc A) {l r : View A} (hl : l.shape = L.map dims) (hr : r.shape = R.map dims) :
    (∀ w, p.run al l r = .ok w → w.shape = sc.contraction.outputIndices.map dims) ∧
    (∀ w, p.runR room al l r = .ok w → room.alloc w.shape = true) ∧
    ∀ N, room.Upto N → Fits N (L.map dims) → Fits N (R.map dims) → Fits N (sc.contraction.outputIndices.map dims) →
      p.runR room al l r = p.run al l r := by
  have hsub := hv.out_sub2 hops
  have hon := hv.out.1
  set out := sc.contraction.outputIndices with hO
  unfold PairContraction.new at hp
  rw [hops] at hp
  simp only [List.length_cons, List.length_nil, Nat.zero_add, Nat.reduceAdd, decide_true,
    assertThat_true, bind_ok, index_cons_zero, index_one] at hp
  obtain ⟨sl, l1, l2, l3, -⟩ := simplification_ok hv (h.sub 0) (L := L) (R := R) (out := out)
    (by rw [hops]; intro c hc; simp [hc])
  obtain ⟨sr, r1, r2, r3, -⟩ := simplification_ok hv (h.sub 1) (L := R) (R := L) (out := out)
    (by rw [hops]; intro c hc; simp [hc])
  have l4 := simplification_sizes hv (by rw [hops]; intro c hc; simp [hc]) l1
  have r4 := simplification_sizes hv (by rw [hops]; intro c hc; simp [hc]) r1
  rw [← hO, l1, bind_ok, r1, bind_ok] at hp
  set NL := newIndicesOr sl L with hNL
  set NR := newIndicesOr sr R with hNR
  obtain ⟨red, h1, h2, h3, h4⟩ := hv.subset (h.sub 2) (ops := [NL, NR]) (out := out)
    (by
      rw [hops]; intro c hc
      simp only [List.flatten_cons, List.flatten_nil, List.append_nil, List.mem_append, l3, r3] at hc ⊢
      tauto)
    ⟨hon, fun c hc => used_iff.2 (by
      simp only [List.flatten_cons, List.flatten_nil, List.append_nil, List.mem_append, l3, r3]
      have := hsub c hc
      tauto)⟩
  rw [h1, unwrapR_ok, bind_ok] at hp
  obtain ⟨s, h5, hp⟩ := bind_eq_ok.1 hp
  obtain ⟨op, h6, hp⟩ := bind_eq_ok.1 hp
  obtain ⟨str, -, hp⟩ := bind_eq_ok.1 hp
  cases hp
  obtain ⟨k1, k2, k3⟩ := pairOp_sizes h2 h3 l2 r2
    (by rw [h4]; intro c hc; rw [r3]; have := (l3 c).1 hc; tauto)
    (by rw [h4]; intro c hc; rw [l3]; have := (r3 c).1 hc; tauto) h5 h6
  rw [h4] at k2 k3
  -- the simplified operands
  have simp_shape : ∀ (s : Option SimplificationMethodAndOutput) (X : List Char) (x x' : View A) (al : Alloc A),
      (∀ o, s = some o → o.op.Sizes dims X (newIndicesOr s X)) → x.shape = X.map dims →
      simplifyOperand al s x = .ok x' → x'.shape = (newIndicesOr s X).map dims := by
    intro s X x x' al hs hx hx'
    cases s with
    | none => cases hx'; exact hx
    | some o => exact (hs o rfl).2 A al x x' hx hx'
  have simp_eq : ∀ (s : Option SimplificationMethodAndOutput) (X : List Char) (x : View A) (al : Alloc A) (N : Nat),
      (∀ o, s = some o → o.op.Sizes dims X (newIndicesOr s X)) → x.shape = X.map dims → room.Upto N →
      Fits N (X.map dims) → simplifyOperandR room al s x = simplifyOperand al s x := by
    intro s X x al N hs hx hroom hX
    cases s with
    | none => rfl
    | some o => exact singletonOpR_eq hroom (by rw [hx]; exact (hs o rfl).1 N hX) al
  refine ⟨fun w h => ?_, fun w h => ?_, fun N hroom fL fR fO => ?_⟩
  · obtain ⟨l', e1, h⟩ := bind_eq_ok.1 h
    obtain ⟨r', e2, h⟩ := bind_eq_ok.1 h
    exact k3 A _ l' r' w (simp_shape _ _ _ _ _ l4 hl e1) (simp_shape _ _ _ _ _ r4 hr e2) h
  · obtain ⟨l', e1, h⟩ := bind_eq_ok.1 h
    obtain ⟨r', e2, h⟩ := bind_eq_ok.1 h
    exact pairOpR_needs k1 h
  · unfold PairContraction.runR PairContraction.run
    simp only
    rw [simp_eq _ _ _ _ _ l4 hl hroom fL, simp_eq _ _ _ _ _ r4 hr hroom fR]
    refine bind_congr_ok fun l' e1 => bind_congr_ok fun r' e2 => pairOpR_eq hroom ?_ _
    rw [simp_shape _ _ _ _ _ l4 hl e1, simp_shape _ _ _ _ _ r4 hr e2]
    exact k2 N (fL.sub l2 fun c hc => ((l3 c).1 hc).1) (fR.sub r2 fun c hc => ((r3 c).1 hc).1) fO

end

/-! ## Paths -/

section
variable {A : Type} [Zero A] [Add A] [Mul A] [MulAdd A] {dims : Char → Nat} {inputs : List (List Char)}

/-- The array has the lengths of the labels. -/
def ShapeOf {A : Type} (dims : Char → Nat) (L : List Char) (v : View A) : Prop := v.shape = L.map dims

omit [Zero A] [Add A] [Mul A] [MulAdd A] in
theorem fetch_shape {outs : List (List Char)} {operands inter : List (View A)}
    (ho : List.Forall₂ (ShapeOf dims) inputs operands) (hi : List.Forall₂ (ShapeOf dims) outs inter) {n : OperandNumber}
    {L : List Char} (hL : labelsOf inputs outs n = some L) {v : View A} (hv : fetch operands inter n = .ok v) :
    v.shape = L.map dims := by
  cases n with
  | input k => exact forall₂_get ho hL (index_eq_ok.1 hv)
  | intermediateResult k => exact forall₂_get hi hL (index_eq_ok.1 hv)

theorem labelsOf_mem {outs : List (List Char)} {n : OperandNumber} {L : List Char} (h : labelsOf inputs outs n = some L) :
    L ∈ inputs ∨ L ∈ outs := by
  cases n with
  | input k => exact .inl (List.mem_of_getElem? h)
  | intermediateResult k => exact .inr (List.mem_of_getElem? h)

/-- The arrays computed by the steps have the output labels of the steps. -/
theorem runSteps_shapes (steps : List PairStep) (h : HashOrd) {cs : List PairContraction}
    (hcs : compileSteps h steps = .ok cs) (outs : List (List Char)) (hw : Wired dims inputs steps outs) (al : Alloc A)
    (operands inter res : List (View A)) (ho : List.Forall₂ (ShapeOf dims) inputs operands)
    (hi : List.Forall₂ (ShapeOf dims) outs inter) (hr : runSteps al operands (cs.zip steps) inter = .ok res) :
    List.Forall₂ (ShapeOf dims) (outs ++ steps.map fun st => st.sizedContraction.contraction.outputIndices) res := by
  induction steps generalizing h cs outs al inter with
  | nil =>
    cases hcs
    cases hr
    simpa using hi
  | cons st steps ih =>
    obtain ⟨w1, ⟨l, r, w2, w3, w4⟩, w5⟩ := hw
    simp only [compileSteps] at hcs
    obtain ⟨p, c1, c2⟩ := bind_eq_ok.1 hcs
    obtain ⟨cs, c3, c4⟩ := bind_eq_ok.1 c2
    cases c4
    simp only [List.zip_cons_cons, runSteps] at hr
    obtain ⟨lv, f1, g1⟩ := bind_eq_ok.1 hr
    obtain ⟨rv, f2, g2⟩ := bind_eq_ok.1 g1
    obtain ⟨w, f3, g3⟩ := bind_eq_ok.1 g2
    obtain ⟨k1, -, -⟩ := pairR_sizes w1 w2 c1 ⟨fun _ => true, fun _ => true⟩ (al.sub 0) (fetch_shape ho hi w3 f1)
      (fetch_shape ho hi w4 f2)
    have := ih _ c3 _ w5 (al.sub 1) (inter ++ [w]) (List.rel_append hi (.cons (k1 w f3) .nil)) g3
    simpa using this

/-- If the steps return, their results could be allocated. -/
theorem runStepsR_needs {room : Room} (steps : List PairStep) (h : HashOrd) {cs : List PairContraction}
    (hcs : compileSteps h steps = .ok cs) (outs : List (List Char)) (hw : Wired dims inputs steps outs) (al : Alloc A)
    (operands inter res : List (View A)) (ho : List.Forall₂ (ShapeOf dims) inputs operands)
    (hi : List.Forall₂ (ShapeOf dims) outs inter) (hr : runStepsR room al operands (cs.zip steps) inter = .ok res) :
    ∀ st ∈ steps, room.alloc (st.sizedContraction.contraction.outputIndices.map dims) = true := by
  induction steps generalizing h cs outs al inter with
  | nil => simp
  | cons st steps ih =>
    obtain ⟨w1, ⟨l, r, w2, w3, w4⟩, w5⟩ := hw
    simp only [compileSteps] at hcs
    obtain ⟨p, c1, c2⟩ := bind_eq_ok.1 hcs
    obtain ⟨cs, c3, c4⟩ := bind_eq_ok.1 c2
    cases c4
    simp only [List.zip_cons_cons, runStepsR] at hr
    obtain ⟨lv, f1, g1⟩ := bind_eq_ok.1 hr
    obtain ⟨rv, f2, g2⟩ := bind_eq_ok.1 g1
    obtain ⟨w, f3, g3⟩ := bind_eq_ok.1 g2
    obtain ⟨k1, k2, -⟩ := pairR_sizes w1 w2 c1 room (al.sub 0) (fetch_shape ho hi w3 f1) (fetch_shape ho hi w4 f2)
    have e := k1 w ((pairR_limited room p _ lv rv).ok f3)
    intro st' hst
    rcases List.mem_cons.1 hst with rfl | hst
    · rw [← e]; exact k2 w f3
    · exact ih _ c3 _ w5 (al.sub 1) (inter ++ [w]) (List.rel_append hi (.cons e .nil)) g3 st' hst

/-- The arrays that the steps add could be allocated. -/
theorem runStepsR_alloc {room : Room} (steps : List PairStep) (h : HashOrd) {cs : List PairContraction}
    (hcs : compileSteps h steps = .ok cs) (outs : List (List Char)) (hw : Wired dims inputs steps outs) (al : Alloc A)
    (operands inter res : List (View A)) (ho : List.Forall₂ (ShapeOf dims) inputs operands)
    (hi : List.Forall₂ (ShapeOf dims) outs inter) (hr : runStepsR room al operands (cs.zip steps) inter = .ok res) :
    ∀ v ∈ res, v ∈ inter ∨ room.alloc v.shape = true := by
  induction steps generalizing h cs outs al inter with
  | nil =>
    cases hcs
    cases hr
    exact fun v hv => .inl hv
  | cons st steps ih =>
    obtain ⟨w1, ⟨l, r, w2, w3, w4⟩, w5⟩ := hw
    simp only [compileSteps] at hcs
    obtain ⟨p, c1, c2⟩ := bind_eq_ok.1 hcs
    obtain ⟨cs, c3, c4⟩ := bind_eq_ok.1 c2
    cases c4
    simp only [List.zip_cons_cons, runStepsR] at hr
    obtain ⟨lv, f1, g1⟩ := bind_eq_ok.1 hr
    obtain ⟨rv, f2, g2⟩ := bind_eq_ok.1 g1
    obtain ⟨w, f3, g3⟩ := bind_eq_ok.1 g2
    obtain ⟨k1, k2, -⟩ := pairR_sizes w1 w2 c1 room (al.sub 0) (fetch_shape ho hi w3 f1) (fetch_shape ho hi w4 f2)
    have e := k1 w ((pairR_limited room p _ lv rv).ok f3)
    intro v hv
    rcases ih _ c3 _ w5 (al.sub 1) (inter ++ [w]) (List.rel_append hi (.cons e .nil)) g3 v hv with h | h
    · rcases List.mem_append.1 h with h | h
      · exact .inl h
      · rw [List.mem_singleton.1 h]; exact .inr (k2 w f3)
    · exact .inr h

/-- Steps whose operands and results are within the limits are not changed by them. -/
theorem runStepsR_eq {room : Room} {N : Nat} (hroom : room.Upto N) (steps : List PairStep) (h : HashOrd)
    {cs : List PairContraction} (hcs : compileSteps h steps = .ok cs) (outs : List (List Char))
    (hw : Wired dims inputs steps outs) (al : Alloc A) (operands inter : List (View A))
    (ho : List.Forall₂ (ShapeOf dims) inputs operands) (hi : List.Forall₂ (ShapeOf dims) outs inter)
    (hfit : ∀ L ∈ inputs, Fits N (L.map dims)) (hfo : ∀ L ∈ outs, Fits N (L.map dims))
    (hst : ∀ st ∈ steps, Fits N (st.sizedContraction.contraction.outputIndices.map dims)) :
    runStepsR room al operands (cs.zip steps) inter = runSteps al operands (cs.zip steps) inter := by
  induction steps generalizing h cs outs al inter with
  | nil => cases hcs; rfl
  | cons st steps ih =>
    obtain ⟨w1, ⟨l, r, w2, w3, w4⟩, w5⟩ := hw
    simp only [compileSteps] at hcs
    obtain ⟨p, c1, c2⟩ := bind_eq_ok.1 hcs
    obtain ⟨cs, c3, c4⟩ := bind_eq_ok.1 c2
    cases c4
    simp only [List.zip_cons_cons, runSteps, runStepsR]
    refine bind_congr_ok fun lv f1 => bind_congr_ok fun rv f2 => ?_
    obtain ⟨k1, -, k3⟩ := pairR_sizes w1 w2 c1 room (al.sub 0) (fetch_shape ho hi w3 f1) (fetch_shape ho hi w4 f2)
    rw [k3 N hroom ((labelsOf_mem w3).elim (hfit l) (hfo l)) ((labelsOf_mem w4).elim (hfit r) (hfo r)) (hst st (by simp))]
    refine bind_congr_ok fun w f3 => ?_
    refine ih _ c3 _ w5 (al.sub 1) (inter ++ [w]) (List.rel_append hi (.cons (k1 w f3) .nil)) ?_
      fun st' hs => hst st' (by simp [hs])
    intro L hL
    rcases List.mem_append.1 hL with h | h
    · exact hfo L h
    · rw [List.mem_singleton.1 h]; exact hst st (by simp)

theorem runR_norm (room : Room) (al : Alloc A) (operands inter : List (View A)) (cs : List PairContraction)
    (steps : List PairStep) :
    runStepsR room al operands (cs.zip (steps.map PairStep.norm)) inter = runStepsR room al operands (cs.zip steps) inter := by
  induction steps generalizing al inter cs with
  | nil => simp
  | cons st steps ih =>
    cases cs with
    | nil => rfl
    | cons c cs =>
      simp only [List.map_cons, List.zip_cons_cons, runStepsR, ih]
      rfl

omit [Zero A] [Add A] [Mul A] [MulAdd A] in
theorem shapeOf_of {operands : List (View A)} (hs : Sized dims inputs (operands.map View.shape)) :
    List.Forall₂ (ShapeOf dims) inputs operands := by
  induction operands generalizing inputs with
  | nil => cases hs; exact .nil
  | cons v vs ih =>
    cases hs with
    | cons h1 h2 => exact .cons h1 (ih h2)

omit [Zero A] [Add A] [Mul A] [MulAdd A] in
theorem fits_inputs {N : Nat} {operands : List (View A)} (hs : Sized dims inputs (operands.map View.shape))
    (hfit : ∀ v ∈ operands, Fits N v.shape) : ∀ L ∈ inputs, Fits N (L.map dims) := by
  induction operands generalizing inputs with
  | nil => cases hs; simp
  | cons v vs ih =>
    cases hs with
    | cons h1 h2 =>
      intro L hL
      rcases List.mem_cons.1 hL with rfl | hL
      · have := hfit v (by simp)
        rwa [h1] at this
      · exact ih h2 (fun w hw => hfit w (by simp [hw])) L hL

end

/-! ## tensordot -/

theorem fromAxes_inv {ls rs la ra order : List Nat} {t : TensordotGeneral}
    (h : TensordotGeneral.fromShapesAndAxisNumbers ls rs la ra order = .ok t) :
    ∃ u c c' v : List Nat, (u ++ c).Perm ls ∧ (c' ++ v).Perm rs ∧ c'.prod = c.prod ∧
      t.tensordotFixedPosition = ⟨u.prod, v.prod, c.prod, u ++ v⟩ := by
  have h0 := h
  simp only [TensordotGeneral.fromShapesAndAxisNumbers] at h
  obtain ⟨_, a1, h⟩ := bind_eq_ok.1 h
  obtain ⟨_, a2, h⟩ := bind_eq_ok.1 h
  obtain ⟨_, a3, h⟩ := bind_eq_ok.1 h
  obtain ⟨l', hls, h⟩ := bind_eq_ok.1 h
  obtain ⟨r', hrs, h⟩ := bind_eq_ok.1 h
  have nl : la.Nodup := hset_length_eq_iff.1 (of_decide_eq_true (assertThat_ok a2)).symm
  have a1 : la.length = ra.length := by simpa using assertThat_ok a1
  have nr : ra.Nodup := hset_length_eq_iff.1 (by rw [← a1]; exact (of_decide_eq_true (assertThat_ok a3)).symm)
  have il : ∀ a ∈ la, a < ls.length := fun a ha => (mapE_index_eq hls).1 a (by simp [ha])
  have ir : ∀ a ∈ ra, a < rs.length := fun a ha => (mapE_index_eq hrs).1 a (by simp [ha])
  rw [fromAxes_ok a1 nl nr il ir] at h0
  split at h0
  · next hp =>
    cases h0
    have range_perm : ∀ {s axes : List Nat}, axes.Perm (List.range s.length) → (lengths s axes).Perm s := by
      intro s axes hp
      exact mapE_index_perm (mapE_index fun a ha => by simpa using hp.mem_iff.1 ha) hp
    refine ⟨_, _, lengths rs ra, _, ?_, ?_, hp, rfl⟩
    · rw [← lengths_append]; exact range_perm (kept_perm nl il)
    · rw [← lengths_append]; exact range_perm (List.perm_append_comm.trans (kept_perm nr ir))
  · cases h0

end Einsum
