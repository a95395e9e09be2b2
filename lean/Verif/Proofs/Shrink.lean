import Verif.Model.Overflow
import Verif.Proofs.Path
import Verif.Proofs.Natural
import Verif.Proofs.Safe
import Mathlib.Algebra.Ring.PUnit

/-! # Contractors compiled with lengths that may be too small

`Both` compares two compilations that succeed; `Shrunk` says that one contractor differs from the other only in
lengths that are no larger.  Two such contractors that both return an array return the same one. -/

namespace Einsum

open Spec

variable {α α' β β' : Type}

/-- When both succeed, the results are related. -/
def Both (m' : M α') (m : M α) (R : α' → α → Prop) : Prop := ∀ a' a, m' = .ok a' → m = .ok a → R a' a

theorem Both.bind {m' : M α'} {m : M α} {R : α' → α → Prop} {f' : α' → M β'} {f : α → M β} {S : β' → β → Prop}
    (h : Both m' m R) (hf : ∀ a' a, R a' a → Both (f' a') (f a) S) : Both (m' >>= f') (m >>= f) S := by
  intro b' b h1 h2
  obtain ⟨a', h3, h4⟩ := bind_eq_ok.1 h1
  obtain ⟨a, h5, h6⟩ := bind_eq_ok.1 h2
  exact hf a' a (h a' a h3 h5) b' b h4 h6

theorem Both.step (m : M α) {f' : α → M β'} {f : α → M β} {S : β' → β → Prop}
    (hf : ∀ a, m = .ok a → Both (f' a) (f a) S) : Both (m >>= f') (m >>= f) S := by
  intro b' b h1 h2
  obtain ⟨a', h3, h4⟩ := bind_eq_ok.1 h1
  obtain ⟨a, h5, h6⟩ := bind_eq_ok.1 h2
  rw [h3] at h5
  cases h5
  exact hf a' h3 b' b h4 h6

theorem Both.ok {a' : α'} {a : α} {R : α' → α → Prop} (h : R a' a) : Both (.ok a') (.ok a) R := by
  rintro _ _ ⟨⟩ ⟨⟩
  exact h

theorem Both.panic_left {k : PanicKind} {m : M α} {R : α' → α → Prop} : Both (panic k) m R := by
  rintro _ _ ⟨⟩

/-- Products are computed as something no larger. -/
def NoLarger (mul : UMul) : Prop := ∀ a b x, mul a b = .ok x → x ≤ a * b

theorem noLarger_umul (W : Nat) : NoLarger (umul W) := by
  intro a b x h
  unfold umul at h
  split at h
  · cases h; exact le_refl _
  · cases h

theorem noLarger_uwrap (W : Nat) : NoLarger (uwrap W) := by
  intro a b x h
  cases h
  exact Nat.mod_le _ _

/-- A factor too small, multiplied. -/
theorem NoLarger.mul {mul : UMul} (hm : NoLarger mul) {a' a b : Nat} (h : a' ≤ a) :
    ∀ x, mul a' b = .ok x → x ≤ a * b := fun x hx => (hm _ _ x hx).trans (Nat.mul_le_mul h (le_refl _))

/-- The same output shape and lengths that are no larger. -/
def TensordotFixedPosition.Shrunk (p' p : TensordotFixedPosition) : Prop :=
  p'.lenUncontractedLhs ≤ p.lenUncontractedLhs ∧ p'.lenUncontractedRhs ≤ p.lenUncontractedRhs ∧
    p'.lenContractedAxes ≤ p.lenContractedAxes ∧ p'.outputShape = p.outputShape

def TensordotGeneral.Shrunk (p' p : TensordotGeneral) : Prop :=
  p'.lhsPermutation = p.lhsPermutation ∧ p'.rhsPermutation = p.rhsPermutation ∧
    p'.tensordotFixedPosition.Shrunk p.tensordotFixedPosition ∧ p'.outputPermutation = p.outputPermutation

def StackedTensordotGeneral.Shrunk (p' p : StackedTensordotGeneral) : Prop :=
  p'.lhsPermutation = p.lhsPermutation ∧ p'.rhsPermutation = p.rhsPermutation ∧
    p'.tensordotFixedPosition.Shrunk p.tensordotFixedPosition ∧ p'.outputPermutation = p.outputPermutation ∧
    p'.outputShape = p.outputShape ∧ ∃ n' n tl tr ti, n' ≤ n ∧ p'.lhsOutputShape = n' :: tl ∧ p.lhsOutputShape = n :: tl ∧
      p'.rhsOutputShape = n' :: tr ∧ p.rhsOutputShape = n :: tr ∧ p'.intermediateShape = n' :: ti ∧
      p.intermediateShape = n :: ti

/-- Only lengths differ, and they are no larger. -/
def PairOp.Shrunk : PairOp → PairOp → Prop
  | .tensordotFixedPosition p', .tensordotFixedPosition p => p'.Shrunk p
  | .tensordotGeneral p', .tensordotGeneral p => p'.Shrunk p
  | .stackedTensordotGeneral p', .stackedTensordotGeneral p => p'.Shrunk p
  | op', op => op' = op

section compile
variable {mul : UMul} (hm : NoLarger mul)
include hm

theorem both_lhsLoop (N k : Nat) (ns : List Nat) (axis u' u c' c : Nat) (out : List Nat) (hu : u' ≤ u) (hc : c' ≤ c) :
    Both (lhsLoopW mul N k axis ns (u', c', out)) (lhsLoop N k axis ns (u, c, out))
      fun x y => x.1 ≤ y.1 ∧ x.2.1 ≤ y.2.1 ∧ x.2.2 = y.2.2 := by
  induction ns generalizing axis u' u c' c out with
  | nil => exact .ok ⟨hu, hc, rfl⟩
  | cons n ns ih =>
    simp only [lhsLoopW, lhsLoop]
    refine .step _ fun cut _ => ?_
    split
    · intro a' a h1 h2
      obtain ⟨x, h3, h4⟩ := bind_eq_ok.1 h1
      exact ih _ _ _ _ _ _ (hm.mul hu x h3) hc a' a h4 h2
    · intro a' a h1 h2
      obtain ⟨x, h3, h4⟩ := bind_eq_ok.1 h1
      exact ih _ _ _ _ _ _ hu (hm.mul hc x h3) a' a h4 h2

theorem both_rhsLoop (k : Nat) (ns : List Nat) (axis u' u c' c : Nat) (out : List Nat) (hu : u' ≤ u) (hc : c' ≤ c) :
    ∀ x, rhsLoopW mul k axis ns (u', c', out) = .ok x →
      x.1 ≤ (rhsLoop k axis ns (u, c, out)).1 ∧ x.2.1 ≤ (rhsLoop k axis ns (u, c, out)).2.1 ∧
        x.2.2 = (rhsLoop k axis ns (u, c, out)).2.2 := by
  induction ns generalizing axis u' u c' c out with
  | nil => rintro x ⟨⟩; exact ⟨hu, hc, rfl⟩
  | cons n ns ih =>
    intro x hx
    simp only [rhsLoopW, rhsLoop] at hx ⊢
    split at hx
    · next h =>
      rw [if_pos h]
      obtain ⟨y, h3, h4⟩ := bind_eq_ok.1 hx
      exact ih _ _ _ _ _ _ hu (hm.mul hc y h3) x h4
    · next h =>
      rw [if_neg h]
      obtain ⟨y, h3, h4⟩ := bind_eq_ok.1 hx
      exact ih _ _ _ _ _ _ (hm.mul hu y h3) hc x h4

theorem both_fromShapes (l r : List Nat) (k : Nat) :
    Both (TensordotFixedPosition.fromShapesW mul l r k) (TensordotFixedPosition.fromShapes l r k)
      TensordotFixedPosition.Shrunk := by
  simp only [TensordotFixedPosition.fromShapesW, TensordotFixedPosition.fromShapes]
  refine (both_lhsLoop hm _ _ _ _ _ _ _ _ _ (le_refl _) (le_refl _)).bind ?_
  rintro ⟨u', c', o'⟩ ⟨u, c, o⟩ ⟨h1, h2, h3⟩
  simp only at h1 h2 h3
  subst h3
  intro a' a e1 e2
  obtain ⟨⟨x1, x2, x3⟩, e3, e4⟩ := bind_eq_ok.1 e1
  obtain ⟨r1, -, r3⟩ := both_rhsLoop hm _ _ _ _ _ _ _ _ (le_refl _) (le_refl _) _ e3
  obtain ⟨_, -, e5⟩ := bind_eq_ok.1 e4
  obtain ⟨_, -, e6⟩ := bind_eq_ok.1 e2
  cases e5
  cases e6
  exact ⟨h1, r1, h2, r3⟩

theorem both_tensordotFixed (sc : SizedContraction) :
    Both (TensordotFixedPosition.newW mul sc) (TensordotFixedPosition.new sc) TensordotFixedPosition.Shrunk := by
  simp only [TensordotFixedPosition.newW, TensordotFixedPosition.new]
  exact .step _ fun _ _ => .step _ fun _ _ => .step _ fun _ _ => .step _ fun _ _ => .step _ fun _ _ => .step _ fun _ _ =>
    .step _ fun _ _ => both_fromShapes hm _ _ _

theorem both_fromAxisNumbers (l r la ra order : List Nat) :
    Both (TensordotGeneral.fromShapesAndAxisNumbersW mul l r la ra order)
      (TensordotGeneral.fromShapesAndAxisNumbers l r la ra order) TensordotGeneral.Shrunk := by
  simp only [TensordotGeneral.fromShapesAndAxisNumbersW, TensordotGeneral.fromShapesAndAxisNumbers]
  exact .step _ fun _ _ => .step _ fun _ _ => .step _ fun _ _ => .step _ fun _ _ => .step _ fun _ _ =>
    (both_fromShapes hm _ _ _).bind fun p' p hp => .ok ⟨rfl, rfl, hp, rfl⟩

theorem both_tensordotGeneral (sc : SizedContraction) :
    Both (TensordotGeneral.newW mul sc) (TensordotGeneral.new sc) TensordotGeneral.Shrunk := by
  simp only [TensordotGeneral.newW, TensordotGeneral.new, TensordotGeneral.fromShapesAndIndicesW,
    TensordotGeneral.fromShapesAndIndices]
  exact .step _ fun _ _ => .step _ fun _ _ => .step _ fun _ _ => .step _ fun _ _ => .step _ fun _ _ => .step _ fun _ _ =>
    .step _ fun _ _ => .step _ fun _ _ => both_fromAxisNumbers hm _ _ _ _ _

theorem both_stackClassify (sc : SizedContraction) (l : List ((Option Nat × Option Nat) × Char)) (acc : StackAcc) (n : Nat)
    (hn : n ≤ acc.stackLen) :
    Both (stackClassifyW mul sc l { acc with stackLen := n }) (stackClassify sc l acc)
      fun x y => ∃ n', n' ≤ y.stackLen ∧ x = { y with stackLen := n' } := by
  induction l generalizing acc n with
  | nil => exact .ok ⟨n, hn, rfl⟩
  | cons a l ih =>
    obtain ⟨⟨_ | lp, _ | rp⟩, c⟩ := a <;> simp only [stackClassifyW, stackClassify]
    · exact .panic_left
    · exact .step _ fun d _ => ih { acc with
        rhsOuterAxes := acc.rhsOuterAxes ++ [rp], rhsOuterIndices := acc.rhsOuterIndices ++ [c]
        rhsUncontractedShape := acc.rhsUncontractedShape ++ [d] } n hn
    · exact .step _ fun d _ => ih { acc with
        lhsOuterAxes := acc.lhsOuterAxes ++ [lp], lhsOuterIndices := acc.lhsOuterIndices ++ [c]
        lhsUncontractedShape := acc.lhsUncontractedShape ++ [d] } n hn
    · refine .step _ fun d _ => ?_
      intro a' a h1 h2
      obtain ⟨x, h3, h4⟩ := bind_eq_ok.1 h1
      exact ih { acc with
        lhsStackAxes := acc.lhsStackAxes ++ [lp], rhsStackAxes := acc.rhsStackAxes ++ [rp]
        stackIndices := acc.stackIndices ++ [c], stackLen := acc.stackLen * d } x (hm.mul hn x h3) a' a h4 h2

theorem both_stacked (sc : SizedContraction) :
    Both (StackedTensordotGeneral.newW mul sc) (StackedTensordotGeneral.new sc) StackedTensordotGeneral.Shrunk := by
  simp only [StackedTensordotGeneral.newW, StackedTensordotGeneral.new]
  refine .step _ fun _ _ => .step _ fun _ _ => .step _ fun _ _ => .step _ fun _ _ => .step _ fun _ _ =>
    (both_stackClassify hm sc _ {} 1 (le_refl _)).bind ?_
  rintro _ acc ⟨n, hn, rfl⟩
  refine .step _ fun x _ => ?_
  obtain ⟨x1, x2, x3⟩ := x
  exact .step _ fun _ _ => .step _ fun _ _ => .step _ fun _ _ => .step _ fun _ _ =>
    (both_fromShapes hm _ _ _).bind fun p' p hp =>
      .ok ⟨rfl, rfl, hp, rfl, rfl, n, _, _, _, _, hn, rfl, rfl, rfl, rfl, rfl, rfl⟩

theorem both_pairOp (sc : SizedContraction) (m : PairMethod) :
    Both (PairOp.newW mul sc m) (PairOp.new sc m) PairOp.Shrunk := by
  cases m <;> simp only [PairOp.newW, PairOp.new]
  case tensordotFixedPosition => exact (both_tensordotFixed hm sc).bind fun p' p hp => .ok hp
  case tensordotGeneral => exact (both_tensordotGeneral hm sc).bind fun p' p hp => .ok hp
  case stackedTensordotGeneral => exact (both_stacked hm sc).bind fun p' p hp => .ok hp
  all_goals exact .step _ fun _ _ => .ok rfl

end compile

section run
variable {A : Type} [Zero A] [Add A] [Mul A] [MulAdd A]

omit [Zero A] [Add A] [Mul A] [MulAdd A] in
theorem intoShape_prod {v w : View A} {s : List Nat} (h : v.intoShape s = some w) :
    s.prod = v.shape.prod ∧ w.shape = s := by
  unfold View.intoShape at h
  split at h
  · cases h
  · next hp =>
    refine ⟨by simpa using hp, ?_⟩
    split at h
    · cases h; rfl
    · split at h
      · cases h; rfl
      · cases h

omit [Zero A] [Add A] [Mul A] [MulAdd A] in
theorem intoShape_empty {v w : View A} {s : List Nat} (h : v.intoShape s = some w) (h0 : s.prod = 0) :
    w = ⟨v.buf, v.off, s, defaultStrides s⟩ := by
  have hp := (intoShape_prod h).1
  have hstd : v.isStandardLayout = true := by
    rw [hp, List.prod_eq_zero_iff] at h0
    simp only [View.isStandardLayout, isStandard, Bool.or_eq_true, List.any_eq_true, decide_eq_true_eq]
    exact .inl ⟨0, h0, rfl⟩
  unfold View.intoShape at h
  rw [if_neg (by simpa using hp), if_pos hstd] at h
  cases h
  rfl

omit [Zero A] [Add A] [Mul A] [MulAdd A] in
theorem toVec_length {v : View A} {d : List A} (h : v.toVec = .ok d) : d.length = v.shape.prod := by
  rw [View.toVec] at h
  rw [mapE_length h, allIdx_length]

omit [Zero A] [Add A] [Mul A] [MulAdd A] in
theorem asMatrix_ok {t w : View A} {rows cols : Nat} (h : asMatrix t rows cols = .ok w) :
    rows * cols = t.shape.prod ∧ w.shape = [rows, cols] := by
  unfold asMatrix at h
  split at h
  · split at h
    · next v hi =>
      cases h
      simpa using intoShape_prod hi
    · cases h
  · obtain ⟨d, h1, h2⟩ := bind_eq_ok.1 h
    split at h2
    · next v hf =>
      cases h2
      unfold fromShapeVec at hf
      split at hf
      · next hp =>
        cases hf
        have := toVec_length h1
        refine ⟨?_, rfl⟩
        simp only [List.prod_cons, List.prod_nil, mul_one] at hp
        omega
      · cases hf
    · cases h2

theorem dot_ok {al : Alloc A} {l r v : View A} {m k k' n : Nat} (hl : l.shape = [m, k]) (hr : r.shape = [k', n])
    (h : l.dot al r = .ok v) : v.shape = [m, n] ∧ (m * n = 0 → v.buf = [] ∧ v.off = 0) := by
  unfold View.dot at h
  rw [hl, hr] at h
  simp only at h
  split at h
  · split at h
    · obtain ⟨d, h1, h2⟩ := bind_eq_ok.1 h
      cases h2
      refine ⟨rfl, fun h0 => ⟨?_, rfl⟩⟩
      apply List.eq_nil_of_length_eq_zero
      rw [mapE_length h1, allIdx_length]
      simpa [mul_comm] using h0
    · obtain ⟨d, h1, h2⟩ := bind_eq_ok.1 h
      cases h2
      refine ⟨rfl, fun h0 => ⟨?_, rfl⟩⟩
      apply List.eq_nil_of_length_eq_zero
      rw [mapE_length h1, allIdx_length]
      simpa using h0
  · cases h

/-- The element counts that a successful run has compared, and the result if it is empty. -/
theorem tensordotFixed_counts {p : TensordotFixedPosition} {al : Alloc A} {l r w : View A} (h : p.run al l r = .ok w) :
    p.lenUncontractedLhs * p.lenContractedAxes = l.shape.prod ∧
      p.lenContractedAxes * p.lenUncontractedRhs = r.shape.prod ∧
      p.lenUncontractedLhs * p.lenUncontractedRhs = p.outputShape.prod ∧
      w.shape = p.outputShape ∧
      (p.outputShape.prod = 0 → w = ⟨[], 0, p.outputShape, defaultStrides p.outputShape⟩) := by
  unfold TensordotFixedPosition.run at h
  obtain ⟨lm, h1, h2⟩ := bind_eq_ok.1 h
  obtain ⟨rm, h3, h4⟩ := bind_eq_ok.1 h2
  obtain ⟨d, h5, h6⟩ := bind_eq_ok.1 h4
  obtain ⟨a1, a2⟩ := asMatrix_ok h1
  obtain ⟨b1, b2⟩ := asMatrix_ok h3
  obtain ⟨c1, c2⟩ := dot_ok a2 b2 h5
  split at h6
  · next v hi =>
    cases h6
    obtain ⟨d1, d2⟩ := intoShape_prod hi
    rw [c1] at d1
    simp only [List.prod_cons, List.prod_nil, mul_one] at d1
    refine ⟨a1, b1, d1.symm, d2, fun h0 => ?_⟩
    obtain ⟨e1, e2⟩ := c2 (by rw [← d1, h0])
    rw [intoShape_empty hi h0, e1, e2]
  · cases h6

/-- Two factors that are no larger and have the same non-zero product. -/
theorem eq_of_mul_eq {a' a b' b : Nat} (ha : a' ≤ a) (hb : b' ≤ b) (h : a' * b' = a * b) (h0 : a * b ≠ 0) :
    a' = a ∧ b' = b := by
  have h1 : 0 < a := Nat.pos_of_ne_zero (by rintro rfl; simp at h0)
  have h2 : 0 < b := Nat.pos_of_ne_zero (by rintro rfl; simp at h0)
  constructor
  · by_contra hne
    have : a' * b' < a * b := lt_of_le_of_lt (Nat.mul_le_mul (le_refl _) hb) (Nat.mul_lt_mul_of_pos_right (by omega) h2)
    omega
  · by_contra hne
    have : a' * b' < a * b := lt_of_le_of_lt (Nat.mul_le_mul ha (le_refl _)) (Nat.mul_lt_mul_of_pos_left (by omega) h1)
    omega

theorem both_run_tensordotFixed {p' p : TensordotFixedPosition} (hp : p'.Shrunk p) (al : Alloc A) (l r : View A) :
    Both (p'.run al l r) (p.run al l r) Eq := by
  intro w' w h' h
  obtain ⟨a1, a2, a3, -, a4⟩ := tensordotFixed_counts h'
  obtain ⟨b1, b2, b3, -, b4⟩ := tensordotFixed_counts h
  obtain ⟨p1, p2, p3, p4⟩ := hp
  rw [p4] at a3 a4
  by_cases h0 : p.outputShape.prod = 0
  · rw [a4 h0, b4 h0]
  · obtain ⟨e1, e2⟩ := eq_of_mul_eq p1 p2 (a3.trans b3.symm) (by rw [b3]; exact h0)
    have e3 : p'.lenContractedAxes = p.lenContractedAxes := by
      rw [e1, ← b1] at a1
      refine Nat.eq_of_mul_eq_mul_left (Nat.pos_of_ne_zero fun h1 => h0 ?_) a1
      rw [← b3, h1, zero_mul]
    have : p' = p := by
      cases p'; cases p
      simp only at e1 e2 e3 p4
      subst e1; subst e2; subst e3; subst p4
      rfl
    rw [this, h] at h'
    cases h'
    rfl

theorem both_run_tensordotGeneral {p' p : TensordotGeneral} (hp : p'.Shrunk p) (al : Alloc A) (l r : View A) :
    Both (p'.run al l r) (p.run al l r) Eq := by
  obtain ⟨p1, p2, p3, p4⟩ := hp
  unfold TensordotGeneral.run
  rw [p1, p2, p4]
  refine .step _ fun lv _ => .step _ fun rv _ => (both_run_tensordotFixed p3 _ _ _).bind fun t' t ht => ?_
  subst ht
  intro w' w h' h
  rw [h] at h'
  cases h'
  rfl

theorem both_stackLoop {p' p : TensordotFixedPosition} (hp : p'.Shrunk p) (al : Alloc A) (sub : List Nat) (block i n : Nat)
    (ls rs : List (View A)) (buf : List A) :
    Both (stackLoop p' al sub block i n ls rs buf) (stackLoop p al sub block i n ls rs buf) Eq := by
  induction n generalizing i ls rs buf with
  | zero => exact .ok rfl
  | succ n ih =>
    simp only [stackLoop]
    refine .step _ fun l _ => .step _ fun r _ => (both_run_tensordotFixed hp _ _ _).bind fun t' t ht => ?_
    subst ht
    cases t'.broadcast sub with
    | none => exact .panic_left
    | some b => exact .step _ fun d _ => ih _ _ _ _

omit [Zero A] [Add A] [Mul A] [MulAdd A] in
theorem broadcast_shape {v w : View A} {s : List Nat} (h : v.broadcast s = some w) : w.shape = s := by
  unfold View.broadcast at h
  obtain ⟨ss, -, rfl⟩ := Option.map_eq_some_iff.1 h
  rfl

theorem stackLoop_length {p : TensordotFixedPosition} {al : Alloc A} {sub : List Nat} (i n : Nat)
    {ls rs : List (View A)} {buf buf' : List A} (h0 : sub.prod = 0) (hb : buf = [])
    (h : stackLoop p al sub sub.prod i n ls rs buf = .ok buf') : buf' = [] := by
  induction n generalizing i ls rs buf with
  | zero => cases h; exact hb
  | succ n ih =>
    simp only [stackLoop] at h
    obtain ⟨l, -, h2⟩ := bind_eq_ok.1 h
    obtain ⟨r, -, h4⟩ := bind_eq_ok.1 h2
    obtain ⟨t, -, h6⟩ := bind_eq_ok.1 h4
    split at h6
    · cases h6
    · next b hbc =>
      obtain ⟨d, h7, h8⟩ := bind_eq_ok.1 h6
      refine ih _ ?_ h8
      have : d = [] := List.eq_nil_of_length_eq_zero (by rw [toVec_length h7, broadcast_shape hbc, h0])
      subst hb
      subst this
      simp

theorem both_run_stacked {p' p : StackedTensordotGeneral} (hp : p'.Shrunk p) (al : Alloc A) (l r : View A) :
    Both (p'.run al l r) (p.run al l r) Eq := by
  obtain ⟨p1, p2, p3, p4, p5, n', n, tl, tr, ti, hn, q1, q2, q3, q4, q5, q6⟩ := hp
  unfold StackedTensordotGeneral.run
  rw [p1, p2, p4, p5, q1, q2, q3, q4, q5, q6]
  refine .step _ fun lv _ => .step _ fun ld _ => ?_
  by_cases hnn : n' = n
  · subst hnn
    cases fromShapeVec (n' :: tl) ld with
    | none => exact .panic_left
    | some lre =>
      refine .step _ fun rv _ => .step _ fun rd _ => ?_
      cases fromShapeVec (n' :: tr) rd with
      | none => exact .panic_left
      | some rre =>
        refine .step _ fun ls _ => .step _ fun rs _ => (both_stackLoop p3 _ _ _ _ _ _ _ _).bind fun b' b hb => ?_
        subst hb
        intro w' w h' h
        rw [h] at h'
        cases h'
        rfl
  · -- the stack lengths differ, so the result is empty
    intro w' w h' h
    split at h'
    · cases h'
    split at h
    · cases h
    obtain ⟨_, -, h'⟩ := bind_eq_ok.1 h'
    obtain ⟨_, -, h⟩ := bind_eq_ok.1 h
    obtain ⟨_, -, h'⟩ := bind_eq_ok.1 h'
    obtain ⟨_, -, h⟩ := bind_eq_ok.1 h
    split at h'
    · cases h'
    split at h
    · cases h
    obtain ⟨_, -, h'⟩ := bind_eq_ok.1 h'
    obtain ⟨_, -, h⟩ := bind_eq_ok.1 h
    obtain ⟨_, -, h'⟩ := bind_eq_ok.1 h'
    obtain ⟨_, -, h⟩ := bind_eq_ok.1 h
    obtain ⟨b', hb', h'⟩ := bind_eq_ok.1 h'
    obtain ⟨b, hb, h⟩ := bind_eq_ok.1 h
    simp only at h' h
    split at h'
    · cases h'
    rename_i i1
    split at h
    · cases h
    rename_i i2
    have e1 := (intoShape_prod i1).1
    have e2 := (intoShape_prod i2).1
    simp only [List.prod_cons] at e1 e2
    have h0 : ti.prod = 0 := by
      by_contra hne
      exact hnn (Nat.eq_of_mul_eq_mul_right (Nat.pos_of_ne_zero hne) (e1.symm.trans e2))
    have hz : p.outputShape.prod = 0 := by rw [e2, h0, mul_zero]
    have k1 := stackLoop_length _ _ h0 (by rw [h0]; simp) hb'
    have k2 := stackLoop_length _ _ h0 (by rw [h0]; simp) hb
    rw [intoShape_empty i1 hz, k1] at h'
    rw [intoShape_empty i2 hz, k2, h'] at h
    cases h
    rfl

theorem both_run {op' op : PairOp} (hp : op'.Shrunk op) (al : Alloc A) (l r : View A) :
    Both (op'.run al l r) (op.run al l r) Eq := by
  cases op' <;> cases op <;> simp only [PairOp.Shrunk, reduceCtorEq] at hp
  case tensordotFixedPosition.tensordotFixedPosition => exact both_run_tensordotFixed hp al l r
  case tensordotGeneral.tensordotGeneral => exact both_run_tensordotGeneral hp al l r
  case stackedTensordotGeneral.stackedTensordotGeneral => exact both_run_stacked hp al l r
  all_goals
    try cases hp
    intro w' w h' h
    rw [h] at h'
    cases h'
    rfl

end run

/-! ## Shapes of intermediate results -/

/-- A valid array with the lengths of the labels. -/
def Shaped {A : Type} (dims : Char → Nat) (L : List Char) (v : View A) : Prop := v.Wf ∧ v.shape = L.map dims

/-- What `simplification_ok` says about a compiled simplification. -/
def SimplificationComputes (s : Option SimplificationMethodAndOutput) (dims : Char → Nat) (L N : List Char)
    (K : Char → Prop) : Prop :=
  ∀ (A : Type) [AddCommMonoid A] (al : Alloc A) (v : View A) (F : (Char → Nat) → A), Rep v L dims F → v.Wf →
    Outcome (Good dims K L v) (Bad dims K L v) (simplifyOperand al s v) fun w =>
      Rep w N dims (sumOver dims (summed [L] N) F)

/-- With this allocator, compiled simplifications and contractors return arrays of the right shape. -/
structure Regular {A : Type} [Zero A] [Add A] [Mul A] [MulAdd A] (dims : Char → Nat) (al : Alloc A) : Prop where
  simp : ∀ s L N K, SimplificationComputes s dims L N K → N.Nodup → ∀ v : View A, Shaped dims L v → ∀ w,
    simplifyOperand al s v = .ok w → Shaped dims N w
  op : ∀ (op : PairOp) sw L R out, op.Computes sw dims L R out → out.Nodup → ∀ l r : View A, Shaped dims L l →
    Shaped dims R r → ∃ w, op.run al l r = .ok w ∧ Shaped dims out w

theorem Shaped.rep {A : Type} [Zero A] {dims : Char → Nat} {L : List Char} {v : View A} (h : Shaped dims L v) :
    ∃ F, Rep v L dims F := by
  obtain ⟨T, hT⟩ := h.1.holds
  rw [h.2] at hT
  exact ⟨_, hT.rep⟩

theorem regular_semiring {A : Type} [Semiring A] (dims : Char → Nat) (al : Alloc A) : Regular dims al where
  simp := by
    intro s L N K hs hN v hv w hw
    obtain ⟨F, hF⟩ := hv.rep
    rcases (hs A al v F hF hv.1).2.2 with ⟨k, hk⟩ | ⟨w', h1, h2⟩
    · rw [hk] at hw; cases hw
    · rw [h1] at hw
      cases hw
      exact ⟨h2.wf hN, h2.shape⟩
  op := by
    intro op sw L R out ho hn l r hl hr
    obtain ⟨F, hF⟩ := hl.rep
    obtain ⟨G, hG⟩ := hr.rep
    obtain ⟨w, h1, h2⟩ := ho A al l r F G hF hG
    exact ⟨w, h1, h2.wf hn, h2.shape⟩

theorem view_wf_map {A B : Type} {v : View A} (f : A → B) : (v.map f).Wf ↔ v.Wf := by
  unfold View.Wf
  simp only [View.map_shape, View.map_strides, View.read_map]
  refine and_congr Iff.rfl (forall_congr' fun idx => forall_congr' fun _ => ?_)
  cases v.read idx with
  | error e =>
    refine ⟨?_, ?_⟩ <;> rintro ⟨_, h⟩ <;> cases h
  | ok x => exact ⟨fun _ => ⟨x, rfl⟩, fun _ => ⟨f x, rfl⟩⟩

theorem shaped_map {A B : Type} {dims : Char → Nat} {L : List Char} {v : View A} (f : A → B) :
    Shaped dims L (v.map f) ↔ Shaped dims L v := by
  unfold Shaped
  rw [view_wf_map, View.map_shape]

/-- Forgetting the elements. -/
theorem unit_opHom {A : Type} [Zero A] [Add A] [Mul A] [MulAdd A] : OpHom (fun _ : A => PUnit.unit.{1}) :=
  ⟨rfl, fun _ _ => rfl, fun _ _ => rfl, fun _ _ _ => rfl⟩

theorem regular_uniform {A : Type} [Zero A] [Add A] [Mul A] [MulAdd A] (dims : Char → Nat) {al : Alloc A}
    {al' : Alloc PUnit.{1}} (hc : Compat (fun _ : A => PUnit.unit) al al') : Regular dims al where
  simp := by
    intro s L N K hs hN v hv w hw
    have h := simplifyOperand_map unit_opHom hc s v
    rw [hw] at h
    exact (shaped_map _).1 ((regular_semiring dims al').simp s L N K hs hN _ ((shaped_map _).2 hv) _ h)
  op := by
    intro op sw L R out ho hn l r hl hr
    obtain ⟨w', h1, h2⟩ := (regular_semiring dims al').op op sw L R out ho hn _ _
      ((shaped_map fun _ : A => PUnit.unit.{1}).2 hl) ((shaped_map fun _ : A => PUnit.unit.{1}).2 hr)
    rw [PairOp.run_map unit_opHom hc] at h1
    cases hw : op.run al l r with
    | error e => rw [hw] at h1; cases h1
    | ok w =>
      rw [hw] at h1
      cases h1
      exact ⟨w, rfl, (shaped_map _).1 h2⟩

/-! ## One step -/

theorem pair_shrunk {mul : UMul} (hm : NoLarger mul) {sc : SizedContraction} {dims : Char → Nat} {L R : List Char}
    (hv : sc.Valid dims) (hops : sc.contraction.operandIndices = [L, R]) (h : HashOrd) {p' : PairContraction}
    (hp' : PairContraction.newW mul h sc = .ok p') :
    ∃ p, PairContraction.new h sc = .ok p ∧
      ∀ {A : Type} [Zero A] [Add A] [Mul A] [MulAdd A] (al : Alloc A), (∀ k, Regular dims (al.sub k)) →
        ∀ l r w : View A, Shaped dims L l → Shaped dims R r → p'.run al l r = .ok w →
          p.run al l r = .ok w ∧ Shaped dims sc.contraction.outputIndices w := by
  have hsub := hv.out_sub2 hops
  have hon := hv.out.1
  set out := sc.contraction.outputIndices with hO
  obtain ⟨sl, l1, l2, l3, l4⟩ := simplification_ok hv (h.sub 0) (L := L) (R := R) (out := out)
    (by rw [hops]; intro c hc; simp [hc])
  obtain ⟨sr, r1, r2, r3, r4⟩ := simplification_ok hv (h.sub 1) (L := R) (R := L) (out := out)
    (by rw [hops]; intro c hc; simp [hc])
  set NL := newIndicesOr sl L with hNL
  set NR := newIndicesOr sr R with hNR
  obtain ⟨red, h1, h2, h3, h4⟩ := hv.subset (h.sub 2) (ops := [NL, NR]) (out := out)
    (by
      rw [hops]; intro c hc
      simp only [List.flatten_cons, List.flatten_nil, List.append_nil, List.mem_append, l3, r3] at hc ⊢
      tauto)
    ⟨hon, fun c hc => used_iff.2 (by
      simp only [List.flatten_cons, List.flatten_nil, List.append_nil, List.mem_append, l3, r3]
      have := hsub c hc
      tauto)⟩
  obtain ⟨s, op, h5, h6, h7⟩ := pairOp_ok h2 h3 l2 r2
    (by rw [h4]; intro c hc; rw [r3]; have := (l3 c).1 hc; tauto)
    (by rw [h4]; intro c hc; rw [l3]; have := (r3 c).1 hc; tauto)
  obtain ⟨str, hstr⟩ := asEinsumString_ok h3 (by simp)
  rw [h4] at h7
  unfold PairContraction.newW at hp'
  rw [hops] at hp'
  simp only [List.length_cons, List.length_nil, Nat.zero_add, Nat.reduceAdd, decide_true,
    assertThat_true, bind_ok, index_cons_zero, index_one] at hp'
  rw [← hO, l1, bind_ok, r1, bind_ok, ← hNL, ← hNR, h1, unwrapR_ok, bind_ok, h5, bind_ok] at hp'
  obtain ⟨op', o1, o2⟩ := bind_eq_ok.1 hp'
  rw [hstr, bind_ok] at o2
  cases o2
  refine ⟨⟨sl, sr, s.getStrategy, op, str⟩, ?_, ?_⟩
  · unfold PairContraction.new
    rw [hops]
    simp only [List.length_cons, List.length_nil, Nat.zero_add, Nat.reduceAdd, decide_true,
      assertThat_true, bind_ok, index_cons_zero, index_one]
    rw [← hO, l1, bind_ok, r1, bind_ok, ← hNL, ← hNR, h1, unwrapR_ok, bind_ok, h5, bind_ok, h6, bind_ok,
      hstr, bind_ok]
    rfl
  · intro A _ _ _ _ al hal l r w hl hr hw
    unfold PairContraction.run at hw ⊢
    obtain ⟨l', a1, a2⟩ := bind_eq_ok.1 hw
    obtain ⟨r', b1, b2⟩ := bind_eq_ok.1 a2
    have sl' := (hal 0).simp sl L NL _ l4 l2 l hl l' a1
    have sr' := (hal 1).simp sr R NR _ r4 r2 r hr r' b1
    obtain ⟨w₀, c1, c2⟩ := (hal 2).op op _ _ _ _ h7 hon l' r' sl' sr'
    have := both_run (both_pairOp hm _ _ _ _ o1 h6) _ _ _ _ _ b2 c1
    subst this
    simp only [a1, b1, bind_ok]
    exact ⟨c1, c2⟩

/-! ## Orders -/

/-- The labels of the array with the given number, when `outs` are the labels of the intermediate results. -/
def labelsOf (inputs outs : List (List Char)) : OperandNumber → Option (List Char)
  | .input n => inputs[n]?
  | .intermediateResult n => outs[n]?

/-- Each step is a valid contraction of the labels of the arrays it uses. -/
def Wired (dims : Char → Nat) (inputs : List (List Char)) : List PairStep → List (List Char) → Prop
  | [], _ => True
  | st :: rest, outs => st.sizedContraction.Valid dims ∧
      (∃ l r, st.sizedContraction.contraction.operandIndices = [l, r] ∧
        labelsOf inputs outs st.operandNums.lhs = some l ∧ labelsOf inputs outs st.operandNums.rhs = some r) ∧
      Wired dims inputs rest (outs ++ [st.sizedContraction.contraction.outputIndices])

theorem forall₂_get {α β : Type} {R : α → β → Prop} {l : List α} {l' : List β} (h : List.Forall₂ R l l') {i : Nat}
    {a : α} {b : β} (ha : l[i]? = some a) (hb : l'[i]? = some b) : R a b := by
  induction h generalizing i with
  | nil => simp at ha
  | cons hr _ ih =>
    cases i with
    | zero =>
      simp only [List.getElem?_cons_zero, Option.some.injEq] at ha hb
      subst ha; subst hb
      exact hr
    | succ i => exact ih (i := i) (by simpa using ha) (by simpa using hb)

theorem fetch_shaped {A : Type} {dims : Char → Nat} {inputs outs : List (List Char)} {operands inter : List (View A)}
    (ho : List.Forall₂ (Shaped dims) inputs operands) (hi : List.Forall₂ (Shaped dims) outs inter) {n : OperandNumber}
    {L : List Char} (hL : labelsOf inputs outs n = some L) {v : View A} (hv : fetch operands inter n = .ok v) :
    Shaped dims L v := by
  cases n with
  | input k => exact forall₂_get ho hL (index_eq_ok.1 hv)
  | intermediateResult k => exact forall₂_get hi hL (index_eq_ok.1 hv)

/-- Allocators closed under sub-computations that know the shapes. -/
theorem steps_shrunk {mul : UMul} (hm : NoLarger mul) {dims : Char → Nat} {inputs : List (List Char)}
    (steps : List PairStep) (h : HashOrd) {cs' : List PairContraction} (hcs : compileStepsW mul h steps = .ok cs')
    (outs : List (List Char)) (hw : Wired dims inputs steps outs) :
    ∃ cs, compileSteps h steps = .ok cs ∧
      ∀ {A : Type} [Zero A] [Add A] [Mul A] [MulAdd A] (P : Alloc A → Prop) (_ : ∀ al k, P al → P (al.sub k))
        (_ : ∀ al, P al → Regular dims al) (al : Alloc A) (_ : P al) (operands inter res : List (View A)),
        List.Forall₂ (Shaped dims) inputs operands → List.Forall₂ (Shaped dims) outs inter →
        runSteps al operands (cs'.zip steps) inter = .ok res → runSteps al operands (cs.zip steps) inter = .ok res := by
  induction steps generalizing h cs' outs with
  | nil =>
    refine ⟨[], rfl, ?_⟩
    intro A _ _ _ _ P _ _ al _ operands inter res _ _ hr
    cases hcs
    exact hr
  | cons st steps ih =>
    obtain ⟨w1, ⟨l, r, w2, w3, w4⟩, w5⟩ := hw
    simp only [compileStepsW] at hcs
    obtain ⟨p', c1, c2⟩ := bind_eq_ok.1 hcs
    obtain ⟨cs', c3, c4⟩ := bind_eq_ok.1 c2
    cases c4
    obtain ⟨p, p1, p2⟩ := pair_shrunk hm w1 w2 _ c1
    obtain ⟨cs, q1, q2⟩ := ih _ c3 _ w5
    refine ⟨p :: cs, by simp [compileSteps, p1, q1], ?_⟩
    intro A _ _ _ _ P hP1 hP2 al hal operands inter res ho hi hr
    simp only [List.zip_cons_cons, runSteps] at hr ⊢
    obtain ⟨lv, f1, g1⟩ := bind_eq_ok.1 hr
    obtain ⟨rv, f2, g2⟩ := bind_eq_ok.1 g1
    obtain ⟨w, f3, g3⟩ := bind_eq_ok.1 g2
    obtain ⟨k1, k2⟩ := p2 (al.sub 0) (fun k => hP2 _ (hP1 _ _ (hP1 _ _ hal))) lv rv w (fetch_shaped ho hi w3 f1)
      (fetch_shaped ho hi w4 f2) f3
    simp only [f1, f2, k1, bind_ok]
    refine q2 P hP1 hP2 _ (hP1 _ _ hal) operands _ res ho ?_ g3
    exact List.rel_append hi (.cons k2 .nil)

end Einsum
