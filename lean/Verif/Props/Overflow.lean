import Verif.Model.Overflow
import Verif.Props.Contractors
import Verif.Props.Order

/-!
# Size arithmetic: C42
-/

namespace Einsum

open Spec

/-- The product of the non-zero lengths of a shape.  ndarray refuses to create an array (or view) for which
this exceeds `isize::MAX`, so every existing operand satisfies `Fits usize::MAX`. -/
def nzProd (shape : List Nat) : Nat := (shape.filter (· ≠ 0)).prod

/-- The product of the non-zero lengths does not exceed `W`. -/
def Fits (W : Nat) (shape : List Nat) : Prop := nzProd shape ≤ W

instance (W : Nat) (shape : List Nat) : Decidable (Fits W shape) := inferInstanceAs (Decidable (_ ≤ _))

theorem nzProd_cons (n : Nat) (l : List Nat) : nzProd (n :: l) = max 1 n * nzProd l := by
  by_cases h : n = 0
  · simp [nzProd, h]
  · have : max 1 n = n := by omega
    simp [nzProd, h, this]

theorem nzProd_pos (l : List Nat) : 1 ≤ nzProd l := by
  induction l with
  | nil => simp [nzProd]
  | cons n l ih => rw [nzProd_cons]; exact Nat.mul_le_mul (by omega : 1 ≤ max 1 n) ih

theorem prod_le_nzProd (l : List Nat) : l.prod ≤ nzProd l := by
  induction l with
  | nil => simp [nzProd]
  | cons n l ih => rw [nzProd_cons, List.prod_cons]; exact Nat.mul_le_mul (by omega) ih

theorem nzProd_perm {l l' : List Nat} (h : l.Perm l') : nzProd l = nzProd l' := (h.filter _).prod_eq

theorem nzProd_sublist {l l' : List Nat} (h : l.Sublist l') : nzProd l ≤ nzProd l' := by
  induction h with
  | slnil => exact le_refl _
  | cons a _ ih =>
    rw [nzProd_cons]
    exact ih.trans (Nat.le_mul_of_pos_left _ (by omega))
  | cons_cons a _ ih =>
    rw [nzProd_cons, nzProd_cons]
    exact Nat.mul_le_mul (le_refl _) ih

theorem nzProd_subperm {l l' : List Nat} (h : l.Subperm l') : nzProd l ≤ nzProd l' := by
  obtain ⟨m, h1, h2⟩ := h
  rw [← nzProd_perm h1]
  exact nzProd_sublist h2

/-- Distinct letters among those of an operand have a fitting product. -/
theorem Fits.sub {W : Nat} {dims : Char → Nat} {L L' : List Char} (h : Fits W (L.map dims)) (hn : L'.Nodup)
    (hs : ∀ c ∈ L', c ∈ L) : Fits W (L'.map dims) := by
  obtain ⟨m, h1, h2⟩ := hn.subperm hs
  exact (nzProd_subperm ⟨m.map dims, h1.map dims, h2.map dims⟩).trans h

theorem bind_congr_ok {α β : Type} {m : M α} {f g : α → M β} (h : ∀ a, m = .ok a → f a = g a) :
    (m >>= f) = (m >>= g) := by
  cases m with
  | error e => rfl
  | ok a => exact h a rfl

/-- Products up to `W` are computed exactly. -/
def ExactTo (W : Nat) (mul : UMul) : Prop := ∀ a b, a * b ≤ W → mul a b = .ok (a * b)

/-- Multiplication with overflow checks. -/
theorem exactTo_umul (W : Nat) : ExactTo W (umul W) := fun a b h => by simp [umul, h]

/-- Multiplication that wraps. -/
theorem exactTo_uwrap (W : Nat) : ExactTo W (uwrap W) := fun a b h => by
  rw [uwrap, Nat.mod_eq_of_lt (by omega)]

theorem lhsLoopW_eq {W N k : Nat} {mul : UMul} (hm : ExactTo W mul) (ns : List Nat) (axis u c : Nat) (out : List Nat)
    (hu : u * nzProd ns ≤ W) (hc : c * nzProd ns ≤ W) :
    lhsLoopW mul N k axis ns (u, c, out) = lhsLoop N k axis ns (u, c, out) := by
  induction ns generalizing axis u c out with
  | nil => rfl
  | cons n ns ih =>
    rw [nzProd_cons] at hu hc
    have key : ∀ a, a * (max 1 n * nzProd ns) ≤ W → a * n ≤ W ∧ a * n * nzProd ns ≤ W ∧ a * nzProd ns ≤ W := by
      intro a ha
      have h1 : a * n * nzProd ns ≤ a * (max 1 n * nzProd ns) := by
        rw [Nat.mul_assoc]
        exact Nat.mul_le_mul (le_refl _) (Nat.mul_le_mul (by omega) (le_refl _))
      have h2 : a * n ≤ a * n * nzProd ns := Nat.le_mul_of_pos_right _ (nzProd_pos ns)
      have h3 : a * nzProd ns ≤ a * (max 1 n * nzProd ns) :=
        Nat.mul_le_mul (le_refl _) (Nat.le_mul_of_pos_left _ (by omega))
      omega
    obtain ⟨u1, u2, u3⟩ := key u hu
    obtain ⟨c1, c2, c3⟩ := key c hc
    simp only [lhsLoopW, lhsLoop]
    refine bind_congr_ok fun cut _ => ?_
    split
    · rw [hm _ _ u1, bind_ok, ih _ _ _ _ u2 c3]
    · rw [hm _ _ c1, bind_ok, ih _ _ _ _ u3 c2]

theorem rhsLoopW_eq {W k : Nat} {mul : UMul} (hm : ExactTo W mul) (ns : List Nat) (axis u c : Nat) (out : List Nat)
    (hu : u * nzProd ns ≤ W) (hc : c * nzProd ns ≤ W) :
    rhsLoopW mul k axis ns (u, c, out) = .ok (rhsLoop k axis ns (u, c, out)) := by
  induction ns generalizing axis u c out with
  | nil => rfl
  | cons n ns ih =>
    rw [nzProd_cons] at hu hc
    have key : ∀ a, a * (max 1 n * nzProd ns) ≤ W → a * n ≤ W ∧ a * n * nzProd ns ≤ W ∧ a * nzProd ns ≤ W := by
      intro a ha
      have h1 : a * n * nzProd ns ≤ a * (max 1 n * nzProd ns) := by
        rw [Nat.mul_assoc]
        exact Nat.mul_le_mul (le_refl _) (Nat.mul_le_mul (by omega) (le_refl _))
      have h2 : a * n ≤ a * n * nzProd ns := Nat.le_mul_of_pos_right _ (nzProd_pos ns)
      have h3 : a * nzProd ns ≤ a * (max 1 n * nzProd ns) :=
        Nat.mul_le_mul (le_refl _) (Nat.le_mul_of_pos_left _ (by omega))
      omega
    obtain ⟨u1, u2, u3⟩ := key u hu
    obtain ⟨c1, c2, c3⟩ := key c hc
    simp only [rhsLoopW, rhsLoop]
    split
    · rw [hm _ _ c1, bind_ok, ih _ _ _ _ u3 c2]
    · rw [hm _ _ u1, bind_ok, ih _ _ _ _ u2 c3]

theorem fromShapesW_eq {W : Nat} {mul : UMul} (hm : ExactTo W mul) {l r : List Nat} (hl : Fits W l) (hr : Fits W r) (k : Nat) :
    TensordotFixedPosition.fromShapesW mul l r k = TensordotFixedPosition.fromShapes l r k := by
  unfold Fits at hl hr
  simp only [TensordotFixedPosition.fromShapesW, TensordotFixedPosition.fromShapes]
  rw [lhsLoopW_eq hm _ _ _ _ _ (by omega) (by omega)]
  refine bind_congr_ok fun x _ => ?_
  obtain ⟨a, b, c⟩ := x
  simp only []
  rw [rhsLoopW_eq hm _ _ _ _ _ (by omega) (by omega)]
  rfl

theorem mapE_index_eq {s axes l : List Nat} (h : mapE (index s) axes = .ok l) :
    (∀ a ∈ axes, a < s.length) ∧ l = axes.map fun a => s.getD a 0 := by
  induction axes generalizing l with
  | nil => cases h; simp
  | cons a axes ih =>
    simp only [mapE] at h
    obtain ⟨x, h1, h2⟩ := bind_eq_ok.1 h
    obtain ⟨xs, h3, h4⟩ := bind_eq_ok.1 h2
    cases h4
    obtain ⟨h5, rfl⟩ := ih h3
    simp only [index] at h1
    split at h1
    · next y hy =>
      cases h1
      obtain ⟨h6, h7⟩ := List.getElem?_eq_some_iff.1 hy
      refine ⟨fun b hb => ?_, ?_⟩
      · rcases List.mem_cons.1 hb with rfl | hb
        · exact h6
        · exact h5 b hb
      · simp [List.getD, hy]
    · cases h1

theorem mapE_index_perm {s axes l : List Nat} (h : mapE (index s) axes = .ok l)
    (hp : axes.Perm (List.range s.length)) : l.Perm s := by
  rw [(mapE_index_eq h).2]
  refine (hp.map _).trans ?_
  have : (List.range s.length).map (fun a => s.getD a 0) = s := by
    apply List.ext_getElem
    · simp
    · intro i h1 h2
      simp [List.getD, h2]
  rw [this]

theorem uncontracted_perm {n : Nat} {axes : List Nat} (hn : axes.Nodup) (hs : ∀ a ∈ axes, a < n) :
    (uncontractedAxes n axes ++ axes).Perm (List.range n) := by
  refine perm_of_nodup ?_ List.nodup_range fun a => ?_
  · rw [List.nodup_append]
    refine ⟨List.nodup_range.filter _, hn, fun a ha b hb => ?_⟩
    rintro rfl
    simp [uncontractedAxes, hb] at ha
  · simp only [uncontractedAxes, List.mem_append, List.mem_filter, List.mem_range, mem_hset, decide_eq_true_eq]
    by_cases h : a ∈ axes
    · simp [h, hs a h]
    · simp [h]

theorem assertThat_ok {b : Bool} {u : Unit} (h : assertThat b = .ok u) : b = true := by
  cases b
  · cases h
  · rfl

theorem fromAxisNumbersW_eq {W : Nat} {mul : UMul} (hm : ExactTo W mul) {l r : List Nat} (hl : Fits W l) (hr : Fits W r) (la ra order : List Nat) :
    TensordotGeneral.fromShapesAndAxisNumbersW mul l r la ra order =
      TensordotGeneral.fromShapesAndAxisNumbers l r la ra order := by
  simp only [TensordotGeneral.fromShapesAndAxisNumbersW, TensordotGeneral.fromShapesAndAxisNumbers]
  refine bind_congr_ok fun _ _ => bind_congr_ok fun _ a2 => bind_congr_ok fun _ a3 =>
    bind_congr_ok fun ls hls => bind_congr_ok fun rs hrs => ?_
  have nl : la.Nodup := hset_length_eq_iff.1 (of_decide_eq_true (assertThat_ok a2)).symm
  have a1 : la.length = ra.length := by
    rename_i _ h _ _
    simpa using assertThat_ok h
  have nr : ra.Nodup := hset_length_eq_iff.1 (by rw [← a1]; exact (of_decide_eq_true (assertThat_ok a3)).symm)
  have pl := mapE_index_perm hls (uncontracted_perm nl fun a ha => (mapE_index_eq hls).1 a (by simp [ha]))
  have pr := mapE_index_perm hrs (List.perm_append_comm.trans
    (uncontracted_perm nr fun a ha => (mapE_index_eq hrs).1 a (by simp [ha])))
  rw [fromShapesW_eq hm (by unfold Fits; rw [nzProd_perm pl]; exact hl) (by unfold Fits; rw [nzProd_perm pr]; exact hr)]

theorem tensordotGeneral_newW {W : Nat} {mul : UMul} (hm : ExactTo W mul) {sc : SizedContraction} {dims : Char → Nat} {L R : List Char}
    (hv : sc.Valid dims) (hops : sc.contraction.operandIndices = [L, R]) (hl : Fits W (L.map dims))
    (hr : Fits W (R.map dims)) : TensordotGeneral.newW mul sc = TensordotGeneral.new sc := by
  simp only [TensordotGeneral.newW, TensordotGeneral.new]
  rw [hops]
  simp only [index_cons_zero, index_one, bind_ok]
  rw [sizesOf_ok hv (l := L) (by rw [hops]; intro c hc; simp [hc]), bind_ok,
    sizesOf_ok hv (l := R) (by rw [hops]; intro c hc; simp [hc]), bind_ok]
  refine bind_congr_ok fun _ _ => ?_
  simp only [TensordotGeneral.fromShapesAndIndicesW, TensordotGeneral.fromShapesAndIndices]
  refine bind_congr_ok fun _ _ => bind_congr_ok fun _ _ => bind_congr_ok fun _ _ => fromAxisNumbersW_eq hm hl hr _ _ _

theorem tensordotFixed_newW {W : Nat} {mul : UMul} (hm : ExactTo W mul) {sc : SizedContraction} {dims : Char → Nat} {L R : List Char}
    (hv : sc.Valid dims) (hops : sc.contraction.operandIndices = [L, R]) (hl : Fits W (L.map dims))
    (hr : Fits W (R.map dims)) : TensordotFixedPosition.newW mul sc = TensordotFixedPosition.new sc := by
  simp only [TensordotFixedPosition.newW, TensordotFixedPosition.new]
  rw [hops]
  simp only [index_cons_zero, index_one, bind_ok]
  rw [sizesOf_ok hv (l := L) (by rw [hops]; intro c hc; simp [hc])]
  rw [sizesOf_ok hv (l := R) (by rw [hops]; intro c hc; simp [hc])]
  simp only [bind_ok]
  refine bind_congr_ok fun _ _ => bind_congr_ok fun _ _ => bind_congr_ok fun _ _ => fromShapesW_eq hm hl hr _

theorem stackClassifyW_eq {W : Nat} {mul : UMul} (hm : ExactTo W mul) {sc : SizedContraction} {dims : Char → Nat} {L R : List Char}
    (hv : sc.Valid dims) (hops : sc.contraction.operandIndices = [L, R]) (out : List Char)
    (acc : StackAcc) (hW : acc.stackLen * nzProd ((out.filter fun c => c ∈ L ∧ c ∈ R).map dims) ≤ W) :
    stackClassifyW mul sc (out.map fun c => ((position c L, position c R), c)) acc =
      stackClassify sc (out.map fun c => ((position c L, position c R), c)) acc := by
  induction out generalizing acc with
  | nil => rfl
  | cons c out ih =>
    by_cases hcL : c ∈ L <;> by_cases hcR : c ∈ R
    · have hsz : sc.outputSize.get c = .ok (dims c) := by
        have : c ∈ sc.contraction.operandIndices.flatten := by rw [hops]; simp [hcL]
        simp [OutputSize.get, hv.size c this]
      simp only [List.map_cons, position_of_mem hcL, position_of_mem hcR, stackClassify, stackClassifyW, hsz, bind_ok]
      rw [List.filter_cons_of_pos (by simp [hcL, hcR]), List.map_cons, nzProd_cons] at hW
      set N := nzProd ((out.filter fun c => c ∈ L ∧ c ∈ R).map dims) with hN
      have hN1 : 1 ≤ N := nzProd_pos _
      have h1 : acc.stackLen * dims c * N ≤ acc.stackLen * (max 1 (dims c) * N) := by
        rw [Nat.mul_assoc]
        exact Nat.mul_le_mul (le_refl _) (Nat.mul_le_mul (by omega) (le_refl _))
      have h2 : acc.stackLen * dims c ≤ acc.stackLen * dims c * N := Nat.le_mul_of_pos_right _ hN1
      rw [hm _ _ (by omega), bind_ok]
      exact ih _ (by simp only; omega)
    · simp only [List.map_cons, position_of_mem hcL, position_eq_none.2 hcR, stackClassify, stackClassifyW]
      rw [List.filter_cons_of_neg (by simp [hcR])] at hW
      exact bind_congr_ok fun n _ => ih _ hW
    · simp only [List.map_cons, position_of_mem hcR, position_eq_none.2 hcL, stackClassify, stackClassifyW]
      rw [List.filter_cons_of_neg (by simp [hcL])] at hW
      exact bind_congr_ok fun n _ => ih _ hW
    · simp only [List.map_cons, position_eq_none.2 hcR, position_eq_none.2 hcL, stackClassify, stackClassifyW]

theorem stacked_newW {W : Nat} {mul : UMul} (hm : ExactTo W mul) {sc : SizedContraction} {dims : Char → Nat} {L R : List Char}
    (hv : sc.Valid dims) (hops : sc.contraction.operandIndices = [L, R]) (hL : L.Nodup) (hR : R.Nodup)
    (hLR : ∀ c ∈ L, c ∈ R ∨ c ∈ sc.contraction.outputIndices)
    (hl : Fits W (L.map dims)) (hr : Fits W (R.map dims)) :
    StackedTensordotGeneral.newW mul sc = StackedTensordotGeneral.new sc := by
  have hsub := hv.out_sub2 hops
  have hon := hv.out.1
  simp only [StackedTensordotGeneral.newW, StackedTensordotGeneral.new]
  rw [hops]
  simp only [index_cons_zero, index_one, bind_ok]
  set out := sc.contraction.outputIndices with hO
  rw [maybeFind_ok hL, maybeFind_ok hR]
  simp only [bind_ok]
  rw [zip_maybe]
  have hS : nzProd ((out.filter fun c => c ∈ L ∧ c ∈ R).map dims) ≤ W :=
    hl.sub (hon.filter _) fun c hc => by simp at hc; exact hc.2.1
  rw [stackClassifyW_eq hm hv hops out {} (by simpa using hS), stackClassify_ok hv hops out hsub]
  simp only [bind_ok]
  rw [show stackContracted sc R out 0 L = _ from
      stackContracted_ok hv hops out hL L [] rfl (fun c hc ho => (hLR c hc).resolve_right ho)]
  simp only [bind_ok, List.nil_append, List.tail_cons]
  refine bind_congr_ok fun _ _ => bind_congr_ok fun _ _ => bind_congr_ok fun _ _ => bind_congr_ok fun _ _ =>
    bind_congr_ok fun _ _ => ?_
  rw [fromShapesW_eq hm]
  · rw [← List.map_append]
    refine hl.sub ?_ fun c hc => ?_
    · rw [List.nodup_append]
      refine ⟨hon.filter _, hL.filter _, fun a ha b hb => ?_⟩
      rintro rfl
      simp at ha hb
      exact hb.2 ha.1
    · simp at hc
      tauto
  · rw [← List.map_append]
    refine hr.sub ?_ fun c hc => ?_
    · rw [List.nodup_append]
      refine ⟨hL.filter _, hon.filter _, fun a ha b hb => ?_⟩
      rintro rfl
      simp at ha hb
      exact ha.2 hb.1
    · simp at hc
      rcases hc with hc | hc
      · exact (hLR c hc.1).resolve_right hc.2
      · exact hc.2.2

theorem pairOp_newW {W : Nat} {mul : UMul} (hm : ExactTo W mul) {sc : SizedContraction} {dims : Char → Nat} {L R : List Char}
    (hv : sc.Valid dims) (hops : sc.contraction.operandIndices = [L, R]) (hL : L.Nodup) (hR : R.Nodup)
    (hLR : ∀ c ∈ L, c ∈ R ∨ c ∈ sc.contraction.outputIndices)
    (hl : Fits W (L.map dims)) (hr : Fits W (R.map dims)) (m : PairMethod) :
    PairOp.newW mul sc m = PairOp.new sc m := by
  cases m <;> simp only [PairOp.newW, PairOp.new]
  · rw [tensordotFixed_newW hm hv hops hl hr]
  · rw [tensordotGeneral_newW hm hv hops hl hr]
  · rw [stacked_newW hm hv hops hL hR hLR hl hr]

theorem pair_newW {W : Nat} {mul : UMul} (hm : ExactTo W mul) {sc : SizedContraction} {dims : Char → Nat} {L R : List Char}
    (hv : sc.Valid dims) (hops : sc.contraction.operandIndices = [L, R])
    (hl : Fits W (L.map dims)) (hr : Fits W (R.map dims)) (h : HashOrd) :
    PairContraction.newW mul h sc = PairContraction.new h sc := by
  have hsub := hv.out_sub2 hops
  have hon := hv.out.1
  simp only [PairContraction.newW, PairContraction.new]
  rw [hops]
  simp only [index_cons_zero, index_one, bind_ok]
  set out := sc.contraction.outputIndices with hO
  obtain ⟨sl, l1, l2, l3, -⟩ := simplification_ok hv (h.sub 0) (L := L) (R := R) (out := out)
    (by rw [hops]; intro c hc; simp [hc])
  obtain ⟨sr, r1, r2, r3, -⟩ := simplification_ok hv (h.sub 1) (L := R) (R := L) (out := out)
    (by rw [hops]; intro c hc; simp [hc])
  rw [l1, r1]
  simp only [bind_ok]
  set NL := newIndicesOr sl L with hNL
  set NR := newIndicesOr sr R with hNR
  obtain ⟨red, h1, h2, h3, h4⟩ := hv.subset (h.sub 2) (ops := [NL, NR]) (out := out)
    (by
      rw [hops]; intro c hc
      simp only [List.flatten_cons, List.flatten_nil, List.append_nil, List.mem_append, l3, r3] at hc ⊢
      tauto)
    ⟨hon, fun c hc => used_iff.2 (by
      simp only [List.flatten_cons, List.flatten_nil, List.append_nil, List.mem_append, l3, r3]
      have := hsub c hc
      tauto)⟩
  rw [h1, unwrapR_ok]
  simp only [bind_ok]
  refine bind_congr_ok fun _ _ => bind_congr_ok fun summary _ => ?_
  rw [pairOp_newW hm h2 h3 l2 r2 (by rw [h4]; intro c hc; rw [r3]; have := (l3 c).1 hc; tauto)
    (hl.sub l2 fun c hc => ((l3 c).1 hc).1) (hr.sub r2 fun c hc => ((r3 c).1 hc).1)]

/-- C42: compiling one pairwise step in a word of any largest value `W`, with overflow checks (`umul W`) or without
(`uwrap W`), gives the same contractor as with unbounded arithmetic, and never fails, provided that the non-zero lengths of each of the two operands
have a product of at most `W`. -/
theorem C42_pair (W : Nat) (mul : UMul) (hm : ExactTo W mul) (h h' : HashOrd) (L R out : List Char) (sl sr : List Nat) (sc : SizedContraction)
    (hsc : SizingOf h [L, R] out [sl, sr] sc) (hl : Fits W sl) (hr : Fits W sr) :
    ∃ p, PairContraction.newW mul h' sc = .ok p ∧ PairContraction.new h' sc = .ok p := by
  obtain ⟨dims, hs⟩ := hsc.sized
  obtain ⟨ho, rfl⟩ := hsc.eq hs
  have hv := callSC_valid (dims := dims) ho
  obtain ⟨p, hp, -⟩ := pair_ok hv (L := L) (R := R) rfl h'
  have e1 : sl = L.map dims := by cases hs; assumption
  have e2 : sr = R.map dims := by cases hs with | cons _ h2 => cases h2; assumption
  subst e1; subst e2
  exact ⟨p, (pair_newW hm hv rfl hl hr h').trans hp, hp⟩

/-- C42 on the step "ij,jk->ik" with lengths 2, 3, 2 and the bound 6; the product of all lengths is 12. -/
example : Fits 6 [2, 3] ∧ Fits 6 [3, 2] ∧
    ∃ p, PairContraction.newW (umul 6) HashOrd.reversed (callSC [['i', 'j'], ['j', 'k']] ['i', 'k'] Ex.dims) = .ok p ∧
      PairContraction.new HashOrd.reversed (callSC [['i', 'j'], ['j', 'k']] ['i', 'k'] Ex.dims) = .ok p :=
  ⟨by decide, by decide, C42_pair 6 (umul 6) (exactTo_umul 6) HashOrd.insertion _ _ _ _ _ _ _
    (sizes_callSC (ops := [['i', 'j'], ['j', 'k']]) (shapes := [[2, 3], [3, 2]]) (by simp [OutputOk, Used])
      (by simp [Sized, Ex.dims])) (by decide) (by decide)⟩

/-- With the bound 2 the same step fails. -/
example : PairContraction.newW (umul 2) HashOrd.reversed (callSC [['i', 'j'], ['j', 'k']] ['i', 'k'] Ex.dims) =
    panic .mulOverflow := by
  with_unfolding_all rfl

theorem compileStepsW_eq {W : Nat} {mul : UMul} (hm : ExactTo W mul) {dims : Char → Nat} (steps : List PairStep) (h : HashOrd)
    (hv : ∀ st ∈ steps, st.sizedContraction.Valid dims ∧ ∃ l r, st.sizedContraction.contraction.operandIndices = [l, r] ∧
      Fits W (l.map dims) ∧ Fits W (r.map dims)) :
    compileStepsW mul h steps = compileSteps h steps := by
  induction steps generalizing h with
  | nil => rfl
  | cons st steps ih =>
    obtain ⟨v1, l, r, v2, v3, v4⟩ := hv st (by simp)
    simp only [compileStepsW, compileSteps]
    rw [pair_newW hm v1 v2 v3 v4]
    refine bind_congr_ok fun _ _ => ?_
    rw [ih _ fun st' hst => hv st' (by simp [hst])]

/-- C42: compiling a whole generated order with a multiplication exact up to `W` gives the same path as with
unbounded arithmetic, and never fails, provided that in every step the non-zero lengths of each of the two
operands of that step have a product of at most `W`.  The size of a letter is the one that validation recorded. -/
theorem C42_path (W : Nat) (mul : UMul) (hmul : ExactTo W mul) (h₀ h h' : HashOrd) (s : String) (shapes : List (List Nat)) (sc : SizedContraction)
    (hsc : SizedContraction.fromStringAndShapes h₀ s shapes = .ok sc) (m : OptimizationMethod)
    (hm : m = .naive ∨ m = .reverse) (o : ContractionOrder) (ho : generateOptimizedOrder h sc m = .ok o)
    (hfit : ∀ steps, o = .pairs steps → ∀ st ∈ steps, ∀ ix ∈ st.sizedContraction.contraction.operandIndices,
      Fits W (ix.map fun c => (sc.outputSize c).getD 0)) :
    ∃ p, EinsumPath.fromPathW mul h' o = .ok p ∧ EinsumPath.fromPath h' o = .ok p := by
  obtain ⟨o', p, c1, c2, -⟩ := C11_compiles h₀ h h' s shapes sc hsc m hm
  rw [ho] at c1
  cases c1
  refine ⟨p, ?_, c2⟩
  rw [← c2]
  cases o with
  | singleton _ => rfl
  | pairs steps =>
    have h2 : 2 ≤ sc.contraction.operandIndices.length := by
      obtain ⟨inputs, out, dims, hd, hs, e⟩ := fromStringAndShapes_iff.1 hsc
      have hne : sc.contraction.operandIndices ≠ [] := by rw [e]; exact hd.inputs_ne.1
      have := List.length_pos_iff.2 hne
      by_contra hlt
      rw [C10_singleton h₀ h s shapes sc hsc m hm (by omega)] at ho
      cases ho
    obtain ⟨order, first, nums, lhs, rest, steps', dims, o1, o2, o3, o4, o5, o6, o7, o8, o9, o10⟩ :=
      order_spec h₀ h s shapes sc hsc m hm h2
    obtain ⟨steps'', q1, q2⟩ := C12_labels h₀ h s shapes sc hsc m hm _ rfl h2
    rw [ho] at o7 q1
    cases o7
    cases q1
    simp only [EinsumPath.fromPathW, EinsumPath.fromPath]
    rw [compileStepsW_eq (dims := dims) hmul steps h']
    intro st hst
    obtain ⟨k, hk⟩ := List.getElem?_of_mem hst
    have ss := o10 k st hk
    obtain ⟨l, r, b1, -⟩ := ss.labels
    have key : ∀ ix ∈ st.sizedContraction.contraction.operandIndices, Fits W (ix.map dims) := by
      intro ix hix
      have := hfit steps rfl st hst ix hix
      rwa [List.map_congr_left (g := dims)] at this
      intro c hc
      have hc' := List.mem_flatten.2 ⟨ix, hix, hc⟩
      rw [← (q2 k st hk).2.2.2.2 c hc', ss.valid.size c hc']
      rfl
    exact ⟨ss.valid, l, r, b1, key l (by rw [b1]; simp), key r (by rw [b1]; simp)⟩

/-- C42 on "ij,jk,k->i" (the order has two steps) with the bound 6. -/
example : ∃ o p, generateOptimizedOrder HashOrd.reversed (callSC [['i', 'j'], ['j', 'k'], ['k']] ['i'] Ex.dims) .naive = .ok o ∧
    EinsumPath.fromPathW (umul 6) HashOrd.reversed o = .ok p ∧ EinsumPath.fromPath HashOrd.reversed o = .ok p := by
  have hd : Denotes "ij,jk,k->i" [['i', 'j'], ['j', 'k'], ['k']] ['i'] :=
    .inl ⟨by decide, ⟨by simp, by simp [Letter], by simp [Letter]⟩, by simp [OutputOk, Used]⟩
  have hs : Sized Ex.dims [['i', 'j'], ['j', 'k'], ['k']] [[2, 3], [3, 2], [2]] := by simp [Sized, Ex.dims]
  have hsc : SizedContraction.fromStringAndShapes HashOrd.insertion "ij,jk,k->i" [[2, 3], [3, 2], [2]] =
      .ok (callSC [['i', 'j'], ['j', 'k'], ['k']] ['i'] Ex.dims) :=
    fromStringAndShapes_iff.2 ⟨_, _, _, hd, hs, rfl⟩
  obtain ⟨o, p, h1, -, -⟩ := C11_compiles _ HashOrd.reversed HashOrd.reversed _ _ _ hsc .naive (.inl rfl)
  refine ⟨o, ?_⟩
  obtain ⟨q, q1, q2⟩ := C42_path 6 (umul 6) (exactTo_umul 6) _ HashOrd.reversed HashOrd.reversed _ _ _ hsc .naive (.inl rfl) o h1 (by
    obtain ⟨s1, s2, n1, n2, e⟩ : ∃ s1 s2 n1 n2,
        generateOptimizedOrder HashOrd.reversed (callSC [['i', 'j'], ['j', 'k'], ['k']] ['i'] Ex.dims) .naive =
          .ok (.pairs [⟨⟨⟨[['i', 'j'], ['j', 'k']], ['k', 'i'], ['j']⟩, s1⟩, n1⟩, ⟨⟨⟨[['k', 'i'], ['k']], ['i'], ['k']⟩, s2⟩, n2⟩]) :=
      ⟨_, _, _, _, by with_unfolding_all rfl⟩
    rw [e] at h1
    cases h1
    rintro _ ⟨⟩ st hst ix hix
    simp only [List.mem_cons, List.not_mem_nil, or_false] at hst
    rcases hst with rfl | rfl <;> simp only [List.mem_cons, List.not_mem_nil, or_false] at hix <;>
      rcases hix with rfl | rfl <;> decide)
  exact ⟨q, h1, q1, q2⟩

theorem forall₂_getElem? {α β : Type} {R : α → β → Prop} {l : List α} {l' : List β} (h : List.Forall₂ R l l') {i : Nat}
    {a : α} (ha : l[i]? = some a) : ∃ b, l'[i]? = some b ∧ R a b := by
  induction h generalizing i with
  | nil => simp at ha
  | cons hr _ ih =>
    cases i with
    | zero => exact ⟨_, rfl, by simp at ha; exact ha ▸ hr⟩
    | succ i => simpa using ih (i := i) (by simpa using ha)

/-- C42: for one or two operands whose non-zero lengths have a product of at most `W`, `einsum` computed with
a multiplication exact up to `W` behaves, on every string, like `einsum` with unbounded arithmetic. -/
theorem C42_einsum {A : Type} [Zero A] [Add A] [Mul A] [MulAdd A] (W : Nat) (mul : UMul)
    (hm : ExactTo W mul) (h : HashOrd) (al : Alloc A) (s : String)
    (operands : List (View A)) (hn : operands.length ≤ 2) (hfit : ∀ v ∈ operands, Fits W v.shape) :
    einsumW mul h al s operands = einsum h al s operands := by
  simp only [einsumW, einsum]
  cases hsc : validateAndSize (h.sub 0) s operands with
  | error e => rfl
  | ok sc =>
    simp only [SizedContraction.contractOperands, EinsumPath.new]
    obtain ⟨o, p, c1, c2, -⟩ := C11_compiles (h.sub 0) ((h.sub 1).sub 0) ((h.sub 1).sub 1) s _ sc hsc .naive (.inl rfl)
    obtain ⟨q, q1, q2⟩ := C42_path W mul hm (h.sub 0) ((h.sub 1).sub 0) ((h.sub 1).sub 1) s _ sc hsc .naive (.inl rfl) o c1 (by
      rintro steps rfl st hst ix hix
      obtain ⟨inputs, out, dims, hd, hs, e⟩ := fromStringAndShapes_iff.1 hsc
      have hI : sc.contraction.operandIndices = inputs := by rw [e]
      have hne : inputs ≠ [] := hd.inputs_ne.1
      have hpos := List.length_pos_iff.2 hne
      have hlen : inputs.length = operands.length := by simpa using hs.length_eq
      have h2 : 2 ≤ sc.contraction.operandIndices.length := by
        rw [hI]
        by_contra hlt
        rw [C10_singleton (h.sub 0) ((h.sub 1).sub 0) s _ sc hsc .naive (.inl rfl) (by rw [hI]; omega)] at c1
        cases c1
      obtain ⟨steps'', q1, q2⟩ := C12_labels (h.sub 0) ((h.sub 1).sub 0) s _ sc hsc .naive (.inl rfl) _ rfl h2
      obtain ⟨steps3, r1, r2, -⟩ := C10_steps (h.sub 0) ((h.sub 1).sub 0) s _ sc hsc .naive (.inl rfl) _ rfl h2
      rw [c1] at q1 r1
      cases q1
      cases r1
      obtain ⟨k, hk⟩ := List.getElem?_of_mem hst
      have hk0 : k = 0 := by
        have := (List.getElem?_eq_some_iff.1 hk).1
        rw [r2, hI] at this
        omega
      subst hk0
      obtain ⟨⟨l, r, b1, b2, b3, -⟩, -⟩ := q2 0 st hk
      have hmem : ix ∈ inputs := by
        rw [b1] at hix
        rw [← hI]
        simp only [List.mem_cons, List.not_mem_nil, or_false] at hix
        rcases hix with rfl | rfl
        · exact List.mem_of_getElem? (b3 rfl)
        · exact List.mem_of_getElem? b2
      obtain ⟨i, hi⟩ := List.getElem?_of_mem hmem
      obtain ⟨sh, hsh, he⟩ := forall₂_getElem? hs hi
      obtain ⟨v, hv, rfl⟩ := List.mem_map.1 (List.mem_of_getElem? hsh)
      have := hfit v hv
      rw [he] at this
      rwa [List.map_congr_left (g := dims)]
      intro c hc
      rw [e]
      simp only
      rw [if_pos (List.mem_flatten.2 ⟨ix, hmem, hc⟩)]
      rfl)
    rw [c2] at q2
    cases q2
    simp only [c1, bind_ok, c2, q1]

/-- C42 on "ij,jk->ik" with the bound 6. -/
example (h : HashOrd) : einsumW (umul 6) h (Alloc.rowMajor Int) "ij,jk->ik" [Ex.m23, Ex.m32] =
    einsum h (Alloc.rowMajor Int) "ij,jk->ik" [Ex.m23, Ex.m32] :=
  C42_einsum 6 (umul 6) (exactTo_umul 6) h _ _ _ (by simp) (by decide)

/-- The letters of the array obtained from the first `k + 1` operands: those which occur in a later operand or in
the output. -/
def live (inputs : List (List Char)) (out : List Char) (k : Nat) : List Char :=
  (inputs.take (k + 1)).flatten.dedup.filter fun c => c ∈ (inputs.drop (k + 1)).flatten ∨ c ∈ out

theorem operands_compile (W : Nat) (mul : UMul) (hm : ExactTo W mul) (h₀ h h' : HashOrd) (s : String)
    (shapes : List (List Nat)) (inputs : List (List Char)) (out : List Char) (dims : Char → Nat) (hd : Denotes s inputs out)
    (hs : Sized dims inputs shapes) (hfit : ∀ sh ∈ shapes, Fits W sh)
    (hlive : ∀ k, 1 ≤ k → k + 1 < inputs.length → Fits W ((live inputs out k).map dims)) :
    ∃ o p, generateOptimizedOrder h (callSC inputs out dims) .naive = .ok o ∧ EinsumPath.fromPath h' o = .ok p ∧
      EinsumPath.fromPathW mul h' o = .ok p := by
  have hsc : SizedContraction.fromStringAndShapes h₀ s shapes = .ok (callSC inputs out dims) :=
    fromStringAndShapes_iff.2 ⟨inputs, out, dims, hd, hs, rfl⟩
  set sc := callSC inputs out dims with hscd
  obtain ⟨o, p, c1, c2, -⟩ := C11_compiles h₀ h h' s _ sc hsc .naive (.inl rfl)
  have hsize : ∀ ix : List Char, (∀ c ∈ ix, c ∈ inputs.flatten) → ix.map (fun c => (sc.outputSize c).getD 0) = ix.map dims := by
    intro ix hix
    refine List.map_congr_left fun c hc => ?_
    have := hix c hc
    show (if c ∈ inputs.flatten then some (dims c) else none).getD 0 = dims c
    rw [if_pos this]
    rfl
  obtain ⟨q, q1, q2⟩ := C42_path W mul hm h₀ h h' s _ sc hsc .naive (.inl rfl) o c1 (by
    rintro steps rfl st hst ix hix
    have hI : sc.contraction.operandIndices = inputs := rfl
    have hpos := List.length_pos_iff.2 hd.inputs_ne.1
    have h2 : 2 ≤ sc.contraction.operandIndices.length := by
      rw [hI]
      by_contra hlt
      rw [C10_singleton h₀ h s _ sc hsc .naive (.inl rfl) (by rw [hI]; omega)] at c1
      cases c1
    obtain ⟨steps'', q1, q2⟩ := C12_labels h₀ h s _ sc hsc .naive (.inl rfl) _ rfl h2
    obtain ⟨steps3, r1, r2, -⟩ := C10_steps h₀ h s _ sc hsc .naive (.inl rfl) _ rfl h2
    rw [c1] at q1 r1
    cases q1
    cases r1
    obtain ⟨k, hk⟩ := List.getElem?_of_mem hst
    obtain ⟨⟨l, r, b1, b2, b3, b4⟩, -⟩ := q2 k st hk
    have hop : ∀ ix ∈ inputs, Fits W (ix.map fun c => (sc.outputSize c).getD 0) := by
      intro ix hmem
      rw [hsize ix fun c hc => List.mem_flatten.2 ⟨ix, hmem, hc⟩]
      obtain ⟨i, hi⟩ := List.getElem?_of_mem hmem
      obtain ⟨sh, hsh, he⟩ := forall₂_getElem? hs hi
      rw [← he]
      exact hfit sh (List.mem_of_getElem? hsh)
    rw [b1] at hix
    simp only [List.mem_cons, List.not_mem_nil, or_false] at hix
    rcases hix with rfl | rfl
    · cases k with
      | zero => exact hop _ (List.mem_of_getElem? (b3 rfl))
      | succ j =>
        have hk' := (List.getElem?_eq_some_iff.1 hk).1
        have hj : steps[j]? = some steps[j] := List.getElem?_eq_getElem (by omega)
        rw [b4 j _ rfl hj]
        obtain ⟨-, n1, n2, -⟩ := q2 j _ hj
        rw [hI] at n2
        have hmem : ∀ c ∈ steps[j].sizedContraction.contraction.outputIndices, c ∈ live inputs out (j + 1) := by
          intro c hc
          obtain ⟨⟨i, ix, m1, m2, m3⟩, m4⟩ := (n2 c).1 hc
          simp only [live, List.mem_filter, List.mem_dedup, decide_eq_true_eq]
          refine ⟨List.mem_flatten.2 ⟨ix, ?_, m3⟩, ?_⟩
          · exact List.mem_of_getElem? (i := i) (by rw [List.getElem?_take_of_lt (by omega)]; exact m2)
          · rcases m4 with ⟨i', ix', m5, m6, m7, m8⟩ | m4
            · exact .inl (List.mem_flatten.2 ⟨ix', List.mem_of_getElem? (i := i' - (j + 1 + 1))
                (by rw [List.getElem?_drop, show j + 1 + 1 + (i' - (j + 1 + 1)) = i' by omega]; exact m7), m8⟩)
            · exact .inr m4
        rw [hsize _ fun c hc => by
          have := hmem c hc
          simp only [live, List.mem_filter, List.mem_dedup] at this
          obtain ⟨ix, i1, i2⟩ := List.mem_flatten.1 this.1
          exact List.mem_flatten.2 ⟨ix, List.mem_of_mem_take i1, i2⟩]
        exact (hlive (j + 1) (by omega) (by rw [r2, hI] at hk'; omega)).sub n1 hmem
    · exact hop _ (List.mem_of_getElem? b2))
  rw [c2] at q2
  cases q2
  exact ⟨o, _, c1, c2, q1⟩

/-- C42: for any number of operands, `einsum` computed in a word with largest value `W` (with or without overflow
checks) behaves like `einsum` with unbounded arithmetic when the non-zero lengths of every operand, and of the
intermediate result for each proper prefix of the operands, have a product of at most `W`.  ndarray refuses to
allocate an array for which this fails with `W = isize::MAX`. -/
theorem C42_operands {A : Type} [Zero A] [Add A] [Mul A] [MulAdd A] (W : Nat) (mul : UMul) (hm : ExactTo W mul)
    (h : HashOrd) (al : Alloc A) (s : String) (operands : List (View A)) (inputs : List (List Char)) (out : List Char)
    (dims : Char → Nat) (hd : Denotes s inputs out) (hs : Sized dims inputs (operands.map View.shape))
    (hfit : ∀ v ∈ operands, Fits W v.shape)
    (hlive : ∀ k, 1 ≤ k → k + 1 < operands.length → Fits W ((live inputs out k).map dims)) :
    einsumW mul h al s operands = einsum h al s operands := by
  simp only [einsumW, einsum]
  have hsc := validateAndSize_ok (h.sub 0) hd hs
  have hlen : inputs.length = operands.length := by simpa using hs.length_eq
  obtain ⟨o, p, c1, c2, c3⟩ := operands_compile W mul hm (h.sub 0) ((h.sub 1).sub 0) ((h.sub 1).sub 1) s _ inputs out dims
    hd hs (fun sh hsh => by
      obtain ⟨v, hv, rfl⟩ := List.mem_map.1 hsh
      exact hfit v hv) (by rw [hlen]; exact hlive)
  rw [hsc]
  simp only [SizedContraction.contractOperands, EinsumPath.new, c1, bind_ok, c2, c3]

/-- C42 on "ij,jk,k->i" in a word of largest value 6 without overflow checks; the product of all lengths is 12. -/
example (h : HashOrd) (al : Alloc Int) (v : View Int) (hv : v.shape = [2]) :
    einsumW (uwrap 6) h al "ij,jk,k->i" [Ex.m23, Ex.m32, v] = einsum h al "ij,jk,k->i" [Ex.m23, Ex.m32, v] :=
  C42_operands 6 (uwrap 6) (exactTo_uwrap 6) h al _ _ [['i', 'j'], ['j', 'k'], ['k']] ['i'] Ex.dims
    (.inl ⟨by decide, ⟨by simp, by simp [Letter], by simp [Letter]⟩, by simp [OutputOk, Used]⟩)
    (by simp [Sized, Ex.dims, hv, Ex.m23, Ex.m32])
    (by
      intro w hw
      simp only [List.mem_cons, List.not_mem_nil, or_false] at hw
      rcases hw with rfl | rfl | rfl
      · decide
      · decide
      · rw [hv]; decide)
    (by
      intro k h1 h2
      obtain rfl : k = 1 := by simp at h2; omega
      decide)

/-- C42: `tensordot` computed with a multiplication exact up to `W` behaves like `tensordot` with unbounded
arithmetic when the non-zero lengths of each operand have a product of at most `W`. -/
theorem C42_tensordot {A : Type} [Zero A] [Add A] [Mul A] [MulAdd A] (W : Nat) (mul : UMul)
    (hm : ExactTo W mul) (al : Alloc A) (lhs rhs : View A)
    (lhsAxes rhsAxes : List Nat) (hl : Fits W lhs.shape) (hr : Fits W rhs.shape) :
    tensordotW mul al lhs rhs lhsAxes rhsAxes = tensordot al lhs rhs lhsAxes rhsAxes := by
  simp only [tensordotW, tensordot]
  refine bind_congr_ok fun _ _ => bind_congr_ok fun n _ => ?_
  rw [fromAxisNumbersW_eq hm hl hr]

example : tensordotW (umul 6) (Alloc.rowMajor Int) Ex.m23 Ex.m32 [1] [0] = tensordot (Alloc.rowMajor Int) Ex.m23 Ex.m32 [1] [0] :=
  C42_tensordot 6 (umul 6) (exactTo_umul 6) _ _ _ _ _ (by decide) (by decide)

/-- The lengths that a contractor obtained by multiplication. -/
def TensordotFixedPosition.products (p : TensordotFixedPosition) : List Nat :=
  [p.lenUncontractedLhs, p.lenUncontractedRhs, p.lenContractedAxes]

/-- The lengths that a contractor obtained by multiplication. -/
def PairOp.products : PairOp → List Nat
  | .tensordotFixedPosition p => p.products
  | .tensordotGeneral p => p.tensordotFixedPosition.products
  | .stackedTensordotGeneral p =>
    p.lhsOutputShape.take 1 ++ p.rhsOutputShape.take 1 ++ p.intermediateShape.take 1 ++
      p.tensordotFixedPosition.products
  | _ => []

/-- The first computation stops with an overflow or is the second, which then produces only values in `P`. -/
def Guarded {α : Type} (m m' : M α) (P : α → Prop) : Prop :=
  m = panic .mulOverflow ∨ m = m' ∧ ∀ a, m' = .ok a → P a

theorem Guarded.bind {α β : Type} {m m' : M α} {P : α → Prop} {f f' : α → M β} {Q : β → Prop} (h : Guarded m m' P)
    (hf : ∀ a, P a → Guarded (f a) (f' a) Q) : Guarded (m >>= f) (m' >>= f') Q := by
  rcases h with h | ⟨rfl, h⟩
  · exact .inl (by rw [h]; rfl)
  · cases m with
    | error e => exact .inr ⟨rfl, fun a ha => by cases ha⟩
    | ok a => exact hf a (h a rfl)

theorem Guarded.refl {α : Type} (m : M α) : Guarded m m fun _ => True := .inr ⟨rfl, fun _ _ => trivial⟩

theorem Guarded.ok {α : Type} {P : α → Prop} {a : α} (h : P a) : Guarded (.ok a) (.ok a) P :=
  .inr ⟨rfl, fun b hb => by cases hb; exact h⟩

theorem Guarded.step {α β : Type} (m : M α) {f f' : α → M β} {Q : β → Prop}
    (hf : ∀ a, Guarded (f a) (f' a) Q) : Guarded (m >>= f) (m >>= f') Q :=
  (Guarded.refl m).bind fun a _ => hf a

theorem guarded_umul (W a b : Nat) : Guarded (umul W a b) (.ok (a * b)) fun c => c ≤ W := by
  by_cases h : a * b ≤ W
  · exact .inr ⟨by simp [umul, h], fun c hc => by cases hc; exact h⟩
  · exact .inl (by simp [umul, h])

theorem guarded_lhsLoop {W N k : Nat} (ns : List Nat) (axis u c : Nat) (out : List Nat) (hu : u ≤ W) (hc : c ≤ W) :
    Guarded (lhsLoopW (umul W) N k axis ns (u, c, out)) (lhsLoop N k axis ns (u, c, out))
      fun r => r.1 ≤ W ∧ r.2.1 ≤ W := by
  induction ns generalizing axis u c out with
  | nil => exact .ok ⟨hu, hc⟩
  | cons n ns ih =>
    simp only [lhsLoopW, lhsLoop]
    refine .step _ fun cut => ?_
    split
    · exact (guarded_umul W u n).bind fun u' h => ih _ _ _ _ h hc
    · exact (guarded_umul W c n).bind fun c' h => ih _ _ _ _ hu h

theorem guarded_rhsLoop {W k : Nat} (ns : List Nat) (axis u c : Nat) (out : List Nat) (hu : u ≤ W) (hc : c ≤ W) :
    Guarded (rhsLoopW (umul W) k axis ns (u, c, out)) (.ok (rhsLoop k axis ns (u, c, out)))
      fun r => r.1 ≤ W ∧ r.2.1 ≤ W := by
  induction ns generalizing axis u c out with
  | nil => exact .ok ⟨hu, hc⟩
  | cons n ns ih =>
    simp only [rhsLoopW, rhsLoop]
    split
    · exact (guarded_umul W c n).bind (f' := fun c' => .ok (rhsLoop k (axis + 1) ns (u, c', out)))
        fun c' h => ih _ _ _ _ hu h
    · exact (guarded_umul W u n).bind (f' := fun u' => .ok (rhsLoop k (axis + 1) ns (u', c, out ++ [n])))
        fun u' h => ih _ _ _ _ h hc

theorem guarded_fromShapes {W : Nat} (hW : 1 ≤ W) (l r : List Nat) (k : Nat) :
    Guarded (TensordotFixedPosition.fromShapesW (umul W) l r k) (TensordotFixedPosition.fromShapes l r k)
      fun p => ∀ n ∈ p.products, n ≤ W := by
  simp only [TensordotFixedPosition.fromShapesW, TensordotFixedPosition.fromShapes]
  refine (guarded_lhsLoop l 0 1 1 [] hW hW).bind fun x hx => ?_
  obtain ⟨a, b, c⟩ := x
  refine (guarded_rhsLoop r 0 1 1 c hW hW).bind (f' := fun x => do
    assertThat (x.2.1 = b); return (⟨a, x.1, b, x.2.2⟩ : TensordotFixedPosition)) fun y hy => ?_
  obtain ⟨d, e, f⟩ := y
  refine .step _ fun _ => .ok ?_
  simp only [TensordotFixedPosition.products, List.mem_cons, List.not_mem_nil, or_false]
  rintro n (rfl | rfl | rfl)
  · exact hx.1
  · exact hy.1
  · exact hx.2

theorem guarded_tensordotFixed {W : Nat} (hW : 1 ≤ W) (sc : SizedContraction) :
    Guarded (TensordotFixedPosition.newW (umul W) sc) (TensordotFixedPosition.new sc)
      fun p => ∀ n ∈ p.products, n ≤ W := by
  simp only [TensordotFixedPosition.newW, TensordotFixedPosition.new]
  exact .step _ fun _ => .step _ fun _ => .step _ fun _ => .step _ fun _ => .step _ fun _ => .step _ fun _ =>
    .step _ fun _ => guarded_fromShapes hW _ _ _

theorem guarded_axisNumbers {W : Nat} (hW : 1 ≤ W) (l r la ra order : List Nat) :
    Guarded (TensordotGeneral.fromShapesAndAxisNumbersW (umul W) l r la ra order)
      (TensordotGeneral.fromShapesAndAxisNumbers l r la ra order)
      fun p => ∀ n ∈ p.tensordotFixedPosition.products, n ≤ W := by
  simp only [TensordotGeneral.fromShapesAndAxisNumbersW, TensordotGeneral.fromShapesAndAxisNumbers]
  exact .step _ fun _ => .step _ fun _ => .step _ fun _ => .step _ fun _ => .step _ fun _ =>
    (guarded_fromShapes hW _ _ _).bind fun p hp => .ok hp

theorem guarded_tensordotGeneral {W : Nat} (hW : 1 ≤ W) (sc : SizedContraction) :
    Guarded (TensordotGeneral.newW (umul W) sc) (TensordotGeneral.new sc)
      fun p => ∀ n ∈ p.tensordotFixedPosition.products, n ≤ W := by
  simp only [TensordotGeneral.newW, TensordotGeneral.new, TensordotGeneral.fromShapesAndIndicesW,
    TensordotGeneral.fromShapesAndIndices]
  exact .step _ fun _ => .step _ fun _ => .step _ fun _ => .step _ fun _ => .step _ fun _ => .step _ fun _ =>
    .step _ fun _ => .step _ fun _ => guarded_axisNumbers hW _ _ _ _ _

theorem guarded_stackClassify {W : Nat} (sc : SizedContraction) (l : List ((Option Nat × Option Nat) × Char))
    (acc : StackAcc) (ha : acc.stackLen ≤ W) :
    Guarded (stackClassifyW (umul W) sc l acc) (stackClassify sc l acc) fun a => a.stackLen ≤ W := by
  induction l generalizing acc with
  | nil => exact .ok ha
  | cons x l ih =>
    obtain ⟨⟨o1, o2⟩, c⟩ := x
    cases o1 <;> cases o2 <;> simp only [stackClassifyW, stackClassify]
    · exact .inr ⟨rfl, fun a h => by cases h⟩
    · exact .step _ fun n => ih _ ha
    · exact .step _ fun n => ih _ ha
    · refine .step _ fun n => ?_
      exact (guarded_umul W acc.stackLen n).bind (f' := fun len => stackClassify sc l { acc with
        lhsStackAxes := acc.lhsStackAxes ++ [_], rhsStackAxes := acc.rhsStackAxes ++ [_]
        stackIndices := acc.stackIndices ++ [c], stackLen := len }) fun len h => ih _ h

theorem guarded_stacked {W : Nat} (hW : 1 ≤ W) (sc : SizedContraction) :
    Guarded (StackedTensordotGeneral.newW (umul W) sc) (StackedTensordotGeneral.new sc)
      fun p => ∀ n ∈ (PairOp.stackedTensordotGeneral p).products, n ≤ W := by
  simp only [StackedTensordotGeneral.newW, StackedTensordotGeneral.new]
  refine .step _ fun _ => .step _ fun _ => .step _ fun _ => .step _ fun _ => .step _ fun _ =>
    (guarded_stackClassify sc _ {} hW).bind fun acc ha => .step _ fun x => ?_
  obtain ⟨x1, x2, x3⟩ := x
  refine .step _ fun _ => .step _ fun _ => .step _ fun _ => .step _ fun _ =>
    (guarded_fromShapes hW _ _ _).bind fun p hp => .ok fun n hn => ?_
  simp only [PairOp.products, List.take_succ_cons, List.take_zero, List.mem_append, List.mem_cons, List.not_mem_nil,
    or_false] at hn
  rcases hn with (((rfl | rfl) | rfl) | hn)
  · exact ha
  · exact ha
  · exact ha
  · exact hp n hn

theorem guarded_pairOp {W : Nat} (hW : 1 ≤ W) (sc : SizedContraction) (m : PairMethod) :
    Guarded (PairOp.newW (umul W) sc m) (PairOp.new sc m) fun p => ∀ n ∈ p.products, n ≤ W := by
  cases m <;> simp only [PairOp.newW, PairOp.new]
  case tensordotFixedPosition => exact (guarded_tensordotFixed hW sc).bind fun p hp => .ok hp
  case tensordotGeneral => exact (guarded_tensordotGeneral hW sc).bind fun p hp => .ok hp
  case stackedTensordotGeneral => exact (guarded_stacked hW sc).bind fun p hp => .ok hp
  all_goals exact .step _ fun _ => .ok (by simp [PairOp.products])

theorem guarded_pair {W : Nat} (hW : 1 ≤ W) (h : HashOrd) (sc : SizedContraction) :
    Guarded (PairContraction.newW (umul W) h sc) (PairContraction.new h sc) fun p => ∀ n ∈ p.op.products, n ≤ W := by
  simp only [PairContraction.newW, PairContraction.new]
  exact .step _ fun _ => .step _ fun _ => .step _ fun _ => .step _ fun _ => .step _ fun _ => .step _ fun _ =>
    .step _ fun _ => (guarded_pairOp hW _ _).bind fun p hp => .step _ fun _ => .ok hp

theorem guarded_steps {W : Nat} (hW : 1 ≤ W) (h : HashOrd) (steps : List PairStep) :
    Guarded (compileStepsW (umul W) h steps) (compileSteps h steps)
      fun ps => ∀ p ∈ ps, ∀ n ∈ p.op.products, n ≤ W := by
  induction steps generalizing h with
  | nil => exact .ok (by simp)
  | cons st steps ih =>
    simp only [compileStepsW, compileSteps]
    refine (guarded_pair hW _ _).bind fun p hp => (ih _).bind fun ps hps => .ok fun q hq => ?_
    rcases List.mem_cons.1 hq with rfl | hq
    · exact hp
    · exact hps q hq

/-- C42: with overflow checks, compiling any order at all either stops with an overflow or gives exactly the result
of unbounded arithmetic, and then every length that a contractor obtained by multiplication is at most `W`. -/
theorem C42_checked (W : Nat) (hW : 1 ≤ W) (h : HashOrd) (o : ContractionOrder) :
    EinsumPath.fromPathW (umul W) h o = panic .mulOverflow ∨
      EinsumPath.fromPathW (umul W) h o = EinsumPath.fromPath h o ∧
      ∀ p steps, EinsumPath.fromPath h o = .ok p → p.steps = .pairContractions steps →
        ∀ c ∈ steps, ∀ n ∈ c.op.products, n ≤ W := by
  cases o with
  | singleton sc =>
    refine .inr ⟨rfl, fun p steps hp hs => ?_⟩
    simp only [EinsumPath.fromPath] at hp
    obtain ⟨c, -, h2⟩ := bind_eq_ok.1 hp
    cases h2
    cases hs
  | pairs orderSteps =>
    simp only [EinsumPath.fromPathW, EinsumPath.fromPath]
    have := (guarded_steps hW h orderSteps).bind (f := fun steps => pure ⟨.pairs orderSteps, .pairContractions steps⟩)
      (f' := fun steps => pure ⟨.pairs orderSteps, .pairContractions steps⟩)
      (Q := fun p : EinsumPath => ∀ steps, p.steps = .pairContractions steps → ∀ c ∈ steps, ∀ n ∈ c.op.products, n ≤ W)
      fun ps hps => .ok fun steps hs => by cases hs; exact hps
    rcases this with h1 | ⟨h1, h2⟩
    · exact .inl h1
    · exact .inr ⟨h1, fun p steps hp hs => h2 p hp steps hs⟩

/-- C42 on "ij,jk->ik" with lengths 2, 3, 2: the bound 2 overflows, the bound 3 does not and the lengths are
2, 2 and 3. -/
example : EinsumPath.fromPathW (umul 2) HashOrd.reversed
      (.pairs [⟨callSC [['i', 'j'], ['j', 'k']] ['i', 'k'] Ex.dims, .input 0, .input 1⟩]) = panic .mulOverflow ∧
    ∃ p c, EinsumPath.fromPathW (umul 3) HashOrd.reversed
      (.pairs [⟨callSC [['i', 'j'], ['j', 'k']] ['i', 'k'] Ex.dims, .input 0, .input 1⟩]) = .ok p ∧
      p.steps = .pairContractions [c] ∧ c.op.products = [2, 2, 3] := by
  refine ⟨by with_unfolding_all rfl, _, _, by with_unfolding_all rfl, rfl, by with_unfolding_all rfl⟩

/-- C42: with overflow checks, `tensordot` either stops with an overflow or behaves as with unbounded arithmetic. -/
theorem C42_tensordot_checked {A : Type} [Zero A] [Add A] [Mul A] [MulAdd A] (W : Nat) (hW : 1 ≤ W) (al : Alloc A)
    (lhs rhs : View A) (lhsAxes rhsAxes : List Nat) :
    tensordotW (umul W) al lhs rhs lhsAxes rhsAxes = panic .mulOverflow ∨
      tensordotW (umul W) al lhs rhs lhsAxes rhsAxes = tensordot al lhs rhs lhsAxes rhsAxes := by
  simp only [tensordotW, tensordot]
  have := Guarded.step (assertThat (lhsAxes.length = rhsAxes.length)) fun _ =>
    Guarded.step (usub (lhs.shape.length + rhs.shape.length) (2 * lhsAxes.length)) fun n =>
      (guarded_axisNumbers hW lhs.shape rhs.shape lhsAxes rhsAxes (List.range n)).bind fun t _ =>
        Guarded.refl (t.run al lhs rhs)
  exact this.imp_right fun h => h.1

/-- C42 on a matrix product: the bound 2 overflows. -/
example : tensordotW (umul 2) (Alloc.rowMajor Int) Ex.m23 Ex.m32 [1] [0] = panic .mulOverflow := by
  with_unfolding_all rfl

/-- A vector of `2 ^ 22` equal elements. -/
def Ex.long : View Int := ⟨[1], 0, [2 ^ 22], [0]⟩

/-- C42: intermediate results are another matter.  Compiling "i,j,k,l,i,j,k,l->" for eight vectors of length `2 ^ 22`
(each of which fits in memory) overflows a 64-bit `usize`, although the sum has a single element. -/
theorem C42_overflow :
    (∀ v ∈ List.replicate 8 Ex.long, v.Wf ∧ Fits (2 ^ 64 - 1) v.shape) ∧
    einsumPathW (umul (2 ^ 64 - 1)) HashOrd.insertion "i,j,k,l,i,j,k,l->" (List.replicate 8 Ex.long) .naive =
      panic .mulOverflow := by
  refine ⟨fun v hv => ?_, ?_⟩
  · rw [List.eq_of_mem_replicate hv]
    refine ⟨⟨rfl, fun idx hi => ?_⟩, by unfold Fits nzProd; decide⟩
    refine ⟨1, ?_⟩
    simp only [View.read]
    rw [if_pos hi]
    match idx, hi with
    | [i], _ => simp [readAt, dotI, Ex.long]
  · have hd : Denotes "i,j,k,l,i,j,k,l->" [['i'], ['j'], ['k'], ['l'], ['i'], ['j'], ['k'], ['l']] [] :=
      .inl ⟨by decide, ⟨by simp, by simp [Letter], by simp [Letter]⟩, by simp [OutputOk, Used]⟩
    have hs : Sized (fun _ => 2 ^ 22) [['i'], ['j'], ['k'], ['l'], ['i'], ['j'], ['k'], ['l']]
        ((List.replicate 8 Ex.long).map View.shape) := by
      simp [Sized, Ex.long, List.replicate]
    simp only [einsumPathW, validateAndOptimizeOrder, validateAndSize_ok _ hd hs]
    with_unfolding_all rfl

/-- The lengths that the contractors of a path obtained by multiplication. -/
def EinsumPath.products (p : EinsumPath) : List (List Nat) :=
  match p.steps with
  | .singletonContraction _ => []
  | .pairContractions steps => steps.map fun c => c.op.products

/-- C42: without overflow checks the same string compiles, and the contractors of the third and the fourth step
record the length 0 of axes whose lengths have the product `2 ^ 66`. -/
theorem C42_wraps :
    ∃ p, einsumPathW (uwrap (2 ^ 64 - 1)) HashOrd.insertion "i,j,k,l,i,j,k,l->" (List.replicate 8 Ex.long) .naive =
        .ok (.ok p) ∧
      p.products = [[2 ^ 22, 2 ^ 22, 1], [2 ^ 44, 2 ^ 22, 1], [0, 2 ^ 22, 1], [0, 1, 2 ^ 22], [2 ^ 44, 1, 2 ^ 22],
        [2 ^ 22, 1, 2 ^ 22], [1, 1, 2 ^ 22]] := by
  have hd : Denotes "i,j,k,l,i,j,k,l->" [['i'], ['j'], ['k'], ['l'], ['i'], ['j'], ['k'], ['l']] [] :=
    .inl ⟨by decide, ⟨by simp, by simp [Letter], by simp [Letter]⟩, by simp [OutputOk, Used]⟩
  have hs : Sized (fun _ => 2 ^ 22) [['i'], ['j'], ['k'], ['l'], ['i'], ['j'], ['k'], ['l']]
      ((List.replicate 8 Ex.long).map View.shape) := by
    simp [Sized, Ex.long, List.replicate]
  simp only [einsumPathW, validateAndOptimizeOrder, validateAndSize_ok _ hd hs]
  exact ⟨_, by with_unfolding_all rfl, by with_unfolding_all rfl⟩

end Einsum
