import Verif.Props.Ranks
import Verif.Props.Fold

/-!
# Property C117: paths of several operands and arrays with another number of axes
-/

namespace Einsum

open Spec

section parts
variable {A : Type}

theorem permuted_axes_length {v w : View A} {axes : List Nat} (h : v.permutedAxes axes = .ok w) :
    axes.length = v.shape.length := by
  by_cases hp : axes.Perm (List.range v.shape.length)
  · simpa using hp.length_eq
  · rw [View.permutedAxes_panic hp] at h
    cases h

theorem sumAxes_rank [Zero A] [Add A] {k a : Nat} {v w : View A} (hv : v.Wf) {al : Alloc A}
    (h : sumAxes al (List.replicate k a) v = .ok w) : w.shape.length + k = v.shape.length := by
  induction k generalizing v al with
  | zero => cases h; rfl
  | succ k ih =>
    rw [List.replicate_succ, sumAxes] at h
    obtain ⟨x, x1, h⟩ := bind_eq_ok.1 h
    by_cases ha : a < v.shape.length
    · obtain ⟨y, y1, y2⟩ := hv.elements.holds.sumAxisT (al.sub 0) (List.getElem?_eq_getElem ha)
      rw [y1] at x1
      cases x1
      have h1 := ih y2.wf h
      rw [y2.shape, List.length_eraseIdx_of_lt ha] at h1
      omega
    · rw [View.sumAxis, List.getElem?_eq_none (by omega)] at x1
      cases x1

theorem find_length {out l : List Char} {ps : List Nat} (h : findOutputsInInputsUnique out l = .ok ps) :
    ps.length = out.length := by
  unfold findOutputsInInputsUnique at h
  obtain ⟨x, h1, h2⟩ := bind_eq_ok.1 h
  rw [mapE_length h2]
  exact mapE_length h1

/-- An operand with another number of axes does not get through its simplification and the contractor of the pair. -/
theorem simplified_rank [Zero A] [Add A] {sc : SizedContraction} {dims : Char → Nat} (hv : sc.Valid dims) {k : HashOrd}
    {L R out : List Char} (hL : ∀ c ∈ L, c ∈ sc.contraction.operandIndices.flatten)
    {x : Option SimplificationMethodAndOutput}
    (hx : SimplificationMethodAndOutput.fromIndicesAndSizes k L R out sc = .ok x) {v v' : View A} (hw : v.Wf)
    {al : Alloc A} (hr : simplifyOperand al x v = .ok v') {E : Prop}
    (hn : newIndicesOr x L ≠ [] ∨ E → v'.shape.length = (newIndicesOr x L).length) :
    (L.Nodup → L.length ≤ v.shape.length) ∧
      ((¬ L.Nodup ∨ (∃ c ∈ L, c ∈ R ∨ c ∈ out) ∨ E) → v.shape.length ≤ L.length) := by
  obtain ⟨s, s1, s2⟩ := simplification_parts hv k (R := R) (out := out) hL
  rw [hx] at s1
  cases s1
  rcases s2 with ⟨rfl, hno⟩ | ⟨-, y, rfl, -, y2, -, -, -⟩
  · cases hr
    rcases eq_or_ne L [] with rfl | h0
    · refine ⟨fun _ => Nat.zero_le _, fun h => ?_⟩
      have hE : E := by simpa using h
      exact (hn (.inr hE)).le
    · have := hn (.inl h0)
      exact ⟨fun _ => this.ge, fun _ => this.le⟩
  · unfold SimplificationMethodAndOutput.fromIndicesAndSizes at hx
    simp only at hx
    obtain ⟨a, a1, hx⟩ := bind_eq_ok.1 hx
    obtain ⟨c, c1, hx⟩ := bind_eq_ok.1 hx
    set N := desiredIndices (k.sub 0) L R out with hN
    have hmN : ∀ c, c ∈ N ↔ c ∈ L ∧ (c ∈ R ∨ c ∈ out) := fun c => mem_desired
    have hout : OutputOk [L] N := ⟨nodup_desired, fun c hc => used_iff.2 (by simpa using ((hmN c).1 hc).1)⟩
    obtain ⟨b1, b2, b3⟩ := Valid.subset_of hv (by simpa using hL) hout a1
    have hy : c.method ≠ .identity ∧ y.op = c.op ∧ y.newIndices = N := by
      cases hm : c.method <;> rw [hm] at hx <;> first
        | cases hx
        | (obtain ⟨t, -, hx⟩ := bind_eq_ok.1 hx
           cases hx
           exact ⟨by simp, rfl, rfl⟩)
    obtain ⟨y3, y4, y5⟩ := hy
    simp only [newIndicesOr, y5] at hn
    simp only [simplifyOperand, y4] at hr
    by_cases hnd : L.Nodup
    · by_cases hpre : N <+: L
      · have hne : N ≠ L := fun e => by
          obtain ⟨q, q1, q2⟩ := singleton_method b1 b2
          rw [c1] at q1
          cases q1
          rw [b3, singletonMethod, if_pos hnd, if_pos (by rw [e]; exact fun _ h => h), if_pos e] at q2
          exact y3 q2
        obtain ⟨g1, orig, g2⟩ := summation_part b1 b2 hnd (by rw [b3]; exact hpre) (by rw [b3]; exact hne) c1
        rw [b3] at g1 g2
        rw [g2] at hr
        simp only [SingletonOp.run] at hr
        rw [summation_run (by omega)] at hr
        have e1 := sumAxes_rank hw hr
        have e2 : L.length ≤ v.shape.length := by
          by_contra hlt
          rw [sumAxes_missing (by omega) hw (by omega)] at hr
          cases hr
        refine ⟨fun _ => e2, fun h => ?_⟩
        have := hn ((h.resolve_left (not_not.2 hnd)).imp_left fun ⟨d, hd, hd'⟩ =>
          List.ne_nil_of_mem ((hmN d).2 ⟨hd, hd'⟩))
        omega
      · obtain ⟨axes, ha, ho⟩ := permuting_part b1 b2 hnd (by rw [b3]; exact hpre) c1
        have key : axes.length = v.shape.length := by
          rcases ho with e | ⟨t, e⟩ <;> rw [e] at hr <;>
            simp only [SingletonOp.run, Permutation.run, PermutationAndSummation.run, Permutation.view] at hr <;>
            obtain ⟨z, z1, -⟩ := bind_eq_ok.1 hr <;> exact permuted_axes_length z1
        exact ⟨fun _ => by omega, fun _ => by omega⟩
    · refine ⟨fun h => absurd h hnd, fun _ => ?_⟩
      by_contra hlt
      obtain ⟨new, -, -, d3⟩ := diag_parts b1 b2 hnd c1
      have key : ∀ (adj sh : List Nat), adj.length = L.length → ∀ t : View A, t.shape.length = v.shape.length →
          t.strides.length = v.strides.length → ∃ k, Diagonalization.view ⟨adj, sh⟩ t = panic k := by
        intro adj sh ha t _ e
        obtain ⟨k, hk⟩ := diagStrides_long (mapping := adj) t.strides (sh.map fun _ => 0) 0
          (by rw [e, hw.1, ha]; omega) (by omega)
        exact ⟨k, by simp only [Diagonalization.view, hk]; rfl⟩
      rcases d3 with ⟨-, e⟩ | ⟨-, e⟩ <;> rw [e] at hr
      · obtain ⟨k', hk'⟩ := (singleton_panics hw (key _ _ (List.length_map _)) al).1
        rw [hk'] at hr
        cases hr
      · obtain ⟨k', hk'⟩ := (singleton_panics hw (key _ _ (List.length_map _)) al).2 _
        rw [hk'] at hr
        cases hr

/-- The contractors of a pair permute both operands, except one without letters. -/
theorem pairOp_rank [Zero A] [Add A] [Mul A] [MulAdd A] {red : SizedContraction} {dims : Char → Nat} {L R NL NR o : List Char}
    (hv : red.Valid dims) (hops : red.contraction.operandIndices = [NL, NR]) (ho : red.contraction.outputIndices = o)
    (hNL : NL.Nodup) (hNR : NR.Nodup) (mL : ∀ c, c ∈ NL ↔ c ∈ L ∧ (c ∈ R ∨ c ∈ o))
    (mR : ∀ c, c ∈ NR ↔ c ∈ R ∧ (c ∈ L ∨ c ∈ o)) {op : PairOp} (hop : PairOp.new red (pairMethod L R o) = .ok op)
    {al : Alloc A} {l r w : View A} (hr : op.run al l r = .ok w) :
    (NL ≠ [] ∨ NR = [] → l.shape.length = NL.length) ∧ (NR ≠ [] ∨ NL = [] → r.shape.length = NR.length) := by
  have uL : ∀ c ∈ NL, c ∈ NR ∨ c ∈ red.contraction.outputIndices := by
    rw [ho]
    intro c hc
    rw [mR]
    have := (mL c).1 hc
    tauto
  have uR : ∀ c ∈ NR, c ∈ NL ∨ c ∈ red.contraction.outputIndices := by
    rw [ho]
    intro c hc
    rw [mL]
    have := (mR c).1 hc
    tauto
  unfold pairMethod at hop
  split_ifs at hop with g1 g2 g3 g4
  · simp only [PairOp.new, HadamardProductGeneral.new, hops, List.length_cons, List.length_nil, Nat.zero_add,
      Nat.reduceAdd, decide_true, assertThat_true, bind_ok, index_cons_zero, index_one] at hop
    obtain ⟨x, hx, hop⟩ := bind_eq_ok.1 hop
    cases hop
    obtain ⟨_, a1, hx⟩ := bind_eq_ok.1 hx
    obtain ⟨_, a2, hx⟩ := bind_eq_ok.1 hx
    obtain ⟨lp, a3, hx⟩ := bind_eq_ok.1 hx
    obtain ⟨rp, a4, hx⟩ := bind_eq_ok.1 hx
    cases hx
    simp only [PairOp.run, HadamardProductGeneral.run, Permutation.view] at hr
    obtain ⟨l', l1, hr⟩ := bind_eq_ok.1 hr
    obtain ⟨r', r1, hr⟩ := bind_eq_ok.1 hr
    have e1 := permuted_axes_length l1
    have e2 := permuted_axes_length r1
    have e3 := find_length a3
    have e4 := find_length a4
    have e5 : NL.length = NR.length := by
      by_contra e
      simp [assertThat, e] at a1
    have e6 : NL.length = red.contraction.outputIndices.length := by
      by_contra e
      simp [assertThat, e] at a2
    exact ⟨fun _ => by omega, fun _ => by omega⟩
  · have h0 : NL = [] := List.eq_nil_iff_forall_not_mem.2 fun c hc => by
      have := (mL c).1 hc
      have := g2 c this.1
      tauto
    have h1 : NR ≠ [] := fun e => g1 ⟨fun c hc ho => absurd ((mL c).2 ⟨hc, ho⟩) (by simp [h0]),
      fun c hc ho => absurd ((mR c).2 ⟨hc, ho⟩) (by simp [e])⟩
    refine ⟨fun h => by simp [h0, h1] at h, fun _ => ?_⟩
    simp only [PairOp.new, ScalarMatrixProductGeneral.new, hops, List.length_cons, List.length_nil, Nat.zero_add,
      Nat.reduceAdd, decide_true, assertThat_true, bind_ok, index_cons_zero, index_one] at hop
    obtain ⟨x, hx, hop⟩ := bind_eq_ok.1 hop
    cases hop
    obtain ⟨_, a1, hx⟩ := bind_eq_ok.1 hx
    obtain ⟨_, a2, hx⟩ := bind_eq_ok.1 hx
    obtain ⟨rp, a4, hx⟩ := bind_eq_ok.1 hx
    cases hx
    simp only [PairOp.run, ScalarMatrixProductGeneral.run, Permutation.view] at hr
    obtain ⟨r', r1, hr⟩ := bind_eq_ok.1 hr
    have e2 := permuted_axes_length r1
    have e4 := find_length a4
    have e6 : NR.length = red.contraction.outputIndices.length := by
      by_contra e
      simp [assertThat, e] at a2
    omega
  · have h0 : NR = [] := List.eq_nil_iff_forall_not_mem.2 fun c hc => by
      have := (mR c).1 hc
      have := g3 c this.1
      tauto
    have h1 : NL ≠ [] := fun e => g1 ⟨fun c hc ho => absurd ((mL c).2 ⟨hc, ho⟩) (by simp [e]),
      fun c hc ho => absurd ((mR c).2 ⟨hc, ho⟩) (by simp [h0])⟩
    refine ⟨fun _ => ?_, fun h => by simp [h0, h1] at h⟩
    simp only [PairOp.new, MatrixScalarProductGeneral.new, hops, List.length_cons, List.length_nil, Nat.zero_add,
      Nat.reduceAdd, decide_true, assertThat_true, bind_ok, index_cons_zero, index_one] at hop
    obtain ⟨x, hx, hop⟩ := bind_eq_ok.1 hop
    cases hop
    obtain ⟨_, a1, hx⟩ := bind_eq_ok.1 hx
    obtain ⟨_, a2, hx⟩ := bind_eq_ok.1 hx
    obtain ⟨lp, a4, hx⟩ := bind_eq_ok.1 hx
    cases hx
    simp only [PairOp.run, MatrixScalarProductGeneral.run, Permutation.view] at hr
    obtain ⟨l', l1, hr⟩ := bind_eq_ok.1 hr
    have e2 := permuted_axes_length l1
    have e4 := find_length a4
    have e6 : NL.length = red.contraction.outputIndices.length := by
      by_contra e
      simp [assertThat, e] at a2
    omega
  · obtain ⟨C, ⟨c0, c1, c2, c3, c4, c5, c6⟩, c7⟩ := tensordotGeneral_new hv hops hNL hNR uL uR
      (by rw [ho]; intro c hc hc'; exact g4 c ((mL c).1 hc).1 ((mR c).1 hc').1)
    rw [c7] at hop
    cases hop
    simp only [PairOp.run, TensordotGeneral.run, Permutation.view] at hr
    obtain ⟨l', l1, hr⟩ := bind_eq_ok.1 hr
    obtain ⟨r', r1, hr⟩ := bind_eq_ok.1 hr
    have e1 := permuted_axes_length l1
    have e2 := permuted_axes_length r1
    rw [List.length_map] at e1 e2
    have p1 : ((NL.filter fun c => c ∉ C) ++ C).Perm NL := by
      refine perm_of_nodup ?_ hNL fun d => ?_
      · rw [List.nodup_append']
        exact ⟨hNL.filter _, c1, fun d h1 h2 => by simp at h1; exact h1.2 h2⟩
      · by_cases hd : d ∈ C
        · simp [hd, c3 d hd]
        · simp [hd]
    have p2 : (C ++ NR.filter fun c => c ∉ C).Perm NR := by
      refine perm_of_nodup ?_ hNR fun d => ?_
      · rw [List.nodup_append']
        exact ⟨c1, hNR.filter _, fun d h1 h2 => by simp at h2; exact h2.2 h1⟩
      · by_cases hd : d ∈ C
        · simp [hd, c4 d hd]
        · simp [hd]
    exact ⟨fun _ => by rw [← e1, p1.length_eq], fun _ => by rw [← e2, p2.length_eq]⟩
  · obtain ⟨S, U, V, C, -, ⟨pL, pR, -, -, -⟩, c7⟩ := stackedGeneral_new hv hops hNL hNR uL uR
    rw [c7] at hop
    cases hop
    simp only [PairOp.run, StackedTensordotGeneral.run, Permutation.view] at hr
    obtain ⟨l', l1, hr⟩ := bind_eq_ok.1 hr
    have e1 := permuted_axes_length l1
    rw [List.length_map, pL.length_eq] at e1
    obtain ⟨d, -, hr⟩ := bind_eq_ok.1 hr
    split at hr
    · cases hr
    · obtain ⟨r', r1, hr⟩ := bind_eq_ok.1 hr
      have e2 := permuted_axes_length r1
      rw [List.length_map, pR.length_eq] at e2
      exact ⟨fun _ => e1.symm, fun _ => e2.symm⟩

/-- One call for two operands. -/
theorem call_rank [Zero A] [Add A] [Mul A] [MulAdd A] {dims : Char → Nat} {L R o : List Char} (ho : OutputOk [L, R] o)
    {h : HashOrd} {al : Alloc A} {l r w : View A} (hl : l.Wf) (hr : r.Wf)
    (hc : (callSC [L, R] o dims).contractOperands h al [l, r] = .ok w) :
    w.Wf ∧ ((L.Nodup → L.length ≤ l.shape.length) ∧
      ((¬ L.Nodup ∨ (∃ c ∈ L, c ∈ R ∨ c ∈ o) ∨ ∀ c ∈ R, c ∉ L ∧ c ∉ o) → l.shape.length ≤ L.length)) ∧
      ((R.Nodup → R.length ≤ r.shape.length) ∧
      ((¬ R.Nodup ∨ (∃ c ∈ R, c ∈ L ∨ c ∈ o) ∨ ∀ c ∈ L, c ∉ R ∧ c ∉ o) → r.shape.length ≤ R.length)) := by
  have hv := callSC_valid (dims := dims) ho
  have hops : (callSC [L, R] o dims).contraction.operandIndices = [L, R] := rfl
  have hout : (callSC [L, R] o dims).contraction.outputIndices = o := rfl
  obtain ⟨c, q1, q2, q3, q4, -, -⟩ := pair_parts hv hops ((h.sub 1).sub 0)
  have hrun : (callSC [L, R] o dims).contractOperands h al [l, r] = c.run (al.sub 0) l r := by
    unfold SizedContraction.contractOperands
    rw [new_two _ ho, q1]
    exact contract_two
  rw [hrun] at hc
  have hw : w.Wf := by
    rcases c.run_safe hl hr (al.sub 0) with ⟨k, e⟩ | ⟨x, e, hx⟩
    · rw [hc] at e
      cases e
    · rw [hc] at e
      cases e
      exact hx
  refine ⟨hw, ?_⟩
  have hL : ∀ c ∈ L, c ∈ (callSC [L, R] o dims).contraction.operandIndices.flatten := by rw [hops]; intro c hc; simp [hc]
  have hR : ∀ c ∈ R, c ∈ (callSC [L, R] o dims).contraction.operandIndices.flatten := by rw [hops]; intro c hc; simp [hc]
  rw [hout] at q2 q3 q4
  have q1' := q1
  unfold PairContraction.new at q1'
  rw [hops, hout] at q1'
  simp only [List.length_cons, List.length_nil, Nat.zero_add, Nat.reduceAdd, decide_true,
    assertThat_true, bind_ok, index_cons_zero, index_one] at q1'
  rw [q2, bind_ok, q3, bind_ok] at q1'
  obtain ⟨red, a1, q1'⟩ := bind_eq_ok.1 q1'
  obtain ⟨s, -, q1'⟩ := bind_eq_ok.1 q1'
  obtain ⟨op, o1, q1'⟩ := bind_eq_ok.1 q1'
  obtain ⟨t, -, q1'⟩ := bind_eq_ok.1 q1'
  have e := Except.ok.inj q1'
  have em : s.getStrategy = pairMethod L R o := by rw [← q4, ← e]
  have eo : c.op = op := by rw [← e]
  rw [em] at o1
  obtain ⟨sl, l1, l2, l3, -⟩ := simplification_ok hv (((h.sub 1).sub 0).sub 0) (L := L) (R := R) (out := o) hL
  obtain ⟨sr, r1, r2, r3, -⟩ := simplification_ok hv (((h.sub 1).sub 0).sub 1) (L := R) (R := L) (out := o) hR
  rw [q2] at l1
  cases l1
  rw [q3] at r1
  cases r1
  obtain ⟨b1, b2, b3⟩ := Valid.subset_of hv (by
      rw [hops]
      intro x hx
      simp only [List.flatten_cons, List.flatten_nil, List.append_nil, List.mem_append, l3, r3] at hx ⊢
      tauto)
    ⟨ho.1, fun x hx => used_iff.2 (by
      have := used_iff.1 (ho.2 x hx)
      simp only [List.flatten_cons, List.flatten_nil, List.append_nil, List.mem_append, l3, r3] at this ⊢
      tauto)⟩ a1
  simp only [PairContraction.run] at hc
  obtain ⟨l', hl', hc⟩ := bind_eq_ok.1 hc
  obtain ⟨r', hr', hc⟩ := bind_eq_ok.1 hc
  rw [eo] at hc
  obtain ⟨k1, k2⟩ := pairOp_rank b1 b2 b3 l2 r2 l3 r3 o1 hc
  have e1 : (∀ c ∈ R, c ∉ L ∧ c ∉ o) → newIndicesOr c.rhsSimplification R = [] := fun g =>
    List.eq_nil_iff_forall_not_mem.2 fun d hd => ((r3 d).1 hd).2.elim (g d ((r3 d).1 hd).1).1 (g d ((r3 d).1 hd).1).2
  have e2 : (∀ c ∈ L, c ∉ R ∧ c ∉ o) → newIndicesOr c.lhsSimplification L = [] := fun g =>
    List.eq_nil_iff_forall_not_mem.2 fun d hd => ((l3 d).1 hd).2.elim (g d ((l3 d).1 hd).1).1 (g d ((l3 d).1 hd).1).2
  exact ⟨simplified_rank hv hL q2 hl hl' fun g => k1 (g.imp_right e1),
    simplified_rank hv hR q3 hr hr' fun g => k2 (g.imp_right e2)⟩

/-- The operands taken in by the calls.  `P` holds for the letters of the operands taken in before. -/
theorem fold_rank [Zero A] [Add A] [Mul A] [MulAdd A] {dims : Char → Nat} {inputs : List (List Char)} {out : List Char}
    {operands : List (View A)} (hw : ∀ v ∈ operands, v.Wf) {w : View A} (calls : List TwoCall) :
    ∀ (L : List Char) (P : Char → Prop) (al : Alloc A) (x : View A), x.Wf → Linked dims inputs L calls out →
      (∀ c, P c → (c ∈ out ∨ ∃ d ∈ calls, ∃ S, inputs[d.operand]? = some S ∧ c ∈ S) → c ∈ L) →
      foldCalls operands calls al x = .ok w →
      ∀ pre c suf, calls = pre ++ c :: suf → ∀ R v, inputs[c.operand]? = some R → operands[c.operand]? = some v →
        (R.Nodup → R.length ≤ v.shape.length) ∧
          ((¬ R.Nodup ∨ ∃ y ∈ R, y ∈ out ∨ P y ∨ ∃ d ∈ pre ++ suf, ∃ S, inputs[d.operand]? = some S ∧ y ∈ S) →
            v.shape.length ≤ R.length) := by
  induction calls with
  | nil => intro _ _ _ _ _ _ _ _ pre c suf h; simp at h
  | cons c₀ cs ih =>
    intro L P al x hx hl hP hf pre c suf hsplit R v hR hv
    obtain ⟨R₀, o, i1, i2, i3, i4, i5⟩ := hl
    simp only [foldCalls] at hf
    obtain ⟨y, y1, hf⟩ := bind_eq_ok.1 hf
    obtain ⟨z, z1, hf⟩ := bind_eq_ok.1 hf
    have hy : operands[c₀.operand]? = some y := index_eq_ok.1 y1
    rw [i3] at z1
    obtain ⟨hz, -, r1, r2⟩ := call_rank i2 hx (hw y (List.mem_of_getElem? hy)) z1
    cases pre with
    | nil =>
      simp only [List.nil_append, List.cons.injEq] at hsplit
      obtain ⟨rfl, rfl⟩ := hsplit
      obtain rfl : R₀ = R := Option.some.inj (i1.symm.trans hR)
      obtain rfl : y = v := Option.some.inj (hy.symm.trans hv)
      refine ⟨r1, fun h => r2 (h.imp_right ?_)⟩
      rintro ⟨d, hd, hd'⟩
      refine .inl ⟨d, hd, ?_⟩
      rcases hd' with g | g | g
      · exact .inr ((i4 d).2 ⟨.inr hd, .inl g⟩)
      · exact .inl (hP d g (.inr ⟨c₀, by simp, R₀, i1, hd⟩))
      · exact .inr ((i4 d).2 ⟨.inr hd, .inr g⟩)
    | cons c₁ pre =>
      simp only [List.cons_append, List.cons.injEq] at hsplit
      obtain ⟨rfl, hsplit⟩ := hsplit
      have key := ih o (fun a => P a ∨ a ∈ R₀) (al.sub 1) z hz i5 (fun a ha hn => (i4 a).2 ⟨ha.imp_left fun g =>
        hP a g (hn.imp_right fun ⟨d, d1, d2⟩ => ⟨d, List.mem_cons_of_mem _ d1, d2⟩), hn⟩) hf pre c suf hsplit R v hR hv
      refine ⟨key.1, fun h => key.2 (h.imp_right ?_)⟩
      rintro ⟨d, hd, hd'⟩
      refine ⟨d, hd, ?_⟩
      rcases hd' with g | g | ⟨e, e1, S, e2, e3⟩
      · exact .inl g
      · exact .inr (.inl (.inl g))
      · rw [List.cons_append, List.mem_cons] at e1
        rcases e1 with rfl | e1
        · obtain rfl : R₀ = S := Option.some.inj (i1.symm.trans e2)
          exact .inr (.inl (.inr e3))
        · exact .inr (.inr ⟨e, e1, S, e2, e3⟩)

/-- The operands taken in by the calls, if they share no letters. -/
theorem fold_rank_apart [Zero A] [Add A] [Mul A] [MulAdd A] {dims : Char → Nat} {inputs : List (List Char)}
    {operands : List (View A)} (hw : ∀ v ∈ operands, v.Wf)
    (hapart : ∀ (i j : Nat) (S T : List Char), i ≠ j → inputs[i]? = some S → inputs[j]? = some T → ∀ c ∈ S, c ∉ T) {w : View A}
    (calls : List TwoCall) :
    ∀ (L : List Char) (al : Alloc A) (x : View A), x.Wf → Linked dims inputs L calls [] →
      (calls.map TwoCall.operand).Nodup → (∀ d ∈ calls, ∀ S, inputs[d.operand]? = some S → ∀ c ∈ L, c ∉ S) →
      foldCalls operands calls al x = .ok w →
      (calls ≠ [] → (L.Nodup → x.shape.length = L.length)) ∧ ∀ c ∈ calls, ∀ R v, inputs[c.operand]? = some R →
        operands[c.operand]? = some v → R.Nodup → v.shape.length = R.length := by
  induction calls with
  | nil => intro _ _ _ _ _ _ _ _; exact ⟨fun h => absurd rfl h, fun c hc => by simp at hc⟩
  | cons c₀ cs ih =>
    intro L al x hx hl hnd hL hf
    obtain ⟨R₀, o, i1, i2, i3, i4, i5⟩ := hl
    simp only [foldCalls] at hf
    obtain ⟨y, y1, hf⟩ := bind_eq_ok.1 hf
    obtain ⟨z, z1, hf⟩ := bind_eq_ok.1 hf
    have hy : operands[c₀.operand]? = some y := index_eq_ok.1 y1
    rw [i3] at z1
    rw [List.map_cons, List.nodup_cons] at hnd
    have ho : o = [] := List.eq_nil_iff_forall_not_mem.2 fun d hd => by
      obtain ⟨g, g' | ⟨e, e1, S, e2, e3⟩⟩ := (i4 d).1 hd
      · simp at g'
      · rcases g with g | g
        · exact hL e (List.mem_cons_of_mem _ e1) S e2 d g e3
        · exact hapart _ _ _ _ (fun e' => hnd.1 (List.mem_map.2 ⟨e, e1, e'.symm⟩)) i1 e2 d g e3
    have hLR := hL c₀ (by simp) R₀ i1
    obtain ⟨hz, ⟨l1, l2⟩, r1, r2⟩ := call_rank i2 hx (hw y (List.mem_of_getElem? hy)) z1
    subst ho
    have key := ih [] (al.sub 1) z hz i5 hnd.2 (fun _ _ _ _ c hc => by simp at hc) hf
    refine ⟨fun _ hn => le_antisymm (l2 (.inr (.inr fun c hc => ⟨fun g => hLR c g hc, by simp⟩))) (l1 hn), fun c hc => ?_⟩
    rcases List.mem_cons.1 hc with rfl | hc
    · intro R v hR hv hn
      obtain rfl : R₀ = R := Option.some.inj (i1.symm.trans hR)
      obtain rfl : y = v := Option.some.inj (hy.symm.trans hv)
      exact le_antisymm (r2 (.inr (.inr fun c hc => ⟨hLR c hc, by simp⟩))) (r1 hn)
    · exact key.2 c hc

end parts

theorem mem_operandOrder {m : OptimizationMethod} {n i : Nat} : i ∈ operandOrder m n ↔ i < n := by
  unfold operandOrder
  split <;> simp

/-- C117: what a path of several operands has checked when it returns.  An array for distinct letters has at least as
many axes as letters; an array for letters of which one is repeated, or is in the output or another operand, has at most
as many. -/
theorem C117_returned {A B : Type} [Zero A] [Add A] [Mul A] [MulAdd A] (h : HashOrd) (s : String) (ops : List (View B))
    (inputs : List (List Char)) (out : List Char) (dims : Char → Nat) (hd : Denotes s inputs out)
    (hs : Sized dims inputs (ops.map View.shape)) (h2 : 2 ≤ inputs.length) (m : OptimizationMethod) (p : EinsumPath)
    (hp : einsumPath h s ops m = .ok (.ok p)) (operands : List (View A)) (hw : ∀ v ∈ operands, v.Wf) (al : Alloc A)
    (w : View A) (hr : p.contractOperands al operands = .ok w) (i : Nat) (L : List Char) (v : View A)
    (hL : inputs[i]? = some L) (hv : operands[i]? = some v) :
    (L.Nodup → L.length ≤ v.shape.length) ∧
      ((¬ L.Nodup ∨ ∃ c ∈ L, c ∈ out ∨ ∃ j, j ≠ i ∧ ∃ S, inputs[j]? = some S ∧ c ∈ S) → v.shape.length ≤ L.length) := by
  obtain ⟨first, L₁, calls, f1, f2, f3, f4⟩ := C83_path h s ops inputs out dims hd hs h2 m p hp
  rw [f4] at hr
  obtain ⟨x, x1, hr'⟩ := bind_eq_ok.1 hr
  clear hr
  have hx : operands[first]? = some x := index_eq_ok.1 x1
  have hxw := hw x (List.mem_of_getElem? hx)
  have hall : ∀ j S, inputs[j]? = some S → j = first ∨ ∃ c ∈ calls, c.operand = j := fun j S hj => by
    have : j ∈ operandOrder m inputs.length := mem_operandOrder.2 (List.getElem?_eq_some_iff.1 hj).1
    rw [← f2, List.mem_cons, List.mem_map] at this
    exact this
  by_cases hi : i = first
  · subst hi
    obtain rfl : L₁ = L := Option.some.inj (f1.symm.trans hL)
    obtain rfl : x = v := Option.some.inj (hx.symm.trans hv)
    cases calls with
    | nil =>
      exfalso
      have := congrArg List.length f2
      unfold operandOrder at this
      split at this <;> simp at this <;> omega
    | cons c cs =>
      obtain ⟨R, o, i1, i2, i3, i4, i5⟩ := f3
      simp only [foldCalls] at hr'
      obtain ⟨y, y1, hr'⟩ := bind_eq_ok.1 hr'
      obtain ⟨z, z1, hr'⟩ := bind_eq_ok.1 hr'
      rw [i3] at z1
      obtain ⟨-, ⟨r1, r2⟩, -⟩ := call_rank i2 hxw (hw y (List.mem_of_getElem? (index_eq_ok.1 y1))) z1
      refine ⟨r1, fun h => r2 (h.imp_right ?_)⟩
      rintro ⟨d, hd, hd'⟩
      refine .inl ⟨d, hd, ?_⟩
      rcases hd' with g | ⟨j, hj, S, g1, g2⟩
      · exact .inr ((i4 d).2 ⟨.inl hd, .inl g⟩)
      · obtain ⟨c', hc', rfl⟩ := (hall j S g1).resolve_left hj
        rcases List.mem_cons.1 hc' with rfl | hc'
        · obtain rfl : R = S := Option.some.inj (i1.symm.trans g1)
          exact .inl g2
        · exact .inr ((i4 d).2 ⟨.inl hd, .inr ⟨c', hc', S, g1, g2⟩⟩)
  · obtain ⟨c, hc, rfl⟩ := (hall i L hL).resolve_left hi
    obtain ⟨pre, suf, rfl⟩ := List.append_of_mem hc
    have key := fold_rank hw _ L₁ (· ∈ L₁) al x hxw f3 (fun _ h _ => h) hr' pre c suf rfl L v hL hv
    refine ⟨key.1, fun h => key.2 (h.imp_right ?_)⟩
    rintro ⟨d, hd, hd'⟩
    refine ⟨d, hd, hd'.imp_right ?_⟩
    rintro ⟨j, hj, S, g1, g2⟩
    rcases hall j S g1 with rfl | ⟨c', hc', rfl⟩
    · obtain rfl : L₁ = S := Option.some.inj (f1.symm.trans g1)
      exact .inl g2
    · refine .inr ⟨c', ?_, S, g1, g2⟩
      rw [List.mem_append, List.mem_cons] at hc'
      rw [List.mem_append]
      rcases hc' with g | rfl | g
      · exact .inl g
      · exact absurd rfl hj
      · exact .inr g

/-- C117: the run panics if an array for distinct letters has fewer axes than letters, or an array for letters of which
one is repeated, or is in the output or another operand, has more. -/
theorem C117_panics {A B : Type} [Zero A] [Add A] [Mul A] [MulAdd A] (h : HashOrd) (s : String) (ops : List (View B))
    (inputs : List (List Char)) (out : List Char) (dims : Char → Nat) (hd : Denotes s inputs out)
    (hs : Sized dims inputs (ops.map View.shape)) (h2 : 2 ≤ inputs.length) (m : OptimizationMethod) (p : EinsumPath)
    (hp : einsumPath h s ops m = .ok (.ok p)) (operands : List (View A)) (hw : ∀ v ∈ operands, v.Wf) (al : Alloc A)
    (i : Nat) (L : List Char) (v : View A) (hL : inputs[i]? = some L) (hv : operands[i]? = some v)
    (hne : L.Nodup ∧ v.shape.length < L.length ∨
      (¬ L.Nodup ∨ ∃ c ∈ L, c ∈ out ∨ ∃ j, j ≠ i ∧ ∃ S, inputs[j]? = some S ∧ c ∈ S) ∧ L.length < v.shape.length) :
    ∃ k, p.contractOperands al operands = panic k := by
  refine (EinsumPath.contractOperands_safe p hw al).resolve_right ?_
  rintro ⟨w, hr, -⟩
  obtain ⟨r1, r2⟩ := C117_returned h s ops inputs out dims hd hs h2 m p hp operands hw al w hr i L v hL hv
  rcases hne with ⟨a, b⟩ | ⟨a, b⟩
  · exact absurd (r1 a) (by omega)
  · exact absurd (r2 a) (by omega)

/-- C117: an inner product of sums, that is, operands that share no letters and an output without letters: every array for
distinct letters must have as many axes as letters. -/
theorem C117_apart {A B : Type} [Zero A] [Add A] [Mul A] [MulAdd A] (h : HashOrd) (s : String) (ops : List (View B))
    (inputs : List (List Char)) (dims : Char → Nat) (hd : Denotes s inputs [])
    (hs : Sized dims inputs (ops.map View.shape)) (h2 : 2 ≤ inputs.length) (m : OptimizationMethod) (p : EinsumPath)
    (hp : einsumPath h s ops m = .ok (.ok p))
    (hapart : ∀ (i j : Nat) (S T : List Char), i ≠ j → inputs[i]? = some S → inputs[j]? = some T → ∀ c ∈ S, c ∉ T)
    (operands : List (View A)) (hw : ∀ v ∈ operands, v.Wf) (al : Alloc A) (i : Nat) (L : List Char) (v : View A) (hL : inputs[i]? = some L)
    (hv : operands[i]? = some v) (hn : L.Nodup) (hne : v.shape.length ≠ L.length) :
    ∃ k, p.contractOperands al operands = panic k := by
  refine (EinsumPath.contractOperands_safe p hw al).resolve_right ?_
  rintro ⟨w, hr, -⟩
  obtain ⟨first, L₁, calls, f1, f2, f3, f4⟩ := C83_path h s ops inputs [] dims hd hs h2 m p hp
  rw [f4] at hr
  obtain ⟨x, x1, hr'⟩ := bind_eq_ok.1 hr
  clear hr
  have hx : operands[first]? = some x := index_eq_ok.1 x1
  have hnd : (first :: calls.map TwoCall.operand).Nodup := by
    rw [f2]
    unfold operandOrder
    split
    · exact List.nodup_reverse.2 List.nodup_range
    · exact List.nodup_range
  rw [List.nodup_cons] at hnd
  obtain ⟨k1, k2⟩ := fold_rank_apart hw hapart calls L₁ al x (hw x (List.mem_of_getElem? hx)) f3 hnd.2
    (fun d hd S hS => hapart first d.operand L₁ S (fun e => hnd.1 (List.mem_map.2 ⟨d, hd, e.symm⟩)) f1 hS) hr'
  have hi : i ∈ operandOrder m inputs.length := mem_operandOrder.2 (List.getElem?_eq_some_iff.1 hL).1
  rw [← f2, List.mem_cons, List.mem_map] at hi
  rcases hi with rfl | ⟨c, hc, rfl⟩
  · obtain rfl : L₁ = L := Option.some.inj (f1.symm.trans hL)
    obtain rfl : x = v := Option.some.inj (hx.symm.trans hv)
    refine hne (k1 ?_ hn)
    rintro rfl
    have := congrArg List.length f2
    unfold operandOrder at this
    split at this <;> simp at this <;> omega
  · exact hne (k2 c hc L v hL hv hn)

/-! ### Cases -/

theorem Ex.denotes_ranks : Denotes "ij,k,jk->i" [['i', 'j'], ['k'], ['j', 'k']] ['i'] :=
  .inl ⟨by decide, ⟨by simp, by simp [Letter], by simp [Letter]⟩, by simp [OutputOk, Used]⟩

theorem Ex.sized_ranks : Sized (fun _ => 2) [['i', 'j'], ['k'], ['j', 'k']] ([Ex.rank2, Ex.rank1, Ex.rank2].map View.shape) :=
  .cons rfl (.cons rfl (.cons rfl .nil))

/-- The hypotheses of `C117_panics`: three operands, in both orders; a cube or a vector for the last matrix, a matrix for
the vector. -/
example (h : HashOrd) (al : Alloc Int) (m : OptimizationMethod) (hm : m = .naive ∨ m = .reverse) :
    ∃ p, einsumPath h "ij,k,jk->i" [Ex.rank2, Ex.rank1, Ex.rank2] m = .ok (.ok p) ∧
      (∃ k, p.contractOperands al [Ex.rank2, Ex.rank1, Ex.rank3] = panic k) ∧
      (∃ k, p.contractOperands al [Ex.rank2, Ex.rank1, Ex.rank1] = panic k) ∧
      ∃ k, p.contractOperands al [Ex.rank2, Ex.rank2, Ex.rank2] = panic k := by
  obtain ⟨p, hp, -⟩ := einsumPath_ok Ex.denotes_ranks Ex.sized_ranks h hm
  have w1 := Ex.wf1
  have w2 := Ex.wf2
  have w3 := Ex.wf3
  refine ⟨p, hp, ?_, ?_, ?_⟩
  · exact C117_panics h _ _ _ _ _ Ex.denotes_ranks Ex.sized_ranks (by simp) m p hp _ (by simp [w1, w2, w3]) al 2 _ _ rfl rfl
      (.inr ⟨.inr ⟨'j', by simp, .inr ⟨0, by simp, _, rfl, by simp⟩⟩, by decide⟩)
  · exact C117_panics h _ _ _ _ _ Ex.denotes_ranks Ex.sized_ranks (by simp) m p hp _ (by simp [w1, w2]) al 2 _ _ rfl rfl
      (.inl ⟨by decide, by decide⟩)
  · exact C117_panics h _ _ _ _ _ Ex.denotes_ranks Ex.sized_ranks (by simp) m p hp _ (by simp [w2]) al 1 _ _ rfl rfl
      (.inr ⟨.inr ⟨'k', by simp, .inr ⟨2, by simp, _, rfl, by simp⟩⟩, by decide⟩)

/-- The hypotheses of `C117_returned`: the run on arrays like the compiled ones returns. -/
example (h : HashOrd) (al : Alloc Int) : ∃ p w, einsumPath h "ij,k,jk->i" [Ex.rank2, Ex.rank1, Ex.rank2] .naive = .ok (.ok p) ∧
    p.contractOperands al [Ex.rank2, Ex.rank1, Ex.rank2] = .ok w := by
  obtain ⟨_, _, _, p, w, _, _, -, -, -, hp, hw, -⟩ := C17_entry_points h h h h h al al al al _ _ _ _ _ Ex.denotes_ranks
    Ex.sized_ranks (by simp [Ex.wf1, Ex.wf2]) (by simp [NoEmptyDiagonal])
  exact ⟨p, w, hp, hw⟩

/-- The hypotheses of `C117_apart`: the product of two sums panics on a matrix, where `i,j->j` accepts it (C102). -/
example (h : HashOrd) (al : Alloc Int) : ∃ p, einsumPath h "i,j->" [Ex.rank1, Ex.rank1] .naive = .ok (.ok p) ∧
    ∃ k, p.contractOperands al [Ex.rank23, Ex.rank1] = panic k := by
  have d : Denotes "i,j->" [['i'], ['j']] [] :=
    .inl ⟨by decide, ⟨by simp, by simp [Letter], by simp [Letter]⟩, by simp [OutputOk, Used]⟩
  have s : Sized (fun _ => 2) [['i'], ['j']] ([Ex.rank1, Ex.rank1].map View.shape) := .cons rfl (.cons rfl .nil)
  obtain ⟨p, hp, -⟩ := einsumPath_ok d s h (.inl rfl)
  refine ⟨p, hp, C117_apart h _ _ _ _ d s (by simp) _ p hp ?_ _ (by simp [Ex.wf23, Ex.wf1]) al 0 _ _ rfl rfl (by decide)
    (by decide)⟩
  intro i j S T hij hi hj c hc
  match i, j, hi, hj with
  | 0, 0, _, _ => exact absurd rfl hij
  | 0, 1, hi, hj => cases hi; cases hj; simp at hc; simp [hc]
  | 1, 0, hi, hj => cases hi; cases hj; simp at hc; simp [hc]
  | 1, 1, _, _ => exact absurd rfl hij
  | 0, n + 2, _, hj => simp at hj
  | 1, n + 2, _, hj => simp at hj
  | n + 2, _, hi, _ => simp at hi

end Einsum
