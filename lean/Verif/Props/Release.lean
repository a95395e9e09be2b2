import Verif.Model.Release
import Verif.Props.Machine
import Verif.Props.HandBuilt
import Verif.Props.Wrapped

/-!
# Subtraction in builds without overflow checks: C70
-/

namespace Einsum

open Spec

variable {A : Type}

/-- Subtraction is right unless it underflows. -/
def Build.Subtracts (b : Build) : Prop := ∀ x y, y ≤ x → b.sub x y = .ok (x - y)

theorem Build.subtracts_debug (B W : Nat) : (Build.debug B W).Subtracts := by
  intro x y h; simp [Build.debug, usub, h]

theorem Build.subtracts_release (B W : Nat) : (Build.release B W).Subtracts := by
  intro x y h; simp [Build.release, subWrap, h]

/-! ## Constructors that never underflow -/

section
variable {b : Build} (hb : b.Subtracts)
include hb

theorem lhsLoopB_eq {N n : Nat} (hn : n ≤ N) (l : List Nat) : ∀ (axis : Nat) (acc : Nat × Nat × List Nat),
    lhsLoopB b N n axis l acc = lhsLoopW b.mul N n axis l acc := by
  induction l with
  | nil => intro axis acc; rfl
  | cons x l ih =>
    intro axis ⟨u, c, out⟩
    simp only [lhsLoopB, lhsLoopW, hb N n hn, usub, hn, if_true, bind_ok, ih]

theorem fromShapesB_eq {l r : List Nat} {n : Nat} (hn : n ≤ l.length) :
    TensordotFixedPosition.fromShapesB b l r n = TensordotFixedPosition.fromShapesW b.mul l r n := by
  simp only [TensordotFixedPosition.fromShapesB, TensordotFixedPosition.fromShapesW, lhsLoopB_eq hb hn]

theorem axisNumbersB_eq (l r la ra o : List Nat) :
    TensordotGeneral.fromShapesAndAxisNumbersB b l r la ra o =
      TensordotGeneral.fromShapesAndAxisNumbersW b.mul l r la ra o := by
  simp only [TensordotGeneral.fromShapesAndAxisNumbersB, TensordotGeneral.fromShapesAndAxisNumbersW]
  refine bind_congr_ok fun _ _ => bind_congr_ok fun _ _ => bind_congr_ok fun _ _ =>
    bind_congr_ok fun al hal => bind_congr_ok fun ar har => ?_
  rw [fromShapesB_eq hb]
  have := (mapE_eq_ok.1 hal).length_eq
  simp only [List.length_append] at this; omega

theorem tensordotGeneralB_eq (sc : SizedContraction) : TensordotGeneral.newB b sc = TensordotGeneral.newW b.mul sc := by
  simp only [TensordotGeneral.newB, TensordotGeneral.newW, TensordotGeneral.fromShapesAndIndicesB,
    TensordotGeneral.fromShapesAndIndicesW, axisNumbersB_eq hb]

omit hb in
theorem stackContracted_length {sc : SizedContraction} {rhs out : List Char} (l : List Char) :
    ∀ {n : Nat} {r : List Nat × List Nat × List Nat}, stackContracted sc rhs out n l = .ok r →
      r.1.length = r.2.2.length := by
  induction l with
  | nil => intro n r h; simp only [stackContracted] at h; cases h; rfl
  | cons c l ih =>
    intro n r h
    simp only [stackContracted] at h
    split at h
    · exact ih h
    · obtain ⟨_, _, h⟩ := bind_eq_ok.1 h
      obtain ⟨_, _, h⟩ := bind_eq_ok.1 h
      obtain ⟨⟨ls, rs, ns⟩, h1, h⟩ := bind_eq_ok.1 h
      cases h
      have := ih h1
      simpa using this

theorem stackedB_eq (sc : SizedContraction) :
    StackedTensordotGeneral.newB b sc = StackedTensordotGeneral.newW b.mul sc := by
  simp only [StackedTensordotGeneral.newB, StackedTensordotGeneral.newW]
  refine bind_congr_ok fun _ _ => bind_congr_ok fun _ _ => bind_congr_ok fun _ _ => bind_congr_ok fun _ _ =>
    bind_congr_ok fun _ _ => bind_congr_ok fun acc _ => bind_congr_ok fun ⟨lc, rc, cs⟩ hc => ?_
  have := stackContracted_length _ hc
  simp only at this ⊢
  refine bind_congr_ok fun _ _ => bind_congr_ok fun _ _ => bind_congr_ok fun _ _ => bind_congr_ok fun _ _ => ?_
  rw [fromShapesB_eq hb]
  simp [this]

theorem pairOpB_eq (sc : SizedContraction) {m : PairMethod} (hm : m ≠ .tensordotFixedPosition) :
    PairOp.newB b sc m = PairOp.newW b.mul sc m := by
  cases m with
  | tensordotFixedPosition => exact absurd rfl hm
  | tensordotGeneral => simp only [PairOp.newB, PairOp.newW, tensordotGeneralB_eq hb]
  | stackedTensordotGeneral => simp only [PairOp.newB, PairOp.newW, stackedB_eq hb]
  | _ => rfl

omit hb in
theorem getStrategy_ne_fixed (s : PairSummary) : s.getStrategy ≠ .tensordotFixedPosition := by
  unfold PairSummary.getStrategy
  split <;> simp

theorem pairSummaryB_eq (sc : SizedContraction) : PairSummary.newB b sc = PairSummary.new sc := by
  simp only [PairSummary.newB, PairSummary.new]
  refine bind_congr_ok fun _ _ => bind_congr_ok fun lhs _ => bind_congr_ok fun rhs _ => ?_
  simp only [PairSummary.fromIndicesB, PairSummary.fromIndices]
  refine bind_congr_ok fun _ _ => bind_congr_ok fun _ _ => bind_congr_ok fun _ _ => ?_
  set out := sc.contraction.outputIndices
  have h1 := List.length_filter_le (fun c => decide (c ∈ hset out)) ((hset lhs).filter fun c => c ∈ hset rhs)
  have h2 := List.length_filter_le (fun c => decide (c ∈ hset rhs)) (hset lhs)
  have h3 : ((hset lhs).filter fun c => c ∈ hset rhs).length ≤ (hset rhs).length :=
    (List.subperm_of_subset ((nodup_hset lhs).filter _) fun c hc => by
      simpa using (List.mem_filter.1 hc).2).length_le
  rw [hb _ _ h1, hb _ _ (h1.trans h2), hb _ _ (h1.trans h3)]
  simp only [bind_ok, usub, h1, h1.trans h2, h1.trans h3, if_true]
  rw [hb _ _ (by omega), hb _ _ (by omega)]
  simp only [bind_ok]
  rw [if_pos (by omega), if_pos (by omega)]
  rfl

/-! ## Constructors that do not underflow for accepted outputs -/

omit hb in
theorem fromSizesB_eq {start n : Nat} (hn : n ≤ b.maxLen) : Summation.fromSizesB b start n = Summation.fromSizes start n := by
  simp only [Summation.fromSizesB, Build.collect, hn, if_true, bind_ok, Summation.fromSizes]
  by_cases h1 : 1 ≤ n
  · rw [assertThat_of (by simpa using h1)]; rfl
  · simp only [assertThat, h1]; rfl

omit hb in
theorem outputOk_length {input out : List Char} (ho : OutputOk [input] out) : out.length ≤ (hset input).length := by
  refine (List.subperm_of_subset ho.1 fun c hc => ?_).length_le
  obtain ⟨ix, h1, h2⟩ := ho.2 c hc
  simp only [List.mem_singleton] at h1
  subst h1
  simpa using h2

omit hb in
theorem length_hset_le (l : List Char) : (hset l).length ≤ l.length :=
  (List.subperm_of_subset (nodup_hset l) fun c hc => by simpa using hc).length_le

theorem summationB_eq {sc : SizedContraction} {input : List Char} (hi : sc.contraction.operandIndices = [input])
    (ho : OutputOk [input] sc.contraction.outputIndices) (hl : input.length ≤ b.maxLen) :
    Summation.newB b sc = Summation.new sc := by
  simp only [Summation.newB, Summation.new, hi, index, List.getElem?_cons_zero, bind_ok]
  have h1 := (outputOk_length ho).trans (length_hset_le input)
  rw [hb _ _ h1]
  simp only [usub, h1, if_true, bind_ok]
  exact fromSizesB_eq (by omega)

omit hb in
theorem diagLoop_length (input : List Char) : ∀ (adj : List Char) (m : List Nat),
    adj.length ≤ (diagLoop adj m input).1.length ∧ (diagLoop adj m input).1.length ≤ adj.length + input.length := by
  induction input with
  | nil => intro adj m; simp [diagLoop]
  | cons c cs ih =>
    intro adj m
    simp only [diagLoop]
    split
    · have := ih adj (m ++ [‹_›]); simp only [List.length_cons]; omega
    · have := ih (adj ++ [c]) (m ++ [adj.length])
      simp only [List.length_append, List.length_cons, List.length_nil] at this ⊢; omega

theorem diagSumB_eq {sc : SizedContraction} {input : List Char} (hi : sc.contraction.operandIndices = [input])
    (hl : input.length ≤ b.maxLen) :
    DiagonalizationAndSummation.newB b sc = DiagonalizationAndSummation.new sc := by
  simp only [DiagonalizationAndSummation.newB, DiagonalizationAndSummation.new]
  refine bind_congr_ok fun d hd => ?_
  have hd' : d.outputShape.length = (diagLoop sc.contraction.outputIndices [] input).1.length := by
    simp only [Diagonalization.new, hi, index, List.getElem?_cons_zero, bind_ok] at hd
    obtain ⟨_, _, hd⟩ := bind_eq_ok.1 hd
    obtain ⟨sh, h1, hd⟩ := bind_eq_ok.1 hd
    cases hd
    exact (mapE_eq_ok.1 h1).length_eq.symm
  have h1 := diagLoop_length input sc.contraction.outputIndices []
  rw [← hd'] at h1
  rw [hb _ _ h1.1]
  simp only [usub, h1.1, if_true, bind_ok]
  rw [fromSizesB_eq (by omega)]

theorem singletonOpB_eq {sc : SizedContraction} {input : List Char} (hi : sc.contraction.operandIndices = [input])
    (ho : OutputOk [input] sc.contraction.outputIndices) (hl : input.length ≤ b.maxLen) (m : SingletonMethod) :
    SingletonOp.newB b sc m = SingletonOp.new sc m := by
  cases m with
  | summation => simp only [SingletonOp.newB, SingletonOp.new, summationB_eq hb hi ho hl]
  | permutationAndSummation =>
    simp only [SingletonOp.newB, SingletonOp.new, PermutationAndSummation.newB, PermutationAndSummation.new,
      summationB_eq hb hi ho hl]
    rfl
  | diagonalizationAndSummation => simp only [SingletonOp.newB, SingletonOp.new, diagSumB_eq hb hi hl]
  | _ => rfl

/-- What is needed of a contraction. -/
def SizedContraction.Tame (B N : Nat) (sc : SizedContraction) : Prop :=
  sc.Few B ∧ sc.contraction.operandIndices.flatten.length ≤ N ∧
    OutputOk sc.contraction.operandIndices sc.contraction.outputIndices

variable {B : Nat} (hB : 2 ≤ B) (hk : IsCounter B b.counter)
include hB hk

theorem singleton_newB_eq (sc : SizedContraction) (ht : sc.Tame B b.maxLen) :
    SingletonContraction.newB b sc = SingletonContraction.newC b.counter sc := by
  obtain ⟨hf, hl, ho⟩ := ht
  simp only [SingletonContraction.newB, SingletonContraction.newC]
  refine bind_congr_ok fun _ hlen => bind_congr_ok fun input hin => ?_
  have hi : sc.contraction.operandIndices = [input] := by
    have hlen : sc.contraction.operandIndices.length = 1 := by
      unfold assertThat at hlen
      split at hlen
      · rename_i hd; exact of_decide_eq_true hd
      · cases hlen
    match h' : sc.contraction.operandIndices, hlen with
    | [a], _ => rw [h'] at hin; simp only [index] at hin; cases hin; rfl
  have hf1 := hf.1
  rw [hi] at hf1 hl ho
  have hfi : Few B input := by simpa using hf1
  have hli : input.length ≤ b.maxLen := by simpa using hl
  have hs : SingletonSummary.fromIndicesB b input sc.contraction.outputIndices =
      SingletonSummary.fromIndicesW b.counter input sc.contraction.outputIndices := by
    simp only [SingletonSummary.fromIndicesB, SingletonSummary.fromIndicesW, hk.counts hB hfi, bind_ok]
    have h1 : sc.contraction.outputIndices.length ≤ (charCounts input).length := by
      rw [← List.length_map (f := Prod.fst), charCounts_keys]; exact outputOk_length ho
    rw [hb _ _ h1]
    simp only [usub, h1, if_true]
  rw [hs]
  refine bind_congr_ok fun s _ => ?_
  rw [singletonOpB_eq hb hi ho hli]

theorem simplificationB_eq (h : HashOrd) (this other out : List Char) (orig : SizedContraction) (ht : Few B this)
    (hl : this.length ≤ b.maxLen) :
    SimplificationMethodAndOutput.fromIndicesAndSizesB b h this other out orig =
      SimplificationMethodAndOutput.fromIndicesAndSizesC b.counter h this other out orig := by
  simp only [SimplificationMethodAndOutput.fromIndicesAndSizesB, SimplificationMethodAndOutput.fromIndicesAndSizesC]
  have hd : Few B (desiredIndices (h.sub 0) this other out) :=
    ht.of_count_le (count_le_of_nodup nodup_desired fun c hc => (mem_desired.1 hc).1)
  have ht' : Few B [this].flatten := by simpa using ht
  refine bind_congr_ok fun sc hsc => ?_
  rw [subsetUnwrapC_eq hB hk _ _ ht' hd] at hsc
  obtain ⟨e1, e2⟩ := unwrapR_subset hsc
  have ho : OutputOk [this] (desiredIndices (h.sub 0) this other out) :=
    ⟨nodup_desired, fun c hc => ⟨this, by simp, (mem_desired.1 hc).1⟩⟩
  rw [singleton_newB_eq hb hB hk sc
    ⟨⟨by rw [e1]; exact ht', by rw [e2]; exact hd⟩, by rw [e1]; simpa using hl, by rw [e1, e2]; exact ho⟩]
  rfl

theorem pair_newB_eq (h : HashOrd) (sc : SizedContraction) (hf : sc.Few B)
    (hlen : sc.contraction.operandIndices.flatten.length ≤ b.maxLen) :
    PairContraction.newB b h sc = PairContraction.newC b.counter b.mul h sc := by
  simp only [PairContraction.newB, PairContraction.newC]
  refine bind_congr_ok fun _ _ => ?_
  refine bind_congr_ok fun lhs hl => ?_
  refine bind_congr_ok fun rhs hr => ?_
  have hmem : ∀ {i : Nat} {x : List Char}, index sc.contraction.operandIndices i = .ok x →
      Few B x ∧ x.length ≤ b.maxLen := by
    intro i x hi
    have hm : x ∈ sc.contraction.operandIndices := by
      unfold index at hi
      split at hi
      · rename_i a ha; cases hi; exact List.mem_of_getElem? ha
      · cases hi
    have hs := List.sublist_flatten_of_mem hm
    exact ⟨hf.1.of_count_le fun c => hs.count_le c, hs.length_le.trans hlen⟩
  rw [simplificationB_eq hb hB hk _ lhs rhs _ sc (hmem hl).1 (hmem hl).2,
    simplificationB_eq hb hB hk _ rhs lhs _ sc (hmem hr).1 (hmem hr).2]
  refine bind_congr_ok fun ls hls => bind_congr_ok fun rs hrs => bind_congr_ok fun red _ => ?_
  rw [pairSummaryB_eq hb]
  refine bind_congr_ok fun s _ => ?_
  rw [pairOpB_eq hb _ (getStrategy_ne_fixed s)]

/-- What is needed of an order. -/
def ContractionOrder.Tame (B N : Nat) : ContractionOrder → Prop
  | .singleton sc => sc.Tame B N
  | .pairs steps => ∀ s ∈ steps, s.sizedContraction.Few B ∧
      s.sizedContraction.contraction.operandIndices.flatten.length ≤ N

theorem fromPathB_eq (h : HashOrd) (o : ContractionOrder) (ho : o.Tame B b.maxLen) :
    EinsumPath.fromPathB b h o = EinsumPath.fromPathC b.counter b.mul h o := by
  cases o with
  | singleton sc => simp only [EinsumPath.fromPathB, EinsumPath.fromPathC, singleton_newB_eq hb hB hk sc ho]
  | pairs steps =>
    have : ∀ h : HashOrd, compileStepsB b h steps = compileStepsC b.counter b.mul h steps := by
      have ho' : ∀ s ∈ steps, s.sizedContraction.Few B ∧
        s.sizedContraction.contraction.operandIndices.flatten.length ≤ b.maxLen := ho
      clear ho
      induction steps with
      | nil => intro h; rfl
      | cons s ss ih =>
        intro h
        simp only [compileStepsB, compileStepsC]
        rw [pair_newB_eq hb hB hk _ _ (ho' s List.mem_cons_self).1 (ho' s List.mem_cons_self).2,
          ih fun t ht => ho' t (List.mem_cons_of_mem _ ht)]
    simp only [EinsumPath.fromPathB, EinsumPath.fromPathC, this]

end

/-! ## Lengths of the contractions of an order -/

/-- No contraction of the order has more than `N` letters; a single one has an admissible output. -/
def ContractionOrder.Short (N : Nat) : ContractionOrder → Prop
  | .singleton sc => sc.contraction.operandIndices.flatten.length ≤ N ∧
      OutputOk sc.contraction.operandIndices sc.contraction.outputIndices
  | .pairs steps => ∀ s ∈ steps, s.sizedContraction.contraction.operandIndices.flatten.length ≤ N

theorem ContractionOrder.Few.tame {B N : Nat} {o : ContractionOrder} (h1 : o.Few B) (h2 : o.Short N) : o.Tame B N := by
  cases o with
  | singleton sc => exact ⟨h1, h2⟩
  | pairs steps => exact fun s hs => ⟨h1 s hs, h2 s hs⟩

theorem stepOutput_length {h : HashOrd} {lhs rhs out : List Char} {later : List (List Char)} (hl : later ≠ []) :
    (stepOutput h lhs rhs later out).length ≤ lhs.length + rhs.length := by
  rw [← List.length_append]
  exact (List.subperm_iff_count.2 fun c => stepOutput_count hl c).length_le

theorem generateSteps_short {N : Nat} (h : HashOrd) (permuted : SizedContraction) (first : Nat)
    (rest : List (List Char)) : ∀ (i : Nat) (lhs : List Char) (nums : List Nat) (r : List PairStep),
    (rest = [] ∨ (lhs ++ rest.flatten).length ≤ N) → generateSteps h permuted first i lhs rest nums = .ok r →
    ∀ s ∈ r, s.sizedContraction.contraction.operandIndices.flatten.length ≤ N := by
  induction rest with
  | nil =>
    intro i lhs nums r _ hr
    simp only [generateSteps] at hr
    cases hr; simp
  | cons rhs later ih =>
    intro i lhs nums r hf hr
    have hf := hf.resolve_left (by simp)
    cases nums with
    | nil =>
      simp only [generateSteps] at hr
      cases hr; simp
    | cons num nums =>
      simp only [generateSteps, generateSizedContractionPair] at hr
      obtain ⟨sc, h3, hr⟩ := bind_eq_ok.1 hr
      obtain ⟨steps, h4, hr⟩ := bind_eq_ok.1 hr
      cases hr
      obtain ⟨e1, e2⟩ := unwrapR_subset h3
      simp only [List.flatten_cons, List.length_append] at hf
      intro s hs'
      rcases List.mem_cons.1 hs' with rfl | hs'
      · simp only [e1, List.flatten_cons, List.flatten_nil, List.length_append, List.length_nil]; omega
      · refine ih _ _ _ _ ?_ h4 s hs'
        by_cases hl : later = []
        · exact .inl hl
        · have := stepOutput_length (h := h.sub (2 * i)) (lhs := lhs) (rhs := rhs)
            (out := permuted.contraction.outputIndices) hl
          refine .inr ?_
          simp only [List.length_append]; omega

theorem outputOk_of_subset {h : HashOrd} {sc sc' : SizedContraction} {ops : List (List Char)} {out : List Char}
    (he : unwrapR (sc.subset h ops out) = .ok sc') :
    OutputOk sc'.contraction.operandIndices sc'.contraction.outputIndices := by
  cases hs : sc.subset h ops out with
  | error e => rw [hs] at he; cases he
  | ok x =>
    rw [hs] at he
    cases he
    obtain ⟨_, ho, rfl⟩ := subset_iff.1 hs
    exact ho

theorem generatePath_short {N : Nat} (h : HashOrd) (sc : SizedContraction)
    (hl : sc.contraction.operandIndices.flatten.length ≤ N) {order : List Nat}
    (hp : order.Perm (List.range sc.contraction.operandIndices.length)) {o : ContractionOrder}
    (ho : generatePath h sc order = .ok o) : o.Short N := by
  have hflat : ∀ ops, mapE (index sc.contraction.operandIndices) order = .ok ops →
      ops.Perm sc.contraction.operandIndices := by
    intro ops he
    have : mapE (index sc.contraction.operandIndices) order = .ok (pick sc.contraction.operandIndices [] order) := by
      refine mapE_ok fun i hi => ?_
      have : i < sc.contraction.operandIndices.length := by simpa using hp.mem_iff.1 hi
      rw [index_getElem this]; simp [this]
    rw [this] at he
    cases he
    exact pick_perm _ _ hp
  simp only [generatePath] at ho
  obtain ⟨permuted, hpc, ho⟩ := bind_eq_ok.1 ho
  have hpf : permuted.contraction.operandIndices.flatten.length ≤ N := by
    simp only [generatePermutedContraction] at hpc
    obtain ⟨_, _, hpc⟩ := bind_eq_ok.1 hpc
    obtain ⟨ops, hops, hpc⟩ := bind_eq_ok.1 hpc
    rw [(unwrapR_subset hpc).1, (hflat ops hops).flatten.length_eq]
    exact hl
  generalize hops : permuted.contraction.operandIndices = ops at ho
  have hof := hpf
  rw [hops] at hof
  match ops, order with
  | [], _ => cases ho
  | [x], _ =>
    cases ho
    refine ⟨hpf, ?_⟩
    simp only [generatePermutedContraction] at hpc
    obtain ⟨_, _, hpc⟩ := bind_eq_ok.1 hpc
    obtain ⟨ops, _, hpc⟩ := bind_eq_ok.1 hpc
    exact outputOk_of_subset hpc
  | [lhs, rhs], t0 :: t1 :: ts =>
    obtain ⟨sc', h3, ho⟩ := bind_eq_ok.1 ho
    cases ho
    obtain ⟨e1, e2⟩ := unwrapR_subset h3
    intro s hs
    simp only [List.mem_singleton] at hs
    subst hs
    show sc'.contraction.operandIndices.flatten.length ≤ N
    rw [e1]; exact hof
  | [lhs, rhs], [t0] =>
    obtain ⟨steps, h3, ho⟩ := bind_eq_ok.1 ho
    cases ho
    exact generateSteps_short _ _ _ _ _ _ _ _ (.inr (by simpa using hof)) h3
  | lhs :: r0 :: r1 :: rest, t0 :: ts =>
    obtain ⟨steps, h3, ho⟩ := bind_eq_ok.1 ho
    cases ho
    exact generateSteps_short _ _ _ _ _ _ _ _ (.inr (by simpa using hof)) h3
  | [_, _], [] => cases ho
  | _ :: _ :: _ :: _, [] => cases ho

theorem optimizedOrder_short {N : Nat} (h : HashOrd) (sc : SizedContraction)
    (hl : sc.contraction.operandIndices.flatten.length ≤ N) (m : OptimizationMethod) {o : ContractionOrder}
    (ho : generateOptimizedOrder h sc m = .ok o) : o.Short N := by
  cases m with
  | naive => exact generatePath_short h sc hl (List.Perm.refl _) ho
  | reverse => exact generatePath_short h sc hl (List.reverse_perm _) ho
  | greedy => cases ho
  | optimal => cases ho
  | branch => cases ho

theorem validateAndSize_short {h : HashOrd} {s : String} {operands : List (View A)} {sc : SizedContraction}
    (hsc : validateAndSize h s operands = .ok sc) :
    sc.contraction.operandIndices.flatten.length ≤ s.length := by
  obtain ⟨inputs, out, dims, hd, _, rfl⟩ := fromStringAndShapes_iff.1 hsc
  have : ∀ o, s.toList = render inputs o → inputs.flatten.length ≤ s.length := by
    intro o ho
    have h1 := length_flatten_le inputs
    rw [← String.length_toList, ho]
    simp only [render, List.length_append]; omega
  rcases hd with ⟨h1, -⟩ | ⟨h1, -⟩
  · exact this _ h1
  · exact this _ h1

/-! ## Whole calls -/

/-- C70: no subtraction of `einsum` underflows, whatever the string and the operands: in every build whose
subtraction is right when it does not underflow, `einsum` behaves as with exact subtraction, counters and ranges.
`B` is `2^31` and `maxLen` is `2^60 - 1` on a 64-bit machine. -/
theorem C70_einsum [Zero A] [Add A] [Mul A] [MulAdd A] {B : Nat} (hB : 2 ≤ B) (b : Build) (hb : b.Subtracts)
    (hk : IsCounter B b.counter) (h : HashOrd) (al : Alloc A) (s : String) (operands : List (View A))
    (hs : FewLetters B s) (hlen : s.length ≤ b.maxLen) :
    einsumB b h al s operands = einsumW b.mul h al s operands := by
  rw [← C65_einsum hB hk b.mul h al s operands hs]
  obtain ⟨e, hf⟩ := validateAndSizeC_eq hB hk (h.sub 0) s operands hs
  simp only [einsumB, einsumC, e, bind_ok]
  cases hsc : validateAndSize (h.sub 0) s operands with
  | error e => rfl
  | ok sc =>
    obtain ⟨e1, hf1⟩ := generateOptimizedOrderC_eq hB hk ((h.sub 1).sub 0) sc (hf sc hsc) .naive
    simp only [e1]
    refine bind_congr_ok fun o ho => ?_
    rw [fromPathB_eq hb hB hk _ o ((hf1 o ho).tame (optimizedOrder_short _ sc ((validateAndSize_short hsc).trans hlen) _ ho))]

/-- C70: the same for `einsum_path`. -/
theorem C70_path {B : Nat} (hB : 2 ≤ B) (b : Build) (hb : b.Subtracts) (hk : IsCounter B b.counter) (h : HashOrd)
    (s : String) (operands : List (View A)) (m : OptimizationMethod) (hs : FewLetters B s)
    (hlen : s.length ≤ b.maxLen) :
    einsumPathB b h s operands m = einsumPathW b.mul h s operands m := by
  rw [← C65_path hB hk b.mul h s operands m hs]
  obtain ⟨e, hf⟩ := validateAndSizeC_eq hB hk ((h.sub 0).sub 0) s operands hs
  simp only [einsumPathB, einsumPathC, e, bind_ok]
  cases hsc : validateAndSize ((h.sub 0).sub 0) s operands with
  | error e => rfl
  | ok sc =>
    obtain ⟨e1, hf1⟩ := generateOptimizedOrderC_eq hB hk ((h.sub 0).sub 1) sc (hf sc hsc) m
    simp only [e1]
    refine bind_congr_ok fun o ho => ?_
    rw [fromPathB_eq hb hB hk _ o ((hf1 o ho).tame (optimizedOrder_short _ sc ((validateAndSize_short hsc).trans hlen) _ ho))]

/-- C70, C65 and C61 together: a build without any overflow checks returns from `einsum` nothing but what the
mathematics of unbounded lengths, counters and differences gives: the same error, or the very same array. -/
theorem C70_release {A : Type} [Semiring A] {B W : Nat} (hB : 2 ≤ B) (h : HashOrd) (al : Alloc A) (s : String)
    (hs : s.length < B) (hlen : s.length ≤ W / 2 / 8) (operands : List (View A)) (hwf : ∀ v ∈ operands, v.Wf)
    (r : Except String (View A)) (hr : einsumB (.release B W) h al s operands = .ok r) :
    einsum h al s operands = .ok r := by
  rw [C70_einsum hB _ (Build.subtracts_release B W) (.inr rfl) h al s operands (.of_length hs) hlen] at hr
  exact C61_einsum _ (noLarger_uwrap W) h al s operands hwf r hr

/-! ## tensordot -/

/-- C70: `tensordot` in either build, when there are not more axes to contract than axes. -/
theorem C70_tensordot [Zero A] [Add A] [Mul A] [MulAdd A] (b : Build) (hb : b.Subtracts) (al : Alloc A)
    (l r : View A) (la ra : List Nat) (hlen : l.shape.length + r.shape.length ≤ b.maxLen)
    (hax : 2 * la.length ≤ l.shape.length + r.shape.length) :
    tensordotB b al l r la ra = tensordotW b.mul al l r la ra := by
  simp only [tensordotB, tensordotW, hb _ _ hax, usub, hax, if_true, bind_ok, axisNumbersB_eq hb]
  refine bind_congr_ok fun _ _ => ?_
  have : l.shape.length + r.shape.length - 2 * la.length ≤ b.maxLen := by omega
  simp only [Build.collect, this, if_true, bind_ok]

/-- C70: otherwise both builds panic: the difference wraps to a number of output axes that no `Vec` can hold. -/
theorem C70_tensordot_underflow [Zero A] [Add A] [Mul A] [MulAdd A] (B W : Nat) (al : Alloc A) (l r : View A)
    (la ra : List Nat) (hlen : la.length ≤ W / 2 / 8) (hax : l.shape.length + r.shape.length < 2 * la.length) :
    (∃ k, tensordotB (.release B W) al l r la ra = panic k) ∧ (∃ k, tensordotB (.debug B W) al l r la ra = panic k) ∧
    ∃ k, tensordot al l r la ra = panic k := by
  have h1 : ¬ 2 * la.length ≤ l.shape.length + r.shape.length := by omega
  have h2 : ¬ l.shape.length + r.shape.length + (W + 1) - 2 * la.length ≤ W / 2 / 8 := by omega
  by_cases he : la.length = ra.length
  · have ha := assertThat_of (decide_eq_true he)
    refine ⟨⟨.explicit, ?_⟩, ⟨.subUnderflow, ?_⟩, ⟨.subUnderflow, ?_⟩⟩
    · simp only [tensordotB, ha, bind_ok, Build.release, subWrap, h1, if_false, Build.collect, h2]; rfl
    · simp only [tensordotB, ha, bind_ok, Build.debug, usub, h1, if_false]; rfl
    · simp only [tensordot, ha, bind_ok, usub, h1, if_false]; rfl
  · refine ⟨⟨.assertFailed, ?_⟩, ⟨.assertFailed, ?_⟩, ⟨.assertFailed, ?_⟩⟩
    · simp only [tensordotB, assertThat, he]; rfl
    · simp only [tensordotB, assertThat, he]; rfl
    · simp only [tensordot, assertThat, he]; rfl

/-! ## Contractions built by hand -/

/-- No operation of the build is undefined. -/
def Build.NoUb (b : Build) : Prop :=
  (∀ n, Einsum.NoUb (b.counter.inc n)) ∧ (∀ x y, Einsum.NoUb (b.mul x y)) ∧ ∀ x y, Einsum.NoUb (b.sub x y)

theorem Build.noUb_debug (B W : Nat) : (Build.debug B W).NoUb := by
  refine ⟨fun n => ?_, fun x y => ?_, noUb_usub⟩
  · simp only [Build.debug, Counter.checked]; noub
  · simp only [Build.debug, umul]; noub

theorem Build.noUb_release (B W : Nat) : (Build.release B W).NoUb := by
  refine ⟨fun n => ?_, fun x y => ?_, fun x y => ?_⟩
  · simp only [Build.release, Counter.wrapping]; noub
  · simp only [Build.release, uwrap]; noub
  · simp only [Build.release, subWrap]; noub

section
variable {b : Build} (hb : b.NoUb)
include hb

theorem noUb_charCountsW (l : List Char) : ∀ acc, NoUb (l.foldlM (bumpW b.counter) acc) := by
  have hbump : ∀ (c : Char) (m : List (Char × Nat)), NoUb (bumpW b.counter m c) := by
    intro c m
    induction m with
    | nil => simp only [bumpW]; exact .bind (hb.1 _) fun _ => .pure
    | cons e m ih =>
      obtain ⟨k, n⟩ := e
      simp only [bumpW]
      split
      · exact .bind (hb.1 _) fun _ => .pure
      · exact .bind ih fun _ => .pure
  induction l with
  | nil => intro acc; exact .pure
  | cons c l ih => intro acc; exact .bind (hbump c acc) ih

omit hb in
theorem noUb_fromSizesB (n k : Nat) : NoUb (Summation.fromSizesB b n k) := by
  refine .bind (noUb_assertThat _) fun _ => .bind ?_ fun _ => noUb_fromSizes _ _
  unfold Build.collect; noub

theorem noUb_summationB (sc : SizedContraction) : NoUb (Summation.newB b sc) :=
  .bind (noUb_index _ _) fun _ => .bind (hb.2.2 _ _) fun _ => noUb_fromSizesB _ _

theorem noUb_singletonOpB (sc : SizedContraction) (m : SingletonMethod) : NoUb (SingletonOp.newB b sc m) := by
  cases m with
  | summation => exact .bind (noUb_summationB hb sc) fun _ => .pure
  | permutationAndSummation =>
    refine .bind ?_ fun _ => .pure
    have := noUb_summationB hb sc
    unfold PermutationAndSummation.newB; noub
  | diagonalizationAndSummation =>
    exact .bind (.bind (noUb_diagonalization sc) fun _ => .bind (hb.2.2 _ _) fun _ => .bind (noUb_fromSizesB _ _)
      fun _ => .pure) fun _ => .pure
  | identity => exact noUb_singletonOp sc .identity
  | permutation => exact noUb_singletonOp sc .permutation
  | diagonalization => exact noUb_singletonOp sc .diagonalization

theorem noUb_singletonContractionB (sc : SizedContraction) : NoUb (SingletonContraction.newB b sc) :=
  .bind (noUb_assertThat _) fun _ => .bind (noUb_index _ _) fun _ =>
    .bind (.bind (noUb_charCountsW hb _ _) fun _ => .bind (hb.2.2 _ _) fun _ => .pure) fun _ =>
    .bind (noUb_singletonOpB hb sc _) fun _ => .pure

theorem noUb_fromIndicesW (h : HashOrd) (ops : List (List Char)) (out : List Char) :
    NoUb (Contraction.fromIndicesW b.counter h ops out) :=
  .bind (noUb_charCountsW hb _ _) fun _ => .bind (noUb_charCountsW hb _ _) fun _ => by split <;> exact .pure

theorem noUb_subsetUnwrapC (sc : SizedContraction) (h : HashOrd) (ops : List (List Char)) (out : List Char) :
    NoUb (sc.subsetUnwrapC b.counter h ops out) := by
  have := noUb_fromIndicesW hb
  unfold SizedContraction.subsetUnwrapC SizedContraction.subsetC
  refine .bind ?_ fun _ => noUb_unwrapR _
  dsimp only
  split
  · exact .pure
  · exact .bind (this _ _ _) fun _ => by split <;> exact .pure

theorem noUb_simplificationB (h : HashOrd) (this other out : List Char) (orig : SizedContraction) :
    NoUb (SimplificationMethodAndOutput.fromIndicesAndSizesB b h this other out orig) := by
  refine .bind (noUb_subsetUnwrapC hb _ _ _ _) fun s => .bind (noUb_singletonContractionB hb s) fun c => ?_
  split
  · exact .pure
  · exact .pure
  · exact .bind (noUb_asEinsumString s) fun _ => .pure

theorem noUb_lhsLoopB (n k : Nat) (l : List Nat) : ∀ (axis : Nat) (acc : Nat × Nat × List Nat),
    NoUb (lhsLoopB b n k axis l acc) := by
  induction l with
  | nil => intro _ _; exact .ok
  | cons x l ih =>
    rintro axis ⟨u, c, out⟩
    rw [lhsLoopB]
    refine .bind (hb.2.2 _ _) fun cut => ?_
    split
    · exact .bind (hb.2.1 _ _) fun _ => ih _ _
    · exact .bind (hb.2.1 _ _) fun _ => ih _ _

theorem noUb_rhsLoopB (k : Nat) (l : List Nat) : ∀ (axis : Nat) (acc : Nat × Nat × List Nat),
    NoUb (rhsLoopW b.mul k axis l acc) := by
  induction l with
  | nil => intro _ _; exact .ok
  | cons x l ih =>
    rintro axis ⟨u, c, out⟩
    rw [rhsLoopW]
    split
    · exact .bind (hb.2.1 _ _) fun _ => ih _ _
    · exact .bind (hb.2.1 _ _) fun _ => ih _ _

theorem noUb_fromShapesB (l r : List Nat) (n : Nat) : NoUb (TensordotFixedPosition.fromShapesB b l r n) :=
  .bind (noUb_lhsLoopB hb _ _ _ _ _) fun _ => .bind (noUb_rhsLoopB hb _ _ _ _) fun _ =>
    .bind (noUb_assertThat _) fun _ => .pure

theorem noUb_fixedB (sc : SizedContraction) : NoUb (TensordotFixedPosition.newB b sc) :=
  .bind (noUb_assertThat _) fun _ => .bind (noUb_index _ _) fun _ => .bind (noUb_index _ _) fun _ =>
    .bind (hb.2.2 _ _) fun _ => .bind (noUb_assertThat _) fun _ => .bind (noUb_sizesOf _ _) fun _ =>
    .bind (noUb_sizesOf _ _) fun _ => noUb_fromShapesB hb _ _ _

theorem noUb_axisNumbersB (l r la ra o : List Nat) : NoUb (TensordotGeneral.fromShapesAndAxisNumbersB b l r la ra o) :=
  .bind (noUb_assertThat _) fun _ => .bind (noUb_assertThat _) fun _ => .bind (noUb_assertThat _) fun _ =>
    .bind (noUb_mapE (fun _ => noUb_index _ _) _) fun _ => .bind (noUb_mapE (fun _ => noUb_index _ _) _) fun _ =>
    .bind (noUb_fromShapesB hb _ _ _) fun _ => .pure

theorem noUb_tensordotGeneralB (sc : SizedContraction) : NoUb (TensordotGeneral.newB b sc) :=
  .bind (noUb_assertThat _) fun _ => .bind (noUb_index _ _) fun _ => .bind (noUb_index _ _) fun _ =>
    .bind (noUb_sizesOf _ _) fun _ => .bind (noUb_sizesOf _ _) fun _ =>
    .bind (noUb_find _ _) fun _ => .bind (noUb_find _ _) fun _ => .bind (noUb_find _ _) fun _ =>
    noUb_axisNumbersB hb _ _ _ _ _

theorem noUb_stackClassifyB (sc : SizedContraction) (l : List ((Option Nat × Option Nat) × Char)) :
    ∀ acc : StackAcc, NoUb (stackClassifyW b.mul sc l acc) := by
  induction l with
  | nil => intro _; exact .ok
  | cons x l ih =>
    intro acc
    obtain ⟨⟨a, c⟩, d⟩ := x
    cases a <;> cases c <;> rw [stackClassifyW]
    · exact .panic
    · exact .bind (noUb_get _ _) fun _ => ih _
    · exact .bind (noUb_get _ _) fun _ => ih _
    · exact .bind (noUb_get _ _) fun _ => .bind (hb.2.1 _ _) fun _ => ih _

theorem noUb_stackedB (sc : SizedContraction) : NoUb (StackedTensordotGeneral.newB b sc) :=
  .bind (noUb_assertThat _) fun _ => .bind (noUb_index _ _) fun _ => .bind (noUb_index _ _) fun _ =>
    .bind (noUb_maybeFind _ _) fun _ => .bind (noUb_maybeFind _ _) fun _ =>
    .bind (noUb_stackClassifyB hb _ _ _) fun _ => .bind (noUb_stackContracted _ _ _ _ _) fun _ =>
    .bind (noUb_sizesOf _ _) fun _ => .bind (noUb_sizesOf _ _) fun _ => .bind (noUb_find _ _) fun _ =>
    .bind (noUb_sizesOf _ _) fun _ => .bind (noUb_fromShapesB hb _ _ _) fun _ => .pure

theorem noUb_pairOpB (sc : SizedContraction) (m : PairMethod) : NoUb (PairOp.newB b sc m) := by
  cases m with
  | tensordotFixedPosition => exact .bind (noUb_fixedB hb sc) fun _ => .pure
  | tensordotGeneral => exact .bind (noUb_tensordotGeneralB hb sc) fun _ => .pure
  | stackedTensordotGeneral => exact .bind (noUb_stackedB hb sc) fun _ => .pure
  | hadamardProduct => exact noUb_pairOp sc .hadamardProduct
  | hadamardProductGeneral => exact noUb_pairOp sc .hadamardProductGeneral
  | scalarMatrixProduct => exact noUb_pairOp sc .scalarMatrixProduct
  | scalarMatrixProductGeneral => exact noUb_pairOp sc .scalarMatrixProductGeneral
  | matrixScalarProduct => exact noUb_pairOp sc .matrixScalarProduct
  | matrixScalarProductGeneral => exact noUb_pairOp sc .matrixScalarProductGeneral
  | broadcastProductGeneral => exact noUb_pairOp sc .broadcastProductGeneral

theorem noUb_pairSummaryB (sc : SizedContraction) : NoUb (PairSummary.newB b sc) := by
  have := hb.2.2
  exact .bind (noUb_assertThat _) fun _ => .bind (noUb_index _ _) fun _ => .bind (noUb_index _ _) fun _ =>
    .bind (noUb_assertThat _) fun _ => .bind (noUb_assertThat _) fun _ => .bind (noUb_assertThat _) fun _ =>
    .bind (this _ _) fun _ => .bind (this _ _) fun _ => .bind (this _ _) fun _ => .bind (this _ _) fun _ =>
    .bind (this _ _) fun _ => .pure

theorem noUb_pairContractionB (h : HashOrd) (sc : SizedContraction) : NoUb (PairContraction.newB b h sc) :=
  .bind (noUb_assertThat _) fun _ => .bind (noUb_index _ _) fun _ => .bind (noUb_index _ _) fun _ =>
    .bind (noUb_simplificationB hb _ _ _ _ _) fun _ => .bind (noUb_simplificationB hb _ _ _ _ _) fun _ =>
    .bind (noUb_subsetUnwrapC hb _ _ _ _) fun r => .bind (noUb_pairSummaryB hb r) fun _ =>
    .bind (noUb_pairOpB hb r _) fun _ => .bind (noUb_asEinsumString r) fun _ => .pure

theorem noUb_fromPathB (h : HashOrd) (o : ContractionOrder) : NoUb (EinsumPath.fromPathB b h o) := by
  cases o with
  | singleton sc => exact .bind (noUb_singletonContractionB hb sc) fun _ => .pure
  | pairs l =>
    refine .bind ?_ fun _ => .pure
    induction l generalizing h with
    | nil => exact .ok
    | cons s l ih => exact .bind (noUb_pairContractionB hb _ _) fun _ => .bind (ih _) fun _ => .pure

end

/-- C70: compiling any contraction order in either build, for instance a hand-built one, and running it on any valid
arrays.  `C51_path` is the same without wrapped subtractions. -/
theorem C70_safe [Zero A] [Add A] [Mul A] [MulAdd A] (b : Build) (hb : b.NoUb) (h : HashOrd) (al : Alloc A)
    (o : ContractionOrder) (operands : List (View A)) (hw : ∀ v ∈ operands, v.Wf) :
    (∃ k, (EinsumPath.fromPathB b h o >>= fun p => p.contractOperands al operands) = panic k) ∨
    ∃ r, (EinsumPath.fromPathB b h o >>= fun p => p.contractOperands al operands) = .ok r ∧ r.Wf := by
  rcases noUb_fromPathB hb h o with ⟨k, hk⟩ | ⟨p, hp⟩
  · exact .inl ⟨k, by rw [hk]; rfl⟩
  · rw [hp, bind_ok]; exact p.contractOperands_safe hw al

/-- C70: the constructors of contractors, on any sized contraction. -/
theorem C70_constructors (b : Build) (hb : b.NoUb) (h : HashOrd) (sc : SizedContraction) (m : SingletonMethod)
    (m' : PairMethod) :
    NoUb (SingletonOp.newB b sc m) ∧ NoUb (PairOp.newB b sc m') ∧ NoUb (SingletonContraction.newB b sc) ∧
    NoUb (PairContraction.newB b h sc) :=
  ⟨noUb_singletonOpB hb sc m, noUb_pairOpB hb sc m', noUb_singletonContractionB hb sc, noUb_pairContractionB hb h sc⟩

/-- C70: a build with overflow checks constructs the contractors of pairs as the rest of the model does. -/
theorem C70_checked (B W : Nat) (sc : SizedContraction) (m : PairMethod) :
    PairOp.newB (.debug B W) sc m = PairOp.newW (umul W) sc m := by
  by_cases hm : m = .tensordotFixedPosition
  · subst hm
    have hl : ∀ (N n : Nat) (l : List Nat) (axis : Nat) (acc : Nat × Nat × List Nat),
        lhsLoopB (.debug B W) N n axis l acc = lhsLoopW (umul W) N n axis l acc := by
      intro N n l
      induction l with
      | nil => intro axis acc; rfl
      | cons x l ih =>
        intro axis ⟨u, c, out⟩
        simp only [lhsLoopB, lhsLoopW, ih]
        rfl
    simp only [PairOp.newB, PairOp.newW, TensordotFixedPosition.newB, TensordotFixedPosition.newW,
      TensordotFixedPosition.fromShapesB, TensordotFixedPosition.fromShapesW, hl]
    rfl
  · exact pairOpB_eq (Build.subtracts_debug B W) sc hm

/-- C70: `TensordotFixedPosition::new`, which no strategy selects, in either build, if there are not more axes to
contract than axes. -/
theorem C70_fixed (b : Build) (hb : b.Subtracts) (sc : SizedContraction) (lhs rhs : List Char)
    (hi : sc.contraction.operandIndices = [lhs, rhs])
    (ho : sc.contraction.outputIndices.length ≤ lhs.length + rhs.length)
    (hc : lhs.length + rhs.length - sc.contraction.outputIndices.length ≤ 2 * lhs.length + 1) :
    PairOp.newB b sc .tensordotFixedPosition = PairOp.newW b.mul sc .tensordotFixedPosition := by
  simp only [PairOp.newB, PairOp.newW, TensordotFixedPosition.newB, TensordotFixedPosition.newW, hi, index,
    List.getElem?_cons_zero, List.getElem?_cons_succ, bind_ok, hb _ _ ho, usub, ho, if_true]
  refine congrArg (· >>= _) (bind_congr_ok fun _ _ => bind_congr_ok fun _ _ => bind_congr_ok fun lshape hl =>
    bind_congr_ok fun _ _ => ?_)
  rw [fromShapesB_eq hb]
  have := (mapE_eq_ok.1 hl).length_eq
  omega

namespace Ex

/-- A 64-bit machine. -/
abbrev release64 : Build := .release (2 ^ 31) (2 ^ 64 - 1)
abbrev debug64 : Build := .debug (2 ^ 31) (2 ^ 64 - 1)

/-- One element, two axes. -/
def one11 : View Int := ⟨[7], 0, [1, 1], [1, 1]⟩

theorem one11_wf : one11.Wf := (elements_of (t := fun _ => 7) rfl (by decide)).1

/-- `ii->ab` with all lengths `1`, which validation rejects. -/
def alien : SizedContraction := ⟨⟨[['i', 'i']], ['a', 'b'], ['i']⟩, fun _ => some 1⟩

def alienPath : EinsumPath :=
  ⟨.singleton alien, .singletonContraction ⟨.diagonalizationAndSummation,
    .diagonalizationAndSummation ⟨⟨[2, 2], [1, 1, 1]⟩, ⟨[2], [2]⟩⟩⟩⟩

theorem alien_compiled (h : HashOrd) : EinsumPath.fromPathB release64 h (.singleton alien) = .ok alienPath := rfl

theorem one11_slice : one11.asSliceMemoryOrder = some [7] := by
  have : isContiguous one11.shape one11.strides = true := by
    simp [isContiguous, one11, defaultStrides, sufProds]
  rw [View.asSliceMemoryOrder, if_pos this]
  decide

theorem alien_view : Diagonalization.view ⟨[2, 2], [1, 1, 1]⟩ one11 = .ok ⟨[7], 0, [1, 1, 1], [0, 0, 2]⟩ := by
  have h1 : strideOrder [0, 0, 2] = [0, 1, 2] := by
    simp [strideOrder, List.range_succ, List.mergeSort, List.MergeSort.Internal.splitInTwo]
  simp only [Diagonalization.view, one11_slice, unwrapO]
  rw [show diagStrides [2, 2] (List.map (fun _ => 0) [1, 1, 1]) 0 one11.strides = .ok [0, 0, 2] from rfl]
  simp only [bind_ok, fromShapeStrides, List.map, show Int.ofNat 0 = 0 from rfl, show Int.ofNat 2 = 2 from rfl, h1]
  rfl

theorem alien_run : ∃ r, alienPath.contractOperands (Alloc.rowMajor Int) [one11] = .ok r ∧ r.shape = [1, 1] ∧ r.buf = [7] := by
  have h1 : DiagonalizationAndSummation.run ⟨⟨[2, 2], [1, 1, 1]⟩, ⟨[2], [2]⟩⟩ (Alloc.rowMajor Int) one11 =
      Summation.run ⟨[2], [2]⟩ (Alloc.rowMajor Int) ⟨[7], 0, [1, 1, 1], [0, 0, 2]⟩ := by
    simp only [DiagonalizationAndSummation.run, one11_slice, alien_view]
    rfl
  have h2 : alienPath.contractOperands (Alloc.rowMajor Int) [one11] =
      DiagonalizationAndSummation.run ⟨⟨[2, 2], [1, 1, 1]⟩, ⟨[2], [2]⟩⟩ (Alloc.rowMajor Int) one11 := rfl
  rw [h2, h1]
  exact ⟨_, by with_unfolding_all rfl, by with_unfolding_all rfl, by with_unfolding_all rfl⟩

end Ex

example (h : HashOrd) (operands : List (View Int)) :
    einsumB Ex.release64 h (Alloc.rowMajor Int) "ij,jk,kk->i" operands =
      einsumW (uwrap (2 ^ 64 - 1)) h (Alloc.rowMajor Int) "ij,jk,kk->i" operands :=
  C70_einsum (B := 2 ^ 31) (by decide) _ (Build.subtracts_release _ _) (.inr rfl) _ _ _ _
    (.of_length (by decide)) (by decide)

example (h : HashOrd) (operands : List (View Int)) (m : OptimizationMethod) :
    einsumPathB Ex.debug64 h "ij,jk,kk->i" operands m =
      einsumPathW (umul (2 ^ 64 - 1)) h "ij,jk,kk->i" operands m :=
  C70_path (B := 2 ^ 31) (by decide) _ (Build.subtracts_debug _ _) (.inl rfl) _ _ _ _
    (.of_length (by decide)) (by decide)

/-- A matrix product as `TensordotFixedPosition` expects it: the last axis of the first with the first of the second. -/
example : PairOp.newB Ex.release64 ⟨⟨[['i', 'j'], ['j', 'k']], ['i', 'k'], ['j']⟩, fun _ => some 3⟩ .tensordotFixedPosition =
    .ok (.tensordotFixedPosition ⟨3, 3, 3, [3, 3]⟩) := by
  rw [C70_fixed Ex.release64 (Build.subtracts_release _ _) _ ['i', 'j'] ['j', 'k'] rfl (by decide) (by decide)]
  rfl

example : PairOp.newB Ex.debug64 ⟨⟨[['i', 'j'], ['j', 'k']], ['i', 'k'], ['j']⟩, fun _ => some 3⟩ .tensordotFixedPosition =
    .ok (.tensordotFixedPosition ⟨3, 3, 3, [3, 3]⟩) := by
  rw [C70_checked]
  rfl

/-- C70: a contraction built by hand whose output labels do not occur in the operand can be compiled and run in a
build without overflow checks; a build with checks panics. -/
theorem C70_hand_built (h : HashOrd) :
    (∃ r, (EinsumPath.fromPathB Ex.release64 h (.singleton Ex.alien) >>= fun p =>
      p.contractOperands (Alloc.rowMajor Int) [Ex.one11]) = .ok r ∧ r.shape = [1, 1] ∧ r.buf = [7]) ∧
    EinsumPath.fromPathB Ex.debug64 h (.singleton Ex.alien) = panic .subUnderflow ∧
    EinsumPath.fromPath h (.singleton Ex.alien) = panic .subUnderflow := by
  refine ⟨?_, rfl, rfl⟩
  rw [Ex.alien_compiled, bind_ok]
  exact Ex.alien_run

example : Ex.one11.Wf ∧ ¬ OutputOk [['i', 'i']] ['a', 'b'] :=
  ⟨Ex.one11_wf, fun h => by
    obtain ⟨p, h1, h2⟩ := h.2 'a' (by simp)
    simp only [List.mem_singleton] at h1
    subst h1
    simp at h2⟩

/-- Six axes to contract, four axes. -/
example : ∃ k, tensordotB Ex.release64 (Alloc.rowMajor Int) Ex.m23 Ex.m32 [0, 1, 0] [0, 1, 0] = panic k :=
  (C70_tensordot_underflow (2 ^ 31) (2 ^ 64 - 1) _ Ex.m23 Ex.m32 [0, 1, 0] [0, 1, 0] (by decide) (by decide)).1

example : tensordotB Ex.release64 (Alloc.rowMajor Int) Ex.m23 Ex.m32 [1] [0] =
    tensordotW (uwrap (2 ^ 64 - 1)) (Alloc.rowMajor Int) Ex.m23 Ex.m32 [1] [0] :=
  C70_tensordot _ (Build.subtracts_release _ _) _ _ _ _ _ (by decide) (by decide)

example : Ex.release64.NoUb ∧ Ex.debug64.NoUb := ⟨Build.noUb_release _ _, Build.noUb_debug _ _⟩

namespace Ex

theorem ranRelease : ∃ w, einsumB release64 HashOrd.insertion (Alloc.rowMajor Int) "ij,jk->ik" [m23, m32] = .ok (.ok w) ∧
    w.shape = [2, 2] :=
  ⟨_, by with_unfolding_all rfl, by with_unfolding_all rfl⟩

end Ex

example : ∃ w, einsum HashOrd.insertion (Alloc.rowMajor Int) "ij,jk->ik" [Ex.m23, Ex.m32] = .ok (.ok w) ∧ w.shape = [2, 2] := by
  obtain ⟨w, h1, h2⟩ := Ex.ranRelease
  refine ⟨w, C70_release (B := 2 ^ 31) (W := 2 ^ 64 - 1) (by decide) _ _ _ (by decide) (by decide) _ ?_ _ h1, h2⟩
  intro v hv
  fin_cases hv
  · exact Ex.e23.1
  · exact Ex.e32.1

end Einsum
