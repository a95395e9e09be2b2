import Verif.Model.Machine
import Verif.Props.Counters
import Verif.Props.Overflow
import Verif.Props.Main
import Verif.Proofs.Safe

/-!
# `einsum` and `einsum_path` with letter counts of bounded size: C65
-/

namespace Einsum

open Spec

variable {A : Type}

/-- No letter occurs `B` times. -/
def Few (B : Nat) (l : List Char) : Prop := ∀ c, l.count c < B

/-- No letter occurs `B` times among the operands or in the output. -/
def SizedContraction.Few (B : Nat) (sc : SizedContraction) : Prop :=
  Einsum.Few B sc.contraction.operandIndices.flatten ∧ Einsum.Few B sc.contraction.outputIndices

theorem Few.of_count_le {B : Nat} {l l' : List Char} (h : Few B l) (hle : ∀ c, l'.count c ≤ l.count c) : Few B l' :=
  fun c => lt_of_le_of_lt (hle c) (h c)

theorem count_le_of_nodup {l l' : List Char} (hn : l'.Nodup) (hm : ∀ c ∈ l', c ∈ l) (c : Char) :
    l'.count c ≤ l.count c := by
  have h1 := List.nodup_iff_count_le_one.1 hn c
  by_cases hc : c ∈ l'
  · have := List.count_pos_iff.2 (hm c hc); omega
  · rw [List.count_eq_zero.2 hc]; omega

/-! ## The functions that build contractions -/

section
variable {B : Nat} {k : Counter} (hB : 2 ≤ B) (hk : IsCounter B k)
include hB hk

theorem subsetC_eq (h : HashOrd) (sc : SizedContraction) {ops : List (List Char)} {out : List Char}
    (hi : Few B ops.flatten) (ho : Few B out) : sc.subsetC k h ops out = .ok (sc.subset h ops out) := by
  unfold SizedContraction.subsetC SizedContraction.subset
  simp only [fromIndicesW_eq hB hk (h.sub 4) hi ho, bind_ok]
  split
  · rfl
  · cases Contraction.fromIndices (h.sub 4) ops out <;> rfl

theorem subsetUnwrapC_eq (h : HashOrd) (sc : SizedContraction) {ops : List (List Char)} {out : List Char}
    (hi : Few B ops.flatten) (ho : Few B out) : sc.subsetUnwrapC k h ops out = unwrapR (sc.subset h ops out) := by
  simp only [SizedContraction.subsetUnwrapC, subsetC_eq hB hk h sc hi ho, bind_ok]

omit hB hk in
theorem unwrapR_subset {h : HashOrd} {sc sc' : SizedContraction} {ops : List (List Char)} {out : List Char}
    (he : unwrapR (sc.subset h ops out) = .ok sc') :
    sc'.contraction.operandIndices = ops ∧ sc'.contraction.outputIndices = out := by
  cases hs : sc.subset h ops out with
  | error e => rw [hs] at he; cases he
  | ok x =>
    rw [hs] at he
    cases he
    obtain ⟨_, _, rfl⟩ := subset_iff.1 hs
    exact ⟨rfl, rfl⟩

omit hB hk in
theorem stepOutput_count {h : HashOrd} {lhs rhs out : List Char} {later : List (List Char)} (hl : later ≠ [])
    (c : Char) : (stepOutput h lhs rhs later out).count c ≤ (lhs ++ rhs).count c := by
  cases later with
  | nil => exact absurd rfl hl
  | cons p later =>
    apply count_le_of_nodup
    · exact ((h.perm _ _).nodup_iff.2 (nodup_hset _)).filter _
    · intro c hc
      simp only [stepOutput, List.mem_filter, (h.perm _ _).mem_iff] at hc
      exact mem_hset.1 hc.1

theorem generateStepsC_eq (h : HashOrd) (permuted : SizedContraction) (ho : Few B permuted.contraction.outputIndices)
    (first : Nat) (rest : List (List Char)) : ∀ (i : Nat) (lhs : List Char) (nums : List Nat),
    (rest = [] ∨ Few B (lhs ++ rest.flatten)) →
    generateStepsC k h permuted first i lhs rest nums = generateSteps h permuted first i lhs rest nums ∧
      ∀ r, generateSteps h permuted first i lhs rest nums = .ok r → ∀ s ∈ r, s.sizedContraction.Few B := by
  induction rest with
  | nil =>
    intro i lhs nums _
    simp only [generateStepsC, generateSteps, true_and]
    rintro r hr
    cases hr; simp
  | cons rhs later ih =>
    intro i lhs nums hf
    have hf : Few B (lhs ++ (rhs :: later).flatten) := hf.resolve_left (by simp)
    cases nums with
    | nil =>
      simp only [generateStepsC, generateSteps, true_and]
      rintro r hr
      cases hr; simp
    | cons num nums =>
      simp only [generateStepsC, generateSteps, generateSizedContractionPair]
      set out := stepOutput (h.sub (2 * i)) lhs rhs later permuted.contraction.outputIndices with hout
      have h1 : Few B [lhs, rhs].flatten := hf.of_count_le fun c => by
        simp only [List.flatten_cons, List.flatten_nil, List.append_nil, List.count_append]; omega
      have h2 : Few B out ∧ (later = [] ∨ Few B (out ++ later.flatten)) := by
        by_cases hl : later = []
        · subst hl; exact ⟨ho, .inl rfl⟩
        · have hle := fun c => stepOutput_count (h := h.sub (2 * i)) (lhs := lhs) (rhs := rhs)
            (out := permuted.contraction.outputIndices) hl c
          simp only [← hout] at hle
          refine ⟨hf.of_count_le fun c => ?_, .inr (hf.of_count_le fun c => ?_)⟩
          · have := hle c
            simp only [List.flatten_cons, List.count_append] at this ⊢; omega
          · have := hle c
            simp only [List.flatten_cons, List.count_append] at this ⊢; omega
      rw [subsetUnwrapC_eq hB hk _ _ h1 h2.1]
      obtain ⟨e, hs⟩ := ih (i + 1) out nums h2.2
      rw [e]
      refine ⟨rfl, fun r hr => ?_⟩
      obtain ⟨sc, h3, hr⟩ := bind_eq_ok.1 hr
      obtain ⟨steps, h4, hr⟩ := bind_eq_ok.1 hr
      cases hr
      obtain ⟨e1, e2⟩ := unwrapR_subset h3
      intro s hs'
      rcases List.mem_cons.1 hs' with rfl | hs'
      · exact ⟨by rw [e1]; exact h1, by rw [e2]; exact h2.1⟩
      · exact hs steps h4 s hs'

/-- All contractions of an order. -/
def ContractionOrder.Few (B : Nat) : ContractionOrder → Prop
  | .singleton sc => sc.Few B
  | .pairs steps => ∀ s ∈ steps, s.sizedContraction.Few B

theorem generatePathC_eq (h : HashOrd) (sc : SizedContraction) (hf : sc.Few B) {order : List Nat}
    (hp : order.Perm (List.range sc.contraction.operandIndices.length)) :
    generatePathC k h sc order = generatePath h sc order ∧
      ∀ o, generatePath h sc order = .ok o → o.Few B := by
  have hflat : ∀ ops, mapE (index sc.contraction.operandIndices) order = .ok ops →
      ops.Perm sc.contraction.operandIndices := by
    intro ops he
    have : mapE (index sc.contraction.operandIndices) order = .ok (pick sc.contraction.operandIndices [] order) := by
      refine mapE_ok fun i hi => ?_
      have : i < sc.contraction.operandIndices.length := by simpa using hp.mem_iff.1 hi
      rw [index_getElem this]; simp [this]
    rw [this] at he
    cases he
    exact pick_perm _ _ hp
  have hperm : generatePermutedContractionC k (h.sub 0) sc order = generatePermutedContraction (h.sub 0) sc order := by
    simp only [generatePermutedContractionC, generatePermutedContraction]
    refine bind_congr_ok fun _ _ => bind_congr_ok fun ops hops => ?_
    exact subsetUnwrapC_eq hB hk _ _ (hf.1.of_count_le fun c => ((hflat ops hops).flatten.count_eq c).le) hf.2
  simp only [generatePathC, generatePath, hperm]
  cases hpc : generatePermutedContraction (h.sub 0) sc order with
  | error e => exact ⟨rfl, fun o ho => by cases ho⟩
  | ok permuted =>
    have hpf : permuted.Few B := by
      simp only [generatePermutedContraction] at hpc
      obtain ⟨_, _, hpc⟩ := bind_eq_ok.1 hpc
      obtain ⟨ops, hops, hpc⟩ := bind_eq_ok.1 hpc
      obtain ⟨e1, e2⟩ := unwrapR_subset hpc
      exact ⟨by rw [e1]; exact hf.1.of_count_le fun c => ((hflat ops hops).flatten.count_eq c).le,
        by rw [e2]; exact hf.2⟩
    simp only [bind_ok]
    generalize hops : permuted.contraction.operandIndices = ops
    have hof := hpf.1
    rw [hops] at hof
    match ops, order with
    | [], _ => exact ⟨rfl, fun o ho => by cases ho⟩
    | [_], _ => exact ⟨rfl, fun o ho => by cases ho; exact hpf⟩
    | [lhs, rhs], t0 :: t1 :: ts =>
      simp only [subsetUnwrapC_eq hB hk _ _ hof hpf.2, generateSizedContractionPair]
      refine ⟨trivial, fun o ho => ?_⟩
      obtain ⟨sc', h3, ho⟩ := bind_eq_ok.1 ho
      cases ho
      obtain ⟨e1, e2⟩ := unwrapR_subset h3
      intro s hs
      simp only [List.mem_singleton] at hs
      subst hs
      exact ⟨by rw [e1]; exact hof, by rw [e2]; exact hpf.2⟩
    | [lhs, rhs], [t0] =>
      obtain ⟨e, hs⟩ := generateStepsC_eq hB hk (h.sub 2) permuted hpf.2 t0 [rhs] 0 lhs [] (.inr (by simpa using hof))
      simp only [e]
      refine ⟨trivial, fun o ho => ?_⟩
      obtain ⟨steps, h3, ho⟩ := bind_eq_ok.1 ho
      cases ho
      exact hs _ h3
    | lhs :: r0 :: r1 :: rest, t0 :: ts =>
      obtain ⟨e, hs⟩ := generateStepsC_eq hB hk (h.sub 2) permuted hpf.2 t0 (r0 :: r1 :: rest) 0 lhs ts (.inr (by simpa using hof))
      simp only [e]
      refine ⟨trivial, fun o ho => ?_⟩
      obtain ⟨steps, h3, ho⟩ := bind_eq_ok.1 ho
      cases ho
      exact hs _ h3
    | [_, _], [] => exact ⟨rfl, fun o ho => by cases ho⟩
    | _ :: _ :: _ :: _, [] => exact ⟨rfl, fun o ho => by cases ho⟩

theorem generateOptimizedOrderC_eq (h : HashOrd) (sc : SizedContraction) (hf : sc.Few B) (m : OptimizationMethod) :
    generateOptimizedOrderC k h sc m = generateOptimizedOrder h sc m ∧
      ∀ o, generateOptimizedOrder h sc m = .ok o → o.Few B := by
  cases m with
  | naive => exact generatePathC_eq hB hk h sc hf (List.Perm.refl _)
  | reverse => exact generatePathC_eq hB hk h sc hf (List.reverse_perm _)
  | greedy => exact ⟨rfl, fun o ho => by cases ho⟩
  | optimal => exact ⟨rfl, fun o ho => by cases ho⟩
  | branch => exact ⟨rfl, fun o ho => by cases ho⟩

/-! ## The functions that compile them -/

theorem singleton_newC_eq (sc : SizedContraction) (hf : sc.Few B) :
    SingletonContraction.newC k sc = SingletonContraction.new sc := by
  simp only [SingletonContraction.newC, SingletonContraction.new, SingletonSummary.new]
  cases ha : assertThat (sc.contraction.operandIndices.length = 1) with
  | error e => rfl
  | ok _ =>
    simp only [bind_ok]
    cases hi : index sc.contraction.operandIndices 0 with
    | error e => rfl
    | ok input =>
      simp only [bind_ok]
      have hm : input ∈ sc.contraction.operandIndices := by
        unfold index at hi
        split at hi
        · rename_i a ha; cases hi; exact List.mem_of_getElem? ha
        · cases hi
      have : Few B input := hf.1.of_count_le fun c =>
        (List.sublist_flatten_of_mem hm).count_le c
      rw [C65_singleton hB hk input _ this]

theorem simplificationC_eq (h : HashOrd) (this other out : List Char) (orig : SizedContraction) (ht : Few B this) :
    SimplificationMethodAndOutput.fromIndicesAndSizesC k h this other out orig =
      SimplificationMethodAndOutput.fromIndicesAndSizes h this other out orig := by
  simp only [SimplificationMethodAndOutput.fromIndicesAndSizesC, SimplificationMethodAndOutput.fromIndicesAndSizes]
  have hd : Few B (desiredIndices (h.sub 0) this other out) :=
    ht.of_count_le (count_le_of_nodup nodup_desired fun c hc => (mem_desired.1 hc).1)
  have ht' : Few B [this].flatten := by simpa using ht
  rw [subsetUnwrapC_eq hB hk _ _ ht' hd]
  refine bind_congr_ok fun sc hsc => ?_
  obtain ⟨e1, e2⟩ := unwrapR_subset hsc
  rw [singleton_newC_eq hB hk sc ⟨by rw [e1]; exact ht', by rw [e2]; exact hd⟩]
  rfl

omit hB hk in
theorem newIndicesOr_count {h : HashOrd} {this other out : List Char} {orig : SizedContraction}
    {r : Option SimplificationMethodAndOutput}
    (hr : SimplificationMethodAndOutput.fromIndicesAndSizes h this other out orig = .ok r) (c : Char) :
    (newIndicesOr r this).count c ≤ this.count c := by
  cases r with
  | none => exact le_rfl
  | some s =>
    simp only [SimplificationMethodAndOutput.fromIndicesAndSizes] at hr
    obtain ⟨sc, h1, hr⟩ := bind_eq_ok.1 hr
    obtain ⟨m, h2, hr⟩ := bind_eq_ok.1 hr
    have : s.newIndices = desiredIndices (h.sub 0) this other out := by
      split at hr
      · cases hr
      · cases hr
      · obtain ⟨_, _, hr⟩ := bind_eq_ok.1 hr
        cases hr; rfl
    simp only [newIndicesOr, this]
    exact count_le_of_nodup nodup_desired (fun c hc => (mem_desired.1 hc).1) c

theorem pair_newC_eq (mul : UMul) (h : HashOrd) (sc : SizedContraction) (hf : sc.Few B) :
    PairContraction.newC k mul h sc = PairContraction.newW mul h sc := by
  simp only [PairContraction.newC, PairContraction.newW]
  refine bind_congr_ok fun _ hlen => ?_
  refine bind_congr_ok fun lhs hl => ?_
  refine bind_congr_ok fun rhs hr => ?_
  have hops : sc.contraction.operandIndices = [lhs, rhs] := by
    have hlen : sc.contraction.operandIndices.length = 2 := by
      unfold assertThat at hlen
      split at hlen
      · rename_i hd; exact of_decide_eq_true hd
      · cases hlen
    match h' : sc.contraction.operandIndices, hlen with
    | [a, b], _ =>
      rw [h'] at hl hr
      simp only [index] at hl hr
      cases hl; cases hr; rfl
  have hf1 := hf.1
  rw [hops] at hf1
  have hfl : Few B lhs := hf1.of_count_le fun c => by simp
  have hfr : Few B rhs := hf1.of_count_le fun c => by simp
  rw [simplificationC_eq hB hk _ lhs rhs _ sc hfl, simplificationC_eq hB hk _ rhs lhs _ sc hfr]
  refine bind_congr_ok fun ls hls => bind_congr_ok fun rs hrs => ?_
  rw [subsetUnwrapC_eq hB hk _ _ (hf1.of_count_le fun c => ?_) hf.2]
  have h1 := newIndicesOr_count hls c
  have h2 := newIndicesOr_count hrs c
  simp only [List.flatten_cons, List.flatten_nil, List.append_nil, List.count_append]; omega

theorem compileStepsC_eq (mul : UMul) (steps : List PairStep) : ∀ h : HashOrd,
    (∀ s ∈ steps, s.sizedContraction.Few B) → compileStepsC k mul h steps = compileStepsW mul h steps := by
  induction steps with
  | nil => intro _ _; rfl
  | cons s ss ih =>
    intro h hf
    simp only [compileStepsC, compileStepsW]
    rw [pair_newC_eq hB hk mul _ _ (hf s List.mem_cons_self), ih _ fun t ht => hf t (List.mem_cons_of_mem _ ht)]

theorem fromPathC_eq (mul : UMul) (h : HashOrd) (o : ContractionOrder) (hf : o.Few B) :
    EinsumPath.fromPathC k mul h o = EinsumPath.fromPathW mul h o := by
  cases o with
  | singleton sc => simp only [EinsumPath.fromPathC, EinsumPath.fromPathW, singleton_newC_eq hB hk sc hf]
  | pairs steps => simp only [EinsumPath.fromPathC, EinsumPath.fromPathW, compileStepsC_eq hB hk mul steps h hf]

end

/-! ## Whole calls -/

/-- No letter of the string occurs `B` times among the operands or in the written output.  Strings without a
reading satisfy this. -/
def FewLetters (B : Nat) (s : String) : Prop :=
  ∀ inputs o, s.toList = render inputs o → WellFormed inputs o →
    (∀ c, inputs.flatten.count c < B) ∧ ∀ out ∈ o, ∀ c, out.count c < B

theorem FewLetters.of_length {B : Nat} {s : String} (hs : s.length < B) : FewLetters B s := by
  intro inputs o h1 _
  have hl : (render inputs o).length < B := by rw [← h1, String.length_toList]; exact hs
  exact ⟨fun c => lt_of_le_of_lt (count_flatten_le_render inputs o c).1 hl,
    fun out ho c => lt_of_le_of_lt ((count_flatten_le_render inputs o c).2 out ho) hl⟩

theorem validateAndSizeC_eq {B : Nat} (hB : 2 ≤ B) {k : Counter} (hk : IsCounter B k) (h : HashOrd) (s : String)
    (operands : List (View A)) (hs : FewLetters B s) :
    validateAndSizeC k h s operands = .ok (validateAndSize h s operands) ∧
      ∀ sc, validateAndSize h s operands = .ok sc → sc.Few B := by
  have hv : validateW k h s = .ok (validate h s) := by
    by_cases hp : ∃ ps o, s.toList = render ps o ∧ WellFormed ps o
    · obtain ⟨ps, o, h1, h2⟩ := hp
      exact C65_validate hB hk h s ps o h1 h2 (hs ps o h1 h2).1 (hs ps o h1 h2).2
    · rw [C65_invalid k h s hp, (C01_invalid_iff h s).2 hp]
  constructor
  · simp only [validateAndSizeC, hv, bind_ok, validateAndSize, SizedContraction.fromStringAndShapes]
    cases validate h s <;> rfl
  · intro sc hsc
    obtain ⟨inputs, out, dims, hd, _, rfl⟩ := fromStringAndShapes_iff.1 hsc
    rcases hd with ⟨h1, h2, h3⟩ | ⟨h1, h2, h3⟩
    · exact ⟨(hs _ _ h1 h2).1, (hs _ _ h1 h2).2 out rfl⟩
    · exact ⟨(hs _ _ h1 h2).1, fun c => Spec.ImplicitOutput.count_lt hB h3 c⟩

/-- C65: when no letter occurs `B` times (`2^31` in Rust), `einsum` behaves as with unbounded counters, in
both kinds of builds, on every string and all operands. -/
theorem C65_einsum [Zero A] [Add A] [Mul A] [MulAdd A] {B : Nat} (hB : 2 ≤ B) {k : Counter} (hk : IsCounter B k)
    (mul : UMul) (h : HashOrd) (al : Alloc A) (s : String) (operands : List (View A)) (hs : FewLetters B s) :
    einsumC k mul h al s operands = einsumW mul h al s operands := by
  obtain ⟨e, hf⟩ := validateAndSizeC_eq hB hk (h.sub 0) s operands hs
  simp only [einsumC, einsumW, e, bind_ok]
  cases hsc : validateAndSize (h.sub 0) s operands with
  | error e => rfl
  | ok sc =>
    obtain ⟨e1, hf1⟩ := generateOptimizedOrderC_eq hB hk ((h.sub 1).sub 0) sc (hf sc hsc) .naive
    simp only [e1]
    refine bind_congr_ok fun o ho => ?_
    rw [fromPathC_eq hB hk mul _ o (hf1 o ho)]

/-- C65: the same for `einsum_path`. -/
theorem C65_path {B : Nat} (hB : 2 ≤ B) {k : Counter} (hk : IsCounter B k) (mul : UMul) (h : HashOrd) (s : String)
    (operands : List (View A)) (m : OptimizationMethod) (hs : FewLetters B s) :
    einsumPathC k mul h s operands m = einsumPathW mul h s operands m := by
  obtain ⟨e, hf⟩ := validateAndSizeC_eq hB hk ((h.sub 0).sub 0) s operands hs
  simp only [einsumPathC, einsumPathW, validateAndOptimizeOrder, e, bind_ok]
  cases hsc : validateAndSize ((h.sub 0).sub 0) s operands with
  | error e => rfl
  | ok sc =>
    obtain ⟨e1, hf1⟩ := generateOptimizedOrderC_eq hB hk ((h.sub 0).sub 1) sc (hf sc hsc) m
    simp only [e1]
    cases ho : generateOptimizedOrder ((h.sub 0).sub 1) sc m with
    | error e => rfl
    | ok o =>
      simp only [bind_ok]
      rw [fromPathC_eq hB hk mul _ o (hf1 o ho)]
      rfl

/-- C65 and C42 together: `einsum` with counters below `B` and lengths up to `W` is `einsum` with unbounded
ones, for strings of fewer than `B` characters whose operands and intermediate results fit. -/
theorem C65_whole [Zero A] [Add A] [Mul A] [MulAdd A] {B : Nat} (hB : 2 ≤ B) {k : Counter} (hk : IsCounter B k)
    (W : Nat) (mul : UMul) (hm : ExactTo W mul) (h : HashOrd) (al : Alloc A) (s : String) (hlen : s.length < B)
    (operands : List (View A)) (inputs : List (List Char)) (out : List Char) (dims : Char → Nat)
    (hd : Denotes s inputs out) (hs : Sized dims inputs (operands.map View.shape))
    (hfit : ∀ v ∈ operands, Fits W v.shape)
    (hlive : ∀ k, 1 ≤ k → k + 1 < operands.length → Fits W ((live inputs out k).map dims)) :
    einsumC k mul h al s operands = einsum h al s operands := by
  rw [C65_einsum hB hk mul h al s operands (.of_length hlen)]
  exact C42_operands W mul hm h al s operands inputs out dims hd hs hfit hlive

/-! ## Builds with overflow checks -/

/-- C65: with overflow checks, `einsum` and `einsum_path` panic when a letter occurs `B` times among the operands
or in the written output, whatever the operands. -/
theorem C65_panics [Zero A] [Add A] [Mul A] [MulAdd A] {B : Nat} (hB : 2 ≤ B) (mul : UMul) (h : HashOrd) (al : Alloc A)
    (s : String) (operands : List (View A)) (m : OptimizationMethod) (hs : ¬ FewLetters B s) :
    einsumC (.checked B) mul h al s operands = panic .addOverflow ∧
    einsumPathC (.checked B) mul h s operands m = panic .addOverflow := by
  have hv : ∀ h : HashOrd, validateW (.checked B) h s = panic .addOverflow := by
    intro h
    unfold FewLetters at hs
    push Not at hs
    obtain ⟨inputs, o, h1, h2, h3⟩ := hs
    refine (C65_checked hB h s inputs o h1 h2).1.2 ?_
    by_cases hi : ∀ c, inputs.flatten.count c < B
    · exact .inr (h3 hi)
    · push Not at hi; exact .inl hi
  constructor
  · simp only [einsumC, validateAndSizeC, hv]; rfl
  · simp only [einsumPathC, validateAndSizeC, hv]; rfl

/-- C65: with overflow checks, choosing the strategy for one operand panics when a letter occurs `B` times. -/
theorem C65_singleton_checked {B : Nat} (hB : 2 ≤ B) (input output : List Char) (hi : ∃ c, B ≤ input.count c) :
    SingletonSummary.fromIndicesW (.checked B) input output = panic .addOverflow := by
  rcases charCountsW_checked hB input with ⟨h1, _⟩ | ⟨_, h2⟩
  · obtain ⟨c, hc⟩ := hi
    have := h1 c; omega
  · simp only [SingletonSummary.fromIndicesW, h2]; rfl

/-! ## Builds without -/

/-- C65: without overflow checks, the letters taken for repeated are those whose count lies between `2` and
`B - 1` modulo `2 B`. -/
theorem C65_singleton_wrapping (B : Nat) (input output : List Char) (hl : output.length ≤ (hset input).length)
    (letters : List Char) (hn : letters.Nodup)
    (hm : ∀ c, c ∈ letters ↔ 2 ≤ input.count c % (2 * B) ∧ input.count c % (2 * B) < B) :
    ∃ r, SingletonSummary.fromIndicesW (.wrapping B) input output = .ok r ∧
      r.numDiagonalizedAxes = letters.length := by
  have hlen : (reduced B (charCounts input)).length = (hset input).length := by
    rw [← charCounts_keys]; simp [reduced]
  simp only [SingletonSummary.fromIndicesW, charCountsW_wrapping, bind_ok, usub, hlen, hl, if_true]
  refine ⟨_, rfl, ?_⟩
  simp only
  rw [← List.length_map (f := Prod.fst)]
  apply List.Perm.length_eq
  apply perm_of_nodup _ hn
  · intro c
    rw [hm, List.mem_map]
    simp only [List.mem_filter, reduced, List.mem_map, Counter.wrapping, signedGt1, Bool.and_eq_true,
      decide_eq_true_eq]
    constructor
    · rintro ⟨_, ⟨⟨⟨d, n⟩, he, rfl⟩, h1, h2⟩, rfl⟩
      obtain ⟨_, rfl⟩ := mem_charCounts.1 he
      exact ⟨h1, h2⟩
    · rintro ⟨h1, h2⟩
      refine ⟨(c, input.count c % (2 * B)), ⟨⟨(c, input.count c), mem_charCounts.2 ⟨?_, rfl⟩, rfl⟩, h1, h2⟩, rfl⟩
      by_contra hc
      rw [List.count_eq_zero.2 hc] at h1
      simp at h1
  · apply List.Nodup.sublist (List.Sublist.map _ List.filter_sublist)
    rw [reduced_keys, charCounts_keys]; exact nodup_hset _

/-- "ii…i->i" with `n` letters in the operand. -/
def diagString (n : Nat) : String := String.ofList (render [List.replicate n 'i'] (some ['i']))

theorem wf_diagString {n : Nat} (hn : n ≠ 0) : WellFormed [List.replicate n 'i'] (some ['i']) := by
  refine ⟨by simp, ?_, by simp [Letter]⟩
  intro p hp
  simp only [List.mem_singleton] at hp
  subst hp
  refine ⟨by simpa using hn, fun c hc => ?_⟩
  rw [(List.mem_replicate.1 hc).2]; simp [Letter]

theorem outputOk_diagString {n : Nat} (hn : n ≠ 0) : OutputOk [List.replicate n 'i'] ['i'] := by
  refine ⟨by simp, fun c hc => ?_⟩
  simp only [List.mem_singleton] at hc
  subst hc
  exact ⟨_, List.mem_singleton_self _, List.mem_replicate.2 ⟨hn, rfl⟩⟩

theorem denotes_diagString {n : Nat} (hn : n ≠ 0) : Denotes (diagString n) [List.replicate n 'i'] ['i'] :=
  .inl ⟨by simp [diagString], wf_diagString hn, outputOk_diagString hn⟩

theorem wrong_rank [CommSemiring A] {B n d : Nat} (hn : B ≤ n) (hn' : n < 2 * B)
    (hd : d ≠ 0) (mul : UMul) (h : HashOrd) (al : Alloc A) (v : View A) (hv : v.Wf)
    (hs : v.shape = List.replicate n d) :
    (∃ r, einsumC (.wrapping B) mul h al (diagString n) [v] = .ok (.ok r) ∧ r.shape = List.replicate n d) ∧
    (∃ r, einsum h al (diagString n) [v] = .ok (.ok r) ∧ r.shape = [d]) := by
  have hn0 : n ≠ 0 := by omega
  have hden := denotes_diagString hn0
  have hs1 : (diagString n).toList = render [List.replicate n 'i'] (some ['i']) := by simp [diagString]
  have hs2 := wf_diagString hn0
  have hs3 := outputOk_diagString hn0
  have hsz : Sized (fun _ => d) [List.replicate n 'i'] ([v].map View.shape) := by
    simp [Sized, hs]
  constructor
  · have hout : ∀ c ∈ ['i'], Used [List.replicate n 'i'] c ∧ PassesForOne B (['i'].count c) := by
      intro c hc
      simp only [List.mem_singleton] at hc
      subst hc
      exact ⟨⟨_, List.mem_singleton_self _, List.mem_replicate.2 ⟨hn0, rfl⟩⟩,
        .inl (Nat.mod_le _ _)⟩
    have hfrom : ∀ h : HashOrd, Contraction.fromIndicesW (.wrapping B) h [List.replicate n 'i'] ['i'] =
        .ok (.ok ⟨[List.replicate n 'i'], ['i'], summationOf [List.replicate n 'i'] ['i']⟩) := by
      intro h
      obtain ⟨r, h1, h2, h3⟩ := fromIndicesW_wrapping (B := B) h [List.replicate n 'i'] ['i']
      obtain ⟨c, rfl⟩ := h2.2 hout
      rw [h1, h3 c rfl]
    have hval : validateAndSizeC (.wrapping B) (h.sub 0) (diagString n) [v] =
        .ok (.ok (callSC [List.replicate n 'i'] ['i'] fun _ => d)) := by
      have := validateAndSize_ok (operands := [v]) (h.sub 0) hden hsz
      simp only [validateAndSize, SizedContraction.fromStringAndShapes, validate_explicit hs1 hs2,
        fromIndices_ok hs3] at this
      simp only [validateAndSizeC, validateW, parse_iff.2 ⟨hs1, hs2⟩, Contraction.fromParseW, bind_ok, hfrom]
      exact congrArg Except.ok this
    have hsub : ∀ h : HashOrd, (callSC [List.replicate n 'i'] ['i'] fun _ => d).subsetUnwrapC (.wrapping B) h
        [List.replicate n 'i'] ['i'] = .ok (callSC [List.replicate n 'i'] ['i'] fun _ => d) := by
      intro h
      simp only [SizedContraction.subsetUnwrapC, SizedContraction.subsetC, hfrom, bind_ok]
      have hno : ((h.iter [3] (hset [List.replicate n 'i'].flatten)).any fun c =>
          ((callSC [List.replicate n 'i'] ['i'] fun _ => d).outputSize c).isNone) = false := by
        rw [List.any_eq_false]
        intro c hc
        rw [(h.perm _ _).mem_iff, mem_hset] at hc
        simp only [callSC]
        rw [if_pos hc]; simp
      rw [hno]
      simp only [Bool.false_eq_true, if_false]
      show Except.ok _ = _
      simp only [callSC, mem_hset]
      congr 2
      funext c
      split <;> rfl
    have hcounts : charCountsW (.wrapping B) (List.replicate n 'i') = .ok [('i', n)] := by
      rw [charCountsW_wrapping]
      have hc : ∀ m, charCounts (List.replicate (m + 1) 'i') = [('i', m + 1)] := by
        intro m
        induction m with
        | zero => rfl
        | succ m ih => rw [List.replicate_succ', charCounts_append, ih]; rfl
      obtain ⟨m, rfl⟩ := Nat.exists_eq_succ_of_ne_zero hn0
      rw [hc]
      simp [reduced, Nat.mod_eq_of_lt hn']
    have hnew : SingletonContraction.newC (.wrapping B) (callSC [List.replicate n 'i'] ['i'] fun _ => d) =
        .ok ⟨.identity, .identity⟩ := by
      obtain ⟨m, rfl⟩ := Nat.exists_eq_succ_of_ne_zero hn0
      have hg : signedGt1 B (m + 1) = false := by simp [signedGt1]; omega
      simp only [SingletonContraction.newC, callSC, SingletonSummary.fromIndicesW]
      rw [assertThat_of (by simp), bind_ok, index_getElem (by simp), bind_ok]
      simp only [List.getElem_cons_zero]
      rw [hcounts]
      simp only [bind_ok, usub, Counter.wrapping]
      simp only [List.filter_cons, List.filter_nil, hg, List.replicate_succ]
      rfl
    obtain ⟨w, w1, _, w2⟩ := hv.toOwned al
    refine ⟨w, ?_, by rw [w2, hs]⟩
    have hperm : ∀ h : HashOrd, generatePermutedContractionC (.wrapping B) h
        (callSC [List.replicate n 'i'] ['i'] fun _ => d) [0] = .ok (callSC [List.replicate n 'i'] ['i'] fun _ => d) := by
      intro h
      simp only [generatePermutedContractionC]
      rw [assertThat_of (by simp [callSC]), bind_ok]
      exact hsub h
    have hord : ∀ h : HashOrd, generateOptimizedOrderC (.wrapping B) h
        (callSC [List.replicate n 'i'] ['i'] fun _ => d) .naive =
        .ok (.singleton (callSC [List.replicate n 'i'] ['i'] fun _ => d)) := by
      intro h
      show generatePathC _ _ _ [0] = _
      simp only [generatePathC, hperm, bind_ok]
      rfl
    simp only [einsumC, hval, bind_ok, hord, EinsumPath.fromPathC, hnew]
    show (v.toOwned al >>= fun r => Except.ok (Except.ok r)) = _
    rw [w1]; rfl
  · obtain ⟨r, h1, h2⟩ := C13_einsum h al _ _ _ _ _ _ ⟨hden, hsz, .cons hv.elements .nil⟩ (by
      simp [NoEmptyDiagonal, hd])
    exact ⟨r, h1, h2.2.1⟩

/-- C65: a release build of `einsum` on "ii…i->i" with `2^31` letters and one operand with `2^31` axes of equal
length returns an array with `2^31` axes.  The diagonal has one. -/
theorem C65_wrong_rank [CommSemiring A] {d : Nat} (hd : d ≠ 0) (mul : UMul) (h : HashOrd) (al : Alloc A) (v : View A)
    (hv : v.Wf) (hs : v.shape = List.replicate (2 ^ 31) d) :
    (∃ r, einsumC (.wrapping (2 ^ 31)) mul h al (diagString (2 ^ 31)) [v] = .ok (.ok r) ∧
      r.shape = List.replicate (2 ^ 31) d) ∧
    (∃ r, einsum h al (diagString (2 ^ 31)) [v] = .ok (.ok r) ∧ r.shape = [d]) :=
  wrong_rank le_rfl (by omega) hd mul h al v hv hs

/-! ## Examples -/

/-- An array with one element and `n` axes. -/
def Ex.oneElement (n : Nat) : View Int := ⟨[7], 0, List.replicate n 1, List.replicate n 0⟩

theorem Ex.oneElement_wf (n : Nat) : (Ex.oneElement n).Wf := by
  refine ⟨by simp [Ex.oneElement], fun idx hi => ⟨7, ?_⟩⟩
  have hd : ∀ (n : Nat) (idx : List Nat), dotI (List.replicate n 0) idx = 0 := by
    intro n
    induction n with
    | zero => intro idx; cases idx <;> rfl
    | succ n ih =>
      intro idx
      cases idx with
      | nil => rfl
      | cons i idx => rw [List.replicate_succ]; simp [dotI, ih]
  simp only [View.read]
  rw [if_pos hi]
  simp [readAt, hd, Ex.oneElement]

example : (Ex.oneElement (2 ^ 31)).Wf ∧ (Ex.oneElement (2 ^ 31)).shape = List.replicate (2 ^ 31) 1 := ⟨Ex.oneElement_wf _, rfl⟩

example : FewLetters (2 ^ 31) "ij,jk->ik" := .of_length (by decide)

example : einsumC (.checked (2 ^ 31)) (umul (2 ^ 64 - 1)) .insertion (Alloc.rowMajor Int) "ij,jk->ik" [Ex.m23, Ex.m32] =
    einsum .insertion (Alloc.rowMajor Int) "ij,jk->ik" [Ex.m23, Ex.m32] :=
  C65_whole (by omega) (.inl rfl) _ _ (exactTo_umul _) _ _ _ (by decide) _ _ _ _ Ex.call_matmul.denotes
    Ex.call_matmul.sized (by simp only [List.forall_mem_cons]; decide) (by
      intro k h1 h2
      simp at h2; omega)

/-- Counters of three bits: a letter occurs four times. -/
example : ¬ FewLetters 4 (diagString 4) := by
  intro h
  have := (h [List.replicate 4 'i'] (some ['i']) (by simp [diagString]) (wf_diagString (by omega))).1 'i'
  simp at this

example : einsumC (.checked 4) (umul 100) .insertion (Alloc.rowMajor Int) "iiii->i" [Ex.oneElement 4] = panic .addOverflow ∧
    einsumC (.wrapping 4) (umul 100) .insertion (Alloc.rowMajor Int) "iiii->i" [Ex.oneElement 4] =
      .ok (.ok ⟨[7], 0, [1, 1, 1, 1], [1, 1, 1, 1]⟩) ∧
    einsum .insertion (Alloc.rowMajor Int) "iiii->i" [Ex.oneElement 4] = .ok (.ok ⟨[7], 0, [1], [1]⟩) := by
  decide +kernel

example : SingletonSummary.fromIndicesW (.checked 4) ['i', 'i', 'i', 'i'] ['i'] = panic .addOverflow :=
  C65_singleton_checked (by omega) _ _ ⟨'i', by decide⟩

/-- Four times `i`, twice `j`: only `j` is taken for repeated. -/
example : ∃ r, SingletonSummary.fromIndicesW (.wrapping 4) ['i', 'i', 'i', 'i', 'j', 'j'] ['i'] = .ok r ∧
    r.numDiagonalizedAxes = 1 := by
  refine C65_singleton_wrapping 4 _ _ (by decide) ['j'] (by simp) fun c => ?_
  by_cases hi : c = 'i'
  · subst hi; decide
  · by_cases hj : c = 'j'
    · subst hj; decide
    · have hi' := Ne.symm hi
      have hj' := Ne.symm hj
      simp [hi', hj', hj]

end Einsum
