import Verif.Props.Contractors

/-!
# Properties C47, C49: which contractors a compiled contraction consists of, and the strings it records
-/

namespace Einsum

open Spec

/-! ## C47 -/

/-- The method for one operand, by label sets. -/
def Spec.singletonMethod (L out : List Char) : SingletonMethod :=
  if L.Nodup then
    if ∀ c ∈ L, c ∈ out then if out = L then .identity else .permutation
    else if out <+: L then .summation else .permutationAndSummation
  else if ∀ c ∈ L, c ∈ out then .diagonalization else .diagonalizationAndSummation

/-- The method for two operands, by label sets.  A label of an operand is kept if the other operand or the
output has it. -/
def Spec.pairMethod (L R out : List Char) : PairMethod :=
  if (∀ c ∈ L, c ∈ R ∨ c ∈ out → c ∈ R ∧ c ∈ out) ∧ (∀ c ∈ R, c ∈ L ∨ c ∈ out → c ∈ L ∧ c ∈ out) then
    .hadamardProductGeneral
  else if ∀ c ∈ L, c ∉ R ∧ c ∉ out then .scalarMatrixProductGeneral
  else if ∀ c ∈ R, c ∉ L ∧ c ∉ out then .matrixScalarProductGeneral
  else if ∀ c ∈ L, c ∈ R → c ∉ out then .tensordotGeneral
  else .stackedTensordotGeneral

/-- An operand needs to be simplified: a label is repeated, or is in neither the other operand nor the output. -/
def Spec.NeedsSimplification (this other out : List Char) : Prop :=
  ¬ this.Nodup ∨ ∃ c ∈ this, c ∉ other ∧ c ∉ out

theorem singleton_method {sc : SizedContraction} {dims : Char → Nat} {L : List Char} (hv : sc.Valid dims)
    (hops : sc.contraction.operandIndices = [L]) :
    ∃ p, SingletonContraction.new sc = .ok p ∧ p.method = singletonMethod L sc.contraction.outputIndices := by
  obtain ⟨p, hp, -, -⟩ := singleton_ok hv hops
  refine ⟨p, hp, ?_⟩
  have hsub := hv.out_sub hops
  have hout := hv.out.1
  set out := sc.contraction.outputIndices with hO
  have hsum : SingletonSummary.new sc = .ok ⟨(hset L).length - out.length,
      ((charCounts L).filter fun e => 1 < e.2).length,
      ((out.zip L).filter fun p => p.1 ≠ p.2).length⟩ := by
    unfold SingletonSummary.new
    rw [hops]
    simp only [List.length_singleton, decide_true, assertThat_true, bind_ok, index_cons_zero]
    exact summary_ok hout hsub
  have hle := length_le_of_sub hout hsub
  unfold SingletonContraction.new at hp
  rw [hsum, bind_ok] at hp
  obtain ⟨op, -, h2⟩ := bind_eq_ok.1 hp
  cases h2
  simp only [getStrategy_eq, diag_zero_iff, summed_zero_iff hout hsub, singletonMethod]
  have e0 := reord_zero_iff hle
  have e1 : (∃ S, L = out ++ S) ↔ out <+: L := ⟨fun ⟨S, h⟩ => ⟨S, h.symm⟩, fun ⟨S, h⟩ => ⟨S, h.symm⟩⟩
  have e2 : L.Nodup → (∀ c ∈ L, c ∈ out) → ((∃ S, L = out ++ S) ↔ out = L) := by
    intro hn hs
    constructor
    · rintro ⟨S, hS⟩
      have hperm : out.Perm L := perm_of_nodup hout hn fun c => ⟨hsub c, hs c⟩
      have := hperm.length_eq
      rw [hS, List.length_append] at this
      rw [hS, List.length_eq_zero_iff.1 (show S.length = 0 by omega), List.append_nil]
    · intro h; exact ⟨[], by rw [h]; simp⟩
  by_cases hn : L.Nodup
  · rw [if_pos hn, if_pos hn]
    by_cases hs : ∀ c ∈ L, c ∈ out
    · rw [if_pos hs, if_pos hs]
      exact if_congr (e0.trans (e2 hn hs)) rfl rfl
    · rw [if_neg hs, if_neg hs]
      exact if_congr (e0.trans e1) rfl rfl
  · rw [if_neg hn, if_neg hn]

theorem mem_singletonMethod {L out : List Char} :
    (singletonMethod L out = .identity ∨ singletonMethod L out = .permutation) ↔
      L.Nodup ∧ ∀ c ∈ L, c ∈ out := by
  unfold singletonMethod
  by_cases hn : L.Nodup
  · rw [if_pos hn]
    by_cases hs : ∀ c ∈ L, c ∈ out
    · rw [if_pos hs]
      by_cases h : out = L
      · simp only [if_pos h]
        exact ⟨fun _ => ⟨hn, hs⟩, fun _ => .inl trivial⟩
      · simp only [if_neg h]
        exact ⟨fun _ => ⟨hn, hs⟩, fun _ => .inr trivial⟩
    · rw [if_neg hs]
      constructor
      · split <;> simp
      · rintro ⟨-, h⟩; exact absurd h hs
  · rw [if_neg hn]
    constructor
    · split <;> simp
    · rintro ⟨h, -⟩; exact absurd h hn

/-- The text of a contraction. -/
def Spec.text (inputs : List (List Char)) (out : List Char) : String := String.ofList (render inputs (some out))

theorem asEinsumString_text {sc : SizedContraction} {ops : List (List Char)} {out : List Char}
    (h : sc.contraction.operandIndices = ops) (ho : sc.contraction.outputIndices = out) (hne : ops ≠ []) :
    sc.asEinsumString = .ok (text ops out) := by
  cases ops with
  | nil => exact absurd rfl hne
  | cons op ops =>
    simp [SizedContraction.asEinsumString, h, ho, text, render, commaOperands_eq, intercalate_cons]

/-- What the simplification of an operand consists of. -/
theorem simplification_parts {sc : SizedContraction} {dims : Char → Nat} (hv : sc.Valid dims) (h : HashOrd)
    {L R out : List Char} (hL : ∀ c ∈ L, c ∈ sc.contraction.operandIndices.flatten) :
    ∃ s, SimplificationMethodAndOutput.fromIndicesAndSizes h L R out sc = .ok s ∧
      (s = none ∧ ¬ NeedsSimplification L R out ∨
        NeedsSimplification L R out ∧ ∃ x, s = some x ∧ x.newIndices.Nodup ∧
          (∀ c, c ∈ x.newIndices ↔ c ∈ L ∧ (c ∈ R ∨ c ∈ out)) ∧
          x.method = singletonMethod L x.newIndices ∧ x.einsumString = text [L] x.newIndices ∧
          x.op.Computes dims L x.newIndices) := by
  set N := desiredIndices (h.sub 0) L R out with hN
  have hmN : ∀ c, c ∈ N ↔ c ∈ L ∧ (c ∈ R ∨ c ∈ out) := fun c => mem_desired
  have hout : OutputOk [L] N := ⟨nodup_desired, fun c hc => used_iff.2 (by simpa using ((hmN c).1 hc).1)⟩
  obtain ⟨sc', h1, h2, h3, h4⟩ := hv.subset (h.sub 1) (ops := [L]) (by simpa using hL) hout
  obtain ⟨p, h5, h6⟩ := singleton_method h2 h3
  obtain ⟨p', h5', -, h7⟩ := singleton_ok h2 h3
  rw [h5] at h5'
  cases h5'
  rw [h4] at h6 h7
  have hiff := mem_singletonMethod (L := L) (out := N)
  have hneeds : NeedsSimplification L R out ↔ ¬ (L.Nodup ∧ ∀ c ∈ L, c ∈ N) := by
    unfold NeedsSimplification
    rw [not_and_or]
    apply or_congr Iff.rfl
    push Not
    refine exists_congr fun c => and_congr_right fun hc => ?_
    rw [hmN]
    tauto
  unfold SimplificationMethodAndOutput.fromIndicesAndSizes
  simp only [← hN, h1, unwrapR_ok, bind_ok, h5]
  rw [← h6] at hiff
  by_cases hm : p.method = .identity ∨ p.method = .permutation
  · refine ⟨none, ?_, .inl ⟨rfl, by rw [hneeds, not_not]; exact hiff.1 hm⟩⟩
    rcases hm with e | e <;> rw [e] <;> rfl
  · refine ⟨some ⟨p.method, p.op, N, text [L] N⟩, ?_, .inr ⟨hneeds.2 fun x => hm (hiff.2 x), _, rfl, hout.1,
      hmN, h6, rfl, h7⟩⟩
    rw [asEinsumString_text h3 h4 (by simp)]
    cases hpm : p.method <;> simp_all

theorem kept_conditions {L R out NL NR : List Char} (l3 : ∀ c, c ∈ NL ↔ c ∈ L ∧ (c ∈ R ∨ c ∈ out))
    (r3 : ∀ c, c ∈ NR ↔ c ∈ R ∧ (c ∈ L ∨ c ∈ out)) :
    (((∀ x ∈ NL, x ∈ NR → x ∈ out) ∧ (∀ x ∈ NL, x ∈ NR) ∧ ∀ x ∈ NR, x ∈ NL) ↔
        ((∀ c ∈ L, c ∈ R ∨ c ∈ out → c ∈ R ∧ c ∈ out) ∧ (∀ c ∈ R, c ∈ L ∨ c ∈ out → c ∈ L ∧ c ∈ out))) ∧
    (((∀ x ∈ NL, x ∈ NR → x ∈ out) ∧ (∀ x ∈ NL, x ∈ NR) ∧ ∀ x ∈ NL, x ∈ NR → x ∉ out) ↔
        ∀ c ∈ L, c ∉ R ∧ c ∉ out) ∧
    (((∀ x ∈ NL, x ∈ NR → x ∈ out) ∧ (∀ x ∈ NR, x ∈ NL) ∧ ∀ x ∈ NL, x ∈ NR → x ∉ out) ↔
        ∀ c ∈ R, c ∉ L ∧ c ∉ out) ∧
    ((∀ x ∈ NL, x ∈ NR → x ∉ out) ↔ ∀ c ∈ L, c ∈ R → c ∉ out) := by
  simp only [l3, r3]
  refine ⟨?_, ?_, ?_, ?_⟩
  · constructor
    · rintro ⟨g1, g2, g3⟩
      exact ⟨fun c hc ho => ⟨(g2 c ⟨hc, ho⟩).1, g1 c ⟨hc, ho⟩ (g2 c ⟨hc, ho⟩)⟩,
        fun c hc ho => ⟨(g3 c ⟨hc, ho⟩).1, g1 c (g3 c ⟨hc, ho⟩) ⟨hc, ho⟩⟩⟩
    · rintro ⟨g1, g2⟩
      exact ⟨fun c hc hc' => (g1 c hc.1 hc.2).2, fun c hc => ⟨(g1 c hc.1 hc.2).1, .inl hc.1⟩,
        fun c hc => ⟨(g2 c hc.1 hc.2).1, .inl hc.1⟩⟩
  · constructor
    · rintro ⟨g1, g2, g3⟩ c hc
      by_contra hne
      have hc' : c ∈ L ∧ (c ∈ R ∨ c ∈ out) := ⟨hc, by tauto⟩
      exact g3 c hc' (g2 c hc') (g1 c hc' (g2 c hc'))
    · intro g
      exact ⟨fun c hc => by have := g c hc.1; tauto, fun c hc => by have := g c hc.1; tauto,
        fun c hc => by have := g c hc.1; tauto⟩
  · constructor
    · rintro ⟨g1, g2, g3⟩ c hc
      by_contra hne
      have hc' : c ∈ R ∧ (c ∈ L ∨ c ∈ out) := ⟨hc, by tauto⟩
      exact g3 c (g2 c hc') hc' (g1 c (g2 c hc') hc')
    · intro g
      exact ⟨fun c hc hc' => by have := g c hc'.1; tauto, fun c hc => by have := g c hc.1; tauto,
        fun c hc hc' => by have := g c hc'.1; tauto⟩
  · constructor
    · intro g c hc hc' ho; exact g c ⟨hc, .inl hc'⟩ ⟨hc', .inl hc⟩ ho
    · intro g c hc hc'; exact g c hc.1 hc'.1

/-- What a compiled pair contraction consists of. -/
theorem pair_parts {sc : SizedContraction} {dims : Char → Nat} {L R : List Char} (hv : sc.Valid dims)
    (hops : sc.contraction.operandIndices = [L, R]) (h : HashOrd) :
    ∃ p, PairContraction.new h sc = .ok p ∧
      SimplificationMethodAndOutput.fromIndicesAndSizes (h.sub 0) L R sc.contraction.outputIndices sc =
        .ok p.lhsSimplification ∧
      SimplificationMethodAndOutput.fromIndicesAndSizes (h.sub 1) R L sc.contraction.outputIndices sc =
        .ok p.rhsSimplification ∧
      p.method = pairMethod L R sc.contraction.outputIndices ∧
      p.simplifiedEinsumString =
        text [newIndicesOr p.lhsSimplification L, newIndicesOr p.rhsSimplification R]
          sc.contraction.outputIndices ∧
      p.op.Computes (decide (newIndicesOr p.lhsSimplification L = [] ∧ newIndicesOr p.rhsSimplification R ≠ []))
        dims (newIndicesOr p.lhsSimplification L) (newIndicesOr p.rhsSimplification R)
        sc.contraction.outputIndices := by
  have hsub := hv.out_sub2 hops
  have hon := hv.out.1
  set out := sc.contraction.outputIndices with hO
  obtain ⟨sl, l1, l2, l3, -⟩ := simplification_ok hv (h.sub 0) (L := L) (R := R) (out := out)
    (by rw [hops]; intro c hc; simp [hc])
  obtain ⟨sr, r1, r2, r3, -⟩ := simplification_ok hv (h.sub 1) (L := R) (R := L) (out := out)
    (by rw [hops]; intro c hc; simp [hc])
  set NL := newIndicesOr sl L with hNL
  set NR := newIndicesOr sr R with hNR
  obtain ⟨red, h1, h2, h3, h4⟩ := hv.subset (h.sub 2) (ops := [NL, NR]) (out := out)
    (by
      rw [hops]; intro c hc
      simp only [List.flatten_cons, List.flatten_nil, List.append_nil, List.mem_append, l3, r3] at hc ⊢
      tauto)
    ⟨hon, fun c hc => used_iff.2 (by
      simp only [List.flatten_cons, List.flatten_nil, List.append_nil, List.mem_append, l3, r3]
      have := hsub c hc
      tauto)⟩
  obtain ⟨s, op, h5, h6, h7⟩ := pairOp_ok h2 h3 l2 r2
    (by rw [h4]; intro c hc; rw [r3]; have := (l3 c).1 hc; tauto)
    (by rw [h4]; intro c hc; rw [l3]; have := (r3 c).1 hc; tauto)
  rw [h4] at h7
  refine ⟨⟨sl, sr, s.getStrategy, op, text [NL, NR] out⟩, ?_, l1, r1, ?_, rfl, h7⟩
  · unfold PairContraction.new
    rw [hops]
    simp only [List.length_cons, List.length_nil, Nat.zero_add, Nat.reduceAdd, decide_true,
      assertThat_true, bind_ok, index_cons_zero, index_one]
    rw [← hO, l1, bind_ok, r1, bind_ok, ← hNL, ← hNR, h1, unwrapR_ok, bind_ok, h5, bind_ok, h6, bind_ok,
      asEinsumString_text h3 h4 (by simp), bind_ok]
    rfl
  · obtain ⟨a, b, c, d, e, ha, hb, hc, hd⟩ := pairSummary_ok l2 r2 hon
    have e' : PairSummary.new red = .ok ⟨a, b, c, d⟩ := by
      unfold PairSummary.new
      rw [h3]
      simp only [List.length_cons, List.length_nil, Nat.zero_add, Nat.reduceAdd, decide_true,
        assertThat_true, bind_ok, index_cons_zero, index_one]
      rw [h4]
      exact e
    rw [h5] at e'
    cases e'
    simp only [pairStrategy_eq, pairMethod]
    obtain ⟨x1, x2, x3, x4⟩ := kept_conditions l3 r3
    simp only [ha, hb, hc, hd, x1, x2, x3]
    simp only [x4]

/-- C47: one operand: the method that is selected. -/
theorem C47_singleton (h : HashOrd) (sc : SizedContraction) (L out : List Char) (shape : List Nat)
    (hsc : SizingOf h [L] out [shape] sc) :
    ∃ p, SingletonContraction.new sc = .ok p ∧ p.method = singletonMethod L out := by
  obtain ⟨dims, hs⟩ := hsc.sized
  obtain ⟨ho, rfl⟩ := hsc.eq hs
  exact singleton_method (callSC_valid ho) rfl

/-- C47: two operands: the pair method that is selected, and which operands are simplified, how. -/
theorem C47_pair (h h' : HashOrd) (sc : SizedContraction) (L R out : List Char) (s s' : List Nat)
    (hsc : SizingOf h [L, R] out [s, s'] sc) :
    ∃ p, PairContraction.new h' sc = .ok p ∧ p.method = pairMethod L R out ∧
      (p.lhsSimplification.isSome ↔ NeedsSimplification L R out) ∧
      (p.rhsSimplification.isSome ↔ NeedsSimplification R L out) ∧
      (∀ x ∈ p.lhsSimplification, x.newIndices.Nodup ∧ (∀ c, c ∈ x.newIndices ↔ c ∈ L ∧ (c ∈ R ∨ c ∈ out)) ∧
        x.method = singletonMethod L x.newIndices) ∧
      ∀ x ∈ p.rhsSimplification, x.newIndices.Nodup ∧ (∀ c, c ∈ x.newIndices ↔ c ∈ R ∧ (c ∈ L ∨ c ∈ out)) ∧
        x.method = singletonMethod R x.newIndices := by
  obtain ⟨dims, hs⟩ := hsc.sized
  obtain ⟨ho, rfl⟩ := hsc.eq hs
  have hv := callSC_valid (dims := dims) ho
  obtain ⟨p, p1, p2, p3, p4, -, -⟩ := pair_parts (L := L) (R := R) hv rfl h'
  obtain ⟨sl, l1, l2⟩ := simplification_parts hv (h'.sub 0) (L := L) (R := R) (out := out) (by simp [callSC]; tauto)
  obtain ⟨sr, r1, r2⟩ := simplification_parts hv (h'.sub 1) (L := R) (R := L) (out := out) (by simp [callSC]; tauto)
  have e1 : sl = p.lhsSimplification := Except.ok.inj (l1.symm.trans p2)
  have e2 : sr = p.rhsSimplification := Except.ok.inj (r1.symm.trans p3)
  rw [e1] at l2
  rw [e2] at r2
  refine ⟨p, p1, p4, ?_, ?_, ?_, ?_⟩
  · rcases l2 with ⟨a, b⟩ | ⟨a, x, b, -⟩
    · simp [a, b]
    · simp [a, b]
  · rcases r2 with ⟨a, b⟩ | ⟨a, x, b, -⟩
    · simp [a, b]
    · simp [a, b]
  · rintro y hy
    rcases l2 with ⟨a, b⟩ | ⟨a, x, b, c1, c2, c3, -⟩
    · rw [a] at hy; simp at hy
    · rw [b] at hy; cases hy; exact ⟨c1, c2, c3⟩
  · rintro y hy
    rcases r2 with ⟨a, b⟩ | ⟨a, x, b, c1, c2, c3, -⟩
    · rw [a] at hy; simp at hy
    · rw [b] at hy; cases hy; exact ⟨c1, c2, c3⟩

/-- C47: the pair method depends neither on the hash orders nor on the axis lengths. -/
theorem C47_method_det (h h' k k' : HashOrd) (sc sc' : SizedContraction) (L R out : List Char)
    (s₁ s₂ s₃ s₄ : List Nat) (p p' : PairContraction)
    (hsc : SizingOf h [L, R] out [s₁, s₂] sc) (hsc' : SizingOf k [L, R] out [s₃, s₄] sc')
    (hp : PairContraction.new h' sc = .ok p) (hp' : PairContraction.new k' sc' = .ok p') :
    p.method = p'.method ∧ p.lhsSimplification.isSome = p'.lhsSimplification.isSome ∧
      p.rhsSimplification.isSome = p'.rhsSimplification.isSome := by
  obtain ⟨q, q1, q2, q3, q4, -⟩ := C47_pair h h' sc L R out s₁ s₂ hsc
  obtain ⟨q', q1', q2', q3', q4', -⟩ := C47_pair k k' sc' L R out s₃ s₄ hsc'
  rw [hp] at q1; cases q1
  rw [hp'] at q1'; cases q1'
  exact ⟨q2.trans q2'.symm, Bool.eq_iff_iff.2 (q3.trans q3'.symm), Bool.eq_iff_iff.2 (q4.trans q4'.symm)⟩

/-- C47: five of the ten pair methods are never selected. -/
theorem C47_unused (h h' : HashOrd) (sc : SizedContraction) (L R out : List Char) (s s' : List Nat)
    (hsc : SizingOf h [L, R] out [s, s'] sc) (p : PairContraction) (hp : PairContraction.new h' sc = .ok p) :
    p.method ≠ .hadamardProduct ∧ p.method ≠ .scalarMatrixProduct ∧ p.method ≠ .matrixScalarProduct ∧
      p.method ≠ .tensordotFixedPosition ∧ p.method ≠ .broadcastProductGeneral := by
  obtain ⟨q, q1, q2, -⟩ := C47_pair h h' sc L R out s s' hsc
  rw [hp] at q1; cases q1
  rw [q2, pairMethod]
  split_ifs <;> simp

theorem Ex.sizing (h : HashOrd) : SizingOf h [['i', 'i', 'j'], ['j', 'k', 'k']] ['i', 'k']
    [[2, 2, 3], [3, 4, 4]] (callSC [['i', 'i', 'j'], ['j', 'k', 'k']] ['i', 'k']
      fun c => if c = 'i' then 2 else if c = 'j' then 3 else 4) :=
  sizes_callSC (by simp [OutputOk, Used]) (.cons (by decide) (.cons (by decide) .nil))

example : pairMethod ['i', 'i', 'j'] ['j', 'k', 'k'] ['i', 'k'] = .tensordotGeneral := by decide
example : pairMethod ['i', 'j', 'k'] ['k', 'j'] ['j', 'k'] = .hadamardProductGeneral := by decide
example : pairMethod ['i'] ['j', 'l'] ['l'] = .scalarMatrixProductGeneral := by decide
example : pairMethod ['i', 'k'] ['j'] ['i', 'k'] = .matrixScalarProductGeneral := by decide
example : pairMethod ['b', 'i', 'j'] ['b', 'j', 'k'] ['b', 'i', 'k'] = .stackedTensordotGeneral := by decide
example : NeedsSimplification ['i', 'i', 'j'] ['j', 'k', 'k'] ['i', 'k'] := .inl (by decide)
example : ¬ NeedsSimplification ['k', 'j'] ['i', 'j', 'k'] ['j', 'k'] := by
  unfold NeedsSimplification; decide

/-! ## C49 -/

/-- The labels of an operand after simplification. -/
def keptLabels (s : Option SimplificationMethodAndOutput) (L : List Char) : List Char :=
  s.elim L fun x => x.newIndices

theorem keptLabels_eq (s : Option SimplificationMethodAndOutput) (L : List Char) :
    keptLabels s L = newIndicesOr s L := by cases s <;> rfl

/-- C49: the recorded strings are the texts of the contractions, and the kept labels are those that the other
operand or the output has. -/
theorem C49_strings (h h' : HashOrd) (sc : SizedContraction) (L R out : List Char) (s s' : List Nat)
    (hsc : SizingOf h [L, R] out [s, s'] sc) :
    ∃ p, PairContraction.new h' sc = .ok p ∧
      p.simplifiedEinsumString =
        text [keptLabels p.lhsSimplification L, keptLabels p.rhsSimplification R] out ∧
      (∀ x ∈ p.lhsSimplification, x.einsumString = text [L] x.newIndices) ∧
      (∀ x ∈ p.rhsSimplification, x.einsumString = text [R] x.newIndices) ∧
      (keptLabels p.lhsSimplification L).Nodup ∧ (keptLabels p.rhsSimplification R).Nodup ∧
      (∀ c, c ∈ keptLabels p.lhsSimplification L ↔ c ∈ L ∧ (c ∈ R ∨ c ∈ out)) ∧
      ∀ c, c ∈ keptLabels p.rhsSimplification R ↔ c ∈ R ∧ (c ∈ L ∨ c ∈ out) := by
  obtain ⟨dims, hs⟩ := hsc.sized
  obtain ⟨ho, rfl⟩ := hsc.eq hs
  have hv := callSC_valid (dims := dims) ho
  obtain ⟨p, p1, p2, p3, -, p5, -⟩ := pair_parts (L := L) (R := R) hv rfl h'
  have hL : ∀ c ∈ L, c ∈ (callSC [L, R] out dims).contraction.operandIndices.flatten := by simp [callSC]; tauto
  have hR : ∀ c ∈ R, c ∈ (callSC [L, R] out dims).contraction.operandIndices.flatten := by simp [callSC]; tauto
  obtain ⟨sl, l1, l2⟩ := simplification_parts hv (h'.sub 0) (R := R) (out := out) hL
  obtain ⟨sr, r1, r2⟩ := simplification_parts hv (h'.sub 1) (R := L) (out := out) hR
  obtain ⟨sl', l1', l3', l4', -⟩ := simplification_ok hv (h'.sub 0) (R := R) (out := out) hL
  obtain ⟨sr', r1', r3', r4', -⟩ := simplification_ok hv (h'.sub 1) (R := L) (out := out) hR
  have e1 : sl = p.lhsSimplification := Except.ok.inj (l1.symm.trans p2)
  have e2 : sr = p.rhsSimplification := Except.ok.inj (r1.symm.trans p3)
  have e1' : sl' = p.lhsSimplification := Except.ok.inj (l1'.symm.trans p2)
  have e2' : sr' = p.rhsSimplification := Except.ok.inj (r1'.symm.trans p3)
  rw [e1'] at l3' l4'
  rw [e2'] at r3' r4'
  simp only [keptLabels_eq]
  refine ⟨p, p1, p5, ?_, ?_, l3', r3', l4', r4'⟩
  · rintro y hy
    rw [e1] at l2
    rcases l2 with ⟨a, b⟩ | ⟨a, x, b, c1, c2, c3, c4, -⟩
    · rw [a] at hy; simp at hy
    · rw [b] at hy; cases hy; exact c4
  · rintro y hy
    rw [e2] at r2
    rcases r2 with ⟨a, b⟩ | ⟨a, x, b, c1, c2, c3, c4, -⟩
    · rw [a] at hy; simp at hy
    · rw [b] at hy; cases hy; exact c4

theorem denotes_text {inputs : List (List Char)} {out : List Char} (hi : inputs ≠ [])
    (hp : ∀ p ∈ inputs, p ≠ [] ∧ ∀ c ∈ p, Letter c) (ho : OutputOk inputs out) :
    Denotes (text inputs out) inputs out := by
  refine .inl ⟨by simp [text], ⟨hi, hp, ?_⟩, ho⟩
  rintro _ ⟨⟩ c hc
  have hu := used_iff.1 (ho.2 c hc)
  obtain ⟨p, h1, h2⟩ := List.mem_flatten.1 hu
  exact (hp p h1).2 c h2

theorem not_denotes_text {inputs inputs' : List (List Char)} {out out' : List Char}
    (hl : ∀ p ∈ inputs, ∀ c ∈ p, Letter c) (hi : inputs.length = 2) (he : [] ∈ inputs) :
    ¬ Denotes (text inputs out) inputs' out' := by
  match inputs, hi with
  | [p, q], _ =>
    have key : parseEinsumString (text [p, q] out).toList = none := by
      have e : (text [p, q] out).toList = p ++ (',' :: (q ++ ('-' :: '>' :: out))) := by
        simp [text, render_cons, commaJoin, arrowPart]
      rw [e, parseEinsumString, spanLabels_append (hl p (by simp))
        (by simp; exact not_letter_comma)]
      cases p with
      | nil => rfl
      | cons a p =>
        have hq : q = [] := by simpa using he
        subst hq
        have e1 : spanLabels ([] ++ ('-' :: '>' :: out)) = ([], '-' :: '>' :: out) :=
          spanLabels_append (by simp) (by simp; exact not_letter_dash)
        have e2 : moreOperands (',' :: ([] ++ ('-' :: '>' :: out))) = ([], ',' :: '-' :: '>' :: out) := by
          rw [moreOperands, if_pos rfl]
          split
          · rfl
          · rename_i op rest hne h
            rw [e1] at h
            cases h
            exact (hne rfl).elim
        simp only [e2]
        rfl
    intro hd
    have := hd.validate HashOrd.insertion
    simp [validate, key] at this

/-- C49: if both operands keep a label, the strings can be read back: they denote the contractions. -/
theorem C49_denotes (h h' : HashOrd) (sc : SizedContraction) (L R out : List Char) (s s' : List Nat)
    (hsc : SizingOf h [L, R] out [s, s'] sc) (hletter : ∀ c, c ∈ L ∨ c ∈ R → Letter c)
    (hL : ∃ c ∈ L, c ∈ R ∨ c ∈ out) (hR : ∃ c ∈ R, c ∈ L ∨ c ∈ out)
    (p : PairContraction) (hp : PairContraction.new h' sc = .ok p) :
    Denotes p.simplifiedEinsumString [keptLabels p.lhsSimplification L, keptLabels p.rhsSimplification R] out ∧
      (∀ x ∈ p.lhsSimplification, Denotes x.einsumString [L] x.newIndices) ∧
      ∀ x ∈ p.rhsSimplification, Denotes x.einsumString [R] x.newIndices := by
  obtain ⟨q, q1, q2, q3, q4, q5, q6, q7, q8⟩ := C49_strings h h' sc L R out s s' hsc
  rw [hp] at q1; cases q1
  obtain ⟨dims, hs⟩ := hsc.sized
  obtain ⟨ho, -⟩ := hsc.eq hs
  have hout : ∀ c ∈ out, c ∈ L ∨ c ∈ R := fun c hc => by simpa using used_iff.1 (ho.2 c hc)
  obtain ⟨a, a1, a2⟩ := hL
  obtain ⟨b, b1, b2⟩ := hR
  refine ⟨?_, fun x hx => ?_, fun x hx => ?_⟩
  · rw [q2]
    apply denotes_text (by simp)
    · intro l hl
      simp only [List.mem_cons, List.not_mem_nil, or_false] at hl
      rcases hl with rfl | rfl
      · exact ⟨List.ne_nil_of_mem ((q7 a).2 ⟨a1, a2⟩), fun c hc => hletter c (.inl ((q7 c).1 hc).1)⟩
      · exact ⟨List.ne_nil_of_mem ((q8 b).2 ⟨b1, b2⟩), fun c hc => hletter c (.inr ((q8 c).1 hc).1)⟩
    · refine ⟨ho.1, fun c hc => used_iff.2 ?_⟩
      simp only [List.flatten_cons, List.flatten_nil, List.append_nil, List.mem_append, q7, q8]
      have := hout c hc
      tauto
  · rw [q3 x hx]
    rw [show keptLabels p.lhsSimplification L = x.newIndices by rw [hx]; rfl] at q5 q7
    exact denotes_text (by simp) (by simp only [List.mem_singleton, forall_eq]
                                     exact ⟨List.ne_nil_of_mem a1, fun c hc => hletter c (.inl hc)⟩)
      ⟨q5, fun c hc => used_iff.2 (by simpa using ((q7 c).1 hc).1)⟩
  · rw [q4 x hx]
    rw [show keptLabels p.rhsSimplification R = x.newIndices by rw [hx]; rfl] at q6 q8
    exact denotes_text (by simp) (by simp only [List.mem_singleton, forall_eq]
                                     exact ⟨List.ne_nil_of_mem b1, fun c hc => hletter c (.inr hc)⟩)
      ⟨q6, fun c hc => used_iff.2 (by simpa using ((q8 c).1 hc).1)⟩

/-- C49: if an operand keeps no label, the recorded string is not one that the library accepts. -/
theorem C49_not_accepted (h h' k : HashOrd) (sc : SizedContraction) (L R out : List Char) (s s' : List Nat)
    (hsc : SizingOf h [L, R] out [s, s'] sc) (hletter : ∀ c, c ∈ L ∨ c ∈ R → Letter c)
    (hd : (∀ c ∈ L, c ∉ R ∧ c ∉ out) ∨ ∀ c ∈ R, c ∉ L ∧ c ∉ out)
    (p : PairContraction) (hp : PairContraction.new h' sc = .ok p) :
    ∃ e, validate k p.simplifiedEinsumString = .error e := by
  obtain ⟨q, q1, q2, q3, q4, q5, q6, q7, q8⟩ := C49_strings h h' sc L R out s s' hsc
  rw [hp] at q1; cases q1
  cases hv : validate k p.simplifiedEinsumString with
  | error e => exact ⟨e, rfl⟩
  | ok c =>
    exfalso
    have hden := (validate_iff.1 hv).1
    rw [q2] at hden
    refine not_denotes_text ?_ rfl ?_ hden
    · intro l hl c hc
      simp only [List.mem_cons, List.not_mem_nil, or_false] at hl
      rcases hl with rfl | rfl
      · exact hletter c (.inl ((q7 c).1 hc).1)
      · exact hletter c (.inr ((q8 c).1 hc).1)
    · rcases hd with hd | hd
      · have : keptLabels p.lhsSimplification L = [] := List.eq_nil_iff_forall_not_mem.2 fun c hc => by
          have h1 := (q7 c).1 hc
          have h2 := hd c h1.1
          tauto
        simp [this]
      · have : keptLabels p.rhsSimplification R = [] := List.eq_nil_iff_forall_not_mem.2 fun c hc => by
          have h1 := (q8 c).1 hc
          have h2 := hd c h1.1
          tauto
        simp [this]

/-- Evaluating the recorded string of a simplification, if there is one. -/
def viaString {A : Type} [Zero A] [Add A] [Mul A] [MulAdd A] (h : HashOrd) (al : Alloc A)
    (s : Option SimplificationMethodAndOutput) (v : View A) : M (Except String (View A)) :=
  match s with
  | none => .ok (.ok v)
  | some x => einsum h al x.einsumString [v]

theorem viaString_ok {A : Type} [CommSemiring A] {dims : Char → Nat} {L N : List Char} {v v' : View A}
    {t : List Nat → A} {s : Option SimplificationMethodAndOutput} (hv : Elements v t) (hsh : v.shape = L.map dims)
    (hgood : NoEmptyDiagonal dims [L]) (hN : N = keptLabels s L)
    (hd : ∀ x ∈ s, Denotes x.einsumString [L] x.newIndices) (al0 : Alloc A) (h0 : simplifyOperand al0 s v = .ok v')
    (hr : Rep v' N dims (sumOver dims (summed [L] N) fun σ => t (L.map σ))) (h : HashOrd) (al : Alloc A) :
    ∃ w, viaString h al s v = .ok (.ok w) ∧ w.Wf ∧
      Rep w N dims (sumOver dims (summed [L] N) fun σ => t (L.map σ)) := by
  cases s with
  | none =>
    refine ⟨v, rfl, hv.1, ?_⟩
    cases h0
    exact hr
  | some x =>
    have hN' : N = x.newIndices := hN
    subst hN'
    have hden := hd x rfl
    obtain ⟨w, h1, h2⟩ := einsum_ok (operands := [v]) ⟨hden, .cons hsh .nil, .cons hv .nil⟩ hgood h al
    refine ⟨w, h1, h2.1, h2.rep.congr fun σ _ => ?_⟩
    rw [Spec.einsum]
    congr 1
    funext σ
    simp [term]

theorem Rep.same {A : Type} {dims : Char → Nat} {out : List Char} {v w : View A} {F : (Char → Nat) → A}
    (hn : out.Nodup) (h : Rep v out dims F) (h' : Rep w out dims F) : SameArray v w := by
  refine ⟨h.wf hn, h'.wf hn, h.shape.trans h'.shape.symm, fun idx hi => ?_⟩
  rw [h.shape] at hi
  obtain ⟨σ, h1, rfl⟩ := exists_assign hn hi
  rw [h.get σ h1, h'.get σ h1]

theorem Rep.elem {A : Type} [Zero A] {dims : Char → Nat} {L : List Char} {v : View A} {F : (Char → Nat) → A}
    (h : Rep v L dims F) {σ : Char → Nat} (hσ : InRange dims L σ) : v.elem (L.map σ) = F σ := by
  simp [View.elem, h.get σ hσ]

/-- C49: evaluating the recorded strings one after the other gives the array that running the compiled
contraction gives. -/
theorem C49_same_result {A : Type} [CommSemiring A] (h h' : HashOrd) (sc : SizedContraction) (L R out : List Char)
    (l r : View A) (hl : l.Wf) (hr : r.Wf) (hsc : SizingOf h [L, R] out [l.shape, r.shape] sc)
    (hletter : ∀ c, c ∈ L ∨ c ∈ R → Letter c)
    (hL : ∃ c ∈ L, c ∈ R ∨ c ∈ out) (hR : ∃ c ∈ R, c ∈ L ∨ c ∈ out)
    (hnl : L.Nodup ∨ 0 ∉ l.shape) (hnr : R.Nodup ∨ 0 ∉ r.shape)
    (k₁ k₂ k₃ : HashOrd) (al al₁ al₂ al₃ : Alloc A) :
    ∃ p w l' r' w', PairContraction.new h' sc = .ok p ∧ p.run al l r = .ok w ∧
      viaString k₁ al₁ p.lhsSimplification l = .ok (.ok l') ∧
      viaString k₂ al₂ p.rhsSimplification r = .ok (.ok r') ∧
      einsum k₃ al₃ p.simplifiedEinsumString [l', r'] = .ok (.ok w') ∧ SameArray w w' := by
  obtain ⟨dims, hs⟩ := hsc.sized
  have hsc' := hsc
  obtain ⟨ho, rfl⟩ := hsc'.eq hs
  have hv := callSC_valid (dims := dims) ho
  obtain ⟨p, p1, p2, p3, -, p5, p6⟩ := pair_parts (L := L) (R := R) hv rfl h'
  obtain ⟨d1, d2, d3⟩ := C49_denotes h h' _ L R out _ _ hsc hletter hL hR p p1
  obtain ⟨hsl, hsr⟩ : l.shape = L.map dims ∧ r.shape = R.map dims := by
    cases hs with
    | cons a b => cases b with | cons b _ => exact ⟨a, b⟩
  have g1 : NoEmptyDiagonal dims [L] := by
    intro ix hi
    rw [List.mem_singleton] at hi
    subst hi
    refine hnl.imp id fun hz c hc h0 => hz ?_
    rw [hsl]
    exact List.mem_map.2 ⟨c, hc, h0⟩
  have g2 : NoEmptyDiagonal dims [R] := by
    intro ix hi
    rw [List.mem_singleton] at hi
    subst hi
    refine hnr.imp id fun hz c hc h0 => hz ?_
    rw [hsr]
    exact List.mem_map.2 ⟨c, hc, h0⟩
  have hLm : ∀ c ∈ L, c ∈ (callSC [L, R] out dims).contraction.operandIndices.flatten := by simp [callSC]; tauto
  have hRm : ∀ c ∈ R, c ∈ (callSC [L, R] out dims).contraction.operandIndices.flatten := by simp [callSC]; tauto
  obtain ⟨sl, l1, l2, l3, l4⟩ := simplification_ok hv (h'.sub 0) (R := R) (out := out) hLm
  obtain ⟨sr, r1, r2, r3, r4⟩ := simplification_ok hv (h'.sub 1) (R := L) (out := out) hRm
  have e1 : sl = p.lhsSimplification := Except.ok.inj (l1.symm.trans p2)
  have e2 : sr = p.rhsSimplification := Except.ok.inj (r1.symm.trans p3)
  subst e1 e2
  have hel := hl.elements
  have her := hr.elements
  have hh := hel.holds
  have hh' := her.holds
  rw [hsl] at hh
  rw [hsr] at hh'
  obtain ⟨l0, a1, a2⟩ := (l4 A (al.sub 0) l _ hh.rep hl).1 (good_of (g1 L (by simp)))
  obtain ⟨r0, b1, b2⟩ := (r4 A (al.sub 1) r _ hh'.rep hr).1 (good_of (g2 R (by simp)))
  obtain ⟨w, c1, c2⟩ := p6 A (al.sub 2) l0 r0 _ _ a2 b2
  simp only [mulAs_comm] at c2
  obtain ⟨l', x1, x2, x3⟩ := viaString_ok hel hsl g1 (keptLabels_eq _ _).symm d2 _ a1 a2 k₁ al₁
  obtain ⟨r', y1, y2, y3⟩ := viaString_ok her hsr g2 (keptLabels_eq _ _).symm d3 _ b1 b2 k₂ al₂
  rw [keptLabels_eq, keptLabels_eq] at d1
  obtain ⟨w', z1, z2⟩ := einsum_ok (operands := [l', r'])
    ⟨d1, .cons x3.shape (.cons y3.shape .nil), .cons x2.elements (.cons y2.elements .nil)⟩
    (fun ix hi => .inl (by
      simp only [List.mem_cons, List.not_mem_nil, or_false] at hi
      rcases hi with rfl | rfl
      · exact l2
      · exact r2)) k₃ al₃
  refine ⟨p, w, l', r', w', p1, ?_, x1, y1, z1, ?_⟩
  · simp only [PairContraction.run, a1, b1, bind_ok]
    exact c1
  · refine Rep.same ho.1 c2 (z2.rep.congr fun σ hσ => ?_)
    rw [Spec.einsum]
    refine sumOver_congr fun σ' h8 h9 => ?_
    have hin : ∀ c, c ∈ newIndicesOr p.lhsSimplification L ∨ c ∈ newIndicesOr p.rhsSimplification R →
        σ' c < dims c := by
      intro c hc
      by_cases hsm : c ∈ summed [newIndicesOr p.lhsSimplification L, newIndicesOr p.rhsSimplification R] out
      · exact h9 c hsm
      · rw [h8 c hsm]
        apply hσ
        by_contra hno
        exact hsm (mem_summed.2 ⟨by simpa using hc, hno⟩)
    simp only [term, List.zipWith_cons_cons, List.zipWith_nil_left, List.prod_cons, List.prod_nil, mul_one]
    rw [x3.elem fun c hc => hin c (.inl hc), y3.elem fun c hc => hin c (.inr hc)]

/-! The hypotheses for "iij,jkk->ik" (both operands simplified) and "i,j->j" (first operand summed away). -/

example : (∀ c, c ∈ ['i', 'i', 'j'] ∨ c ∈ ['j', 'k', 'k'] → Letter c) ∧
    (∃ c ∈ ['i', 'i', 'j'], c ∈ ['j', 'k', 'k'] ∨ c ∈ ['i', 'k']) ∧
    (∃ c ∈ ['j', 'k', 'k'], c ∈ ['i', 'i', 'j'] ∨ c ∈ ['i', 'k']) := by
  refine ⟨?_, by decide, by decide⟩
  simp [Letter, or_imp, forall_and]
example (h h' : HashOrd) (l r : View Int) (hl : l.Wf) (hr : r.Wf) (e : l.shape = [2, 2, 3])
    (e' : r.shape = [3, 4, 4]) (al : Alloc Int) :
    ∃ p w l' r' w', PairContraction.new h' (callSC [['i', 'i', 'j'], ['j', 'k', 'k']] ['i', 'k']
        fun c => if c = 'i' then 2 else if c = 'j' then 3 else 4) = .ok p ∧ p.run al l r = .ok w ∧
      viaString h al p.lhsSimplification l = .ok (.ok l') ∧
      viaString h al p.rhsSimplification r = .ok (.ok r') ∧
      einsum h al p.simplifiedEinsumString [l', r'] = .ok (.ok w') ∧ SameArray w w' :=
  C49_same_result h h' _ _ _ _ l r hl hr (by rw [e, e']; exact Ex.sizing h)
    (by simp [Letter, or_imp, forall_and]) (by decide) (by decide) (.inr (by rw [e]; decide))
    (.inr (by rw [e']; decide)) _ _ _ _ _ _ _
example : SizingOf HashOrd.insertion [['i'], ['j']] ['j'] [[2], [3]]
    (callSC [['i'], ['j']] ['j'] fun c => if c = 'i' then 2 else 3) ∧
    ((∀ c ∈ ['i'], c ∉ ['j'] ∧ c ∉ ['j']) ∨ ∀ c ∈ ['j'], c ∉ ['i'] ∧ c ∉ ['j']) :=
  ⟨sizes_callSC (by simp [OutputOk, Used]) (.cons (by decide) (.cons (by decide) .nil)), .inl (by decide)⟩

end Einsum
