import Verif.Proofs.Pair

/-! # A whole pair contraction: simplification of each operand, then the pair step -/

namespace Einsum

open Spec Function

section
variable {ι A : Type} [DecidableEq ι] [Semiring A] {dims : ι → Nat}

/-- Summing labels private to one operand first. -/
theorem sum_pair {L R out NL NR : List ι} {F G : (ι → Nat) → A} (hF : DependsOn F L) (hG : DependsOn G R)
    (mL : ∀ c, c ∈ NL ↔ c ∈ L ∧ (c ∈ R ∨ c ∈ out)) (mR : ∀ c, c ∈ NR ↔ c ∈ R ∧ (c ∈ L ∨ c ∈ out)) :
    sumOver dims (summed [NL, NR] out)
        (fun σ => sumOver dims (summed [L] NL) F σ * sumOver dims (summed [R] NR) G σ) =
      sumOver dims (summed [L, R] out) (fun σ => F σ * G σ) := by
  set C := summed [NL, NR] out with hC
  set P := summed [L] NL with hP
  set Q := summed [R] NR with hQ
  have mC : ∀ c, c ∈ C ↔ (c ∈ L ∧ c ∈ R) ∧ c ∉ out := fun c => by
    rw [hC, mem_summed]
    simp only [List.flatten_cons, List.flatten_nil, List.append_nil, List.mem_append, mL, mR]
    tauto
  have mP : ∀ c, c ∈ P ↔ c ∈ L ∧ c ∉ R ∧ c ∉ out := fun c => by
    rw [hP, mem_summed]
    simp only [List.flatten_cons, List.flatten_nil, List.append_nil, mL]
    tauto
  have mQ : ∀ c, c ∈ Q ↔ c ∈ R ∧ c ∉ L ∧ c ∉ out := fun c => by
    rw [hQ, mem_summed]
    simp only [List.flatten_cons, List.flatten_nil, List.append_nil, mR]
    tauto
  have hperm : (C ++ (P ++ Q)).Perm (summed [L, R] out) := by
    refine perm_of_nodup ?_ (summed_nodup _ _) fun c => ?_
    · rw [List.nodup_append, List.nodup_append]
      refine ⟨summed_nodup _ _, ⟨summed_nodup _ _, summed_nodup _ _, ?_⟩, ?_⟩
      · rintro a ha b hb rfl
        exact ((mQ a).1 hb).2.1 ((mP a).1 ha).1
      · rintro a ha b hb rfl
        rcases List.mem_append.1 hb with h | h
        · exact ((mP a).1 h).2.1 ((mC a).1 ha).1.2
        · exact ((mQ a).1 h).2.1 ((mC a).1 ha).1.1
    · rw [mem_summed]
      simp only [List.flatten_cons, List.flatten_nil, List.append_nil, List.mem_append, mC, mP, mQ]
      tauto
  rw [← sumOver_perm hperm, sumOver_append, sumOver_append]
  congr 1
  have e1 : sumOver dims Q (fun σ => F σ * G σ) = fun σ => F σ * sumOver dims Q G σ := by
    funext σ
    exact sumOver_mul_left hF (fun c hc hq => ((mQ c).1 hq).2.1 hc) σ
  rw [e1]
  funext σ
  have hd : DependsOn (sumOver dims Q G) R := hG.sumOver fun c hc => .inl hc
  exact (sumOver_mul_right (f := F) hd (fun c hc hp => ((mP c).1 hp).2.1 hc) σ).symm

theorem sum_pair_as {L R out NL NR : List ι} {F G : (ι → Nat) → A} (hF : DependsOn F L) (hG : DependsOn G R)
    (mL : ∀ c, c ∈ NL ↔ c ∈ L ∧ (c ∈ R ∨ c ∈ out)) (mR : ∀ c, c ∈ NR ↔ c ∈ R ∧ (c ∈ L ∨ c ∈ out)) (sw : Bool) :
    sumOver dims (summed [NL, NR] out)
        (fun σ => mulAs sw (sumOver dims (summed [L] NL) F σ) (sumOver dims (summed [R] NR) G σ)) =
      sumOver dims (summed [L, R] out) (fun σ => mulAs sw (F σ) (G σ)) := by
  cases sw
  · exact sum_pair hF hG mL mR
  · have hp : ∀ X Y : List ι, (summed [X, Y] out).Perm (summed [Y, X] out) := fun X Y =>
      perm_of_nodup (summed_nodup _ _) (summed_nodup _ _) fun c => by
        rw [mem_summed, mem_summed]
        simp only [List.flatten_cons, List.flatten_nil, List.append_nil, List.mem_append]
        tauto
    rw [sumOver_perm (hp NL NR), sumOver_perm (hp L R)]
    exact sum_pair hG hF mR mL

/-- Summing the labels finished by one step before multiplying by the later operands. -/
theorem sum_step' {X Y O N S S' S'' : List ι} {f H : (ι → Nat) → A} (hH : DependsOn H Y)
    (mN1 : ∀ c ∈ N, c ∈ X) (mN2 : ∀ c ∈ X, c ∈ Y ∨ c ∈ O → c ∈ N)
    (nS : S.Nodup) (nS' : S'.Nodup) (nS'' : S''.Nodup)
    (mS : ∀ c, c ∈ S ↔ c ∈ X ∧ c ∉ N) (mS' : ∀ c, c ∈ S' ↔ (c ∈ N ∨ c ∈ Y) ∧ c ∉ O)
    (mS'' : ∀ c, c ∈ S'' ↔ (c ∈ X ∨ c ∈ Y) ∧ c ∉ O) :
    sumOver dims S' (fun σ => sumOver dims S f σ * H σ) = sumOver dims S'' (fun σ => f σ * H σ) := by
  have hperm : (S' ++ S).Perm S'' := by
    refine perm_of_nodup ?_ nS'' fun c => ?_
    · rw [List.nodup_append]
      refine ⟨nS', nS, ?_⟩
      rintro a ha b hb rfl
      have h1 := (mS' a).1 ha
      have h2 := (mS a).1 hb
      have h3 := mN2 a
      tauto
    · rw [List.mem_append, mS, mS', mS'']
      have h3 := mN1 c
      have h4 := mN2 c
      tauto
  rw [← sumOver_perm hperm, sumOver_append]
  congr 1
  funext σ
  refine (sumOver_mul_right (f := f) hH (fun c hc hs => ?_) σ).symm
  have h2 := (mS c).1 hs
  have h3 := mN2 c
  tauto

theorem sum_step {X Y O N S S' S'' : List ι} {f H : (ι → Nat) → A} (hH : DependsOn H Y)
    (mN : ∀ c, c ∈ N ↔ c ∈ X ∧ (c ∈ Y ∨ c ∈ O)) (nS : S.Nodup) (nS' : S'.Nodup) (nS'' : S''.Nodup)
    (mS : ∀ c, c ∈ S ↔ c ∈ X ∧ c ∉ N) (mS' : ∀ c, c ∈ S' ↔ (c ∈ N ∨ c ∈ Y) ∧ c ∉ O)
    (mS'' : ∀ c, c ∈ S'' ↔ (c ∈ X ∨ c ∈ Y) ∧ c ∉ O) :
    sumOver dims S' (fun σ => sumOver dims S f σ * H σ) = sumOver dims S'' (fun σ => f σ * H σ) :=
  sum_step' hH (fun c hc => ((mN c).1 hc).1) (fun c h1 h2 => (mN c).2 ⟨h1, h2⟩) nS nS' nS'' mS mS' mS''

theorem sum_step2 {X Y O N S S' S'' : List ι} {f a b : (ι → Nat) → A} (ha : DependsOn a Y) (hb : DependsOn b Y)
    (mN : ∀ c, c ∈ N ↔ c ∈ X ∧ (c ∈ Y ∨ c ∈ O)) (nS : S.Nodup) (nS' : S'.Nodup) (nS'' : S''.Nodup)
    (mS : ∀ c, c ∈ S ↔ c ∈ X ∧ c ∉ N) (mS' : ∀ c, c ∈ S' ↔ (c ∈ N ∨ c ∈ Y) ∧ c ∉ O)
    (mS'' : ∀ c, c ∈ S'' ↔ (c ∈ X ∨ c ∈ Y) ∧ c ∉ O) :
    sumOver dims S' (fun σ => a σ * sumOver dims S f σ * b σ) = sumOver dims S'' (fun σ => a σ * f σ * b σ) := by
  rw [← sum_step (f := fun σ => a σ * f σ) hb mN nS nS' nS'' mS mS' mS'']
  congr 1
  funext σ
  rw [sumOver_mul_left ha]
  intro c hc hs
  have h2 := (mS c).1 hs
  have h3 := (mN c).2
  tauto

omit [Semiring A] in
/-- Replace the function of a represented array by one that depends on the labels only. -/
theorem Rep.dependsOn {v : View A} {L : List ι} {F} (h : Rep v L dims F) :
    ∃ F', DependsOn F' L ∧ Rep v L dims F' ∧ ∀ σ, InRange dims L σ → F σ = F' σ := by
  refine ⟨fun σ => F (assign L (L.map σ)), ?_, h.congr fun σ hσ => (h.agree_assign hσ).symm,
    fun σ hσ => (h.agree_assign hσ).symm⟩
  intro σ σ' hs
  simp only
  rw [List.map_congr_left hs]

end

section
variable {sc : SizedContraction} {dims : Char → Nat}

theorem asEinsumString_ok {ops : List (List Char)} (h : sc.contraction.operandIndices = ops)
    (hne : ops ≠ []) : ∃ s, sc.asEinsumString = .ok s := by
  cases ops with
  | nil => simp at hne
  | cons op ops =>
    simp [SizedContraction.asEinsumString, h]

theorem mem_desired {h : HashOrd} {this other out : List Char} {c : Char} :
    c ∈ desiredIndices h this other out ↔ c ∈ this ∧ (c ∈ other ∨ c ∈ out) := by
  unfold desiredIndices
  rw [(h.perm _ _).mem_iff]
  simp

theorem nodup_desired {h : HashOrd} {this other out : List Char} :
    (desiredIndices h this other out).Nodup := by
  unfold desiredIndices
  rw [(h.perm _ _).nodup_iff]
  exact (nodup_hset _).filter _

theorem simplification_ok (hv : sc.Valid dims) (h : HashOrd) {L R out : List Char}
    (hL : ∀ c ∈ L, c ∈ sc.contraction.operandIndices.flatten) :
    ∃ s, SimplificationMethodAndOutput.fromIndicesAndSizes h L R out sc = .ok s ∧
      (newIndicesOr s L).Nodup ∧
      (∀ c, c ∈ newIndicesOr s L ↔ c ∈ L ∧ (c ∈ R ∨ c ∈ out)) ∧
      ∀ (A : Type) [AddCommMonoid A] (al : Alloc A) (v : View A) (F : (Char → Nat) → A),
        Rep v L dims F → v.Wf →
        Outcome (Good dims (fun c => c ∈ R ∨ c ∈ out) L v) (Bad dims (fun c => c ∈ R ∨ c ∈ out) L v)
          (simplifyOperand al s v) fun w =>
          Rep w (newIndicesOr s L) dims (sumOver dims (summed [L] (newIndicesOr s L)) F) := by
  set N := desiredIndices (h.sub 0) L R out with hN
  have hout : OutputOk [L] N := ⟨nodup_desired, fun c hc => used_iff.2 (by simpa using (mem_desired.1 hc).1)⟩
  obtain ⟨sc', h1, h2, h3, h4⟩ := hv.subset (h.sub 1) (ops := [L]) (by simpa using hL) hout
  obtain ⟨p, h5, h6, h7⟩ := singleton_ok h2 h3
  obtain ⟨str, hstr⟩ := asEinsumString_ok h3 (by simp)
  rw [h4] at h6 h7
  unfold SimplificationMethodAndOutput.fromIndicesAndSizes
  simp only [← hN, h1, unwrapR_ok, bind_ok, h5]
  by_cases hm : p.method = .identity ∨ p.method = .permutation
  · obtain ⟨hLn, hsub⟩ := h6.1 hm
    refine ⟨none, ?_, hLn, ?_, ?_⟩
    · rcases hm with e | e <;> rw [e] <;> rfl
    · intro c
      simp only [newIndicesOr]
      constructor
      · intro hc; exact ⟨hc, (mem_desired.1 (hsub c hc)).2⟩
      · rintro ⟨hc, -⟩; exact hc
    · intro A _ al v F hr _
      refine .good (.inl hLn) ⟨v, rfl, ?_⟩
      have hnil : summed [L] (newIndicesOr none L) = [] := by
        rw [List.eq_nil_iff_forall_not_mem]
        intro c hc
        simpa [newIndicesOr] using mem_summed.1 hc
      rw [hnil]
      exact hr
  · refine ⟨some ⟨p.method, p.op, N, str⟩, ?_, hout.1, fun c => by
      simp only [newIndicesOr, hN]; exact mem_desired, ?_⟩
    · rw [hstr]
      cases hpm : p.method <;> simp_all
    · intro A _ al v F hr ha
      have hK : ∀ c ∈ L, (c ∈ N ↔ c ∈ R ∨ c ∈ out) := fun c hc => by
        rw [hN, mem_desired]
        exact ⟨fun x => x.2, fun x => ⟨hc, x⟩⟩
      exact (h7 A al v F hr ha).imp (Good.congr fun c hc => (hK c hc).symm) (mt (Good.congr hK)) fun _ h => h

/-- What a compiled pair contraction does. -/
def PairContraction.Computes (p : PairContraction) (sw : Bool) (dims : Char → Nat) (L R out : List Char) : Prop :=
  ∀ (A : Type) [Semiring A] (al : Alloc A) (l r : View A) (F G : (Char → Nat) → A),
    Rep l L dims F → l.Wf → Rep r R dims G → r.Wf →
    Outcome (Good dims (fun c => c ∈ R ∨ c ∈ out) L l ∧ Good dims (fun c => c ∈ L ∨ c ∈ out) R r)
      (Bad dims (fun c => c ∈ R ∨ c ∈ out) L l ∨ Bad dims (fun c => c ∈ L ∨ c ∈ out) R r) (p.run al l r) fun w =>
      Rep w out dims (sumOver dims (summed [L, R] out) fun σ => mulAs sw (F σ) (G σ))

theorem pairOp_ok {L R : List Char} (hv : sc.Valid dims) (hops : sc.contraction.operandIndices = [L, R])
    (hL : L.Nodup) (hR : R.Nodup)
    (hLR : ∀ c ∈ L, c ∈ R ∨ c ∈ sc.contraction.outputIndices)
    (hRL : ∀ c ∈ R, c ∈ L ∨ c ∈ sc.contraction.outputIndices) :
    ∃ s op, PairSummary.new sc = .ok s ∧ PairOp.new sc s.getStrategy = .ok op ∧
      op.Computes (decide (L = [] ∧ R ≠ [])) dims L R sc.contraction.outputIndices := by
  have hsub := hv.out_sub2 hops
  have hon := hv.out.1
  obtain ⟨a, b, c, d, e, ha, hb, hc, hd⟩ := pairSummary_ok hL hR hon
  have e' : PairSummary.new sc = .ok ⟨a, b, c, d⟩ := by
    unfold PairSummary.new
    rw [hops]
    simp only [List.length_cons, List.length_nil, Nat.zero_add, Nat.reduceAdd, decide_true,
      assertThat_true, bind_ok, index_cons_zero, index_one]
    exact e
  have key : ∃ op, PairOp.new sc (PairSummary.getStrategy ⟨a, b, c, d⟩) = .ok op ∧
      op.Computes (decide (L = [] ∧ R ≠ [])) dims L R sc.contraction.outputIndices := by
    rw [pairStrategy_eq]
    by_cases c1 : d = 0 ∧ b = 0 ∧ c = 0
    · rw [if_pos c1]
      rw [hb, hc, hd] at c1
      obtain ⟨x1, x2, x3⟩ := c1
      have hsw : decide (L = [] ∧ R ≠ []) = false := by
        rw [decide_eq_false_iff_not]
        rintro ⟨h1, h2⟩
        obtain ⟨y, hy⟩ := List.exists_mem_of_ne_nil _ h2
        have := x3 y hy
        rw [h1] at this
        simp at this
      rw [hsw]
      apply hadamardGeneral_ok hops hL hR
      · refine perm_of_nodup hon hL fun x => ⟨fun h => ?_, fun h => x1 x h (x2 x h)⟩
        rcases hsub x h with h' | h'
        · exact h'
        · exact x3 x h'
      · refine perm_of_nodup hon hR fun x => ⟨fun h => ?_, fun h => x1 x (x3 x h) h⟩
        rcases hsub x h with h' | h'
        · exact x2 x h'
        · exact h'
    · rw [if_neg c1]
      by_cases c2 : d = 0 ∧ b = 0 ∧ a = 0
      · rw [if_pos c2]
        rw [hb, ha, hd] at c2
        obtain ⟨x1, x2, x3⟩ := c2
        have : L = [] := by
          rw [List.eq_nil_iff_forall_not_mem]
          intro x hx
          exact x3 x hx (x2 x hx) (x1 x hx (x2 x hx))
        subst this
        have hsw : decide (([] : List Char) = [] ∧ R ≠ []) = true := by
          rw [decide_eq_true_iff]
          refine ⟨rfl, ?_⟩
          rintro rfl
          exact c1 ⟨hd.2 (by simp), hb.2 (by simp), hc.2 (by simp)⟩
        rw [hsw]
        refine scalarMatrixGeneral_ok hops hR (perm_of_nodup hon hR fun x => ⟨fun h => ?_, fun h => ?_⟩)
        · simpa using hsub x h
        · simpa using hRL x h
      · rw [if_neg c2]
        by_cases c3 : d = 0 ∧ c = 0 ∧ a = 0
        · rw [if_pos c3]
          rw [hc, ha, hd] at c3
          obtain ⟨x1, x2, x3⟩ := c3
          have : R = [] := by
            rw [List.eq_nil_iff_forall_not_mem]
            intro x hx
            exact x3 x (x2 x hx) hx (x1 x (x2 x hx) hx)
          subst this
          have hsw : decide (L = [] ∧ ([] : List Char) ≠ []) = false := by simp
          rw [hsw]
          refine matrixScalarGeneral_ok hops hL (perm_of_nodup hon hL fun x => ⟨fun h => ?_, fun h => ?_⟩)
          · simpa using hsub x h
          · simpa using hLR x h
        · rw [if_neg c3]
          have hsw : decide (L = [] ∧ R ≠ []) = false := by
            rw [decide_eq_false_iff_not]
            rintro ⟨rfl, h2⟩
            exact c2 ⟨hd.2 (by simp), hb.2 (by simp), ha.2 (by simp)⟩
          rw [hsw]
          by_cases c4 : a = 0
          · rw [if_pos c4]
            exact tensordotGeneral_ok hv hops hL hR hLR hRL (ha.1 c4)
          · rw [if_neg c4]
            exact stackedGeneral_ok hv hops hL hR hLR hRL
  obtain ⟨op, h1, h2⟩ := key
  exact ⟨_, op, e', h1, h2⟩

theorem pair_ok {L R : List Char} (hv : sc.Valid dims) (hops : sc.contraction.operandIndices = [L, R])
    (h : HashOrd) :
    ∃ p, PairContraction.new h sc = .ok p ∧ p.Computes (decide (FromLeft L R sc.contraction.outputIndices)) dims L R sc.contraction.outputIndices := by
  have hsub := hv.out_sub2 hops
  have hon := hv.out.1
  set out := sc.contraction.outputIndices with hO
  obtain ⟨sl, l1, l2, l3, l4⟩ := simplification_ok hv (h.sub 0) (L := L) (R := R) (out := out)
    (by rw [hops]; intro c hc; simp [hc])
  obtain ⟨sr, r1, r2, r3, r4⟩ := simplification_ok hv (h.sub 1) (L := R) (R := L) (out := out)
    (by rw [hops]; intro c hc; simp [hc])
  set NL := newIndicesOr sl L with hNL
  set NR := newIndicesOr sr R with hNR
  obtain ⟨red, h1, h2, h3, h4⟩ := hv.subset (h.sub 2) (ops := [NL, NR]) (out := out)
    (by
      rw [hops]; intro c hc
      simp only [List.flatten_cons, List.flatten_nil, List.append_nil, List.mem_append, l3, r3] at hc ⊢
      tauto)
    ⟨hon, fun c hc => used_iff.2 (by
      simp only [List.flatten_cons, List.flatten_nil, List.append_nil, List.mem_append, l3, r3]
      have := hsub c hc
      tauto)⟩
  obtain ⟨s, op, h5, h6, h7⟩ := pairOp_ok h2 h3 l2 r2
    (by rw [h4]; intro c hc; rw [r3]; have := (l3 c).1 hc; tauto)
    (by rw [h4]; intro c hc; rw [l3]; have := (r3 c).1 hc; tauto)
  obtain ⟨str, hstr⟩ := asEinsumString_ok h3 (by simp)
  rw [h4] at h7
  refine ⟨⟨sl, sr, s.getStrategy, op, str⟩, ?_, ?_⟩
  · unfold PairContraction.new
    rw [hops]
    simp only [List.length_cons, List.length_nil, Nat.zero_add, Nat.reduceAdd, decide_true,
      assertThat_true, bind_ok, index_cons_zero, index_one]
    rw [← hO, l1, bind_ok, r1, bind_ok, ← hNL, ← hNR, h1, unwrapR_ok, bind_ok, h5, bind_ok, h6, bind_ok,
      hstr, bind_ok]
    rfl
  · intro A _ al l r F G hl al1 hr al2
    obtain ⟨F', f1, f2, f3⟩ := hl.dependsOn
    obtain ⟨G', g1, g2, g3⟩ := hr.dependsOn
    have key := (l4 A (al.sub 0) l F' f2 al1).bind
      (f := fun l' => simplifyOperand (al.sub 1) sr r >>= fun r' => op.run (al.sub 2) l' r') fun l' a2 =>
      (r4 A (al.sub 1) r G' g2 al2).bind fun r' b2 => Outcome.ok (h7 A (al.sub 2) l' r' _ _ a2 b2)
    refine Outcome.imp key (fun x => ⟨x.1, x.2, trivial⟩) (fun x => x.imp id .inl) fun w w2 => ?_
    have hsw : decide (NL = [] ∧ NR ≠ []) = decide (FromLeft L R out) := by
      rw [decide_eq_decide]
      unfold FromLeft
      rw [List.eq_nil_iff_forall_not_mem]
      constructor
      · rintro ⟨x1, x2⟩
        obtain ⟨y, hy⟩ := List.exists_mem_of_ne_nil _ x2
        have hx : ∀ c ∈ L, c ∉ R ∧ c ∉ out := fun c hc => by
          have := mt (l3 c).2 (x1 c)
          tauto
        have h8 := (r3 y).1 hy
        exact ⟨hx, y, h8.1, h8.2.resolve_left fun h => (hx y h).1 h8.1⟩
      · rintro ⟨x1, y, hy, ho⟩
        exact ⟨fun c hc => by
          have h8 := (l3 c).1 hc
          have := x1 c h8.1
          tauto, List.ne_nil_of_mem ((r3 y).2 ⟨hy, .inr ho⟩)⟩
    rw [sum_pair_as f1 g1 l3 r3, hsw] at w2
    refine w2.congr fun σ hσ => sumOver_congr fun σ' h8 h9 => ?_
    have hin : ∀ c, c ∈ L ∨ c ∈ R → σ' c < dims c := by
      intro c hc
      by_cases hs : c ∈ summed [L, R] out
      · exact h9 c hs
      · rw [h8 c hs]
        apply hσ
        by_contra hno
        exact hs (mem_summed.2 ⟨by simpa using hc, hno⟩)
    rw [f3 σ' fun c hc => hin c (.inl hc), g3 σ' fun c hc => hin c (.inr hc)]

end

end Einsum
