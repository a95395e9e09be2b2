import Verif.SpecProgram
import Verif.Props.Trees
import Verif.Props.Linear
import Verif.Props.DebugText
import Verif.Proofs.Dataflow

/-!
# Contraction orders as programs: C99
-/

namespace Einsum

open Spec

/-! ## Which orders are compiled -/

theorem unwrapR_eq_ok {α : Type} {x : Except String α} {a : α} : unwrapR x = .ok a ↔ x = .ok a := by
  cases x with
  | ok b => simp
  | error e => simp [panic]

theorem simplification_inv {h : HashOrd} {this other out : List Char} {sc : SizedContraction}
    {s : Option SimplificationMethodAndOutput}
    (hs : SimplificationMethodAndOutput.fromIndicesAndSizes h this other out sc = .ok s) :
    (∀ c ∈ this, sc.outputSize c ≠ none) ∧ ∀ c ∈ newIndicesOr s this, c ∈ this := by
  unfold SimplificationMethodAndOutput.fromIndicesAndSizes at hs
  obtain ⟨sub, h1, hs⟩ := bind_eq_ok.1 hs
  obtain ⟨c, -, hs⟩ := bind_eq_ok.1 hs
  refine ⟨by simpa using (subset_iff.1 (unwrapR_eq_ok.1 h1)).1, ?_⟩
  have key : s = none ∨ ∃ t, s = some t ∧ t.newIndices = desiredIndices (h.sub 0) this other out := by
    split at hs
    · exact .inl (Except.ok.inj hs).symm
    · exact .inl (Except.ok.inj hs).symm
    · obtain ⟨str, -, hs⟩ := bind_eq_ok.1 hs
      exact .inr ⟨_, (Except.ok.inj hs).symm, rfl⟩
  rcases key with rfl | ⟨t, rfl, e⟩
  · exact fun c hc => hc
  · intro c hc
    simp only [newIndicesOr, e] at hc
    exact (mem_desired.1 hc).1

theorem pairOk_of_new {h : HashOrd} {sc : SizedContraction} {p : PairContraction} (hp : PairContraction.new h sc = .ok p) :
    PairOk sc := by
  obtain ⟨⟨ops, o, s⟩, sz⟩ := sc
  unfold PairContraction.new at hp
  obtain ⟨u, h0, hp⟩ := bind_eq_ok.1 hp
  obtain ⟨L, h1, hp⟩ := bind_eq_ok.1 hp
  obtain ⟨R, h2, hp⟩ := bind_eq_ok.1 hp
  obtain ⟨ls, h3, hp⟩ := bind_eq_ok.1 hp
  obtain ⟨rs, h4, hp⟩ := bind_eq_ok.1 hp
  obtain ⟨red, h5, -⟩ := bind_eq_ok.1 hp
  have hl : ops.length = 2 := by simpa using assertThat_eq_ok.1 h0
  obtain ⟨a, b, rfl⟩ := List.length_eq_two.1 hl
  cases h1
  cases h2
  obtain ⟨l1, l2⟩ := simplification_inv h3
  obtain ⟨r1, r2⟩ := simplification_inv h4
  obtain ⟨-, g2, -⟩ := subset_iff.1 (unwrapR_eq_ok.1 h5)
  refine ⟨L, R, rfl, ⟨g2.1, fun c hc => ?_⟩, fun c hc => hc.elim (l1 c) (r1 c)⟩
  obtain ⟨q, hq, hcq⟩ := g2.2 c hc
  rcases List.mem_cons.1 hq with rfl | hq
  · exact ⟨L, by simp, l2 c hcq⟩
  · rw [List.mem_singleton] at hq
    subst hq
    exact ⟨R, by simp, r2 c hcq⟩

/-- A step that can be compiled. -/
theorem new_of_pairOk {sc : SizedContraction} {dims : Char → Nat} {L R : List Char} (h : HashOrd)
    (h1 : sc.contraction.operandIndices = [L, R]) (h2 : OutputOk [L, R] sc.contraction.outputIndices)
    (h3 : ∀ c, c ∈ L ∨ c ∈ R → sc.outputSize c = some (dims c)) :
    ∃ p, PairContraction.new h sc = .ok p ∧
      p.Computes (decide (FromLeft L R sc.contraction.outputIndices)) dims L R sc.contraction.outputIndices := by
  obtain ⟨⟨ops, o, s⟩, sz⟩ := sc
  simp only at h1 h2 h3
  subst h1
  have hv : SizedContraction.Valid ⟨⟨[L, R], o, summationOf [L, R] o⟩, sz⟩ dims :=
    ⟨h2, rfl, fun c hc => h3 c (by simpa using hc)⟩
  exact pair_ok hv rfl h

/-- C99: which pair contractions are compiled. -/
theorem C99_pair_iff (h : HashOrd) (sc : SizedContraction) : (∃ p, PairContraction.new h sc = .ok p) ↔ PairOk sc := by
  constructor
  · rintro ⟨p, hp⟩
    exact pairOk_of_new hp
  · rintro ⟨L, R, h1, h2, h3⟩
    obtain ⟨p, hp, -⟩ := new_of_pairOk (dims := fun c => (sc.outputSize c).getD 0) h h1 h2 fun c hc => by
      have := h3 c hc
      revert this
      cases sc.outputSize c <;> simp
    exact ⟨p, hp⟩

/-- C99: which orders of pairs are compiled. -/
theorem C99_pairs_iff (h : HashOrd) (steps : List PairStep) :
    (∃ p, EinsumPath.fromPath h (.pairs steps) = .ok p) ↔ ∀ st ∈ steps, PairOk st.sizedContraction := by
  have : (∃ p, EinsumPath.fromPath h (.pairs steps) = .ok p) ↔ ∃ cs, compileSteps h steps = .ok cs := by
    constructor
    · rintro ⟨p, hp⟩
      obtain ⟨cs, hc, -⟩ := bind_eq_ok.1 hp
      exact ⟨cs, hc⟩
    · rintro ⟨cs, hc⟩
      exact ⟨_, by simp only [EinsumPath.fromPath, hc, bind_ok]; rfl⟩
  rw [this]
  clear this
  induction steps generalizing h with
  | nil => exact ⟨fun _ => by simp, fun _ => ⟨[], rfl⟩⟩
  | cons st steps ih =>
    rw [List.forall_mem_cons, ← C99_pair_iff (h.sub 0)]
    constructor
    · rintro ⟨cs, hc⟩
      obtain ⟨c, h1, hc⟩ := bind_eq_ok.1 hc
      obtain ⟨cs', h2, -⟩ := bind_eq_ok.1 hc
      exact ⟨⟨c, h1⟩, (ih (h.sub 1)).1 ⟨cs', h2⟩⟩
    · rintro ⟨⟨c, h1⟩, hs⟩
      obtain ⟨cs', h2⟩ := (ih (h.sub 1)).2 hs
      exact ⟨c :: cs', by simp only [compileSteps, h1, h2, bind_ok]; rfl⟩

theorem usub_ok_iff {a b : Nat} : (∃ n, usub a b = .ok n) ↔ b ≤ a := by
  unfold usub
  split <;> simp_all [panic]

theorem found_iff {c : Char} {l : List Char} : (∃ i, unwrapO (position c l) = .ok i) ↔ c ∈ l := by
  have := position_isSome (c := c) (l := l)
  cases hp : position c l <;> simp_all [panic]

theorem sized_iff {m : OutputSize} {c : Char} : (∃ n, m.get c = .ok n) ↔ m c ≠ none := by
  unfold OutputSize.get
  cases m c <;> simp [panic]

theorem mapE_ok_iff {α β : Type} {f : α → M β} {l : List α} : (∃ bs, mapE f l = .ok bs) ↔ ∀ a ∈ l, ∃ b, f a = .ok b := by
  induction l with
  | nil => simp [mapE]
  | cons a l ih =>
    rw [List.forall_mem_cons]
    constructor
    · rintro ⟨bs, h⟩
      obtain ⟨b, h1, h⟩ := bind_eq_ok.1 h
      obtain ⟨bs', h2, -⟩ := bind_eq_ok.1 h
      exact ⟨⟨b, h1⟩, ih.1 ⟨bs', h2⟩⟩
    · rintro ⟨⟨b, h1⟩, h⟩
      obtain ⟨bs', h2⟩ := ih.2 h
      exact ⟨b :: bs', by simp only [mapE, h1, h2, bind_ok]; rfl⟩

theorem bind_ok_iff {α β : Type} {x : M α} {f : α → M β} : (∃ b, (x >>= f) = .ok b) ↔ ∃ a, x = .ok a ∧ ∃ b, f a = .ok b := by
  constructor
  · rintro ⟨b, h⟩
    obtain ⟨a, h1, h2⟩ := bind_eq_ok.1 h
    exact ⟨a, h1, b, h2⟩
  · rintro ⟨a, h1, b, h2⟩
    exact ⟨b, by rw [h1, bind_ok, h2]⟩

theorem pure_ok_iff {α : Type} {a : α} : (∃ b, (pure a : M α) = .ok b) ↔ True := iff_true_intro ⟨a, rfl⟩

theorem assert_ok_iff {b : Bool} : (∃ u, assertThat b = .ok u) ↔ b = true := by
  cases b <;> simp [panic]

section
variable {ix out s : List Char} {sz : OutputSize}

theorem permutation_iff : (∃ p, Permutation.new ⟨⟨[ix], out, s⟩, sz⟩ = .ok p) ↔ ix.length = out.length ∧ ∀ c ∈ out, c ∈ ix := by
  unfold Permutation.new
  simp only [List.length_singleton, decide_true, assertThat_true, bind_ok, index_cons_zero, bind_ok_iff]
  constructor
  · rintro ⟨u, h1, x, h2, -⟩
    exact ⟨by simpa using assertThat_eq_ok.1 h1, fun c hc => found_iff.1 (mapE_ok_iff.1 ⟨x, h2⟩ c hc)⟩
  · rintro ⟨h1, h2⟩
    obtain ⟨x, hx⟩ := mapE_ok_iff.2 fun c hc => found_iff.2 (h2 c hc)
    exact ⟨(), assertThat_of (by simpa using h1), x, hx, _, rfl⟩

theorem fromSizes_iff {a n : Nat} : (∃ p, Summation.fromSizes a n = .ok p) ↔ 1 ≤ n := by
  unfold Summation.fromSizes
  rw [bind_ok_iff]
  constructor
  · rintro ⟨u, h1, -⟩
    simpa using assertThat_eq_ok.1 h1
  · intro h
    exact ⟨(), assertThat_of (by simpa using h), _, rfl⟩

theorem summation_iff : (∃ p, Summation.new ⟨⟨[ix], out, s⟩, sz⟩ = .ok p) ↔ out.length < ix.length := by
  unfold Summation.new
  simp only [index_cons_zero, bind_ok, bind_ok_iff, fromSizes_iff]
  constructor
  · rintro ⟨n, h1, h2⟩
    have h3 := usub_ok_iff.1 ⟨n, h1⟩
    rw [usub_of_le h3] at h1
    cases h1
    omega
  · intro h
    exact ⟨_, usub_of_le (by omega), by omega⟩

theorem diagonalization_iff : (∃ p, Diagonalization.new ⟨⟨[ix], out, s⟩, sz⟩ = .ok p) ↔ ∀ c, c ∈ ix ∨ c ∈ out → sz c ≠ none := by
  unfold Diagonalization.new
  simp only [List.length_singleton, decide_true, assertThat_true, bind_ok, index_cons_zero, bind_ok_iff, diagLoop_fresh]
  constructor
  · rintro ⟨x, h2, -⟩ c hc
    refine sized_iff.1 (mapE_ok_iff.1 ⟨x, h2⟩ c ?_)
    rw [List.mem_append, mem_fresh]
    tauto
  · intro h
    obtain ⟨x, hx⟩ := mapE_ok_iff.2 fun c (hc : c ∈ out ++ fresh out ix) => sized_iff.2 (h c (by
      rw [List.mem_append, mem_fresh] at hc
      tauto))
    exact ⟨x, hx, _, rfl⟩

theorem diagonalization_length {p : Diagonalization} (h : Diagonalization.new ⟨⟨[ix], out, s⟩, sz⟩ = .ok p) :
    p.outputShape.length = out.length + (fresh out ix).length := by
  unfold Diagonalization.new at h
  simp only [List.length_singleton, decide_true, assertThat_true, bind_ok, index_cons_zero, diagLoop_fresh] at h
  obtain ⟨x, h1, h2⟩ := bind_eq_ok.1 h
  cases h2
  simpa using mapE_length h1

theorem permutationAndSummation_iff : (∃ p, PermutationAndSummation.new ⟨⟨[ix], out, s⟩, sz⟩ = .ok p) ↔
    out.length < ix.length ∧ ∀ c ∈ out, c ∈ ix := by
  unfold PermutationAndSummation.new
  simp only [bind_ok, index_cons_zero, bind_ok_iff]
  constructor
  · rintro ⟨x, h1, y, h2, -⟩
    exact ⟨summation_iff.1 ⟨y, h2⟩, fun c hc => found_iff.1 (mapE_ok_iff.1 ⟨x, h1⟩ c hc)⟩
  · rintro ⟨h1, h2⟩
    obtain ⟨x, hx⟩ := mapE_ok_iff.2 fun c hc => found_iff.2 (h2 c hc)
    obtain ⟨y, hy⟩ := summation_iff.2 h1
    exact ⟨x, hx, y, hy, _, rfl⟩

theorem diagonalizationAndSummation_iff : (∃ p, DiagonalizationAndSummation.new ⟨⟨[ix], out, s⟩, sz⟩ = .ok p) ↔
    (∃ c ∈ ix, c ∉ out) ∧ ∀ c, c ∈ ix ∨ c ∈ out → sz c ≠ none := by
  unfold DiagonalizationAndSummation.new
  simp only [bind_ok_iff]
  constructor
  · rintro ⟨x, h1, n, h2, y, h3, -⟩
    refine ⟨?_, diagonalization_iff.1 ⟨x, h1⟩⟩
    rw [diagonalization_length h1, usub_of_le (by omega)] at h2
    cases h2
    have h3 := fromSizes_iff.1 ⟨y, h3⟩
    obtain ⟨c, hc⟩ := List.exists_mem_of_length_pos (l := fresh out ix) (by omega)
    exact ⟨c, mem_fresh.1 hc⟩
  · rintro ⟨⟨c, hc⟩, h2⟩
    obtain ⟨x, hx⟩ := diagonalization_iff.2 h2
    have := List.length_pos_of_mem (mem_fresh.2 hc)
    obtain ⟨y, hy⟩ := fromSizes_iff (a := out.length) (n := (fresh out ix).length).2 (by omega)
    exact ⟨x, hx, _, usub_of_le (by rw [diagonalization_length hx]; omega), y, by
      rw [diagonalization_length hx, Nat.add_sub_cancel_left]; exact hy, _, rfl⟩

theorem singletonOp_iff {m : SingletonMethod} : (∃ p, SingletonOp.new ⟨⟨[ix], out, s⟩, sz⟩ m = .ok p) ↔
    match m with
    | .identity => True
    | .permutation => ix.length = out.length ∧ ∀ c ∈ out, c ∈ ix
    | .summation => out.length < ix.length
    | .diagonalization => ∀ c, c ∈ ix ∨ c ∈ out → sz c ≠ none
    | .permutationAndSummation => out.length < ix.length ∧ ∀ c ∈ out, c ∈ ix
    | .diagonalizationAndSummation => (∃ c ∈ ix, c ∉ out) ∧ ∀ c, c ∈ ix ∨ c ∈ out → sz c ≠ none := by
  have key : ∀ {α : Type} {x : M α} {f : α → SingletonOp}, (∃ p, (x >>= fun a => pure (f a)) = .ok p) ↔ ∃ a, x = .ok a := by
    intro α x f
    rw [bind_ok_iff]
    exact ⟨fun ⟨a, h, _⟩ => ⟨a, h⟩, fun ⟨a, h⟩ => ⟨a, h, _, rfl⟩⟩
  cases m with
  | identity => exact iff_true_intro ⟨_, rfl⟩
  | permutation => exact key.trans permutation_iff
  | summation => exact key.trans summation_iff
  | diagonalization => exact key.trans diagonalization_iff
  | permutationAndSummation => exact key.trans permutationAndSummation_iff
  | diagonalizationAndSummation => exact key.trans diagonalizationAndSummation_iff

end

/-- C99: which contractions of one operand are compiled. -/
theorem C99_single_iff (sc : SizedContraction) : (∃ p, SingletonContraction.new sc = .ok p) ↔ SingleOk sc := by
  obtain ⟨⟨ops, out, s⟩, sz⟩ := sc
  rcases ops with _ | ⟨ix, _ | ⟨jx, ops⟩⟩
  · simp [SingleOk, SingletonContraction.new, SingletonSummary.new, panic, bind, Except.bind]
  · have hl : ix.dedup.length = (hset ix).length := (perm_of_nodup (List.nodup_dedup ix) (nodup_hset ix) fun c => by simp).length_eq
    have e : SingleOk ⟨⟨[ix], out, s⟩, sz⟩ ↔ out.length ≤ (hset ix).length ∧ (ix.Nodup ∧ (∀ c ∈ out, c ∈ ix) ∨
        ¬ ix.Nodup ∧ ∀ c, c ∈ ix ∨ c ∈ out → sz c ≠ none) := by
      rw [← hl]
      exact ⟨fun ⟨_, h1, h2⟩ => by cases h1; exact h2, fun h => ⟨ix, rfl, h⟩⟩
    rw [e]
    unfold SingletonContraction.new SingletonSummary.new SingletonSummary.fromIndices
    simp only [List.length_singleton, decide_true, assertThat_true, bind_ok, index_cons_zero, charCounts_length]
    by_cases hle : out.length ≤ (hset ix).length
    · rw [usub_of_le hle]
      simp only [bind_ok, pure_bind, hle, true_and]
      have hle' := hle.trans (hset_length_le ix)
      have e1 := diag_zero_iff (L := ix)
      have e2 := reord_zero_iff hle'
      have e3 : ix.Nodup ↔ (hset ix).length = ix.length := hset_length_eq_iff.symm
      have hnot : (hset ix).length - out.length ≠ 0 → ∃ c ∈ ix, c ∉ out := by
        intro h0
        by_contra hn
        push Not at hn
        have := ((nodup_hset ix).subperm fun c hc => hn c (mem_hset.1 hc) : (hset ix).Subperm out).length_le
        omega
      have key : ∀ {x : M SingletonOp} {f : SingletonOp → SingletonContraction},
          (∃ p, (x >>= fun a => pure (f a)) = .ok p) ↔ ∃ a, x = .ok a := by
        intro x f
        rw [bind_ok_iff]
        exact ⟨fun ⟨a, h, _⟩ => ⟨a, h⟩, fun ⟨a, h⟩ => ⟨a, h, _, rfl⟩⟩
      refine key.trans ?_
      rw [singletonOp_iff, getStrategy_eq]
      by_cases hd : ix.Nodup
      · simp only [if_pos (e1.2 hd), hd, not_true_eq_false, false_and, or_false, true_and]
        rw [e3] at hd
        by_cases hs : (hset ix).length - out.length = 0
        · simp only [if_pos hs]
          by_cases hr : ((out.zip ix).filter fun p => p.1 ≠ p.2).length = 0
          · simp only [if_pos hr, true_iff]
            obtain ⟨S, rfl⟩ := e2.1 hr
            exact fun c hc => List.mem_append_left _ hc
          · simp only [if_neg hr]
            exact ⟨fun h => h.2, fun h => ⟨by omega, h⟩⟩
        · simp only [if_neg hs]
          by_cases hr : ((out.zip ix).filter fun p => p.1 ≠ p.2).length = 0
          · simp only [if_pos hr]
            obtain ⟨S, rfl⟩ := e2.1 hr
            exact ⟨fun _ c hc => List.mem_append_left _ hc, fun _ => by omega⟩
          · simp only [if_neg hr]
            exact ⟨fun h => h.2, fun h => ⟨by omega, h⟩⟩
      · simp only [if_neg (mt e1.1 hd), hd, not_false_eq_true, false_and, false_or, true_and]
        by_cases hs : (hset ix).length - out.length = 0
        · simp only [if_pos hs]
        · simp only [if_neg hs]
          exact ⟨fun h => h.2, fun h => ⟨hnot hs, h⟩⟩
    · simp [usub, hle, panic, bind, Except.bind]
  · simp [SingleOk, SingletonContraction.new, SingletonSummary.new, panic, bind, Except.bind]

/-! ## What they compute -/

theorem fetch_is {A : Type} {operands inter : List (View A)} {xs rs : List (Tensor A)} (ho : List.Forall₂ Is operands xs)
    (hr : List.Forall₂ Is inter rs) {n : OperandNumber} {x : Tensor A} (hx : named xs rs n = some x) :
    ∃ v, fetch operands inter n = .ok v ∧ Is v x := by
  have key : ∀ {vs : List (View A)} {ys : List (Tensor A)} {i : Nat}, List.Forall₂ Is vs ys → ys[i]? = some x →
      ∃ v, index vs i = .ok v ∧ Is v x := by
    intro vs ys i hf hi
    have hl := hf.length_eq
    obtain ⟨h1, -⟩ := List.getElem?_eq_some_iff.1 hi
    have hv : vs[i]? = some (vs[i]'(by omega)) := List.getElem?_eq_getElem _
    exact ⟨_, index_eq_ok.2 hv, forall₂_get hf hv hi⟩
  cases n with
  | input i => exact key ho hx
  | intermediateResult i => exact key hr hx

theorem product_run {A : Type} [CommSemiring A] {sc : SizedContraction} {x y z : Tensor A} (hp : Product sc x y z) (h : HashOrd) :
    ∃ p, PairContraction.new h sc = .ok p ∧ ∀ (al : Alloc A) (v w : View A), Is v x → Is w y →
      ∃ r, p.run al v w = .ok r ∧ Is r z := by
  obtain ⟨dims, L, R, h1, h2, h3, h4, h5, h6, h7, h8⟩ := hp
  obtain ⟨p, p1, p2⟩ := new_of_pairOk h h1 h2 h3
  have good : ∀ {ix : List Char} {v : View A} {P : Char → Prop}, (ix.Nodup ∨ ∀ c ∈ ix, dims c ≠ 0) → Good dims P ix v := by
    intro ix v P hi
    rcases hi with hi | hi
    · exact .inl hi
    · exact .inr (.inl (prod_of_pos fun d hd => by
        obtain ⟨c, hc, rfl⟩ := List.mem_map.1 hd
        exact Nat.pos_of_ne_zero (hi c hc)))
  refine ⟨p, p1, fun al v w hv hw => ?_⟩
  obtain ⟨r, r1, r2⟩ := (p2 A al v w _ _ (rep_of_elements hv.2 (hv.1.trans h4)) hv.2.1
    (rep_of_elements hw.2 (hw.1.trans h5)) hw.2.1).1 ⟨good (h6 L (by simp)), good (h6 R (by simp))⟩
  refine ⟨r, r1, r2.shape.trans h7.symm, r2.wf h2.1, fun idx hi => ?_⟩
  rw [r2.shape] at hi
  obtain ⟨σ, hσ, rfl⟩ := exists_assign h2.1 hi
  rw [r2.get σ hσ, h8 σ hσ]
  simp only [Spec.einsum]
  congr 2
  funext σ
  simp [term, mulAs_comm]

theorem yields_run {A : Type} [CommSemiring A] {xs rs : List (Tensor A)} {steps : List PairStep} {z : Tensor A}
    (hy : Yields xs rs steps z) (h : HashOrd) :
    ∃ cs, compileSteps h steps = .ok cs ∧ ∀ (al : Alloc A) (operands inter : List (View A)), List.Forall₂ Is operands xs →
      List.Forall₂ Is inter rs → ∃ l r, runSteps al operands (cs.zip steps) inter = .ok l ∧ l.getLast? = some r ∧ Is r z := by
  induction hy generalizing h with
  | @done rs z =>
    refine ⟨[], rfl, fun al operands inter _ hr => ?_⟩
    have hl := hr.length_eq
    rw [List.length_append, List.length_singleton] at hl
    have h1 : inter[rs.length]? = some (inter[rs.length]'(by omega)) := List.getElem?_eq_getElem _
    refine ⟨inter, _, rfl, ?_, forall₂_get hr h1 (by simp)⟩
    rw [List.getLast?_eq_getElem?, show inter.length - 1 = rs.length by omega, h1]
  | @step rs st steps x y w z hx hy hp _ ih =>
    obtain ⟨p, p1, p2⟩ := product_run hp (h.sub 0)
    obtain ⟨cs, c1, c2⟩ := ih (h.sub 1)
    refine ⟨p :: cs, by simp only [compileSteps, p1, c1, bind_ok]; rfl, fun al operands inter ho hr => ?_⟩
    obtain ⟨u, u1, u2⟩ := fetch_is ho hr hx
    obtain ⟨v, v1, v2⟩ := fetch_is ho hr hy
    obtain ⟨r, r1, r2⟩ := p2 (al.sub 0) u v u2 v2
    obtain ⟨l, t, t1, t2⟩ := c2 (al.sub 1) operands (inter ++ [r]) ho (List.rel_append hr (.cons r2 .nil))
    exact ⟨l, t, by simp only [List.zip_cons_cons, runSteps, u1, v1, r1, bind_ok, t1], t2⟩

/-- C99: an order whose steps find arrays of the recorded shapes is compiled, and returns the result of its last step. -/
theorem C99_program {A : Type} [CommSemiring A] (h : HashOrd) (al : Alloc A) (steps : List PairStep) (operands : List (View A))
    (xs : List (Tensor A)) (z : Tensor A) (ho : List.Forall₂ Is operands xs) (hy : Yields xs [] steps z) :
    ∃ p r, EinsumPath.fromPath h (.pairs steps) = .ok p ∧ p.contractOperands al operands = .ok r ∧ Is r z := by
  obtain ⟨cs, c1, c2⟩ := yields_run hy h
  obtain ⟨l, r, h1, h2, h3⟩ := c2 al operands [] ho .nil
  exact ⟨⟨.pairs steps, .pairContractions cs⟩, r, by simp only [EinsumPath.fromPath, c1, bind_ok]; rfl,
    by simp only [EinsumPath.contractOperands, h1, bind_ok, h2]; rfl, h3⟩

/-! ## What they must name -/

theorem fetch_known {A : Type} {operands inter : List (View A)} {x : OperandNumber} {v : View A}
    (hv : fetch operands inter x = .ok v) : Known operands.length inter.length x := by
  cases x with
  | input i => exact (List.getElem?_eq_some_iff.1 (index_eq_ok.1 hv)).1
  | intermediateResult i => exact (List.getElem?_eq_some_iff.1 (index_eq_ok.1 hv)).1

theorem runSteps_known {A : Type} [Zero A] [Add A] [Mul A] [MulAdd A] {operands : List (View A)} {cs : List PairContraction}
    {steps : List PairStep} {al : Alloc A} {inter l : List (View A)} (hl : cs.length = steps.length)
    (hr : runSteps al operands (cs.zip steps) inter = .ok l) :
    l.length = inter.length + steps.length ∧ ∀ (j : Nat) (st : PairStep), steps[j]? = some st →
      Known operands.length (inter.length + j) st.operandNums.lhs ∧ Known operands.length (inter.length + j) st.operandNums.rhs := by
  induction steps generalizing cs al inter with
  | nil =>
    obtain rfl : inter = l := by simpa [runSteps] using hr
    simp
  | cons st steps ih =>
    cases cs with
    | nil => simp at hl
    | cons c cs =>
      simp only [List.zip_cons_cons, runSteps] at hr
      obtain ⟨u, hu, hr⟩ := bind_eq_ok.1 hr
      obtain ⟨v, hv, hr⟩ := bind_eq_ok.1 hr
      obtain ⟨r, -, hr⟩ := bind_eq_ok.1 hr
      obtain ⟨i1, i2⟩ := ih (by simpa using hl) hr
      rw [List.length_append, List.length_singleton] at i1 i2
      refine ⟨by simp only [List.length_cons]; omega, fun j s hs => ?_⟩
      cases j with
      | zero =>
        obtain rfl : st = s := by simpa using hs
        exact ⟨fetch_known hu, fetch_known hv⟩
      | succ j =>
        have := i2 j s (by simpa using hs)
        rwa [show inter.length + 1 + j = inter.length + (j + 1) by omega] at this

/-- C99: an order of pairs that returns an array has a step, and its steps name only operands and earlier results. -/
theorem C99_missing {A : Type} [Zero A] [Add A] [Mul A] [MulAdd A] (h : HashOrd) (al : Alloc A) (steps : List PairStep)
    (operands : List (View A)) (p : EinsumPath) (r : View A) (hp : EinsumPath.fromPath h (.pairs steps) = .ok p)
    (hr : p.contractOperands al operands = .ok r) :
    steps ≠ [] ∧ ∀ (j : Nat) (st : PairStep), steps[j]? = some st →
      Known operands.length j st.operandNums.lhs ∧ Known operands.length j st.operandNums.rhs := by
  simp only [EinsumPath.fromPath] at hp
  obtain ⟨cs, h1, h2⟩ := bind_eq_ok.1 hp
  obtain rfl : _ = p := by simpa using h2
  simp only [EinsumPath.contractOperands] at hr
  obtain ⟨l, hl, hg⟩ := bind_eq_ok.1 hr
  obtain ⟨k1, k2⟩ := runSteps_known (compileSteps_forall h1).length_eq.symm hl
  refine ⟨fun he => ?_, fun j st hs => by simpa using k2 j st hs⟩
  subst he
  obtain rfl : l = [] := by simpa using k1
  simp [unwrapO, panic] at hg

/-! ## Powers of a matrix -/

section Power

variable {A : Type} [CommSemiring A] {n : Nat}

/-- The matrix as an array. -/
private def ofMatrix (a : Matrix (Fin n) (Fin n) A) : Tensor A :=
  ⟨[n, n], fun | [i, j] => if h : i < n ∧ j < n then a ⟨i, h.1⟩ ⟨j, h.2⟩ else 0 | _ => 0⟩

private theorem is_ofMatrix {v : View A} {a : Matrix (Fin n) (Fin n) A} : Is v (ofMatrix a) ↔ IsMatrix v a := by
  constructor
  · rintro ⟨h1, h2, h3⟩
    refine ⟨h2, h1, fun i j => ?_⟩
    rw [h3 [i, j] (by rw [h1]; simp [ofMatrix, InB])]
    simp [ofMatrix]
  · rintro ⟨h1, h2, h3⟩
    refine ⟨h2, h1, fun idx hi => ?_⟩
    rw [h2] at hi
    obtain ⟨i, j, rfl, hi, hj⟩ := InB_two hi
    rw [h3 ⟨_, hi⟩ ⟨_, hj⟩]
    simp [ofMatrix, hi, hj]

private theorem product_square (x : OperandNumber) (a : Matrix (Fin n) (Fin n) A) :
    Product (squareStep n x).sizedContraction (ofMatrix a) (ofMatrix a) (ofMatrix (a * a)) := by
  refine .mk (fun _ => n) ['i', 'j'] ['j', 'k'] rfl (by simp [squareStep, OutputOk, Used]) (fun c hc => ?_) rfl rfl
    (by simp [NoEmptyDiagonal]) rfl fun σ hσ => ?_
  · have : c = 'i' ∨ c = 'j' ∨ c = 'k' := by simpa [or_assoc] using hc
    simp [squareStep, this]
  · have hi : σ 'i' < n := hσ 'i' (by simp [squareStep])
    have hk : σ 'k' < n := hσ 'k' (by simp [squareStep])
    show (ofMatrix (a * a)).elems [σ 'i', σ 'k'] = Spec.einsum _ [['i', 'j'], ['j', 'k']] _ ['i', 'k'] σ
    rw [Spec.einsum, show summed [['i', 'j'], ['j', 'k']] ['i', 'k'] = ['j'] by decide]
    simp only [sumOver, term, ofMatrix, hi, hk, Matrix.mul_apply]
    simp [hi, hk, Finset.sum_range]

private theorem yields_squares {xs : List (Tensor A)} (q : Nat) (rs : List (Tensor A)) (a : Matrix (Fin n) (Fin n) A) :
    Yields xs (rs ++ [ofMatrix a]) ((List.range' rs.length q).map fun i => squareStep n (.intermediateResult i))
      (ofMatrix (a ^ 2 ^ q)) := by
  induction q generalizing rs a with
  | zero => simpa using Yields.done
  | succ q ih =>
    have := ih (rs ++ [ofMatrix a]) (a * a)
    rw [List.length_append, List.length_singleton, ← pow_two, ← pow_mul, ← pow_succ'] at this
    rw [List.range'_succ, List.map_cons]
    refine .step (x := ofMatrix a) (y := ofMatrix a) ?_ ?_ (product_square _ a) (pow_two a ▸ this) <;>
    simp [squareStep, named]

/-- C99: with `k + 1` steps one operand is raised to the power `2 ^ (k + 1)`. -/
theorem C99_power (h : HashOrd) (al : Alloc A) (k : Nat) (v : View A) (a : Matrix (Fin n) (Fin n) A) (hv : IsMatrix v a) :
    ∃ p r, EinsumPath.fromPath h (.pairs (squarings n k)) = .ok p ∧ p.contractOperands al [v] = .ok r ∧
      IsMatrix r (a ^ 2 ^ (k + 1)) := by
  have hy : Yields [ofMatrix a] [] (squarings n k) (ofMatrix (a ^ 2 ^ (k + 1))) := by
    have := yields_squares (xs := [ofMatrix a]) k [] (a * a)
    rw [← pow_two, ← pow_mul, ← pow_succ'] at this
    rw [squarings, List.range_eq_range']
    exact .step (x := ofMatrix a) (y := ofMatrix a) rfl rfl (product_square _ a) (pow_two a ▸ this)
  obtain ⟨p, r, h1, h2, h3⟩ := C99_program h al _ [v] _ _ (.cons (is_ofMatrix.2 hv) .nil) hy
  exact ⟨p, r, h1, h2, is_ofMatrix.1 h3⟩

end Power

/-- C99: `EinsumPath::from_path` of the order `Singleton`. -/
theorem C99_singleton_iff (h : HashOrd) (sc : SizedContraction) :
    (∃ p, EinsumPath.fromPath h (.singleton sc) = .ok p) ↔ SingleOk sc := by
  rw [← C99_single_iff]
  simp only [EinsumPath.fromPath]
  rw [bind_ok_iff]
  exact ⟨fun ⟨a, h, _⟩ => ⟨a, h⟩, fun ⟨a, h⟩ => ⟨a, h, _, rfl⟩⟩

/-! ## The hypotheses are met -/

/-- `ij->ji` is compiled though no length is recorded. -/
example : SingleOk ⟨⟨[['i', 'j']], ['j', 'i'], []⟩, fun _ => none⟩ :=
  ⟨['i', 'j'], rfl, by decide, .inl ⟨by decide, by decide⟩⟩

/-- So is `ij->ii`, and no string means it. -/
example : SingleOk ⟨⟨[['i', 'j']], ['i', 'i'], []⟩, fun _ => none⟩ :=
  ⟨['i', 'j'], rfl, by decide, .inl ⟨by decide, by decide⟩⟩

/-- `ii->i` needs the length of `i`. -/
example : ¬ SingleOk ⟨⟨[['i', 'i']], ['i'], []⟩, fun _ => none⟩ := by
  rintro ⟨ix, h1, -, ⟨h2, -⟩ | ⟨-, h2⟩⟩ <;> obtain rfl : ['i', 'i'] = ix := by simpa using h1
  · simp at h2
  · simp at h2

/-- The step that squares a matrix is compiled. -/
example : PairOk (squareStep 2 (.input 0)).sizedContraction :=
  ⟨['i', 'j'], ['j', 'k'], rfl, by simp [squareStep, OutputOk, Used], by simp [squareStep]; tauto⟩

/-- Not so if the length of the summed label is missing. -/
example : ¬ PairOk ⟨⟨[['i', 'j'], ['j', 'k']], ['i', 'k'], ['j']⟩, fun c => if c = 'j' then none else some 2⟩ := by
  rintro ⟨L, R, h1, -, h2⟩
  obtain ⟨rfl, rfl⟩ : ['i', 'j'] = L ∧ ['j', 'k'] = R := by simpa using h1
  exact h2 'j' (by simp) (by simp)

/-- A matrix over `ℕ` whose fourth power two steps compute. -/
example : IsMatrix (⟨[1, 1, 1, 0], 0, [2, 2], [2, 1]⟩ : View Nat) !![1, 1; 1, 0] :=
  ⟨(elements_of (t := fun idx => if idx = [1, 1] then 0 else 1) rfl (by decide)).1, rfl, by decide⟩

/-- That power. -/
example : (!![1, 1; 1, 0] : Matrix (Fin 2) (Fin 2) Nat) ^ 2 ^ (1 + 1) = !![5, 3; 3, 2] := by decide

/-- An order that uses its first operand in two steps, and its second not at all. -/
example (x y z w : Tensor Nat) (sc sc' : SizedContraction) (h : Product sc x x z) (h' : Product sc' z x w) :
    Yields [x, y] [] [⟨sc, ⟨.input 0, .input 0⟩⟩, ⟨sc', ⟨.intermediateResult 0, .input 0⟩⟩] w :=
  .step rfl rfl h (.step rfl rfl h' .done)

end Einsum
