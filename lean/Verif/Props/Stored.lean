import Verif.Props.Programs
import Verif.Props.Reproducible

/-!
# Stored contraction orders are reproducible: C100
-/

namespace Einsum

open Spec

/-! ## Only labels and the lengths of labels matter -/

theorem subset_congr {sc sc' : SizedContraction} {ops : List (List Char)} {o : List Char} (h : HashOrd)
    (hs : ∀ c ∈ ops.flatten, sc.outputSize c = sc'.outputSize c) : sc.subset h ops o = sc'.subset h ops o := by
  unfold SizedContraction.subset
  have e1 : ((h.iter [3] (hset ops.flatten)).any fun c => (sc.outputSize c).isNone) =
      (h.iter [3] (hset ops.flatten)).any fun c => (sc'.outputSize c).isNone := by
    rw [Bool.eq_iff_iff, List.any_eq_true, List.any_eq_true]
    refine exists_congr fun c => and_congr_right fun hc => ?_
    rw [hs c (mem_hset.1 ((h.perm _ _).mem_iff.1 hc))]
  have e2 : (fun k => if k ∈ hset ops.flatten then sc.outputSize k else none) =
      fun k => if k ∈ hset ops.flatten then sc'.outputSize k else none := by
    funext k
    split
    · exact hs k (mem_hset.1 ‹_›)
    · rfl
  simp only [e1, e2]

theorem new_congr {sc : SizedContraction} {dims : Char → Nat} {L R : List Char}
    (h1 : sc.contraction.operandIndices = [L, R]) (h3 : ∀ c, c ∈ L ∨ c ∈ R → sc.outputSize c = some (dims c)) (h : HashOrd) :
    PairContraction.new h sc = PairContraction.new h (callSC [L, R] sc.contraction.outputIndices dims) := by
  obtain ⟨⟨ops, o, s⟩, sz⟩ := sc
  simp only at h1 h3 ⊢
  subst h1
  have key : ∀ {ops : List (List Char)} {o' : List Char} (k : HashOrd), (∀ c ∈ ops.flatten, c ∈ L ∨ c ∈ R) →
      SizedContraction.subset k ⟨⟨[L, R], o, s⟩, sz⟩ ops o' = (callSC [L, R] o dims).subset k ops o' := by
    intro ops o' k hk
    refine subset_congr k fun c hc => ?_
    simp only [callSC]
    rw [h3 c (hk c hc), if_pos (by simpa using hk c hc)]
  have e1 : ∀ (k : HashOrd), SimplificationMethodAndOutput.fromIndicesAndSizes k L R o ⟨⟨[L, R], o, s⟩, sz⟩ =
      SimplificationMethodAndOutput.fromIndicesAndSizes k L R o (callSC [L, R] o dims) := by
    intro k
    simp only [SimplificationMethodAndOutput.fromIndicesAndSizes,
      key (ops := [L]) (o' := desiredIndices (k.sub 0) L R o) (k.sub 1) fun c hc => .inl (by simpa using hc)]
  have e2 : ∀ (k : HashOrd), SimplificationMethodAndOutput.fromIndicesAndSizes k R L o ⟨⟨[L, R], o, s⟩, sz⟩ =
      SimplificationMethodAndOutput.fromIndicesAndSizes k R L o (callSC [L, R] o dims) := by
    intro k
    simp only [SimplificationMethodAndOutput.fromIndicesAndSizes,
      key (ops := [R]) (o' := desiredIndices (k.sub 0) R L o) (k.sub 1) fun c hc => .inr (by simpa using hc)]
  have i1 : index [L, R] 0 = .ok L := rfl
  have i2 : index [L, R] 1 = .ok R := rfl
  simp only [PairContraction.new, i1, i2, bind_ok, e1, e2]
  simp only [callSC, i1, i2, bind_ok]
  change (assertThat _ >>= fun _ => _) = assertThat _ >>= fun _ => _
  congr 1
  funext _
  cases hl : SimplificationMethodAndOutput.fromIndicesAndSizes (h.sub 0) L R o (callSC [L, R] o dims) with
  | error e => simp only [callSC] at hl; rw [hl]; rfl
  | ok ls =>
  cases hr : SimplificationMethodAndOutput.fromIndicesAndSizes (h.sub 1) R L o (callSC [L, R] o dims) with
  | error e => simp only [callSC] at hl hr; rw [hl, hr]; rfl
  | ok rs =>
    have := key (ops := [newIndicesOr ls L, newIndicesOr rs R]) (o' := o) (h.sub 2) fun c hc => by
      simp only [List.flatten_cons, List.flatten_nil, List.append_nil, List.mem_append] at hc
      exact hc.imp ((simplification_inv hl).2 c) ((simplification_inv hr).2 c)
    simp only [callSC] at hl hr this
    rw [hl, hr, bind_ok, bind_ok, bind_ok, bind_ok, this]

/-- A compiled step is a call for two operands. -/
theorem step_call {sc : SizedContraction} {dims : Char → Nat} {L R : List Char}
    (h1 : sc.contraction.operandIndices = [L, R]) (h2 : OutputOk [L, R] sc.contraction.outputIndices)
    (h3 : ∀ c, c ∈ L ∨ c ∈ R → sc.outputSize c = some (dims c)) {k : HashOrd} {c : PairContraction}
    (hc : PairContraction.new k sc = .ok c) :
    ∃ h, ∀ (A : Type) [Zero A] [Add A] [Mul A] [MulAdd A] (al : Alloc A) (l r : View A),
      c.run (al.sub 0) l r = (callSC [L, R] sc.contraction.outputIndices dims).contractOperands h al [l, r] := by
  rw [new_congr h1 h3] at hc
  obtain ⟨h, hh⟩ := C83_call h2 k c hc
  exact ⟨h, fun A _ _ _ _ al l r => (hh A al l r).symm⟩

/-- A sized contraction of two operands is run as the one with its labels and lengths that validation would make. -/
theorem contract_congr {sc : SizedContraction} {dims : Char → Nat} {L R : List Char}
    (h1 : sc.contraction.operandIndices = [L, R]) (h3 : ∀ c, c ∈ L ∨ c ∈ R → sc.outputSize c = some (dims c)) (h : HashOrd)
    {A : Type} [Zero A] [Add A] [Mul A] [MulAdd A] (al : Alloc A) (xs : List (View A)) :
    sc.contractOperands h al xs = (callSC [L, R] sc.contraction.outputIndices dims).contractOperands h al xs := by
  have e : generateOptimizedOrder (h.sub 0) sc .naive =
      generateOptimizedOrder (h.sub 0) (callSC [L, R] sc.contraction.outputIndices dims) .naive := by
    obtain ⟨⟨ops, o, s⟩, sz⟩ := sc
    simp only at h1 h3 ⊢
    subst h1
    have : generatePermutedContraction ((h.sub 0).sub 0) ⟨⟨[L, R], o, s⟩, sz⟩ [0, 1] =
        generatePermutedContraction ((h.sub 0).sub 0) (callSC [L, R] o dims) [0, 1] := by
      show unwrapR (SizedContraction.subset _ ⟨⟨[L, R], o, s⟩, sz⟩ [L, R] o) = unwrapR ((callSC [L, R] o dims).subset _ [L, R] o)
      rw [subset_congr (sc' := callSC [L, R] o dims) _ fun c hc => by
        simp only [callSC]
        rw [h3 c (by simpa using hc), if_pos hc]]
    show generatePath (h.sub 0) ⟨⟨[L, R], o, s⟩, sz⟩ [0, 1] = generatePath (h.sub 0) (callSC [L, R] o dims) [0, 1]
    unfold generatePath
    rw [this]
  unfold SizedContraction.contractOperands EinsumPath.new
  rw [e]

/-- C83: every step of any order of pairs that is compiled is a call for two operands. -/
theorem C83_any (steps : List PairStep) (k : HashOrd) (p : EinsumPath) (hp : EinsumPath.fromPath k (.pairs steps) = .ok p) :
    ∃ orders : List HashOrd, orders.length = steps.length ∧
      ∀ (A : Type) [Zero A] [Add A] [Mul A] [MulAdd A] (al : Alloc A) (operands : List (View A)),
        p.contractOperands al operands = (do
          let results ← runCalls al operands (orders.zip steps) []
          unwrapO results.getLast?) := by
  obtain ⟨cs, c1, c2⟩ := bind_eq_ok.1 hp
  cases c2
  suffices ∃ orders : List HashOrd, orders.length = steps.length ∧
      ∀ (A : Type) [Zero A] [Add A] [Mul A] [MulAdd A] (al : Alloc A) (operands inter : List (View A)),
        runSteps al operands (cs.zip steps) inter = runCalls al operands (orders.zip steps) inter by
    obtain ⟨orders, o1, o2⟩ := this
    exact ⟨orders, o1, fun A _ _ _ _ al operands => by simp only [EinsumPath.contractOperands, o2]⟩
  clear hp
  induction steps generalizing k cs with
  | nil =>
    cases c1
    exact ⟨[], rfl, fun A _ _ _ _ al operands inter => rfl⟩
  | cons st steps ih =>
    simp only [compileSteps] at c1
    obtain ⟨c, e1, hc⟩ := bind_eq_ok.1 c1
    obtain ⟨cs, c2, hc⟩ := bind_eq_ok.1 hc
    cases hc
    obtain ⟨orders, o1, o2⟩ := ih _ _ c2
    obtain ⟨L, R, h1, h2, h3⟩ := pairOk_of_new e1
    have h4 : ∀ c, c ∈ L ∨ c ∈ R → st.sizedContraction.outputSize c = some ((st.sizedContraction.outputSize c).getD 0) := by
      intro c hc
      have := h3 c hc
      revert this
      cases st.sizedContraction.outputSize c <;> simp
    obtain ⟨g, hg⟩ := step_call (dims := fun c => (st.sizedContraction.outputSize c).getD 0) h1 h2 h4 e1
    refine ⟨g :: orders, by simp [o1], fun A _ _ _ _ al operands inter => ?_⟩
    simp only [List.zip_cons_cons, runSteps, runCalls, hg, o2,
      contract_congr (dims := fun c => (st.sizedContraction.outputSize c).getD 0) h1 h4 g]

/-! ## Steps that simplify nothing -/

theorem plain_runs {steps : List PairStep} (hp : ∀ st ∈ steps, Plain st) {k k₂ : HashOrd} {cs cs₂ : List PairContraction}
    (hc : compileSteps k steps = .ok cs) (hc₂ : compileSteps k₂ steps = .ok cs₂) {A : Type} [Zero A] [Add A] [Mul A] [MulAdd A]
    (al : Alloc A) (operands inter : List (View A)) :
    runSteps al operands (cs.zip steps) inter = runSteps al operands (cs₂.zip steps) inter := by
  induction steps generalizing k k₂ cs cs₂ al inter with
  | nil => simp [runSteps]
  | cons st steps ih =>
    simp only [compileSteps] at hc hc₂
    obtain ⟨c, c1, hc⟩ := bind_eq_ok.1 hc
    obtain ⟨cs, c2, hc⟩ := bind_eq_ok.1 hc
    cases hc
    obtain ⟨c₂, d1, hc₂⟩ := bind_eq_ok.1 hc₂
    obtain ⟨cs₂, d2, hc₂⟩ := bind_eq_ok.1 hc₂
    cases hc₂
    obtain ⟨L, R, h1, h2, h3⟩ := pairOk_of_new c1
    have h4 : ∀ c, c ∈ L ∨ c ∈ R → st.sizedContraction.outputSize c = some ((st.sizedContraction.outputSize c).getD 0) := by
      intro c hc
      have := h3 c hc
      revert this
      cases st.sizedContraction.outputSize c <;> simp
    obtain ⟨g, hg⟩ := step_call (dims := fun c => (st.sizedContraction.outputSize c).getD 0) h1 h2 h4 c1
    obtain ⟨g₂, hg₂⟩ := step_call (dims := fun c => (st.sizedContraction.outputSize c).getD 0) h1 h2 h4 d1
    have e : ∀ l r, c.run (al.sub 0) l r = c₂.run (al.sub 0) l r := fun l r => by
      rw [hg, hg₂, C86_reduced h2 (hp st (by simp) L R h1) g g₂]
    simp only [List.zip_cons_cons, runSteps, e, ih (fun s hs => hp s (by simp [hs])) c2 d2]

/-- C100: if no step has to simplify an operand, the hash order under which a contraction order is compiled changes nothing. -/
theorem C100_literal (steps : List PairStep) (hp : ∀ st ∈ steps, Plain st) (k k₂ : HashOrd) (p p₂ : EinsumPath)
    (hk : EinsumPath.fromPath k (.pairs steps) = .ok p) (hk₂ : EinsumPath.fromPath k₂ (.pairs steps) = .ok p₂)
    {A : Type} [Zero A] [Add A] [Mul A] [MulAdd A] (al : Alloc A) (operands : List (View A)) :
    p.contractOperands al operands = p₂.contractOperands al operands := by
  simp only [EinsumPath.fromPath] at hk hk₂
  obtain ⟨cs, c1, hk⟩ := bind_eq_ok.1 hk
  cases hk
  obtain ⟨cs₂, d1, hk₂⟩ := bind_eq_ok.1 hk₂
  cases hk₂
  simp only [EinsumPath.contractOperands, plain_runs hp c1 d1]

/-- C100: whether a contraction order is compiled does not depend on the hash order. -/
theorem C100_compiles (order : ContractionOrder) (k k₂ : HashOrd) :
    (∃ p, EinsumPath.fromPath k order = .ok p) ↔ ∃ p, EinsumPath.fromPath k₂ order = .ok p := by
  cases order with
  | singleton sc => rw [C99_singleton_iff, C99_singleton_iff]
  | pairs steps => rw [C99_pairs_iff, C99_pairs_iff]

/-- C100: the order `Singleton` is compiled without a hash order. -/
theorem C100_singleton (sc : SizedContraction) (k k₂ : HashOrd) :
    EinsumPath.fromPath k (.singleton sc) = EinsumPath.fromPath k₂ (.singleton sc) := rfl

/-! ## Steps that do -/

section
variable {A : Type} [Zero A] [Add A] [Mul A] [MulAdd A]

omit [Zero A] [Add A] [Mul A] [MulAdd A] in
theorem fetch_same {operands operands₂ inter inter₂ : List (View A)} (ho : List.Forall₂ SameArray operands operands₂)
    (hi : List.Forall₂ SameArray inter inter₂) {n : OperandNumber} {sh : List Nat}
    (hn : named (operands.map View.shape) (inter.map View.shape) n = some sh) :
    ∃ v v₂, fetch operands inter n = .ok v ∧ fetch operands₂ inter₂ n = .ok v₂ ∧ SameArray v v₂ ∧ v.shape = sh := by
  have key : ∀ {vs ws : List (View A)} {i : Nat}, List.Forall₂ SameArray vs ws → (vs.map View.shape)[i]? = some sh →
      ∃ v w, index vs i = .ok v ∧ index ws i = .ok w ∧ SameArray v w ∧ v.shape = sh := by
    intro vs ws i hf hi
    have hl := hf.length_eq
    rw [List.getElem?_map] at hi
    obtain ⟨v, hv, e⟩ := Option.map_eq_some_iff.1 hi
    obtain ⟨h1, -⟩ := List.getElem?_eq_some_iff.1 hv
    have hw : ws[i]? = some (ws[i]'(by omega)) := List.getElem?_eq_getElem _
    exact ⟨v, _, index_eq_ok.2 hv, index_eq_ok.2 hw, forall₂_get hf hv hw, e⟩
  cases n with
  | input i => exact key ho hn
  | intermediateResult i => exact key hi hn

theorem steady_runs {operands operands₂ : List (View A)} {shapes : List (List Nat)} {steps : List PairStep} {t : Nat → SumTree}
    (hf : Fitting (operands.map View.shape) shapes steps) (hs : ∀ st ∈ steps, Steady st)
    (ho : List.Forall₂ SameArray operands operands₂) {k k₂ : HashOrd} {cs cs₂ : List PairContraction}
    (hc : compileSteps k steps = .ok cs) (hc₂ : compileSteps k₂ steps = .ok cs₂) {al al₂ : Alloc A}
    (ht : ∀ p n, al.sumOrder p n = t n) (ht₂ : ∀ p n, al₂.sumOrder p n = t n) {inter inter₂ : List (View A)}
    (hi : List.Forall₂ SameArray inter inter₂) (hsh : inter.map View.shape = shapes) :
    ∃ l l₂ r r₂, runSteps al operands (cs.zip steps) inter = .ok l ∧ runSteps al₂ operands₂ (cs₂.zip steps) inter₂ = .ok l₂ ∧
      l.getLast? = some r ∧ l₂.getLast? = some r₂ ∧ SameArray r r₂ := by
  induction hf generalizing k k₂ cs cs₂ al al₂ inter inter₂ with
  | @done shapes hne =>
    have hl := hi.length_eq
    have h0 : inter ≠ [] := by
      rintro rfl
      exact hne hsh.symm
    have h1 : 0 < inter.length := List.length_pos_of_ne_nil h0
    have e1 : inter[inter.length - 1]? = some (inter[inter.length - 1]'(by omega)) := List.getElem?_eq_getElem _
    have e2 : inter₂[inter.length - 1]? = some (inter₂[inter.length - 1]'(by omega)) := List.getElem?_eq_getElem _
    refine ⟨inter, inter₂, _, _, by simp [runSteps], by simp [runSteps], ?_, ?_, forall₂_get hi e1 e2⟩
    · rw [List.getLast?_eq_getElem?, e1]
    · rw [List.getLast?_eq_getElem?, show inter₂.length - 1 = inter.length - 1 by omega, e2]
  | @step shapes st steps dims L R h1 h2 h3 h4 h5 h6 _ ih =>
    subst hsh
    simp only [compileSteps] at hc hc₂
    obtain ⟨c, c1, hc⟩ := bind_eq_ok.1 hc
    obtain ⟨cs, c2, hc⟩ := bind_eq_ok.1 hc
    cases hc
    obtain ⟨c₂, d1, hc₂⟩ := bind_eq_ok.1 hc₂
    obtain ⟨cs₂, d2, hc₂⟩ := bind_eq_ok.1 hc₂
    cases hc₂
    obtain ⟨g, hg⟩ := step_call h1 h2 h3 c1
    obtain ⟨g₂, hg₂⟩ := step_call h1 h2 h3 d1
    obtain ⟨u, u₂, a1, a2, a3, a4⟩ := fetch_same ho hi h5
    obtain ⟨v, v₂, b1, b2, b3, b4⟩ := fetch_same ho hi h6
    have rep : ∀ {x x₂ : View A} {ix : List Char}, SameArray x x₂ → x.shape = ix.map dims →
        (Rep x ix dims fun σ => x.elem (ix.map σ)) ∧ Rep x₂ ix dims fun σ => x.elem (ix.map σ) := by
      intro x x₂ ix hx hix
      refine ⟨rep_of_elements hx.1.elements hix, rep_of_elements (t := x.elem) ⟨hx.2.1, fun idx hidx => ?_⟩ (hx.2.2.1 ▸ hix)⟩
      rw [← hx.2.2.1] at hidx
      rw [← hx.2.2.2 idx hidx, hx.1.elements.2 idx hidx]
    have hst := hs st (by simp) L R h1
    obtain ⟨w, w₂, H, w1, w2, w3, w4⟩ := pair_two (L₂ := L) (o₂ := st.sizedContraction.contraction.outputIndices)
      (dims₂ := dims) (f := fun _ i => i) h2 (.inl rfl) (.refl _) (by
        refine hst.imp id (.imp id fun hx => ⟨rfl, ?_⟩)
        rintro (hn | ⟨d, d1, d2, d3⟩)
        · exact hn hx.1
        · exact (hx.2 d d1).elim d2 d3) (fun _ _ _ => ⟨rfl, fun _ => rfl⟩)
      (h4 L (by simp)) (h4 R (by simp)) (h4 L (by simp)) (h4 R (by simp)) g g₂ ht ht₂ (rep a3 a4).1 (rep a3 a4).2
      (rep b3 b4).1 (rep b3 b4).2 a3.1 a3.2.1 b3.1 b3.2.1
    obtain ⟨l, l₂, r, r₂, r1, r2, r3⟩ := ih (fun s h => hs s (by simp [h])) c2 d2 (al := al.sub 1) (al₂ := al₂.sub 1)
      (fun p n => ht (1 :: p) n) (fun p n => ht₂ (1 :: p) n) (inter := inter ++ [w]) (inter₂ := inter₂ ++ [w₂])
      (List.rel_append hi (.cons (same_of_rep h2.1 w3 w4) .nil)) (by rw [List.map_append, List.map_singleton, w3.shape])
    refine ⟨l, l₂, r, r₂, ?_, ?_, r3⟩
    · simp only [List.zip_cons_cons, runSteps, a1, b1, bind_ok, hg, w1, r1]
    · simp only [List.zip_cons_cons, runSteps, a2, b2, bind_ok, hg₂, w2, r2]

/-- C100: a contraction order compiled under two hash orders gives the same elements. -/
theorem C100_elements (steps : List PairStep) (operands operands₂ : List (View A)) (al al₂ : Alloc A) (t : Nat → SumTree)
    (hf : Fitting (operands.map View.shape) [] steps) (hs : ∀ st ∈ steps, Steady st)
    (ho : List.Forall₂ SameArray operands operands₂) (ht : ∀ p n, al.sumOrder p n = t n) (ht₂ : ∀ p n, al₂.sumOrder p n = t n)
    (k k₂ : HashOrd) (p p₂ : EinsumPath) (hk : EinsumPath.fromPath k (.pairs steps) = .ok p)
    (hk₂ : EinsumPath.fromPath k₂ (.pairs steps) = .ok p₂) :
    ∃ r r₂, p.contractOperands al operands = .ok r ∧ p₂.contractOperands al₂ operands₂ = .ok r₂ ∧ SameArray r r₂ := by
  simp only [EinsumPath.fromPath] at hk hk₂
  obtain ⟨cs, c1, hk⟩ := bind_eq_ok.1 hk
  cases hk
  obtain ⟨cs₂, d1, hk₂⟩ := bind_eq_ok.1 hk₂
  cases hk₂
  obtain ⟨l, l₂, r, r₂, r1, r2, r3, r4, r5⟩ := steady_runs hf hs ho c1 d1 ht ht₂ .nil rfl
  refine ⟨r, r₂, ?_, ?_, r5⟩
  · simp only [EinsumPath.contractOperands, r1, bind_ok, r3]
    rfl
  · simp only [EinsumPath.contractOperands, r2, bind_ok, r4]
    rfl

end

/-! ## Generated orders -/

section
variable {dims : Char → Nat} {inputs pin : List (List Char)} {out : List Char}

/-- The steps of a generated order find what they need; only the first one can be an exception. -/
theorem generated_fitting (h : HashOrd) (first : Nat) {shapes : List (List Nat)} (hon : out.Nodup)
    (hsh : ∀ (n : Nat) (R : List Char), inputs[n]? = some R → shapes[n]? = some (R.map dims)) (rest : List (List Char)) :
    ∀ (idx : Nat) (lhs : List Char) (nums : List Nat) (steps : List PairStep) (results : List (List Nat)),
    List.Forall₂ (fun R n => inputs[n]? = some R) rest nums → (idx = 0 → rest ≠ []) →
    (∀ c ∈ lhs, c ∈ pin.flatten) → (∀ c ∈ rest.flatten, c ∈ pin.flatten) → (∀ c ∈ out, c ∈ lhs ∨ c ∈ rest.flatten) →
    NoEmptyDiagonal dims (lhs :: rest) →
    generateSteps h (callSC pin out dims) first idx lhs rest nums = .ok steps → results.length = idx →
    (if idx = 0 then shapes[first]? = some (lhs.map dims) else results.getLast? = some (lhs.map dims)) →
    Fitting shapes results steps ∧
    ((idx = 0 → ∀ R later, rest = R :: later → SettledStep lhs R (later.flatten ++ out)) →
      (idx ≠ 0 → lhs.Nodup ∧ ∀ c ∈ lhs, c ∈ rest.flatten ++ out) → ∀ st ∈ steps, Steady st) ∧
    ((lhs.Nodup ∧ ∀ c ∈ lhs, c ∈ rest.flatten ++ out) →
      (∀ a R b, rest = a ++ R :: b → R.Nodup ∧ ∀ c ∈ R, c ∈ lhs ∨ c ∈ a.flatten ∨ c ∈ b.flatten ∨ c ∈ out) →
      ∀ st ∈ steps, Plain st) := by
  induction rest with
  | nil =>
    intro idx lhs nums steps results hf hi _ _ _ _ hg hl _
    cases hf
    simp only [generateSteps] at hg
    cases hg
    refine ⟨.done ?_, fun _ _ => by simp, fun _ _ => by simp⟩
    rintro rfl
    exact hi hl.symm rfl
  | cons rhs later ih =>
    intro idx lhs nums steps results hf _ hlhs hrest hout hd hg hl hx
    obtain - | @⟨_, num, _, nums, hnum, hf⟩ := hf
    simp only [generateSteps, generateSizedContractionPair] at hg
    obtain ⟨n1, n2⟩ := stepOutput_spec (h := h.sub (2 * idx)) (lhs := lhs) (rhs := rhs) (later := later) hon
      fun c hc => by simpa using hout c hc
    have hN : stepOutput (h.sub (2 * idx)) lhs rhs later (callSC pin out dims).contraction.outputIndices =
      stepOutput (h.sub (2 * idx)) lhs rhs later out := rfl
    rw [hN] at hg
    generalize stepOutput (h.sub (2 * idx)) lhs rhs later out = N at n1 n2 hg
    have ho : OutputOk [lhs, rhs] N := ⟨n1, fun c hc => used_iff.2 (by simpa using ((n2 c).1 hc).1)⟩
    rw [subset_callSC (h.sub (2 * idx + 1)) (ops := [lhs, rhs]) (by
          intro c hc
          simp only [List.flatten_cons, List.flatten_nil, List.append_nil, List.mem_append] at hc
          rcases hc with hc | hc
          · exact hlhs c hc
          · exact hrest c (by simp [hc])) ho, unwrapR_ok, bind_ok] at hg
    obtain ⟨steps', g1, g2⟩ := bind_eq_ok.1 hg
    cases g2
    obtain ⟨i1, i2, i3⟩ := ih (idx + 1) N nums steps' (results ++ [N.map dims]) hf (by omega)
      (fun c hc => by
        rcases ((n2 c).1 hc).1 with h | h
        · exact hlhs c h
        · exact hrest c (by simp [h]))
      (fun c hc => hrest c (by rw [List.flatten_cons]; simp only [List.mem_append]; exact .inr hc))
      (fun c hc => by
        rw [n2]
        have h1 := hout c hc
        rw [List.flatten_cons, List.mem_append] at h1
        tauto)
      (fun ix hix => by
        rcases List.mem_cons.1 hix with rfl | hix
        · exact .inl n1
        · exact hd ix (by simp [hix])) g1 (by simp [hl]) (by rw [if_neg (by omega)]; simp)
    have keep : ∀ c ∈ N, c ∈ later.flatten ++ out := fun c hc => List.mem_append.2 ((n2 c).1 hc).2
    have drop : ∀ c, c ∈ lhs ∨ c ∈ rhs → c ∈ later.flatten ++ out → c ∈ N := fun c hc h =>
      (n2 c).2 ⟨hc, List.mem_append.1 h⟩
    refine ⟨.step dims lhs rhs rfl ho (fun c hc => by simp [callSC, hc]) (fun ix hix => hd ix ?_) ?_ ?_ i1, ?_, ?_⟩
    · simp only [List.mem_cons, List.not_mem_nil, or_false] at hix ⊢
      exact hix.elim .inl fun e => .inr (.inl e)
    · split
      · rw [if_pos ‹_›] at hx
        exact hx
      · rw [if_neg ‹_›, List.getLast?_eq_getElem?, hl] at hx
        exact hx
    · have := hsh num rhs hnum
      split <;> exact this
    · intro s1 s2 st hst
      rcases List.mem_cons.1 hst with rfl | hst
      · intro L R e
        obtain ⟨rfl, rfl⟩ : lhs = L ∧ rhs = R := by simpa [callSC] using e
        show SettledStep lhs rhs N
        by_cases h0 : idx = 0
        · rcases s1 h0 rhs later rfl with e | e | e
          · exact .inl fun c c1 c2 c3 => e c c1 c2 (keep c c3)
          · exact .inr (.inl fun c c1 d d1 c2 d2 c3 d3 => e c c1 d d1 c2 d2 (fun hc => c3 (drop c (.inl c1) hc))
              fun hd => d3 (drop d (.inl d1) hd))
          · exact .inr (.inr ⟨e.1, fun c hc => (e.2 c hc).imp id (drop c (.inl hc))⟩)
        · obtain ⟨e1, e2⟩ := s2 h0
          refine .inr (.inr ⟨e1, fun c hc => ?_⟩)
          have := e2 c hc
          rw [List.flatten_cons, List.append_assoc, List.mem_append] at this
          exact this.imp id (drop c (.inl hc))
      · exact i2 (by omega) (fun _ => ⟨n1, keep⟩) st hst
    · rintro ⟨s1, s2⟩ s3 st hst
      rcases List.mem_cons.1 hst with rfl | hst
      · intro L R e
        obtain ⟨rfl, rfl⟩ : lhs = L ∧ rhs = R := by simpa [callSC] using e
        obtain ⟨r1, r2⟩ := s3 [] rhs later rfl
        refine ⟨s1, r1, fun c hc => ?_, fun c hc => ?_⟩
        · have := s2 c hc
          rw [List.flatten_cons, List.append_assoc, List.mem_append] at this
          exact this.imp id (drop c (.inl hc))
        · have := r2 c hc
          simp only [List.flatten_nil, List.not_mem_nil, false_or] at this
          exact this.imp id fun h => drop c (.inr hc) (List.mem_append.2 h)
      · refine i3 ⟨n1, keep⟩ (fun a R b e => ?_) st hst
        obtain ⟨r1, r2⟩ := s3 (rhs :: a) R b (by rw [e]; rfl)
        refine ⟨r1, fun c hc => ?_⟩
        have hm : c ∈ later.flatten ++ out := by
          rw [e]
          simp [hc]
        rcases r2 c hc with h | h | h
        · exact .inl (drop c (.inl h) hm)
        · rw [List.flatten_cons, List.mem_append] at h
          exact h.imp (fun h => drop c (.inr h) hm) .inl
        · exact .inr (.inr h)

/-- What is used of `generated_fitting`. -/
theorem generated_order {sizes : List (List Nat)} (ho : OutputOk inputs out) (h2 : 2 ≤ inputs.length) (m : OptimizationMethod) (h : HashOrd)
    (or : ContractionOrder) (hor : generateOptimizedOrder h (callSC inputs out dims) m = .ok or)
    (hs : Sized dims inputs sizes) (hn : NoEmptyDiagonal dims inputs) :
    ∃ steps, or = .pairs steps ∧ Fitting sizes [] steps ∧
      ((∀ L R later, pick inputs [] (operandOrder m inputs.length) = L :: R :: later → SettledStep L R (later.flatten ++ out)) →
        ∀ st ∈ steps, Steady st) ∧
      ((∀ ix ∈ inputs, ix.Nodup ∧ ∀ c ∈ ix, c ∈ out ∨ 2 ≤ inputs.countP fun S => c ∈ S) → ∀ st ∈ steps, Plain st) := by
  obtain ⟨first, lhs, rest, nums, h', steps, hfirst, hf, hord, hrest, hop, g1, rfl⟩ := order_parts ho h2 m h or hor
  have hpick : pick inputs [] (operandOrder m inputs.length) = lhs :: rest := by
    rw [← hord]
    have : ∀ {rest : List (List Char)} {nums : List Nat}, List.Forall₂ (fun R n => inputs[n]? = some R) rest nums →
        pick inputs [] nums = rest := by
      intro rest nums hf
      induction hf with
      | nil => rfl
      | cons h1 _ ih =>
        simp only [pick, List.map_cons, List.getD_eq_getElem?_getD, h1, Option.getD_some] at ih ⊢
        rw [ih]
    exact this (.cons hfirst hf)
  have hperm : (lhs :: rest).Perm inputs := by
    rw [← hpick]
    refine pick_perm inputs [] ?_
    cases m <;> first | exact .refl _ | exact List.reverse_perm _
  have hsh : ∀ (n : Nat) (R : List Char), inputs[n]? = some R → sizes[n]? = some (R.map dims) := by
    intro n R hR
    obtain ⟨h1, -⟩ := List.getElem?_eq_some_iff.1 hR
    have hlen := hs.length_eq
    have e : sizes[n]? = some (sizes[n]'(by omega)) := List.getElem?_eq_getElem _
    rw [e, forall₂_get hs hR e]
  obtain ⟨a1, a2, a3⟩ := generated_fitting h' first ho.1 hsh rest 0 lhs nums steps [] hf (fun _ => hrest)
    (fun c hc => by simp [hc]) (fun c hc => by rw [List.flatten_cons, List.mem_append]; exact .inr hc)
    (fun c hc => by
      have := used_iff.1 (hop.2 c hc)
      rwa [List.flatten_cons, List.mem_append] at this) (fun ix hix => hn ix (hperm.mem_iff.1 hix)) g1 rfl
    (by rw [if_pos rfl]; exact hsh first lhs hfirst)
  refine ⟨steps, rfl, a1, fun hp => a2 (fun _ R later e => hp lhs R later (by rw [hpick, e])) (by simp), fun hp => ?_⟩
  have hp' : ∀ ix ∈ lhs :: rest, ix.Nodup ∧ ∀ c ∈ ix, c ∈ out ∨ 2 ≤ (lhs :: rest).countP fun S => c ∈ S := fun ix hix => by
    have := hp ix (hperm.mem_iff.1 hix)
    simpa only [hperm.countP_eq] using this
  have found : ∀ {l : List (List Char)} {c : Char}, 0 < l.countP (fun S => c ∈ S) → c ∈ l.flatten := by
    intro l c hc
    obtain ⟨S, h1, h2⟩ := List.countP_pos_iff.1 hc
    exact List.mem_flatten.2 ⟨S, h1, by simpa using h2⟩
  refine a3 ⟨(hp' lhs (by simp)).1, fun c hc => ?_⟩ fun a R b e => ?_
  · rcases (hp' lhs (by simp)).2 c hc with h | h
    · exact List.mem_append_right _ h
    · rw [List.countP_cons_of_pos (by simpa using hc)] at h
      exact List.mem_append_left _ (found (by omega))
  · obtain ⟨r1, r2⟩ := hp' R (by simp [e])
    refine ⟨r1, fun c hc => ?_⟩
    rcases r2 c hc with h | h
    · exact .inr (.inr (.inr h))
    · rw [e, List.countP_cons, List.countP_append, List.countP_cons_of_pos (by simpa using hc)] at h
      by_cases hl : c ∈ lhs
      · exact .inl hl
      · simp only [hl, decide_false, Bool.false_eq_true, if_false] at h
        rcases Nat.eq_zero_or_pos (a.countP fun S => c ∈ S) with ha | ha
        · exact .inr (.inr (.inl (found (by omega))))
        · exact .inr (.inl (found ha))

theorem optimized_inv {B : Type} {h : HashOrd} {s : String} {ops : List (View B)} {m : OptimizationMethod} {or : ContractionOrder}
    (hd : Denotes s inputs out) (hs : Sized dims inputs (ops.map View.shape))
    (hor : validateAndOptimizeOrder h s ops m = .ok (.ok or)) :
    generateOptimizedOrder (h.sub 1) (callSC inputs out dims) m = .ok or := by
  simp only [validateAndOptimizeOrder, validateAndSize_ok _ hd hs] at hor
  obtain ⟨o, h1, h2⟩ := bind_eq_ok.1 hor
  cases h2
  exact h1

theorem Spec.Fitting.pairOk {sizes results : List (List Nat)} {steps : List PairStep} (hf : Fitting sizes results steps) :
    ∀ st ∈ steps, PairOk st.sizedContraction := by
  induction hf with
  | done _ => simp
  | step dims L R h1 h2 h3 _ _ _ _ ih =>
    intro s hs
    rcases List.mem_cons.1 hs with rfl | hs
    · exact ⟨L, R, h1, h2, fun c hc => by rw [h3 c hc]; simp⟩
    · exact ih s hs

/-- C100: if no operand has a repeated letter or a letter that occurs neither in the output nor in another operand, then an
order that was generated for the call and is compiled twice gives the same runs. -/
theorem C100_generated_literal {B : Type} (h : HashOrd) (s : String) (ops : List (View B)) (m : OptimizationMethod)
    (or : ContractionOrder) (hd : Denotes s inputs out) (hs : Sized dims inputs (ops.map View.shape))
    (hor : validateAndOptimizeOrder h s ops m = .ok (.ok or)) (h2 : 2 ≤ inputs.length)
    (hp : ∀ ix ∈ inputs, ix.Nodup ∧ ∀ c ∈ ix, c ∈ out ∨ 2 ≤ inputs.countP fun S => c ∈ S) (k k₂ : HashOrd) :
    ∃ p p₂, EinsumPath.fromPath k or = .ok p ∧ EinsumPath.fromPath k₂ or = .ok p₂ ∧
      ∀ (A : Type) [Zero A] [Add A] [Mul A] [MulAdd A] (al : Alloc A) (operands : List (View A)),
        p.contractOperands al operands = p₂.contractOperands al operands := by
  obtain ⟨steps, rfl, a1, -, a3⟩ := generated_order hd.outputOk h2 m _ or (optimized_inv hd hs hor) hs fun ix hix => .inl (hp ix hix).1
  obtain ⟨p, hk⟩ := (C99_pairs_iff k steps).2 a1.pairOk
  obtain ⟨p₂, hk₂⟩ := (C100_compiles _ k k₂).1 ⟨p, hk⟩
  exact ⟨p, p₂, hk, hk₂, fun A _ _ _ _ al operands => C100_literal steps (a3 hp) k k₂ p p₂ hk hk₂ al operands⟩

/-- C100: an order that was generated for a call gives the same elements whenever it is compiled, if its first step is settled. -/
theorem C100_generated {B : Type} (h : HashOrd) (s : String) (ops : List (View B)) (m : OptimizationMethod)
    (or : ContractionOrder) (hd : Denotes s inputs out) (hs : Sized dims inputs (ops.map View.shape))
    (hor : validateAndOptimizeOrder h s ops m = .ok (.ok or)) (h2 : 2 ≤ inputs.length) (hn : NoEmptyDiagonal dims inputs)
    (hset : ∀ L R later, pick inputs [] (operandOrder m inputs.length) = L :: R :: later → SettledStep L R (later.flatten ++ out))
    (k k₂ : HashOrd) {A : Type} [Zero A] [Add A] [Mul A] [MulAdd A] (al al₂ : Alloc A) (t : Nat → SumTree)
    (ht : ∀ p n, al.sumOrder p n = t n) (ht₂ : ∀ p n, al₂.sumOrder p n = t n) (operands operands₂ : List (View A))
    (hs' : Sized dims inputs (operands.map View.shape)) (ho : List.Forall₂ SameArray operands operands₂) :
    ∃ p p₂ r r₂, EinsumPath.fromPath k or = .ok p ∧ EinsumPath.fromPath k₂ or = .ok p₂ ∧
      p.contractOperands al operands = .ok r ∧ p₂.contractOperands al₂ operands₂ = .ok r₂ ∧ SameArray r r₂ := by
  obtain ⟨steps, rfl, a1, a2, -⟩ := generated_order hd.outputOk h2 m _ or (optimized_inv hd hs hor) hs' hn
  obtain ⟨p, hk⟩ := (C99_pairs_iff k steps).2 a1.pairOk
  obtain ⟨p₂, hk₂⟩ := (C100_compiles _ k k₂).1 ⟨p, hk⟩
  obtain ⟨r, r₂, hr⟩ := C100_elements steps operands operands₂ al al₂ t a1 (a2 hset) ho ht ht₂ k k₂ p p₂ hk hk₂
  exact ⟨p, p₂, r, r₂, hk, hk₂, hr⟩

end

/-- The order of a call for two operands. -/
theorem order_two {L R o : List Char} {dims : Char → Nat} (h : HashOrd) (ho : OutputOk [L, R] o) :
    generateOptimizedOrder h (callSC [L, R] o dims) .naive = .ok (.pairs [⟨callSC [L, R] o dims, ⟨.input 0, .input 1⟩⟩]) := by
  show generatePath h (callSC [L, R] o dims) [0, 1] = _
  have p1 : generatePermutedContraction (h.sub 0) (callSC [L, R] o dims) [0, 1] = .ok (callSC [L, R] o dims) := by
    show unwrapR ((callSC [L, R] o dims).subset _ [L, R] o) = _
    rw [subset_callSC _ (fun _ h => h) ho]
    rfl
  unfold generatePath
  rw [p1, bind_ok]
  show (do let sc' ← unwrapR ((callSC [L, R] o dims).subset _ [L, R] o); return _) = _
  rw [subset_callSC _ (fun _ h => h) ho]
  rfl

/-! ## Examples -/

set_option maxRecDepth 100000 in
/-- C100: the exception is real: in `xijk,xij->x` the left operand has to be simplified, and the labels `i` and `j` are
contracted. -/
theorem C100_exception : ∃ (order : ContractionOrder) (k k' : HashOrd) (p p' : EinsumPath) (r r' : View Sat),
    (∀ h, validateAndOptimizeOrder h "xijk,xij->x" [Ex.a43, Ex.b43] .naive = .ok (.ok order)) ∧
    EinsumPath.fromPath k order = .ok p ∧ EinsumPath.fromPath k' order = .ok p' ∧
    p.contractOperands (Alloc.rowMajor Sat) [Ex.a43, Ex.b43] = .ok r ∧
    p'.contractOperands (Alloc.rowMajor Sat) [Ex.a43, Ex.b43] = .ok r' ∧ r.read [0] ≠ r'.read [0] := by
  refine ⟨.pairs [⟨callSC [['x', 'i', 'j', 'k'], ['x', 'i', 'j']] ['x'] Ex.dims43, ⟨.input 0, .input 1⟩⟩],
    HashOrd.insertion, HashOrd.reversed, ?_⟩
  have e1 : (do
      let p ← EinsumPath.fromPath HashOrd.insertion
        (.pairs [⟨callSC [['x', 'i', 'j', 'k'], ['x', 'i', 'j']] ['x'] Ex.dims43, ⟨.input 0, .input 1⟩⟩])
      p.contractOperands (Alloc.rowMajor Sat) [Ex.a43, Ex.b43]) = .ok ⟨[⟨-9, by decide⟩], 0, [1], [1]⟩ := rfl
  have e2 : (do
      let p ← EinsumPath.fromPath HashOrd.reversed
        (.pairs [⟨callSC [['x', 'i', 'j', 'k'], ['x', 'i', 'j']] ['x'] Ex.dims43, ⟨.input 0, .input 1⟩⟩])
      p.contractOperands (Alloc.rowMajor Sat) [Ex.a43, Ex.b43]) = .ok ⟨[0], 0, [1], [1]⟩ := rfl
  obtain ⟨p, p1, p2⟩ := bind_eq_ok.1 e1
  obtain ⟨q, q1, q2⟩ := bind_eq_ok.1 e2
  refine ⟨p, q, _, _, fun h => ?_, p1, q1, p2, q2, by decide⟩
  have hs : Sized Ex.dims43 [['x', 'i', 'j', 'k'], ['x', 'i', 'j']] ([Ex.a43, Ex.b43].map View.shape) :=
    .cons (by decide) (.cons (by decide) .nil)
  simp only [validateAndOptimizeOrder, validateAndSize_ok _ Ex.denotes_43 hs]
  rw [order_two _ Ex.denotes_43.outputOk]
  rfl

/-- In the call of C86 whose result depends on the order of the labels of the intermediate result nothing has to be simplified,
so that it is enough to keep the contraction order. -/
example (h k k₂ : HashOrd) (or : ContractionOrder)
    (hor : validateAndOptimizeOrder h "xi,xj,xij->x" [Ex.u86, Ex.u86, Ex.c86] .naive = .ok (.ok or)) :
    ∃ p p₂, EinsumPath.fromPath k or = .ok p ∧ EinsumPath.fromPath k₂ or = .ok p₂ ∧
      ∀ (A : Type) [Zero A] [Add A] [Mul A] [MulAdd A] (al : Alloc A) (operands : List (View A)),
        p.contractOperands al operands = p₂.contractOperands al operands :=
  C100_generated_literal (dims := Ex.dims43) h _ [Ex.u86, Ex.u86, Ex.c86] .naive or Ex.denotes_86 (.cons (by decide) (.cons (by decide) (.cons (by decide) .nil)))
    hor (by decide) (by decide) k k₂

/-- A first step with a left operand that has to be simplified and two contracted labels, but no label in both operands and
the output. -/
example : SettledStep ['i', 'j', 'k', 'k'] ['i', 'j'] [] := .inl (by decide)

/-- The step of `C100_exception` is not settled. -/
example : ¬ SettledStep ['x', 'i', 'j', 'k'] ['x', 'i', 'j'] ['x'] := by
  simp [SettledStep]

/-- The steps that square a matrix twice fit an operand of shape `[2, 2]`. -/
example : Fitting [[2, 2]] [] (squarings 2 1) := by
  have h1 : ∀ x, ∀ c, c ∈ ['i', 'j'] ∨ c ∈ ['j', 'k'] → (squareStep 2 x).sizedContraction.outputSize c = some 2 := by
    intro x c hc
    have : c = 'i' ∨ c = 'j' ∨ c = 'k' := by simpa [or_assoc] using hc
    simp [squareStep, this]
  have h2 : ∀ x, OutputOk [['i', 'j'], ['j', 'k']] (squareStep 2 x).sizedContraction.contraction.outputIndices := by
    intro x
    simp [squareStep, OutputOk, Used]
  have h3 : NoEmptyDiagonal (fun _ => 2) [['i', 'j'], ['j', 'k']] := by simp [NoEmptyDiagonal]
  exact .step (fun _ => 2) _ _ rfl (h2 _) (h1 _) h3 rfl rfl
    (.step (fun _ => 2) _ _ rfl (h2 _) (h1 _) h3 rfl rfl (.done (by simp)))

/-- And they simplify nothing. -/
example : ∀ st ∈ squarings 2 1, Plain st := by
  have h1 : ∀ x, Plain (squareStep 2 x) := by
    intro x L R e
    obtain ⟨rfl, rfl⟩ : ['i', 'j'] = L ∧ ['j', 'k'] = R := by simpa [squareStep] using e
    exact ⟨by decide, by decide, by simp [squareStep], by simp [squareStep]⟩
  simp [squarings, h1]

end Einsum
