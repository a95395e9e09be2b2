import Verif.SpecOrder
import Verif.Props.Algebra
import Verif.Props.HandBuilt
import Verif.Props.Work

/-!
# Any contraction tree: C72
-/

namespace Einsum

open Spec

/-! ## Pending arrays -/

/-- A pending array: its number, labels and elements. -/
structure Pending (A : Type) where
  num : OperandNumber
  labels : List Char
  elems : List Nat → A

/-- What a step finds under this number. -/
def Pending.In {A : Type} (dims : Char → Nat) (operands inter : List (View A)) (x : Pending A) : Prop :=
  ∃ v, fetch operands inter x.num = .ok v ∧ v.Wf ∧ Rep v x.labels dims fun σ => x.elems (x.labels.map σ)

/-- The Einstein sum of the pending arrays. -/
def pendingSum {A : Type} [CommSemiring A] (dims : Char → Nat) (live : List (Pending A)) (out : List Char) :
    (Char → Nat) → A :=
  Spec.einsum dims (live.map Pending.labels) (live.map Pending.elems) out

theorem pendingSum_perm {A : Type} [CommSemiring A] {dims : Char → Nat} {live live' : List (Pending A)}
    (hp : live.Perm live') (out : List Char) : pendingSum dims live out = pendingSum dims live' out := by
  funext σ
  unfold pendingSum Spec.einsum
  rw [sumOver_perm (perm_of_nodup (summed_nodup _ _) (summed_nodup (live'.map Pending.labels) out) fun c => by
    rw [mem_summed, mem_summed, (hp.map Pending.labels).flatten.mem_iff])]
  congr 1
  funext σ
  unfold term
  rw [List.zipWith_map, List.zipWith_self, List.zipWith_map, List.zipWith_self]
  exact (hp.map _).prod_eq

theorem fetch_append {A : Type} {operands inter : List (View A)} {n : OperandNumber} {v w : View A}
    (h : fetch operands inter n = .ok v) : fetch operands (inter ++ [w]) n = .ok v := by
  cases n with
  | input n => exact h
  | intermediateResult n =>
    simp only [fetch] at h ⊢
    rw [index_eq_ok] at h ⊢
    rw [List.getElem?_append_left (List.getElem?_eq_some_iff.1 h).1, h]

/-- Steps that contract the pending arrays compile and compute their Einstein sum. -/
theorem contracts_ok {dims : Char → Nat} {out : List Char} {k : Nat} {pending : List (OperandNumber × List Char)}
    {steps : List PairStep} (hc : Contracts dims out k pending steps) (h : HashOrd) :
    ∃ cs, compileSteps h steps = .ok cs ∧
      ∀ (A : Type) [CommSemiring A] (al : Alloc A) (operands inter : List (View A)) (live : List (Pending A)),
        inter.length = k → live.map (fun x => (x.num, x.labels)) = pending →
        (∀ x ∈ live, x.In dims operands inter) →
        Outcome (∀ x ∈ live, x.labels.Nodup ∨ ∀ c ∈ x.labels, dims c ≠ 0) False
          (runSteps al operands (cs.zip steps) inter >>= fun inter => unwrapO inter.getLast?)
          fun w => w.Wf ∧ Rep w out dims (pendingSum dims live out) := by
  induction hc generalizing h with
  | done k =>
    refine ⟨[], rfl, ?_⟩
    intro A _ al operands inter live hi hl hin
    obtain ⟨x, rfl⟩ : ∃ x, live = [x] := List.length_eq_one_iff.1 (by simpa using congrArg List.length hl)
    simp only [List.map_cons, List.map_nil, List.cons.injEq, Prod.mk.injEq, and_true] at hl
    obtain ⟨v, v1, v2, v3⟩ := hin x (by simp)
    rw [hl.1] at v1
    rw [hl.2] at v3
    simp only [fetch, index_eq_ok] at v1
    refine (Outcome.ok ⟨v, ?_, v2, v3.congr fun σ _ => ?_⟩).imp (fun _ => trivial) id fun _ hw => hw
    · have e : inter.getLast? = some v := by
        rw [List.getLast?_eq_getElem?, hi, Nat.add_sub_cancel, v1]
      change unwrapO inter.getLast? = _
      rw [e]
      rfl
    · have : summed [out] out = [] := by
        refine List.eq_nil_iff_forall_not_mem.2 fun c hc => ?_
        have := mem_summed.1 hc
        simp at this
      simp [pendingSum, Spec.einsum, hl.2, this, term]
  | @step k pending rest l r L R O st steps hp hn hops hO hsz hok hkeep _ ih =>
    obtain ⟨⟨⟨ops, o, s⟩, sz⟩, nums⟩ := st
    simp only at hn hops hO hsz
    subst hn hops hO
    have hv : SizedContraction.Valid ⟨⟨[L, R], o, summationOf [L, R] o⟩, sz⟩ dims :=
      ⟨hok, rfl, fun c hc => hsz c (by simpa using hc)⟩
    obtain ⟨p, p1, p2⟩ := pair_ok hv rfl (h.sub 0)
    obtain ⟨cs, c1, c2⟩ := ih (h.sub 1)
    have p1' : PairContraction.new (h.sub 0) ⟨⟨[L, R], o, s⟩, sz⟩ = .ok p := p1
    refine ⟨p :: cs, by simp only [compileSteps, p1', c1, bind_ok]; rfl, ?_⟩
    intro A _ al operands inter live hi hl hin
    have hperm : live.Perm live := .refl _
    obtain ⟨live', f1, f2⟩ := List.perm_comp_forall₂ (r := fun a (x : Pending A) => (x.num, x.labels) = a) hp.symm
      (by rw [← hl, List.forall₂_map_left_iff]; exact List.forall₂_same.2 fun _ _ => rfl)
    cases f1 with
    | @cons _ x _ live' hx f1 =>
    cases f1 with
    | @cons _ y _ live' hy f1 =>
    simp only [Prod.mk.injEq] at hx hy
    obtain ⟨rfl, rfl⟩ := hx
    obtain ⟨rfl, rfl⟩ := hy
    have hrest : live'.map (fun x => (x.num, x.labels)) = rest := by
      rw [← List.forall₂_eq_eq_eq, List.forall₂_map_left_iff]
      exact f1.flip
    obtain ⟨v, v1, v2, v3⟩ := hin x (f2.mem_iff.1 (by simp))
    obtain ⟨w, w1, w2, w3⟩ := hin y (f2.mem_iff.1 (by simp))
    have e : (runSteps al operands ((p :: cs).zip (⟨⟨⟨[x.labels, y.labels], o, s⟩, sz⟩, ⟨x.num, y.num⟩⟩ :: steps)) inter >>=
        fun inter => unwrapO inter.getLast?) = p.run (al.sub 0) v w >>= fun z =>
          runSteps (al.sub 1) operands (cs.zip steps) (inter ++ [z]) >>= fun inter => unwrapO inter.getLast? := by
      simp only [List.zip_cons_cons, runSteps, v1, w1, bind_ok, bind_assoc]
    rw [e]
    refine ((p2 A (al.sub 0) v w _ _ v3 v2 w3 w2).bind (g' := ∀ x ∈ live', x.labels.Nodup ∨ ∀ c ∈ x.labels, dims c ≠ 0)
      (b' := False) (R := fun u => u.Wf ∧ Rep u out dims (pendingSum dims live out)) fun z hz => ?_).imp
      (fun hg => ⟨⟨?_, ?_⟩, fun u hu => hg u (f2.mem_iff.1 (by simp [hu]))⟩) False.elim fun _ hu => hu
    · have hzw : z.Wf := hz.wf hok.1
      refine (c2 A (al.sub 1) operands (inter ++ [z]) (⟨.intermediateResult k, o, z.elem⟩ :: live') (by simp [hi])
        (by simp [hrest]) ?_).imp (fun hg u hu => ?_) id fun u hu => ⟨hu.1, hu.2.congr fun σ hσ => ?_⟩
      · intro u hu
        rcases List.mem_cons.1 hu with rfl | hu
        · refine ⟨z, ?_, hzw, ?_⟩
          · simp only [fetch, index_eq_ok]
            rw [← hi, List.getElem?_concat_length]
          · refine ⟨hz.shape, hz.strides, fun σ hσ => ?_⟩
            simp [View.elem, hz.get σ hσ]
        · obtain ⟨u', u1, u2, u3⟩ := hin u (f2.mem_iff.1 (by simp [hu]))
          exact ⟨u', fetch_append u1, u2, u3⟩
      · rcases List.mem_cons.1 hu with rfl | hu
        · exact .inl hok.1
        · exact hg u hu
      · rw [pendingSum_perm f2.symm]
        refine einsum_stage (in₁ := [x.labels, y.labels]) (ts₁ := [x.elems, y.elems]) rfl hok.2 (fun c hc hc' => ?_)
          (fun σ hσ => ?_) hσ
        · refine hkeep c (by simpa [Used] using hc) (hc'.symm.imp_right ?_)
          rintro ⟨q, hq, hcq⟩
          obtain ⟨u, hu, rfl⟩ := List.mem_map.1 hq
          rw [← hrest]
          exact ⟨_, List.mem_map.2 ⟨u, hu, rfl⟩, hcq⟩
        · simp only [View.elem, hz.get σ hσ, Spec.einsum]
          congr 1
          funext σ
          simp [term, mulAs_comm]
    · rcases hg x (f2.mem_iff.1 (by simp)) with hx | hx
      · exact .inl hx
      · exact .inr (.inl (prod_of_pos fun d hd => by
          obtain ⟨c, hc, rfl⟩ := List.mem_map.1 hd
          exact Nat.pos_of_ne_zero (hx c hc)))
    · rcases hg y (f2.mem_iff.1 (by simp)) with hx | hx
      · exact .inl hx
      · exact .inr (.inl (prod_of_pos fun d hd => by
          obtain ⟨c, hc, rfl⟩ := List.mem_map.1 hd
          exact Nat.pos_of_ne_zero (hx c hc)))

theorem Spec.Contracts.out_nodup {dims : Char → Nat} {out : List Char} {k : Nat}
    {pending : List (OperandNumber × List Char)} {steps : List PairStep} (hc : Contracts dims out k pending steps)
    (hne : steps ≠ []) : out.Nodup := by
  induction hc with
  | done => exact absurd rfl hne
  | @step k pending rest l r L R O st steps hp hn hops hO hsz hok hkeep hc ih =>
    cases steps with
    | nil =>
      cases hc
      exact hok.1
    | cons => exact ih (by simp)

theorem Spec.Contracts.ne_nil {dims : Char → Nat} {out : List Char}
    {pending : List (OperandNumber × List Char)} {steps : List PairStep} (hc : Contracts dims out 0 pending steps) :
    steps ≠ [] := by
  cases hc
  simp

/-- The operands as pending arrays. -/
theorem initial_in {A : Type} [Zero A] {dims : Char → Nat} {inputs : List (List Char)} {operands : List (View A)}
    {ts : List (List Nat → A)} (hs : Sized dims inputs (operands.map View.shape))
    (he : List.Forall₂ Elements operands ts) {i : Nat} (hi : i < inputs.length) :
    Pending.In dims operands [] ⟨.input i, inputs.getD i [], ts.getD i fun _ => 0⟩ := by
  have l1 : inputs.length = operands.length := by simpa using hs.length_eq
  have l2 := he.length_eq
  have ho : operands[i]? = some (operands[i]'(by omega)) := List.getElem?_eq_getElem _
  have ht : ts[i]? = some (ts[i]'(by omega)) := List.getElem?_eq_getElem _
  have hx : inputs[i]? = some inputs[i] := List.getElem?_eq_getElem _
  have e := forall₂_get he ho ht
  have hsh : operands[i].shape = inputs[i].map dims :=
    forall₂_get hs hx (by rw [List.getElem?_map, ho]; rfl)
  refine ⟨operands[i], by simp only [fetch, index_eq_ok]; exact ho, e.1, ?_⟩
  simp only [List.getD_eq_getElem?_getD, hx, ht, Option.getD_some]
  exact rep_of_elements e hsh

theorem pending_outcome {dims : Char → Nat} {out : List Char} {inputs : List (List Char)} {steps : List PairStep}
    (hc : Contracts dims out 0 (numbered inputs) steps) (h : HashOrd) :
    ∃ p, EinsumPath.fromPath h (.pairs steps) = .ok p ∧
      ∀ (A : Type) [CommSemiring A] (al : Alloc A) (operands : List (View A)) (ts : List (List Nat → A)),
        Sized dims inputs (operands.map View.shape) → List.Forall₂ Elements operands ts →
        Outcome (NoEmptyDiagonal dims inputs) False (p.contractOperands al operands) (IsEinsum dims inputs ts out) := by
  obtain ⟨cs, c1, c2⟩ := contracts_ok hc h
  refine ⟨⟨.pairs steps, .pairContractions cs⟩, by simp only [EinsumPath.fromPath, c1, bind_ok]; rfl, ?_⟩
  intro A _ al operands ts hs he
  have lt : ts.length = inputs.length := by
    have := he.length_eq
    have l1 : inputs.length = operands.length := by simpa using hs.length_eq
    omega
  have hsum : pendingSum dims ((List.range inputs.length).map fun i => ⟨.input i, inputs.getD i [], ts.getD i fun _ => 0⟩)
      out = Spec.einsum dims inputs ts out := by
    unfold pendingSum
    rw [List.map_map, List.map_map]
    congr 1
    · exact pick_range inputs []
    · rw [← lt]; exact pick_range ts _
  have := c2 A al operands [] ((List.range inputs.length).map fun i => ⟨.input i, inputs.getD i [], ts.getD i fun _ => 0⟩)
    rfl (by simp [numbered]) (fun x hx => by
      obtain ⟨i, hi, rfl⟩ := List.mem_map.1 hx
      exact initial_in hs he (List.mem_range.1 hi))
  rw [hsum] at this
  refine this.imp (fun hg x hx => ?_) id fun w hw => hw.2.isEinsum (hc.out_nodup hc.ne_nil)
  obtain ⟨i, hi, rfl⟩ := List.mem_map.1 hx
  refine hg _ ?_
  simp only [List.getD_eq_getElem?_getD, List.getElem?_eq_getElem (List.mem_range.1 hi), Option.getD_some]
  exact List.getElem_mem _

/-! ## Generated orders -/

theorem contracts_of_shape {dims : Char → Nat} {out : List Char} {first : Nat} {nums : List Nat} {lhs : List Char}
    {rest : List (List Char)} {steps : List PairStep} (hn : nums.length = rest.length)
    (hl : steps.length = rest.length)
    (hst : ∀ k st, steps[k]? = some st → StepShape dims out first 0 lhs rest nums steps k st) (n k : Nat)
    (num : OperandNumber) (l : List Char) (hk : k + n = steps.length) (h0 : 0 < steps.length)
    (hnum : num = if k = 0 then .input first else .intermediateResult (k - 1)) (hl0 : k = 0 → l = lhs)
    (hls : ∀ j st, k = j + 1 → steps[j]? = some st → l = st.sizedContraction.contraction.outputIndices) :
    Contracts dims out k ((num, l) :: ((nums.drop k).map OperandNumber.input).zip (rest.drop k)) (steps.drop k) := by
  induction n generalizing k num l with
  | zero =>
    obtain ⟨j, rfl⟩ : ∃ j, k = j + 1 := ⟨k - 1, by omega⟩
    have hj : steps[j]? = some steps[j] := List.getElem?_eq_getElem (by omega)
    have e := hls j _ rfl hj
    rw [(hst j _ hj).last (by omega)] at e
    rw [List.drop_eq_nil_of_le (as := steps) (by omega), List.drop_eq_nil_of_le (as := rest) (by omega),
      List.zip_nil_right, hnum, e]
    exact .done j
  | succ n ih =>
    have hk' : k < steps.length := by omega
    have hr : k < rest.length := by omega
    have hnk : k < nums.length := by omega
    have hs : steps[k]? = some steps[k] := List.getElem?_eq_getElem hk'
    obtain ⟨a1, a2, ⟨l', r, b1, b2, b3, b4⟩, a4, a5, a6, a7⟩ := hst k _ hs
    have hl' : l' = l := by
      cases k with
      | zero => rw [b3 rfl, hl0 rfl]
      | succ j =>
        have hj : steps[j]? = some steps[j] := List.getElem?_eq_getElem (by omega)
        rw [b4 j _ rfl hj, hls j _ rfl hj]
    subst hl'
    have hr' : rest[k] = r := by
      rw [List.getElem?_eq_getElem hr] at b2
      exact Option.some.inj b2
    have a1' := a1 _ (List.getElem?_eq_getElem hnk)
    rw [Nat.zero_add] at a2
    rw [List.drop_eq_getElem_cons hk', List.drop_eq_getElem_cons hr, List.drop_eq_getElem_cons hnk, List.map_cons,
      List.zip_cons_cons, hr']
    refine .step (.refl _) (l := num) (r := .input nums[k]) ?_ b1 rfl
      (fun c hc => a7.size c (by rw [b1]; simpa using hc)) (by rw [← b1]; exact a7.out) (fun c hc hc' => ?_)
      (ih (k + 1) _ _ (by omega) (by simp) (by omega) ?_)
    · rw [← a1', hnum, ← a2]
    · refine (a5 c).2 ⟨?_, ?_⟩
      · rw [List.take_add_one, b2]
        rcases hc with hc | hc
        · cases k with
          | zero => exact .inl (by rw [← hl0 rfl]; exact hc)
          | succ j =>
            have hj : steps[j]? = some steps[j] := List.getElem?_eq_getElem (by omega)
            rw [hls j _ rfl hj] at hc
            exact (((hst j _ hj).mem c).1 hc).1.imp_right fun hc => by simp [hc]
        · exact .inr (by simp [hc])
      · refine hc'.symm.imp_left ?_
        rintro ⟨x, hx, hcx⟩
        exact List.mem_flatten.2 ⟨x.2, (List.of_mem_zip hx).2, hcx⟩
    · rintro j st h1 h2
      cases h1
      rw [hs] at h2
      cases h2
      rfl

/-! ## Counting -/

/-- The step with the summation labels that belong to it; `PairContraction::new` does not look at them. -/
def PairStep.norm (st : PairStep) : PairStep :=
  ⟨⟨⟨st.sizedContraction.contraction.operandIndices, st.sizedContraction.contraction.outputIndices,
    summationOf st.sizedContraction.contraction.operandIndices st.sizedContraction.contraction.outputIndices⟩,
    st.sizedContraction.outputSize⟩, st.operandNums⟩

theorem compile_norm (h : HashOrd) (steps : List PairStep) : compileSteps h (steps.map PairStep.norm) = compileSteps h steps := by
  induction steps generalizing h with
  | nil => rfl
  | cons st steps ih =>
    simp only [List.map_cons, compileSteps, ih]
    rfl

theorem run_norm {A : Type} [Zero A] [Add A] [Mul A] [MulAdd A] (al : Alloc A) (operands inter : List (View A))
    (cs : List PairContraction) (steps : List PairStep) :
    runSteps al operands (cs.zip (steps.map PairStep.norm)) inter = runSteps al operands (cs.zip steps) inter := by
  induction steps generalizing al inter cs with
  | nil => simp
  | cons st steps ih =>
    cases cs with
    | nil => rfl
    | cons c cs =>
      simp only [List.map_cons, List.zip_cons_cons, runSteps, ih]
      rfl

theorem count_norm {A : Type} [Zero A] [Add A] [Mul A] [MulAdd A] (al : Alloc (Counted A))
    (operands inter : List (View A)) (cs : List PairContraction) (steps : List PairStep) :
    countSteps al operands (cs.zip (steps.map PairStep.norm)) inter = countSteps al operands (cs.zip steps) inter := by
  induction steps generalizing al inter cs with
  | nil => simp
  | cons st steps ih =>
    cases cs with
    | nil => rfl
    | cons c cs =>
      simp only [List.map_cons, List.zip_cons_cons, countSteps, ih]
      rfl

theorem wired_contracts {dims : Char → Nat} {out : List Char} {inputs : List (List Char)} {k : Nat}
    {pending : List (OperandNumber × List Char)} {steps : List PairStep} (hc : Contracts dims out k pending steps)
    (outs : List (List Char)) (hk : outs.length = k) (hp : ∀ x ∈ pending, labelsOf inputs outs x.1 = some x.2) :
    Wired dims inputs (steps.map PairStep.norm) outs := by
  induction hc generalizing outs with
  | done => trivial
  | @step k pending rest l r L R O st steps hperm hn hops hO hsz hok hkeep _ ih =>
    have hl := hp (l, L) (hperm.mem_iff.2 (by simp))
    have hr := hp (r, R) (hperm.mem_iff.2 (by simp))
    refine ⟨⟨?_, rfl, ?_⟩, ⟨L, R, hops, ?_, ?_⟩, ih _ (by simp [hk]) fun x hx => ?_⟩
    · change OutputOk st.sizedContraction.contraction.operandIndices _
      rw [hops]
      simpa only [PairStep.norm, hO] using hok
    · intro c hc
      change c ∈ st.sizedContraction.contraction.operandIndices.flatten at hc
      rw [hops] at hc
      exact hsz c (by simpa using hc)
    · simp only [PairStep.norm, hn]
      exact hl
    · simp only [PairStep.norm, hn]
      exact hr
    · rcases List.mem_cons.1 hx with rfl | hx
      · simp [labelsOf, PairStep.norm, hO, ← hk]
      · have := hp x (hperm.mem_iff.2 (by simp [hx]))
        obtain ⟨n, ls⟩ := x
        cases n with
        | input n => exact this
        | intermediateResult n =>
          simp only [labelsOf] at this ⊢
          rw [List.getElem?_append_left (List.getElem?_eq_some_iff.1 this).1, this]

theorem lettersOf_norm {dims : Char → Nat} {L R O : List Char} {st : PairStep}
    (hops : st.sizedContraction.contraction.operandIndices = [L, R])
    (hO : st.sizedContraction.contraction.outputIndices = O) (hok : OutputOk [L, R] O) :
    ((lettersOf st.norm).map dims).prod = stepMults dims st := by
  have hsub : ∀ c ∈ O, c ∈ L ∨ c ∈ R := fun c hc => by simpa [Used] using hok.2 c hc
  simp only [lettersOf, stepMults, PairStep.norm, hops, hO]
  refine prod_eq (List.Nodup.append hok.1 ((List.nodup_dedup _).filter _) ?_) ((List.nodup_dedup _).filter _) fun c => ?_
  · intro c hc hc'
    simp only [sharedLetters, List.mem_filter, decide_eq_true_eq] at hc'
    exact hc'.2.2 hc
  · have := hsub c
    simp only [runsOver, sharedLetters, List.mem_append, List.mem_filter, List.mem_dedup, decide_eq_true_eq]
    tauto

theorem contracts_mults {dims : Char → Nat} {out : List Char} {k : Nat} {pending : List (OperandNumber × List Char)}
    {steps : List PairStep} (hc : Contracts dims out k pending steps) :
    ((steps.map PairStep.norm).map fun st => ((lettersOf st).map dims).prod) = steps.map (stepMults dims) := by
  induction hc with
  | done => rfl
  | step hperm hn hops hO hsz hok hkeep _ ih =>
    simp only [List.map_cons, lettersOf_norm hops hO hok]
    rw [ih]

/-! ## Products of matrices with a vector -/

theorem mem_take_flatten {α : Type} {f : Nat → List α} {n k : Nat} {c : α} :
    c ∈ (((List.range n).map f).take k).flatten ↔ ∃ i < n, i < k ∧ c ∈ f i := by
  rw [← List.map_take, List.take_range]
  simp only [List.mem_flatten, List.mem_map, List.mem_range]
  constructor
  · rintro ⟨_, ⟨i, hi, rfl⟩, hc⟩
    exact ⟨i, by omega, by omega, hc⟩
  · rintro ⟨i, h1, h2, hc⟩
    exact ⟨_, ⟨i, by omega, rfl⟩, hc⟩

theorem mem_drop_flatten {α : Type} {f : Nat → List α} {n k : Nat} {c : α} :
    c ∈ (((List.range n).map f).drop k).flatten ↔ ∃ i < n, k ≤ i ∧ c ∈ f i := by
  simp only [List.mem_flatten, List.mem_iff_getElem? (l := ((List.range n).map f).drop k), List.getElem?_drop,
    List.getElem?_map]
  constructor
  · rintro ⟨_, ⟨i, hi⟩, hc⟩
    by_cases hlt : k + i < n
    · rw [List.getElem?_range hlt] at hi
      cases hi
      exact ⟨k + i, hlt, by omega, hc⟩
    · rw [List.getElem?_eq_none (by simp; omega)] at hi
      cases hi
  · rintro ⟨i, h1, h2, hc⟩
    exact ⟨f i, ⟨i - k, by rw [show k + (i - k) = i by omega, List.getElem?_range h1]; rfl⟩, hc⟩

theorem mem_stepLetters {f : Nat → List Char} {n : Nat} {out : List Char} {k : Nat} (hk : k + 1 < n) {c : Char} :
    c ∈ stepLetters ((List.range n).map f) out k ↔ (∃ i < n, i < k + 2 ∧ c ∈ f i) ∧
      ((∃ i < n, k + 2 ≤ i ∧ c ∈ f i) ∨ c ∈ out ∨ (∃ i < n, i < k + 1 ∧ c ∈ f i) ∧ c ∈ f (k + 1)) := by
  simp only [stepLetters, List.mem_filter, List.mem_dedup, decide_eq_true_eq, mem_take_flatten, mem_drop_flatten]
  rw [List.getD_eq_getElem?_getD, List.getElem?_map, List.getElem?_range hk]
  rfl

theorem stepLetters_nodup (inputs : List (List Char)) (out : List Char) (k : Nat) : (stepLetters inputs out k).Nodup :=
  (List.nodup_dedup _).filter _

theorem mem_chain {c : Nat → Char} {m : Nat} (hc : ∀ i ≤ m, ∀ j ≤ m, c i = c j → i = j) {i j : Nat} (hi : i ≤ m)
    (hj : j ≤ m) : c j ∈ (if i < m then [c i, c (i + 1)] else [c m]) ↔ j = i ∨ j = i + 1 := by
  split
  · simp only [List.mem_cons, List.not_mem_nil, or_false]
    exact or_congr ⟨hc j hj i hi, fun h => by rw [h]⟩ ⟨hc j hj (i + 1) (by omega), fun h => by rw [h]⟩
  · simp only [List.mem_cons, List.not_mem_nil, or_false]
    exact ⟨fun h => .inl (by have := hc j hj m le_rfl h; omega), fun h => by rw [show j = m by omega]⟩

theorem chain_letter {c : Nat → Char} {m i : Nat} (hi : i ≤ m) {x : Char}
    (hx : x ∈ (if i < m then [c i, c (i + 1)] else [c m])) : ∃ j ≤ m, x = c j := by
  split at hx
  · simp only [List.mem_cons, List.not_mem_nil, or_false] at hx
    rcases hx with rfl | rfl
    · exact ⟨i, hi, rfl⟩
    · exact ⟨i + 1, by omega, rfl⟩
  · simp only [List.mem_cons, List.not_mem_nil, or_false] at hx
    exact ⟨m, le_rfl, hx⟩

theorem chain_reverse (c : Nat → Char) (m : Nat) :
    (chain c m).reverse = (List.range (m + 1)).map fun i => if m - i < m then [c (m - i), c (m - i + 1)] else [c m] := by
  refine List.ext_getElem? fun i => ?_
  by_cases hi : i < m + 1
  · rw [List.getElem?_reverse (by simp [chain]; omega)]
    simp only [chain, List.length_map, List.length_range, List.getElem?_map]
    rw [List.getElem?_range hi, List.getElem?_range (by omega)]
    simp only [Option.map_some]
    rw [show m + 1 - 1 - i = m - i by omega]
  · rw [List.getElem?_eq_none (by simp [chain]; omega), List.getElem?_eq_none (by simp; omega)]

theorem chain_step {c : Nat → Char} {m : Nat} (hc : ∀ i ≤ m, ∀ j ≤ m, c i = c j → i = j) {k : Nat} (hk : k < m)
    (x : Char) : x ∈ stepLetters (chain c m) [c 0] k ↔ ∃ j ≤ m, x = c j ∧ (j = 0 ∨ j = k + 1 ∨ j = k + 2) := by
  rw [chain, mem_stepLetters (by omega)]
  constructor
  · rintro ⟨⟨i, i1, i2, i3⟩, h⟩
    obtain ⟨j, hj, rfl⟩ := chain_letter (by omega) i3
    have := (mem_chain hc (by omega) hj).1 i3
    refine ⟨j, hj, rfl, ?_⟩
    rcases h with ⟨i', a1, a2, a3⟩ | h | ⟨-, a3⟩
    · have := (mem_chain hc (by omega) hj).1 a3
      omega
    · exact .inl (hc j hj 0 (by omega) (by simpa using h))
    · have := (mem_chain hc (by omega) hj).1 a3
      omega
  · rintro ⟨j, hj, rfl, h⟩
    rcases h with rfl | rfl | rfl
    · exact ⟨⟨0, by omega, by omega, (mem_chain hc (by omega) hj).2 (by omega)⟩, .inr (.inl (by simp))⟩
    · exact ⟨⟨k, by omega, by omega, (mem_chain hc (by omega) hj).2 (by omega)⟩,
        .inr (.inr ⟨⟨k, by omega, by omega, (mem_chain hc (by omega) hj).2 (by omega)⟩,
          (mem_chain hc (by omega) hj).2 (by omega)⟩)⟩
    · exact ⟨⟨k + 1, by omega, by omega, (mem_chain hc (by omega) hj).2 (by omega)⟩,
        .inl ⟨k + 2, by omega, by omega, (mem_chain hc (by omega) hj).2 (by omega)⟩⟩

theorem chain_step_reverse {c : Nat → Char} {m : Nat} (hc : ∀ i ≤ m, ∀ j ≤ m, c i = c j → i = j) {k : Nat} (hk : k < m)
    (x : Char) : x ∈ stepLetters (chain c m).reverse [c 0] k ↔ ∃ j ≤ m, x = c j ∧ (j = m - k - 1 ∨ j = m - k) := by
  rw [chain_reverse, mem_stepLetters (by omega)]
  constructor
  · rintro ⟨⟨i, i1, i2, i3⟩, h⟩
    obtain ⟨j, hj, rfl⟩ := chain_letter (by omega) i3
    have := (mem_chain hc (by omega) hj).1 i3
    refine ⟨j, hj, rfl, ?_⟩
    rcases h with ⟨i', a1, a2, a3⟩ | h | ⟨-, a3⟩
    · have := (mem_chain hc (by omega) hj).1 a3
      omega
    · have := hc j hj 0 (by omega) (by simpa using h)
      omega
    · have := (mem_chain hc (by omega) hj).1 a3
      omega
  · rintro ⟨j, hj, rfl, h⟩
    rcases h with rfl | rfl
    · refine ⟨⟨k + 1, by omega, by omega, (mem_chain hc (by omega) hj).2 (by omega)⟩, ?_⟩
      by_cases h0 : k + 1 = m
      · exact .inr (.inl (by simp [show m - k - 1 = 0 by omega]))
      · exact .inl ⟨k + 2, by omega, by omega, (mem_chain hc (by omega) hj).2 (by omega)⟩
    · exact ⟨⟨k, by omega, by omega, (mem_chain hc (by omega) hj).2 (by omega)⟩,
        .inr (.inr ⟨⟨k, by omega, by omega, (mem_chain hc (by omega) hj).2 (by omega)⟩,
          (mem_chain hc (by omega) hj).2 (by omega)⟩)⟩

/-! ## Properties -/

/-- C72: an order that contracts the operands to the output compiles, and computes the Einstein sum of operands of the
recorded lengths. -/
theorem C72_order {A : Type} [CommSemiring A] (h : HashOrd) (al : Alloc A) (steps : List PairStep)
    (inputs : List (List Char)) (out : List Char) (dims : Char → Nat) (operands : List (View A))
    (ts : List (List Nat → A)) (hc : Contracts dims out 0 (numbered inputs) steps)
    (hs : Sized dims inputs (operands.map View.shape)) (he : List.Forall₂ Elements operands ts)
    (hn : NoEmptyDiagonal dims inputs) :
    ∃ p r, EinsumPath.fromPath h (.pairs steps) = .ok p ∧ p.contractOperands al operands = .ok r ∧
      IsEinsum dims inputs ts out r := by
  obtain ⟨p, p1, p2⟩ := pending_outcome hc h
  obtain ⟨r, r1, r2⟩ := (p2 A al operands ts hs he).1 hn
  exact ⟨p, r, p1, r1, r2⟩

/-- C72: also with empty operands that have repeated letters, running the path panics or returns the Einstein sum. -/
theorem C72_sound (h : HashOrd) (steps : List PairStep) (inputs : List (List Char)) (out : List Char)
    (dims : Char → Nat) (hc : Contracts dims out 0 (numbered inputs) steps) :
    ∃ p, EinsumPath.fromPath h (.pairs steps) = .ok p ∧
      ∀ (A : Type) [CommSemiring A] (al : Alloc A) (operands : List (View A)) (ts : List (List Nat → A)),
        Sized dims inputs (operands.map View.shape) → List.Forall₂ Elements operands ts →
        (∃ k, p.contractOperands al operands = panic k) ∨
          ∃ r, p.contractOperands al operands = .ok r ∧ IsEinsum dims inputs ts out r := by
  obtain ⟨p, p1, p2⟩ := pending_outcome hc h
  exact ⟨p, p1, fun A _ al operands ts hs he => (p2 A al operands ts hs he).2.2⟩

/-- C72: all orders give the same array. -/
theorem C72_same {A : Type} [CommSemiring A] (h h' : HashOrd) (al al' : Alloc A) (steps steps' : List PairStep)
    (inputs : List (List Char)) (out : List Char) (dims : Char → Nat) (operands : List (View A))
    (hc : Contracts dims out 0 (numbered inputs) steps) (hc' : Contracts dims out 0 (numbered inputs) steps')
    (hs : Sized dims inputs (operands.map View.shape)) (hw : ∀ v ∈ operands, v.Wf) (p p' : EinsumPath)
    (hp : EinsumPath.fromPath h (.pairs steps) = .ok p) (hp' : EinsumPath.fromPath h' (.pairs steps') = .ok p')
    (r r' : View A) (hr : p.contractOperands al operands = .ok r) (hr' : p'.contractOperands al' operands = .ok r') :
    SameArray r r' := by
  have he := forall₂_elem hw
  have key : ∀ {h : HashOrd} {al : Alloc A} {steps : List PairStep} {p : EinsumPath} {r : View A},
      Contracts dims out 0 (numbered inputs) steps → EinsumPath.fromPath h (.pairs steps) = .ok p →
      p.contractOperands al operands = .ok r → IsEinsum dims inputs (operands.map View.elem) out r := by
    intro h al steps p r hc hp hr
    obtain ⟨q, q1, q2⟩ := C72_sound h steps inputs out dims hc
    rw [hp] at q1
    cases q1
    rcases q2 A al operands _ hs he with ⟨k, hk⟩ | ⟨w, w1, w2⟩
    · rw [hr] at hk; simp [panic] at hk
    · rw [hr] at w1; cases w1; exact w2
  exact (key hc hp hr).same (hc.out_nodup hc.ne_nil) (key hc' hp' hr')

/-- C72: the orders that the crate generates are of this kind. -/
theorem C72_generated (h₀ h : HashOrd) (s : String) (shapes : List (List Nat)) (inputs : List (List Char))
    (out : List Char) (dims : Char → Nat) (hd : Denotes s inputs out) (hs : Sized dims inputs shapes)
    (h2 : 2 ≤ inputs.length) (m : OptimizationMethod) (hm : m = .naive ∨ m = .reverse) :
    ∃ sc steps, SizedContraction.fromStringAndShapes h₀ s shapes = .ok sc ∧
      generateOptimizedOrder h sc m = .ok (.pairs steps) ∧ Contracts dims out 0 (numbered inputs) steps := by
  have hv : (callSC inputs out dims).Valid dims := callSC_valid hd.outputOk
  obtain ⟨order, o1, o2, o3⟩ := order_eq (callSC inputs out dims) m hm h
  rcases path_shape hv h (order := order) hd.inputs_ne.1 o1 with
    ⟨psc, ix, e, _⟩ | ⟨first, nums, lhs, rest, steps, a1, a2, a3, a4, a5, a6, a7⟩
  · change inputs = [ix] at e
    rw [e] at h2
    simp at h2
  · refine ⟨callSC inputs out dims, steps, fromStringAndShapes_iff.2 ⟨inputs, out, dims, hd, hs, rfl⟩, o2.trans a5, ?_⟩
    have h0 : 0 < steps.length := by rw [a6]; exact List.length_pos_iff.2 a3
    have := contracts_of_shape a4 a6 a7 steps.length 0 (.input first) lhs (by omega) h0 rfl (fun _ => rfl)
      (fun j _ hj _ => by omega)
    simp only [List.drop_zero] at this
    change order.Perm (List.range inputs.length) at o1
    change pick inputs [] order = lhs :: rest at a2
    have e : (OperandNumber.input first, lhs) :: (nums.map OperandNumber.input).zip rest =
        order.map fun i => (OperandNumber.input i, inputs.getD i []) := by
      have : (OperandNumber.input first, lhs) :: (nums.map OperandNumber.input).zip rest =
          (order.map OperandNumber.input).zip (pick inputs [] order) := by
        rw [a2, a1]; rfl
      rw [this, pick, List.zip_map', ]
    rw [e] at this
    generalize hq : (order.map fun i => (OperandNumber.input i, inputs.getD i [])) = q at this
    have hpq : (numbered inputs).Perm q := by rw [← hq]; exact (o1.map _).symm
    change Contracts dims out 0 q steps at this
    cases this with
    | step hp b1 b2 b3 b4 b5 b6 b7 => exact .step (hpq.trans hp) b1 b2 b3 b4 b5 b6 b7

/-- C72: the number of multiplications of any such order, whatever the elements. -/
theorem C72_count {A : Type} [Zero A] [Add A] [Mul A] [MulAdd A] (h : HashOrd) (al : UniformAlloc)
    (steps : List PairStep) (inputs : List (List Char)) (out : List Char) (dims : Char → Nat) (operands : List (View A))
    (hc : Contracts dims out 0 (numbered inputs) steps) (hs : Sized dims inputs (operands.map View.shape))
    (hwf : ∀ v ∈ operands, v.Wf) (p : EinsumPath) (hp : EinsumPath.fromPath h (.pairs steps) = .ok p) (r : View A)
    (hr : p.contractOperands (al.alloc A) operands = .ok r) :
    p.countMults (al.alloc (Counted A)) operands = .ok (steps.map (stepMults dims)).sum := by
  obtain ⟨cs, c1, c2⟩ := bind_eq_ok.1 hp
  cases c2
  simp only [EinsumPath.contractOperands, EinsumPath.countMults] at hr ⊢
  obtain ⟨inter, r1, r2⟩ := bind_eq_ok.1 hr
  have hw : Wired dims inputs (steps.map PairStep.norm) [] := wired_contracts hc [] rfl fun x hx => by
    obtain ⟨i, hi, rfl⟩ := List.mem_map.1 hx
    simp [labelsOf, List.getElem?_eq_getElem (List.mem_range.1 hi)]
  rw [← count_norm, steps_count (steps.map PairStep.norm) h (by rw [compile_norm]; exact c1) [] hw al operands [] inter
    (shaped_of hwf hs) .nil (by rw [run_norm]; exact r1), contracts_mults hc]

/-- C72: a product of `m` matrices with a vector, all lengths being `n`.  From the left, as in `einsum` and the naive
strategy, it takes `m - 1` matrix products; from the right, none. -/
theorem C72_chain (c : Nat → Char) (m n : Nat) (hm : 0 < m) (hc : ∀ i ≤ m, ∀ j ≤ m, c i = c j → i = j)
    (dims : Char → Nat) (hd : ∀ i ≤ m, dims (c i) = n) :
    multCount dims (chain c m) [c 0] = (m - 1) * n ^ 3 + n ^ 2 ∧
      multCount dims (chain c m).reverse [c 0] = m * n ^ 2 := by
  have hne : ∀ i ≤ m, ∀ j ≤ m, i ≠ j → c i ≠ c j := fun i hi j hj h e => h (hc i hi j hj e)
  constructor
  · have hlen : (chain c m).length - 1 = (m - 1) + 1 := by simp [chain]; omega
    rw [multCount, hlen, List.range_succ, List.map_append, List.sum_append, List.map_cons, List.map_nil, List.sum_singleton]
    congr 1
    · have : ∀ k ∈ List.range (m - 1), ((stepLetters (chain c m) [c 0] k).map dims).prod = n ^ 3 := by
        intro k hk
        rw [List.mem_range] at hk
        rw [prod_eq (b := [c 0, c (k + 1), c (k + 2)]) (stepLetters_nodup _ _ _) ?_ fun x => ?_]
        · simp only [List.map_cons, List.map_nil, List.prod_cons, List.prod_nil, hd 0 (by omega), hd (k + 1) (by omega),
            hd (k + 2) (by omega)]
          ring
        · simp [hne 0 (by omega) (k + 1) (by omega) (by omega), hne 0 (by omega) (k + 2) (by omega) (by omega),
            hne (k + 1) (by omega) (k + 2) (by omega) (by omega)]
        · rw [chain_step hc (by omega)]
          simp only [List.mem_cons, List.not_mem_nil, or_false]
          constructor
          · rintro ⟨j, -, rfl, rfl | rfl | rfl⟩ <;> simp
          · rintro (rfl | rfl | rfl)
            · exact ⟨0, by omega, rfl, by simp⟩
            · exact ⟨k + 1, by omega, rfl, by simp⟩
            · exact ⟨k + 2, by omega, rfl, by simp⟩
      rw [List.map_congr_left this]
      simp
    · rw [prod_eq (b := [c 0, c m]) (stepLetters_nodup _ _ _) ?_ fun x => ?_]
      · simp only [List.map_cons, List.map_nil, List.prod_cons, List.prod_nil, hd 0 (by omega), hd m le_rfl]
        ring
      · simp [hne 0 (by omega) m le_rfl (by omega)]
      · rw [chain_step hc (by omega)]
        simp only [List.mem_cons, List.not_mem_nil, or_false]
        constructor
        · rintro ⟨j, hj, rfl, h⟩
          rcases (show j = 0 ∨ j = m by omega) with rfl | rfl <;> simp
        · rintro (rfl | rfl)
          · exact ⟨0, by omega, rfl, by simp⟩
          · exact ⟨m, by omega, rfl, by omega⟩
  · have hlen : (chain c m).reverse.length - 1 = m := by simp [chain]
    have : ∀ k ∈ List.range m, ((stepLetters (chain c m).reverse [c 0] k).map dims).prod = n ^ 2 := by
      intro k hk
      rw [List.mem_range] at hk
      rw [prod_eq (b := [c (m - k - 1), c (m - k)]) (stepLetters_nodup _ _ _) ?_ fun x => ?_]
      · simp only [List.map_cons, List.map_nil, List.prod_cons, List.prod_nil, hd (m - k - 1) (by omega),
          hd (m - k) (by omega)]
        ring
      · simp [hne (m - k - 1) (by omega) (m - k) (by omega) (by omega)]
      · rw [chain_step_reverse hc hk]
        simp only [List.mem_cons, List.not_mem_nil, or_false]
        constructor
        · rintro ⟨j, -, rfl, rfl | rfl⟩ <;> simp
        · rintro (rfl | rfl)
          · exact ⟨_, by omega, rfl, by simp⟩
          · exact ⟨_, by omega, rfl, by simp⟩
    rw [multCount, hlen, List.map_congr_left this]
    simp

/-! ## Examples -/

def Ex.treeDims (c : Char) : Nat := if c = 'j' ∨ c = 'l' then 3 else 2

def Ex.stepOf (L R O : List Char) (l r : OperandNumber) : PairStep :=
  ⟨⟨⟨[L, R], O, []⟩, fun c => some (Ex.treeDims c)⟩, ⟨l, r⟩⟩

/-- Four matrices: the product of the last two times the product of the first two.  The second step keeps `l`, which only
it has, for the last step to sum over. -/
def Ex.balanced : List PairStep :=
  [Ex.stepOf ['k', 'l'] ['l', 'm'] ['m', 'l', 'k'] (.input 2) (.input 3),
    Ex.stepOf ['j', 'k'] ['i', 'j'] ['i', 'k'] (.input 1) (.input 0),
    Ex.stepOf ['m', 'l', 'k'] ['i', 'k'] ['i', 'm'] (.intermediateResult 0) (.intermediateResult 1)]

def Ex.treeInputs : List (List Char) := [['i', 'j'], ['j', 'k'], ['k', 'l'], ['l', 'm']]

theorem Ex.contracts_tree : Contracts Ex.treeDims ['i', 'm'] 0 (numbered Ex.treeInputs) Ex.balanced := by
  refine .step (l := .input 2) (r := .input 3) (rest := [(.input 0, ['i', 'j']), (.input 1, ['j', 'k'])]) ?_ rfl rfl rfl
    (fun _ _ => rfl) ?_ (by simp [Ex.stepOf]; grind) ?_
  · exact (List.perm_append_comm (l₁ := [(OperandNumber.input 0, ['i', 'j']), (.input 1, ['j', 'k'])])
      (l₂ := [(.input 2, ['k', 'l']), (.input 3, ['l', 'm'])]))
  · simp [OutputOk, Used, Ex.stepOf]
  refine .step (l := .input 1) (r := .input 0) (rest := [(.intermediateResult 0, ['m', 'l', 'k'])]) ?_ rfl rfl rfl
    (fun _ _ => rfl) ?_ (by simp [Ex.stepOf]; grind) ?_
  · exact (List.reverse_perm _).symm
  · simp [OutputOk, Used, Ex.stepOf]
  refine .step (l := .intermediateResult 0) (r := .intermediateResult 1) (rest := []) ?_ rfl rfl rfl
    (fun _ _ => rfl) ?_ (by simp [Ex.stepOf]) (.done 2)
  · exact .swap _ _ _
  · simp [OutputOk, Used, Ex.stepOf]

theorem Ex.sized_tree : Sized Ex.treeDims Ex.treeInputs ([Ex.m23, Ex.m32, Ex.m23, Ex.m32].map View.shape) :=
  .cons rfl (.cons rfl (.cons rfl (.cons rfl .nil)))

theorem Ex.wf_tree : ∀ v ∈ [Ex.m23, Ex.m32, Ex.m23, Ex.m32], v.Wf := by simp [Ex.e23.1, Ex.e32.1]

theorem Ex.ned_tree : NoEmptyDiagonal Ex.treeDims Ex.treeInputs := by
  intro x hx
  exact .inl (by revert x; decide)

example : ∃ p r, EinsumPath.fromPath HashOrd.reversed (.pairs Ex.balanced) = .ok p ∧
    p.contractOperands (Alloc.colMajor Int) [Ex.m23, Ex.m32, Ex.m23, Ex.m32] = .ok r ∧
    IsEinsum Ex.treeDims Ex.treeInputs ([Ex.m23, Ex.m32, Ex.m23, Ex.m32].map View.elem) ['i', 'm'] r :=
  C72_order _ _ _ _ _ _ _ _ Ex.contracts_tree Ex.sized_tree (forall₂_elem Ex.wf_tree) Ex.ned_tree

/-- The last step sums its first array over `l` before it multiplies. -/
example : Ex.balanced.map (stepMults Ex.treeDims) = [12, 12, 8] := by decide

example : ∃ p r, EinsumPath.fromPath HashOrd.reversed (.pairs Ex.balanced) = .ok p ∧
    p.contractOperands (Alloc.colMajor Int) [Ex.m23, Ex.m32, Ex.m23, Ex.m32] = .ok r ∧
    p.countMults (Alloc.colMajor (Counted Int)) [Ex.m23, Ex.m32, Ex.m23, Ex.m32] = .ok 32 := by
  obtain ⟨p, r, h1, h2, -⟩ := C72_order HashOrd.reversed (Alloc.colMajor Int) _ _ _ _ _ _ Ex.contracts_tree Ex.sized_tree
    (forall₂_elem Ex.wf_tree) Ex.ned_tree
  exact ⟨p, r, h1, h2, C72_count HashOrd.reversed UniformAlloc.colMajor _ _ _ _ _ Ex.contracts_tree Ex.sized_tree
    Ex.wf_tree p h1 r h2⟩

theorem Ex.denotes_tree : Denotes "ij,jk,kl,lm->im" Ex.treeInputs ['i', 'm'] :=
  .inl ⟨by decide, ⟨by simp [Ex.treeInputs], by simp [Ex.treeInputs, Letter], by simp [Letter]⟩,
    by simp [Ex.treeInputs, OutputOk, Used]⟩

/-- The same array as from the order that the crate generates. -/
example : ∃ sc steps, SizedContraction.fromStringAndShapes HashOrd.insertion "ij,jk,kl,lm->im"
      ([Ex.m23, Ex.m32, Ex.m23, Ex.m32].map View.shape) = .ok sc ∧
    generateOptimizedOrder HashOrd.insertion sc .reverse = .ok (.pairs steps) ∧
    ∀ (p p' : EinsumPath) (r r' : View Int), EinsumPath.fromPath HashOrd.insertion (.pairs Ex.balanced) = .ok p →
      EinsumPath.fromPath HashOrd.reversed (.pairs steps) = .ok p' →
      p.contractOperands (Alloc.rowMajor Int) [Ex.m23, Ex.m32, Ex.m23, Ex.m32] = .ok r →
      p'.contractOperands (Alloc.colMajor Int) [Ex.m23, Ex.m32, Ex.m23, Ex.m32] = .ok r' → SameArray r r' := by
  obtain ⟨sc, steps, h1, h2, h3⟩ := C72_generated HashOrd.insertion HashOrd.insertion _ _ _ _ _ Ex.denotes_tree
    Ex.sized_tree (by decide) .reverse (.inr rfl)
  exact ⟨sc, steps, h1, h2, fun p p' r r' hp hp' hr hr' => C72_same _ _ _ _ _ _ _ _ _ _ Ex.contracts_tree h3
    Ex.sized_tree Ex.wf_tree p p' hp hp' r r' hr hr'⟩

example : ∃ p, EinsumPath.fromPath HashOrd.insertion (.pairs Ex.balanced) = .ok p ∧
    ((∃ k, p.contractOperands (Alloc.rowMajor Int) [Ex.m23, Ex.m32, Ex.m23, Ex.m32] = panic k) ∨
      ∃ r, p.contractOperands (Alloc.rowMajor Int) [Ex.m23, Ex.m32, Ex.m23, Ex.m32] = .ok r ∧
        IsEinsum Ex.treeDims Ex.treeInputs ([Ex.m23, Ex.m32, Ex.m23, Ex.m32].map View.elem) ['i', 'm'] r) := by
  obtain ⟨p, hp, h⟩ := C72_sound HashOrd.insertion _ _ _ _ Ex.contracts_tree
  exact ⟨p, hp, h Int _ _ _ Ex.sized_tree (forall₂_elem Ex.wf_tree)⟩

/-- Three matrices and a vector, with lengths 10. -/
example : multCount (fun _ => 10) [['i', 'j'], ['j', 'k'], ['k', 'l'], ['l']] ['i'] = 2100 ∧
    multCount (fun _ => 10) [['l'], ['k', 'l'], ['j', 'k'], ['i', 'j']] ['i'] = 300 :=
  C72_chain (fun i => ['i', 'j', 'k', 'l'].getD i 'i') 3 10 (by decide)
    (by decide) _ fun _ _ => rfl

end Einsum
