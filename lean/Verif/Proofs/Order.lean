import Verif.Proofs.Call

/-!
# The shape of generated contraction orders
-/

namespace Einsum

open Spec

variable {sc : SizedContraction} {dims : Char → Nat}

/-- The `k`-th step of an order that starts at `lhs` and consumes `rest` (operand numbers `nums`). -/
structure StepShape (dims : Char → Nat) (out : List Char) (first idx : Nat) (lhs : List Char)
    (rest : List (List Char)) (nums : List Nat) (steps : List PairStep) (k : Nat) (st : PairStep) :
    Prop where
  rhsNum : ∀ n, nums[k]? = some n → st.operandNums.rhs = .input n
  lhsNum : st.operandNums.lhs = if idx + k = 0 then .input first else .intermediateResult (idx + k - 1)
  labels : ∃ l r, st.sizedContraction.contraction.operandIndices = [l, r] ∧ rest[k]? = some r ∧
    (k = 0 → l = lhs) ∧
    ∀ j st', k = j + 1 → steps[j]? = some st' → l = st'.sizedContraction.contraction.outputIndices
  nodup : st.sizedContraction.contraction.outputIndices.Nodup
  mem : ∀ c, c ∈ st.sizedContraction.contraction.outputIndices ↔
    (c ∈ lhs ∨ c ∈ (rest.take (k + 1)).flatten) ∧ (c ∈ (rest.drop (k + 1)).flatten ∨ c ∈ out)
  last : k + 1 = rest.length → st.sizedContraction.contraction.outputIndices = out
  valid : st.sizedContraction.Valid dims

theorem logic_aux {a b c d e f : Prop} (h : d → c) :
    ((((a ∨ b) ∧ (c ∨ e)) ∨ f) ∧ (d ∨ e) ↔ (a ∨ (b ∨ f)) ∧ (d ∨ e)) := by tauto

theorem steps_shape (hv : sc.Valid dims) (h : HashOrd) (first idx : Nat) (lhs : List Char)
    (rest : List (List Char)) (nums : List Nat) (hlen : nums.length = rest.length)
    (hlhs : ∀ c ∈ lhs, c ∈ sc.contraction.operandIndices.flatten)
    (hrest : ∀ c ∈ rest.flatten, c ∈ sc.contraction.operandIndices.flatten)
    (hout : ∀ c ∈ sc.contraction.outputIndices, c ∈ lhs ∨ c ∈ rest.flatten) :
    ∃ steps, generateSteps h sc first idx lhs rest nums = .ok steps ∧ steps.length = rest.length ∧
      ∀ k st, steps[k]? = some st →
        StepShape dims sc.contraction.outputIndices first idx lhs rest nums steps k st := by
  induction rest generalizing idx lhs nums with
  | nil => exact ⟨[], by simp [generateSteps], rfl, by simp⟩
  | cons rhs later ih =>
    cases nums with
    | nil => simp at hlen
    | cons num nums =>
      have hon := hv.out.1
      set out := sc.contraction.outputIndices with hO
      set N := stepOutput (h.sub (2 * idx)) lhs rhs later out with hN
      obtain ⟨n1, n2⟩ := stepOutput_spec (h := h.sub (2 * idx)) (lhs := lhs) (rhs := rhs) (later := later)
        hon fun c hc => by simpa using hout c hc
      rw [← hN] at n1 n2
      obtain ⟨sc', s1, s2, s3, s4⟩ := hv.subset (h.sub (2 * idx + 1)) (ops := [lhs, rhs]) (out := N)
        (by
          intro c hc
          simp only [List.flatten_cons, List.flatten_nil, List.append_nil, List.mem_append] at hc
          rcases hc with hc | hc
          · exact hlhs c hc
          · exact hrest c (by simp [hc]))
        ⟨n1, fun c hc => used_iff.2 (by simpa using ((n2 c).1 hc).1)⟩
      obtain ⟨steps, g1, g2, g3⟩ := ih (idx + 1) N nums (by simpa using hlen)
        (fun c hc => by
          rcases ((n2 c).1 hc).1 with h | h
          · exact hlhs c h
          · exact hrest c (by simp [h]))
        (fun c hc => hrest c (by rw [List.flatten_cons]; simp only [List.mem_append]; exact .inr hc))
        (fun c hc => by
          rw [n2]
          have h1 := hout c hc
          rw [List.flatten_cons, List.mem_append] at h1
          tauto)
      refine ⟨⟨sc', if idx = 0 then ⟨.input first, .input num⟩
            else ⟨.intermediateResult (idx - 1), .input num⟩⟩ :: steps, ?_, by simp [g2], ?_⟩
      · simp only [generateSteps, generateSizedContractionPair, ← hO, ← hN]
        rw [s1, unwrapR_ok, bind_ok, g1]
        rfl
      · intro k st hst
        cases k with
        | zero =>
          simp only [List.getElem?_cons_zero, Option.some.injEq] at hst
          subst hst
          refine ⟨?_, ?_, ⟨lhs, rhs, s3, rfl, fun _ => rfl, by simp⟩, by rw [s4]; exact n1, ?_, ?_, s2⟩
          · intro n hn
            simp only [List.getElem?_cons_zero, Option.some.injEq] at hn
            subst hn
            dsimp only
            split <;> rfl
          · dsimp only
            by_cases hi : idx = 0
            · simp [hi]
            · simp [hi]
          · intro c
            rw [s4, n2]
            simp
          · intro hl
            rw [s4, hN]
            have : later = [] := by simpa using hl.symm
            subst this
            rfl
        | succ k =>
          rw [List.getElem?_cons_succ] at hst
          obtain ⟨a1, a2, ⟨l, r, b1, b2, b3, b4⟩, a4, a5, a6, a7⟩ := g3 k st hst
          refine ⟨fun n hn => a1 n (by simpa using hn), ?_, ⟨l, r, b1, by simpa using b2, by simp, ?_⟩,
            a4, ?_, fun hl => a6 (by simpa using hl), a7⟩
          · rw [a2]
            simp only [show idx + 1 + k = idx + (k + 1) by omega]
          · intro j st' hj hst'
            have : j = k := by omega
            subst this
            cases j with
            | zero =>
              simp only [List.getElem?_cons_zero, Option.some.injEq] at hst'
              subst hst'
              rw [b3 rfl]; exact s4.symm
            | succ j =>
              rw [List.getElem?_cons_succ] at hst'
              exact b4 j st' rfl hst'
          · intro c
            rw [a5, n2]
            simp only [List.take_succ_cons, List.drop_succ_cons, List.flatten_cons, List.mem_append]
            have : c ∈ (later.drop (k + 1)).flatten → c ∈ later.flatten := fun hc => by
              obtain ⟨x, hx, hcx⟩ := List.mem_flatten.1 hc
              exact List.mem_flatten.2 ⟨x, List.mem_of_mem_drop hx, hcx⟩
            exact logic_aux this

/-- The shape of the order generated for the operands taken in the given order. -/
theorem path_shape (hv : sc.Valid dims) (h : HashOrd) {order : List Nat}
    (hne : sc.contraction.operandIndices ≠ [])
    (ho : order.Perm (List.range sc.contraction.operandIndices.length)) :
    (∃ psc ix, sc.contraction.operandIndices = [ix] ∧ generatePath h sc order = .ok (.singleton psc) ∧
      psc.Valid dims ∧ psc.contraction.operandIndices = [ix] ∧
      psc.contraction.outputIndices = sc.contraction.outputIndices) ∨
    ∃ first nums lhs rest steps, order = first :: nums ∧
      pick sc.contraction.operandIndices [] order = lhs :: rest ∧ rest ≠ [] ∧
      nums.length = rest.length ∧ generatePath h sc order = .ok (.pairs steps) ∧
      steps.length = rest.length ∧ ∀ k st, steps[k]? = some st →
        StepShape dims sc.contraction.outputIndices first 0 lhs rest nums steps k st := by
  set inputs := sc.contraction.operandIndices with hI
  set out := sc.contraction.outputIndices with hO
  have hol : order.length = inputs.length := by simpa using ho.length_eq
  set pin := pick inputs [] order with hpin
  have hpp : pin.Perm inputs := pick_perm inputs [] ho
  have hpl : pin.length = inputs.length := hpp.length_eq
  obtain ⟨psc, p1, p2, p3, p4⟩ := hv.subset (h.sub 0) (ops := pin) (out := out)
    (fun c hc => hpp.flatten.mem_iff.1 hc)
    ⟨hv.out.1, fun c hc => used_iff.2 (hpp.flatten.mem_iff.2 (used_iff.1 (hv.out.2 c hc)))⟩
  have hperm : generatePermutedContraction (h.sub 0) sc order = .ok psc := by
    unfold generatePermutedContraction
    rw [← hI, ← hO, assertThat_of (by simpa using hol.symm), bind_ok,
      mapE_ok (g := fun i => inputs.getD i [])]
    · rw [bind_ok]
      exact (congrArg unwrapR p1).trans (unwrapR_ok _)
    · intro i hi
      have : i < inputs.length := by simpa using ho.mem_iff.1 hi
      rw [index_getElem this]; simp [this]
  have hpout : ∀ c ∈ out, c ∈ pin.flatten := fun c hc => by
    rw [hpp.flatten.mem_iff]; exact used_iff.1 (hv.out.2 c hc)
  have hmany : ∀ (t0 : Nat) (ns : List Nat) (lhs : List Char) (rest : List (List Char)) (hh : HashOrd),
      order = t0 :: ns → pin = lhs :: rest →
      ns.length = rest.length ∧
      ∃ steps, generateSteps hh psc t0 0 lhs rest ns = .ok steps ∧ steps.length = rest.length ∧
      ∀ k st, steps[k]? = some st → StepShape dims out t0 0 lhs rest ns steps k st := by
    intro t0 ns lhs rest hh e1 e2
    have hl : ns.length = rest.length := by rw [e1] at hol; rw [e2] at hpl; simp at hol hpl; omega
    obtain ⟨steps, g1, g2, g3⟩ := steps_shape p2 hh t0 0 lhs rest ns hl
      (fun c hc => by rw [p3, e2]; simp [hc])
      (fun c hc => by rw [p3, e2, List.flatten_cons, List.mem_append]; exact .inr hc)
      (fun c hc => by
        rw [p4] at hc
        have := hpout c hc
        rwa [e2, List.flatten_cons, List.mem_append] at this)
    rw [p4] at g3
    exact ⟨hl, steps, g1, g2, g3⟩
  rcases hq : pin with _ | ⟨lhs, _ | ⟨rhs, rest⟩⟩
  · rw [hq] at hpl
    exact absurd (List.length_eq_zero_iff.1 hpl.symm) hne
  · rw [hq] at hpp
    have hs : inputs = [lhs] := by
      have := List.perm_singleton.1 hpp.symm
      exact this
    refine .inl ⟨psc, lhs, hs, ?_, p2, by rw [p3, hq], p4⟩
    simp only [generatePath, hperm, bind_ok, p3, hq]
    rfl
  · rcases hr : order with _ | ⟨t0, ns⟩
    · rw [hr] at hol; rw [hq] at hpl; simp at hol hpl; omega
    rw [← hr]
    rcases rest with _ | ⟨r2, rest⟩
    · -- two operands: the direct branch computes the same single step
      obtain ⟨hl, steps, g1, g2, g3⟩ := hmany t0 ns lhs [rhs] (HashOrd.insertion) hr hq
      obtain ⟨t1, rfl⟩ : ∃ t1, ns = [t1] := List.length_eq_one_iff.1 (by simpa using hl)
      obtain ⟨sc', s1, s2, s3, s4⟩ := p2.subset (h.sub 1) (ops := [lhs, rhs]) (out := out)
        (fun c hc => by rw [p3, hq]; exact hc)
        ⟨hv.out.1, fun c hc => used_iff.2 (by have := hpout c hc; rwa [hq] at this)⟩
      refine .inr ⟨t0, [t1], lhs, [rhs], [⟨sc', ⟨.input t0, .input t1⟩⟩], hr, rfl, by simp, rfl,
        ?_, rfl, ?_⟩
      · simp only [generatePath, hperm, bind_ok, p3, p4, hq]
        simp only [hr, generateSizedContractionPair]
        rw [s1, unwrapR_ok, bind_ok]
        rfl
      · intro k st hst
        cases k with
        | succ k => simp at hst
        | zero =>
          simp only [List.getElem?_cons_zero, Option.some.injEq] at hst
          subst hst
          refine ⟨by simp, rfl, ⟨lhs, rhs, s3, rfl, fun _ => rfl, by simp⟩, by rw [s4]; exact hv.out.1,
            fun c => ?_, fun _ => s4, s2⟩
          rw [s4]
          have := hpout c
          rw [hq] at this
          simp only [List.flatten_cons, List.flatten_nil, List.append_nil, List.mem_append] at this
          simp only [zero_add, List.take_one, List.head?_cons, Option.toList, List.flatten_cons,
            List.flatten_nil, List.append_nil, List.drop_one, List.tail_cons, List.not_mem_nil, false_or]
          tauto
    · obtain ⟨hl, steps, g1, g2, g3⟩ := hmany t0 ns lhs (rhs :: r2 :: rest) (h.sub 2) hr hq
      refine .inr ⟨t0, ns, lhs, rhs :: r2 :: rest, steps, hr, rfl, by simp, hl, ?_, g2, g3⟩
      simp only [generatePath, hperm, bind_ok, p3, hq]
      simp only [hr]
      rw [g1]
      rfl

end Einsum
