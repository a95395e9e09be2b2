import Verif.Props.Examples
import Verif.Proofs.Order

/-!
# Properties C10 - C12: contraction orders
-/

namespace Einsum

open Spec

/-- The operand used `i`-th, out of `n`. -/
def nthOperand (m : OptimizationMethod) (n i : Nat) : Nat :=
  match m with
  | .reverse => n - 1 - i
  | _ => i

/-- Everything used by the order, in order of use. -/
def usedNumbers (steps : List PairStep) : List OperandNumber :=
  steps.flatMap fun st => [st.operandNums.lhs, st.operandNums.rhs]

theorem order_eq (sc : SizedContraction) (m : OptimizationMethod) (hm : m = .naive ∨ m = .reverse)
    (h : HashOrd) : ∃ order, order.Perm (List.range sc.contraction.operandIndices.length) ∧
      generateOptimizedOrder h sc m = generatePath h sc order ∧
      ∀ i < sc.contraction.operandIndices.length,
        order[i]? = some (nthOperand m sc.contraction.operandIndices.length i) := by
  rcases hm with rfl | rfl
  · exact ⟨_, naiveOrder_perm sc, rfl, fun i hi => by simp [naiveOrder, nthOperand, hi]⟩
  · refine ⟨_, reverseOrder_perm sc, rfl, fun i hi => ?_⟩
    simp only [reverseOrder, nthOperand]
    rw [List.getElem?_reverse (by simpa using hi), List.length_range, List.getElem?_range (by omega)]

/-- C10: with one operand the order is `Singleton` of the same contraction. -/
theorem C10_singleton (h₀ h : HashOrd) (s : String) (shapes : List (List Nat)) (sc : SizedContraction)
    (hsc : SizedContraction.fromStringAndShapes h₀ s shapes = .ok sc) (m : OptimizationMethod)
    (hm : m = .naive ∨ m = .reverse) (h1 : sc.contraction.operandIndices.length = 1) :
    generateOptimizedOrder h sc m = .ok (.singleton sc) := by
  obtain ⟨inputs, out, dims, hd, hs, rfl⟩ := fromStringAndShapes_iff.1 hsc
  obtain ⟨ix, rfl⟩ := List.length_eq_one_iff.1 h1
  have hsub : SizedContraction.subset (h.sub 0) (callSC [ix] out dims) [ix] out =
      .ok (callSC [ix] out dims) := by
    rw [subset_ok (fun c hc => by simp only [callSC]; rw [if_pos hc]; simp) hd.outputOk]
    simp only [callSC]
    congr 2
    funext c
    split <;> rfl
  have : ∀ order, order = [0] → generatePath h (callSC [ix] out dims) order =
      .ok (.singleton (callSC [ix] out dims)) := by
    rintro order rfl
    have : generatePermutedContraction (h.sub 0) (callSC [ix] out dims) [0] = .ok (callSC [ix] out dims) := by
      unfold generatePermutedContraction
      rw [assertThat_of (by simp [callSC]), bind_ok]
      exact (congrArg unwrapR hsub).trans (unwrapR_ok _)
    simp only [generatePath, this, bind_ok]
    rfl
  rcases hm with rfl | rfl
  · exact this _ rfl
  · exact this _ rfl

/-- Both C10 and C12 for several operands. -/
theorem order_spec (h₀ h : HashOrd) (s : String) (shapes : List (List Nat)) (sc : SizedContraction)
    (hsc : SizedContraction.fromStringAndShapes h₀ s shapes = .ok sc) (m : OptimizationMethod)
    (hm : m = .naive ∨ m = .reverse) (h2 : 2 ≤ sc.contraction.operandIndices.length) :
    ∃ order first nums lhs rest steps dims,
      order.Perm (List.range sc.contraction.operandIndices.length) ∧
      (∀ i < sc.contraction.operandIndices.length,
        order[i]? = some (nthOperand m sc.contraction.operandIndices.length i)) ∧
      order = first :: nums ∧ pick sc.contraction.operandIndices [] order = lhs :: rest ∧
      nums.length + 1 = sc.contraction.operandIndices.length ∧
      nums.length = rest.length ∧ generateOptimizedOrder h sc m = .ok (.pairs steps) ∧
      steps.length = rest.length ∧ (∀ c ∈ sc.contraction.operandIndices.flatten,
        sc.outputSize c = some (dims c)) ∧
      ∀ k st, steps[k]? = some st →
        StepShape dims sc.contraction.outputIndices first 0 lhs rest nums steps k st := by
  obtain ⟨inputs, out, dims, hd, hs, rfl⟩ := fromStringAndShapes_iff.1 hsc
  have hv : (callSC inputs out dims).Valid dims := callSC_valid hd.outputOk
  obtain ⟨order, o1, o2, o3⟩ := order_eq (callSC inputs out dims) m hm h
  rcases path_shape hv h (order := order) hd.inputs_ne.1 o1 with
    ⟨psc, ix, e, _⟩ | ⟨first, nums, lhs, rest, steps, a1, a2, a3, a4, a5, a6, a7⟩
  · change inputs = [ix] at e
    change 2 ≤ inputs.length at h2
    rw [e] at h2
    simp at h2
  · refine ⟨order, first, nums, lhs, rest, steps, dims, o1, o3, a1, a2, ?_, a4, o2.trans a5, a6,
      hv.size, a7⟩
    have := o1.length_eq
    rw [a1] at this
    simpa [callSC] using this

/-- C10: with `n ≥ 2` operands the order has `n - 1` steps; step `k` contracts the result of the previous
step (the first operand, for the first step) with the next operand. -/
theorem C10_steps (h₀ h : HashOrd) (s : String) (shapes : List (List Nat)) (sc : SizedContraction)
    (hsc : SizedContraction.fromStringAndShapes h₀ s shapes = .ok sc) (m : OptimizationMethod)
    (hm : m = .naive ∨ m = .reverse) (n : Nat) (hn : sc.contraction.operandIndices.length = n)
    (h2 : 2 ≤ n) :
    ∃ steps, generateOptimizedOrder h sc m = .ok (.pairs steps) ∧ steps.length = n - 1 ∧
      ∀ k st, steps[k]? = some st →
        st.operandNums.lhs = (if k = 0 then .input (nthOperand m n 0) else .intermediateResult (k - 1)) ∧
        st.operandNums.rhs = .input (nthOperand m n (k + 1)) := by
  subst hn
  obtain ⟨order, first, nums, lhs, rest, steps, dims, o1, o2, o3, o4, o5, o6, o7, o8, o9, o10⟩ :=
    order_spec h₀ h s shapes sc hsc m hm h2
  refine ⟨steps, o7, by omega, fun k st hst => ?_⟩
  have hk : k < steps.length := (List.getElem?_eq_some_iff.1 hst).1
  obtain ⟨a1, a2, -⟩ := o10 k st hst
  have hf : first = nthOperand m sc.contraction.operandIndices.length 0 := by
    have := o2 0 (by omega)
    rw [o3] at this
    simpa using this
  refine ⟨?_, a1 _ ?_⟩
  · rw [a2, hf]; simp
  · have := o2 (k + 1) (by omega)
    rw [o3] at this
    simpa using this

theorem usedNumbers_aux (f : Nat → Nat) (n : Nat) :
    ((List.range (n + 1)).flatMap fun k =>
      [if k = 0 then OperandNumber.input (f 0) else .intermediateResult (k - 1), .input (f (k + 1))]).Perm
    ((List.range (n + 2)).map (fun i => OperandNumber.input (f i)) ++
      (List.range n).map OperandNumber.intermediateResult) := by
  induction n with
  | zero => simp [List.range_succ]
  | succ n ih =>
    rw [List.range_succ, List.flatMap_append]
    refine (ih.append_right _).trans ?_
    rw [List.range_succ (n := n + 2), List.range_succ (n := n), List.map_append, List.map_append]
    simp only [List.flatMap_cons, List.flatMap_nil, List.append_nil, List.map_cons, List.map_nil,
      Nat.add_one_ne_zero, if_false, Nat.add_sub_cancel]
    simp only [List.append_assoc]
    refine List.Perm.append_left _ ?_
    have e : [OperandNumber.intermediateResult n, OperandNumber.input (f (n + 1 + 1))] =
      [OperandNumber.intermediateResult n] ++ [OperandNumber.input (f (n + 2))] := rfl
    rw [e, ← List.append_assoc]
    refine List.perm_append_comm.trans (List.Perm.append_left _ (List.Perm.refl _))

/-- C10: over all steps every input is used exactly once and every intermediate result but the last
exactly once. -/
theorem C10_each_once (h₀ h : HashOrd) (s : String) (shapes : List (List Nat)) (sc : SizedContraction)
    (hsc : SizedContraction.fromStringAndShapes h₀ s shapes = .ok sc) (m : OptimizationMethod)
    (hm : m = .naive ∨ m = .reverse) (n : Nat) (hn : sc.contraction.operandIndices.length = n)
    (h2 : 2 ≤ n) :
    ∃ steps, generateOptimizedOrder h sc m = .ok (.pairs steps) ∧
      (usedNumbers steps).Perm
        ((List.range n).map .input ++ (List.range (n - 2)).map .intermediateResult) := by
  obtain ⟨steps, h1, h3, h4⟩ := C10_steps h₀ h s shapes sc hsc m hm n hn h2
  refine ⟨steps, h1, ?_⟩
  obtain ⟨p, rfl⟩ : ∃ p, n = p + 2 := ⟨n - 2, by omega⟩
  have hlen : steps.length = p + 1 := by omega
  have e : usedNumbers steps = (List.range (p + 1)).flatMap fun k =>
      [if k = 0 then OperandNumber.input (nthOperand m (p + 2) 0) else .intermediateResult (k - 1),
        .input (nthOperand m (p + 2) (k + 1))] := by
    unfold usedNumbers
    rw [List.flatMap_def, List.flatMap_def]
    congr 1
    refine List.ext_getElem (by simp [hlen]) fun k hk1 hk2 => ?_
    have hk : k < steps.length := by simpa using hk1
    obtain ⟨a, b⟩ := h4 k _ (List.getElem?_eq_getElem hk)
    simp only [List.getElem_map, List.getElem_range, a, b]
  rw [e]
  refine (usedNumbers_aux _ p).trans (List.Perm.append_right _ ?_)
  rcases hm with rfl | rfl
  · exact List.Perm.refl _
  · have : (List.range (p + 2)).map (fun i => OperandNumber.input (nthOperand .reverse (p + 2) i)) =
        ((List.range (p + 2)).reverse).map .input := by
      refine List.ext_getElem (by simp) fun k hk1 hk2 => ?_
      simp [nthOperand]
    rw [this]
    exact (List.reverse_perm _).map _

theorem Ex.sizing_three : SizedContraction.fromStringAndShapes HashOrd.reversed "ij,jjk,kj->ij"
    [[2, 3], [3, 3, 2], [2, 3]] =
      .ok (callSC [['i', 'j'], ['j', 'j', 'k'], ['k', 'j']] ['i', 'j'] Ex.dims) :=
  validateAndSize_ok _ Ex.denotes_three Ex.call_three.sized

example : ∃ steps, generateOptimizedOrder HashOrd.insertion
    (callSC [['i', 'j'], ['j', 'j', 'k'], ['k', 'j']] ['i', 'j'] Ex.dims) .reverse = .ok (.pairs steps) ∧
    (usedNumbers steps).Perm [.input 0, .input 1, .input 2, .intermediateResult 0] :=
  C10_each_once _ _ _ _ _ Ex.sizing_three _ (.inr rfl) 3 rfl (by decide)

example : generateOptimizedOrder HashOrd.insertion (callSC [['j', 'j', 'k']] ['k'] Ex.dims) .naive =
    .ok (.singleton (callSC [['j', 'j', 'k']] ['k'] Ex.dims)) :=
  C10_singleton HashOrd.insertion _ "jjk->k" [[3, 3, 2]] _
    (validateAndSize_ok _ Ex.denotes_trace Ex.call_trace.sized) _ (.inl rfl) rfl

/-! ## C11 -/

/-- C11: compiling a validated contraction never panics for the supported strategies. -/
theorem C11_compiles (h₀ h h' : HashOrd) (s : String) (shapes : List (List Nat)) (sc : SizedContraction)
    (hsc : SizedContraction.fromStringAndShapes h₀ s shapes = .ok sc) (m : OptimizationMethod)
    (hm : m = .naive ∨ m = .reverse) :
    ∃ o p, generateOptimizedOrder h sc m = .ok o ∧ EinsumPath.fromPath h' o = .ok p ∧
      p.contractionOrder = o := by
  obtain ⟨inputs, out, dims, hd, hs, rfl⟩ := fromStringAndShapes_iff.1 hsc
  have hv : (callSC inputs out dims).Valid dims := callSC_valid hd.outputOk
  obtain ⟨order, o1, o2, -⟩ := order_eq (callSC inputs out dims) m hm h
  obtain ⟨o, p1, p2⟩ := path_ok hv h hd.inputs_ne.1 o1
  obtain ⟨p, q1, -⟩ := p2 h'
  refine ⟨o, p, o2.trans p1, q1, ?_⟩
  unfold EinsumPath.fromPath at q1
  split at q1
  · cases hx : SingletonContraction.new ‹_› with
    | error e => rw [hx] at q1; cases q1
    | ok x => rw [hx] at q1; cases q1; rfl
  · cases hx : compileSteps h' ‹_› with
    | error e => rw [hx] at q1; cases q1
    | ok x => rw [hx] at q1; cases q1; rfl

/-- C11: the other strategies always panic. -/
theorem C11_unsupported (h : HashOrd) (sc : SizedContraction) (m : OptimizationMethod)
    (hm : m = .greedy ∨ m = .optimal ∨ m = .branch) :
    ∃ k, generateOptimizedOrder h sc m = panic k := by
  rcases hm with rfl | rfl | rfl <;> exact ⟨.explicit, rfl⟩

example : ∃ o p, generateOptimizedOrder HashOrd.insertion
    (callSC [['i', 'j'], ['j', 'j', 'k'], ['k', 'j']] ['i', 'j'] Ex.dims) .reverse = .ok o ∧
    EinsumPath.fromPath HashOrd.reversed o = .ok p ∧ p.contractionOrder = o :=
  C11_compiles _ _ _ _ _ _ Ex.sizing_three _ (.inr rfl)

/-! ## C12 -/

/-- C12: each step contracts the array produced before it (the first operand, for the first step) with
the next operand, and its result keeps, without repetition, exactly the labels of the operands consumed
so far that occur in a later operand or in the output; the last step produces the requested output; the
lengths recorded in each step are those of the whole contraction. -/
theorem C12_labels (h₀ h : HashOrd) (s : String) (shapes : List (List Nat)) (sc : SizedContraction)
    (hsc : SizedContraction.fromStringAndShapes h₀ s shapes = .ok sc) (m : OptimizationMethod)
    (hm : m = .naive ∨ m = .reverse) (n : Nat) (hn : sc.contraction.operandIndices.length = n)
    (h2 : 2 ≤ n) :
    ∃ steps, generateOptimizedOrder h sc m = .ok (.pairs steps) ∧
      ∀ k st, steps[k]? = some st →
        (∃ l r, st.sizedContraction.contraction.operandIndices = [l, r] ∧
          sc.contraction.operandIndices[nthOperand m n (k + 1)]? = some r ∧
          (k = 0 → sc.contraction.operandIndices[nthOperand m n 0]? = some l) ∧
          ∀ j st', k = j + 1 → steps[j]? = some st' →
            l = st'.sizedContraction.contraction.outputIndices) ∧
        st.sizedContraction.contraction.outputIndices.Nodup ∧
        (∀ c, c ∈ st.sizedContraction.contraction.outputIndices ↔
          (∃ i ix, i ≤ k + 1 ∧ sc.contraction.operandIndices[nthOperand m n i]? = some ix ∧ c ∈ ix) ∧
          ((∃ i ix, k + 1 < i ∧ i < n ∧
            sc.contraction.operandIndices[nthOperand m n i]? = some ix ∧ c ∈ ix) ∨
            c ∈ sc.contraction.outputIndices)) ∧
        (k + 2 = n → st.sizedContraction.contraction.outputIndices = sc.contraction.outputIndices) ∧
        ∀ c ∈ st.sizedContraction.contraction.operandIndices.flatten,
          st.sizedContraction.outputSize c = sc.outputSize c := by
  subst hn
  obtain ⟨order, first, nums, lhs, rest, steps, dims, o1, o2, o3, o4, o5, o6, o7, o8, o9, o10⟩ :=
    order_spec h₀ h s shapes sc hsc m hm h2
  refine ⟨steps, o7, fun k st hst => ?_⟩
  have hk : k < steps.length := (List.getElem?_eq_some_iff.1 hst).1
  obtain ⟨a1, a2, ⟨l, r, b1, b2, b3, b4⟩, a4, a5, a6, a7⟩ := o10 k st hst
  set inputs := sc.contraction.operandIndices with hI
  set n := inputs.length with hn
  -- the `i`-th picked operand
  have hpick : ∀ i < n, (lhs :: rest)[i]? = inputs[nthOperand m n i]? := by
    intro i hi
    obtain ⟨x, hx⟩ : ∃ x, (lhs :: rest)[i]? = some x :=
      ⟨_, List.getElem?_eq_getElem (by simp; omega)⟩
    rw [hx]
    rw [← o4] at hx
    obtain ⟨q, q1, q2⟩ := pick_getElem? o1 hx
    rw [o2 i hi] at q1
    cases q1
    exact q2.symm
  have hmem : ∀ (a b : Nat) (c : Char), b ≤ n →
      (c ∈ (((lhs :: rest).drop a).take (b - a)).flatten ↔
        ∃ i ix, a ≤ i ∧ i < b ∧ inputs[nthOperand m n i]? = some ix ∧ c ∈ ix) := by
    intro a b c hb
    rw [List.mem_flatten]
    constructor
    · rintro ⟨ix, hix, hc⟩
      obtain ⟨j, hj, e⟩ := List.mem_iff_getElem.1 hix
      have hj' : j < b - a := by simp at hj; omega
      have e2 : (((lhs :: rest).drop a).take (b - a))[j]? = some ix := by
        rw [List.getElem?_eq_getElem hj, e]
      rw [List.getElem?_take, if_pos hj', List.getElem?_drop, hpick _ (by omega)] at e2
      exact ⟨a + j, ix, by omega, by omega, e2, hc⟩
    · rintro ⟨i, ix, h1, h3, h4, hc⟩
      refine ⟨ix, List.mem_iff_getElem?.2 ⟨i - a, ?_⟩, hc⟩
      rw [List.getElem?_take, if_pos (by omega), List.getElem?_drop, hpick _ (by omega),
        show a + (i - a) = i by omega, h4]
  refine ⟨⟨l, r, b1, ?_, fun h0 => ?_, b4⟩, a4, fun c => ?_, fun hl => a6 (by omega), ?_⟩
  · rw [← hpick (k + 1) (by omega)]; simpa using b2
  · rw [← hpick 0 (by omega), b3 h0]; simp
  · rw [a5]
    have m1 := hmem 0 (k + 2) c (by omega)
    have m2 := hmem (k + 2) n c le_rfl
    have e1 : ((lhs :: rest).drop 0).take (k + 2 - 0) = lhs :: rest.take (k + 1) := by simp
    have e2 : ((lhs :: rest).drop (k + 2)).take (n - (k + 2)) = rest.drop (k + 1) := by
      rw [List.drop_succ_cons, List.take_of_length_le]
      simp; omega
    rw [e1, List.flatten_cons, List.mem_append] at m1
    rw [e2] at m2
    rw [m1, m2]
    constructor
    · rintro ⟨⟨i, ix, _, h3, h4⟩, h5⟩
      refine ⟨⟨i, ix, by omega, h4⟩, h5.imp (fun ⟨i, ix, h6, h7, h8⟩ => ⟨i, ix, by omega, h7, h8⟩) id⟩
    · rintro ⟨⟨i, ix, h3, h4⟩, h5⟩
      refine ⟨⟨i, ix, by omega, by omega, h4⟩,
        h5.imp (fun ⟨i, ix, h6, h7, h8⟩ => ⟨i, ix, by omega, h7, h8⟩) id⟩
  · intro c hc
    rw [a7.size c hc, o9 c]
    -- every label of a step occurs in the operands
    have hall : ∀ c ∈ (lhs :: rest).flatten, c ∈ inputs.flatten := fun c hc =>
      (pick_perm inputs [] o1).flatten.mem_iff.1 (by rw [o4]; exact hc)
    rw [b1] at hc
    simp only [List.flatten_cons, List.flatten_nil, List.append_nil, List.mem_append] at hc
    rcases hc with hc | hc
    · cases k with
      | zero => rw [b3 rfl] at hc; exact hall c (by simp [hc])
      | succ k =>
        have hk' : k < steps.length := by omega
        rw [b4 k _ rfl (List.getElem?_eq_getElem hk'),
          (o10 k _ (List.getElem?_eq_getElem hk')).mem c] at hc
        refine hall c ?_
        rw [List.flatten_cons, List.mem_append]
        refine hc.1.imp id fun hx => ?_
        obtain ⟨x, hx1, hx2⟩ := List.mem_flatten.1 hx
        exact List.mem_flatten.2 ⟨x, List.mem_of_mem_take hx1, hx2⟩
    · refine hall c ?_
      rw [List.flatten_cons, List.mem_append]
      exact .inr (List.mem_flatten.2 ⟨r, List.mem_of_getElem? b2, hc⟩)

example : ∃ steps, generateOptimizedOrder HashOrd.insertion
    (callSC [['i', 'j'], ['j', 'j', 'k'], ['k', 'j']] ['i', 'j'] Ex.dims) .reverse = .ok (.pairs steps) := by
  obtain ⟨steps, h1, -⟩ := C12_labels _ HashOrd.insertion _ _ _ Ex.sizing_three .reverse (.inr rfl) 3 rfl
    (by decide)
  exact ⟨steps, h1⟩

end Einsum
