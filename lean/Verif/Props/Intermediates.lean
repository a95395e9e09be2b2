import Verif.Props.Trees

/-!
# Sizes of the intermediate results: C75
-/

namespace Einsum

open Spec

/-- The vector `intermediate_results` at the end of `contract_operands`, mod.rs 473-486; a path of one operand has none. -/
def EinsumPath.intermediates {A : Type} [Zero A] [Add A] [Mul A] [MulAdd A] (self : EinsumPath) (al : Alloc A)
    (operands : List (View A)) : M (List (View A)) :=
  match self.steps, self.contractionOrder with
  | .singletonContraction _, .singleton _ => .ok []
  | .pairContractions steps, .pairs orderSteps => runSteps al operands (steps.zip orderSteps) []
  | _, _ => panic .explicit

/-! ## Shapes -/

theorem steps_shapes {A : Type} [Zero A] [Add A] [Mul A] [MulAdd A] {dims : Char → Nat} {inputs : List (List Char)}
    (steps : List PairStep) (h : HashOrd)
    {cs : List PairContraction} (hcs : compileSteps h steps = .ok cs) (outs : List (List Char))
    (hw : Wired dims inputs steps outs) (al : UniformAlloc) (operands inter res : List (View A))
    (ho : List.Forall₂ (Shaped dims) inputs operands) (hi : List.Forall₂ (Shaped dims) outs inter)
    (hr : runSteps (al.alloc A) operands (cs.zip steps) inter = .ok res) :
    List.Forall₂ (Shaped dims) (outs ++ steps.map fun st => st.sizedContraction.contraction.outputIndices) res := by
  induction steps generalizing h cs outs al inter with
  | nil =>
    cases hcs
    cases hr
    simpa using hi
  | cons st steps ih =>
    obtain ⟨w1, ⟨l, r, w2, w3, w4⟩, w5⟩ := hw
    simp only [compileSteps] at hcs
    obtain ⟨p, c1, c2⟩ := bind_eq_ok.1 hcs
    obtain ⟨cs, c3, c4⟩ := bind_eq_ok.1 c2
    cases c4
    simp only [List.zip_cons_cons, runSteps] at hr
    obtain ⟨lv, f1, g1⟩ := bind_eq_ok.1 hr
    obtain ⟨rv, f2, g2⟩ := bind_eq_ok.1 g1
    obtain ⟨w, f3, g3⟩ := bind_eq_ok.1 g2
    have e := PairContraction.run_map val_opHom ((al.sub 0).compat (Counted.val : Counted A → A)) p
      (lv.map Counted.fresh) (rv.map Counted.fresh)
    rw [map_fresh_val, map_fresh_val] at e
    change p.run ((al.alloc A).sub 0) lv rv = (p.run ((al.alloc (Counted A)).sub 0) _ _).map _ at e
    rw [f3] at e
    cases hq : p.run ((al.alloc (Counted A)).sub 0) (lv.map Counted.fresh) (rv.map Counted.fresh) with
    | error e' => rw [hq] at e; cases e
    | ok q =>
      rw [hq] at e
      have hqw : w = q.map Counted.val := Except.ok.inj e
      obtain ⟨k1, -⟩ := pair_counts w1 w2 _ c1 (al.sub 0) (fetch_shaped ho hi w3 f1) (fetch_shaped ho hi w4 f2) hq
      have := ih _ c3 _ w5 (al.sub 1) (inter ++ [w])
        (List.rel_append hi (.cons (by rw [hqw]; exact (shaped_map _).2 k1) .nil)) g3
      simpa using this

theorem shapes_of {A : Type} {dims : Char → Nat} {outs : List (List Char)} {vs : List (View A)}
    (h : List.Forall₂ (Shaped dims) outs vs) : vs.map View.shape = outs.map fun o => o.map dims := by
  induction h with
  | nil => rfl
  | cons h _ ih => rw [List.map_cons, List.map_cons, ih, h.2]

/-- C75: the last array of the vector is the result. -/
theorem C75_last {A : Type} [Zero A] [Add A] [Mul A] [MulAdd A] (steps : List PairStep) (h : HashOrd) (p : EinsumPath)
    (hp : EinsumPath.fromPath h (.pairs steps) = .ok p) (al : Alloc A) (operands : List (View A)) (r : View A)
    (hr : p.contractOperands al operands = .ok r) :
    ∃ l, p.intermediates al operands = .ok l ∧ l.getLast? = some r := by
  obtain ⟨cs, c1, c2⟩ := bind_eq_ok.1 hp
  cases c2
  simp only [EinsumPath.contractOperands, EinsumPath.intermediates] at hr ⊢
  obtain ⟨inter, r1, r2⟩ := bind_eq_ok.1 hr
  refine ⟨inter, r1, ?_⟩
  cases hg : inter.getLast? with
  | none => rw [hg] at r2; cases r2
  | some x => rw [hg] at r2; cases r2; rfl

/-- C75: the arrays held when a path returns have the output labels of the steps. -/
theorem C75_tree {A : Type} [Zero A] [Add A] [Mul A] [MulAdd A] (h : HashOrd) (al : UniformAlloc)
    (steps : List PairStep) (inputs : List (List Char)) (out : List Char) (dims : Char → Nat) (operands : List (View A))
    (hc : Contracts dims out 0 (numbered inputs) steps) (hs : Sized dims inputs (operands.map View.shape))
    (hwf : ∀ v ∈ operands, v.Wf) (p : EinsumPath) (hp : EinsumPath.fromPath h (.pairs steps) = .ok p)
    (l : List (View A)) (hr : p.intermediates (al.alloc A) operands = .ok l) :
    l.map View.shape = steps.map fun st => st.sizedContraction.contraction.outputIndices.map dims := by
  obtain ⟨cs, c1, c2⟩ := bind_eq_ok.1 hp
  cases c2
  simp only [EinsumPath.intermediates] at hr
  have hw : Wired dims inputs (steps.map PairStep.norm) [] := wired_contracts hc [] rfl fun x hx => by
    obtain ⟨i, hi, rfl⟩ := List.mem_map.1 hx
    simp [labelsOf, List.getElem?_eq_getElem (List.mem_range.1 hi)]
  rw [shapes_of (steps_shapes (steps.map PairStep.norm) h (by rw [compile_norm]; exact c1) [] hw al operands [] l
    (shaped_of hwf hs) .nil (by rw [run_norm]; exact hr))]
  simp only [List.nil_append, List.map_map]
  rfl

theorem inOrder_length {α : Type} {m : OptimizationMethod} (hm : m = .naive ∨ m = .reverse) (l : List α) :
    (inOrder m l).length = l.length := by
  rcases hm with rfl | rfl <;> simp [inOrder]

/-- The output labels of generated steps. -/
theorem kept_generated {h₀ h : HashOrd} {s : String} {inputs : List (List Char)} {out : List Char} {dims : Char → Nat}
    {shapes : List (List Nat)}
    (hsc : SizedContraction.fromStringAndShapes h₀ s shapes = .ok (callSC inputs out dims)) {m : OptimizationMethod}
    (hm : m = .naive ∨ m = .reverse) (h2 : 2 ≤ inputs.length) :
    ∃ steps, generateOptimizedOrder h (callSC inputs out dims) m = .ok (.pairs steps) ∧
      List.Forall₂ (fun st k => st.sizedContraction.contraction.outputIndices.Perm (keptLetters (inOrder m inputs) out k))
        steps (List.range (inputs.length - 1)) := by
  obtain ⟨order, first, nums, lhs, rest, steps, dims', o1, o2, o3, o4, o5, o6, o7, o8, o9, o10⟩ :=
    order_spec h₀ h s shapes (callSC inputs out dims) hsc m hm h2
  refine ⟨steps, o7, ?_⟩
  change order.Perm (List.range inputs.length) at o1
  change ∀ i < inputs.length, order[i]? = some (nthOperand m inputs.length i) at o2
  change pick inputs [] order = lhs :: rest at o4
  change nums.length + 1 = inputs.length at o5
  have hlen := inOrder_length hm inputs
  have horder : inOrder m inputs = lhs :: rest := by
    refine List.ext_getElem? fun i => ?_
    by_cases hi : i < inputs.length
    · obtain ⟨x, hx⟩ : ∃ x, (lhs :: rest)[i]? = some x := ⟨_, List.getElem?_eq_getElem (by simp; omega)⟩
      rw [hx]
      rw [← o4] at hx
      obtain ⟨q, q1, q2⟩ := pick_getElem? o1 hx
      rw [o2 i hi] at q1
      cases q1
      rw [inOrder_getElem? hm hi, q2]
    · rw [List.getElem?_eq_none (by omega), List.getElem?_eq_none (by simp; omega)]
  rw [horder]
  refine List.forall₂_iff_get.2 ⟨by simp; omega, fun k hk hk' => ?_⟩
  have hs := o10 k steps[k] (List.getElem?_eq_getElem hk)
  simp only [List.get_eq_getElem, List.getElem_range]
  refine perm_of_nodup hs.nodup ((List.nodup_dedup _).filter _) fun c => ?_
  rw [hs.mem c]
  simp only [keptLetters, List.mem_filter, List.mem_dedup, decide_eq_true_eq, List.take_succ_cons, List.drop_succ_cons,
    List.flatten_cons, List.mem_append]
  rfl

theorem prod_of_shapes {A : Type} {dims : Char → Nat} {steps : List PairStep} {ks : List Nat} {kept : Nat → List Char}
    (h : List.Forall₂ (fun st k => st.sizedContraction.contraction.outputIndices.Perm (kept k)) steps ks)
    {l : List (View A)}
    (hl : l.map View.shape = steps.map fun st => st.sizedContraction.contraction.outputIndices.map dims) :
    (l.map fun v => v.shape.prod) = ks.map fun k => ((kept k).map dims).prod := by
  induction h generalizing l with
  | nil => simp at hl; simp [hl]
  | cons h _ ih =>
    cases l with
    | nil => simp at hl
    | cons v l =>
      simp only [List.map_cons, List.cons.injEq] at hl ⊢
      exact ⟨by rw [hl.1]; exact (h.map dims).prod_eq, ih hl.2⟩

/-! ## Properties -/

/-- C75: the arrays held when a generated order is compiled and run: the axes of the array of step `k` are the letters
kept, each once. -/
theorem C75_path {A : Type} [Zero A] [Add A] [Mul A] [MulAdd A] (h₀ h h' : HashOrd) (al : UniformAlloc) (s : String)
    (operands : List (View A)) (inputs : List (List Char)) (out : List Char) (dims : Char → Nat)
    (hd : Denotes s inputs out) (hs : Sized dims inputs (operands.map View.shape)) (hwf : ∀ v ∈ operands, v.Wf)
    (h2 : 2 ≤ inputs.length) (m : OptimizationMethod) (hm : m = .naive ∨ m = .reverse) (sc : SizedContraction)
    (hsc : SizedContraction.fromStringAndShapes h₀ s (operands.map View.shape) = .ok sc) (o : ContractionOrder)
    (ho : generateOptimizedOrder h sc m = .ok o) (p : EinsumPath) (hp : EinsumPath.fromPath h' o = .ok p)
    (l : List (View A)) (hr : p.intermediates (al.alloc A) operands = .ok l) :
    List.Forall₂ (fun v k => ∃ ls : List Char, ls.Perm (keptLetters (inOrder m inputs) out k) ∧ v.shape = ls.map dims)
      l (List.range (inputs.length - 1)) ∧
    (l.map fun v => v.shape.prod) =
      (List.range (inputs.length - 1)).map fun k => ((keptLetters (inOrder m inputs) out k).map dims).prod := by
  obtain rfl : sc = callSC inputs out dims := by
    have : SizedContraction.fromStringAndShapes h₀ s (operands.map View.shape) = .ok (callSC inputs out dims) :=
      fromStringAndShapes_iff.2 ⟨inputs, out, dims, hd, hs, rfl⟩
    rw [hsc] at this
    exact Except.ok.inj this
  obtain ⟨steps, o1, o2⟩ := kept_generated (h := h) hsc hm h2
  rw [ho] at o1
  cases o1
  obtain ⟨cs, c1, c2⟩ := bind_eq_ok.1 hp
  cases c2
  simp only [EinsumPath.intermediates] at hr
  have hl := shapes_of (steps_shapes steps h' c1 [] (wired_generated hsc hm ho steps rfl) al operands [] l
    (shaped_of hwf hs) .nil hr)
  simp only [List.nil_append, List.map_map] at hl
  refine ⟨?_, prod_of_shapes o2 hl⟩
  clear hr hp c1 ho
  generalize List.range (inputs.length - 1) = ks at o2
  induction o2 generalizing l with
  | nil => simp at hl; simp [hl]
  | cons h _ ih =>
    cases l with
    | nil => simp at hl
    | cons v l =>
      simp only [List.map_cons, List.cons.injEq] at hl
      exact .cons ⟨_, h, hl.1⟩ (ih l hl.2)

/-- C75: the same for `einsum`, which takes the operands from left to right. -/
theorem C75_einsum {A : Type} [Zero A] [Add A] [Mul A] [MulAdd A] (h : HashOrd) (al : UniformAlloc) (s : String)
    (operands : List (View A)) (inputs : List (List Char)) (out : List Char) (dims : Char → Nat)
    (hd : Denotes s inputs out) (hs : Sized dims inputs (operands.map View.shape)) (hwf : ∀ v ∈ operands, v.Wf)
    (h2 : 2 ≤ inputs.length) (r : View A) (hr : einsum h (al.alloc A) s operands = .ok (.ok r)) :
    ∃ sc p l, validateAndSize (h.sub 0) s operands = .ok sc ∧ EinsumPath.new (h.sub 1) sc = .ok p ∧
      p.intermediates (al.alloc A) operands = .ok l ∧ l.getLast? = some r ∧
      (l.map fun v => v.shape.prod) =
        (List.range (inputs.length - 1)).map fun k => ((keptLetters inputs out k).map dims).prod := by
  have hsc := validateAndSize_ok (h.sub 0) hd hs
  simp only [einsum] at hr
  rw [hsc] at hr
  simp only at hr
  obtain ⟨r', w1, hr⟩ := bind_eq_ok.1 hr
  cases hr
  obtain ⟨p, p1, p2⟩ := bind_eq_ok.1 w1
  obtain ⟨o, o1, o2⟩ := bind_eq_ok.1 p1
  obtain ⟨steps, g1, g2⟩ := kept_generated (h := (h.sub 1).sub 0) hsc (.inl rfl) h2
  rw [o1] at g1
  cases g1
  obtain ⟨l, l1, l2⟩ := C75_last steps _ p o2 _ operands r p2
  exact ⟨_, p, l, hsc, p1, l1, l2, (C75_path (h.sub 0) _ _ al s operands inputs out dims hd hs hwf h2 .naive (.inl rfl) _
    hsc _ o1 p o2 l l1).2⟩

/-! ## Products of matrices -/

theorem scattered_perm (c : Nat → Char) (m : Nat) : (scattered c m).Perm (matrices c m) := by
  induction m with
  | zero => exact .refl _
  | succ m ih =>
    have e1 : matrices c (m + 1) = matrices c m ++ [[c (2 * m + 1), c (2 * m + 2)], [c (2 * m + 2), c (2 * m + 3)]] := by
      unfold matrices
      rw [show 2 * (m + 1) + 1 = 2 * m + 1 + 1 + 1 by omega, List.range_succ, List.range_succ]
      simp
    have e2 : scattered c (m + 1) = ((List.range (m + 1)).map (fun i => [c (2 * i), c (2 * i + 1)])) ++
        ([c (2 * m + 2), c (2 * m + 3)] :: ((List.range m).map (fun i => [c (2 * i + 1), c (2 * i + 2)]) ++
          [[c (2 * m + 1), c (2 * m + 2)]])) := by
      unfold scattered
      rw [List.range_succ (n := m + 1), List.range_succ (n := m)]
      simp [Nat.mul_add]
    rw [e1, e2]
    refine List.perm_middle.trans ?_
    refine .trans ?_ (ih.append_right _)
    rw [← List.append_assoc]
    refine (List.perm_append_singleton _ _).symm.trans ?_
    rw [List.append_assoc]
    rfl

theorem mem_evens {c : Nat → Char} {m : Nat} {x : Char} :
    x ∈ ((List.range (m + 1)).map fun i => [c (2 * i), c (2 * i + 1)]).flatten ↔ ∃ j ≤ 2 * m + 1, x = c j := by
  simp only [List.mem_flatten, List.mem_map, List.mem_range]
  constructor
  · rintro ⟨_, ⟨i, hi, rfl⟩, hx⟩
    simp only [List.mem_cons, List.not_mem_nil, or_false] at hx
    rcases hx with rfl | rfl
    · exact ⟨_, by omega, rfl⟩
    · exact ⟨_, by omega, rfl⟩
  · rintro ⟨j, hj, rfl⟩
    refine ⟨_, ⟨j / 2, by omega, rfl⟩, ?_⟩
    simp only [List.mem_cons, List.not_mem_nil, or_false]
    rcases Nat.mod_two_eq_zero_or_one j with h | h
    · exact .inl (congrArg c (by omega))
    · exact .inr (congrArg c (by omega))

theorem mem_odds {c : Nat → Char} {m : Nat} {x : Char} :
    x ∈ ((List.range m).map fun i => [c (2 * i + 1), c (2 * i + 2)]).flatten ↔ ∃ j, 1 ≤ j ∧ j ≤ 2 * m ∧ x = c j := by
  simp only [List.mem_flatten, List.mem_map, List.mem_range]
  constructor
  · rintro ⟨_, ⟨i, hi, rfl⟩, hx⟩
    simp only [List.mem_cons, List.not_mem_nil, or_false] at hx
    rcases hx with rfl | rfl
    · exact ⟨_, by omega, by omega, rfl⟩
    · exact ⟨_, by omega, by omega, rfl⟩
  · rintro ⟨j, h1, hj, rfl⟩
    refine ⟨_, ⟨(j - 1) / 2, by omega, rfl⟩, ?_⟩
    simp only [List.mem_cons, List.not_mem_nil, or_false]
    rcases Nat.mod_two_eq_zero_or_one j with h | h
    · exact .inr (congrArg c (by omega))
    · exact .inl (congrArg c (by omega))

theorem kept_nodup (inputs : List (List Char)) (out : List Char) (k : Nat) : (keptLetters inputs out k).Nodup :=
  (List.nodup_dedup _).filter _

theorem prod_letters {dims : Char → Nat} {ls : List Char} {n : Nat} {c : Nat → Char} {js : List Nat}
    (hls : ls.Nodup) (hjs : js.Nodup) (hc : ∀ i ∈ js, ∀ j ∈ js, c i = c j → i = j) (hd : ∀ j ∈ js, dims (c j) = n)
    (h : ∀ x, x ∈ ls ↔ ∃ j ∈ js, x = c j) : (ls.map dims).prod = n ^ js.length := by
  rw [prod_eq (b := js.map c) hls (List.Nodup.map_on hc hjs) fun x => by rw [h x, List.mem_map]; simp only [eq_comm]]
  rw [List.map_map, List.map_congr_left (g := fun _ => n) (f := dims ∘ c) (fun j hj => hd j hj)]
  simp

/-- C75: a product of `2 m + 1` matrices, all lengths being `n`.  Listed as first, third, fifth, …, second, fourth, … the
naive strategy holds `n ^ (2 m + 2)` elements after step `m - 1` and the reverse strategy `n ^ (2 m)`; listed in their
order, each step holds `n ^ 2`. -/
theorem C75_blowup (c : Nat → Char) (m n : Nat) (hm : 0 < m)
    (hc : ∀ i ≤ 2 * m + 1, ∀ j ≤ 2 * m + 1, c i = c j → i = j) (dims : Char → Nat)
    (hd : ∀ i ≤ 2 * m + 1, dims (c i) = n) :
    (scattered c m).Perm (matrices c m) ∧
    ((keptLetters (scattered c m) [c 0, c (2 * m + 1)] (m - 1)).map dims).prod = n ^ (2 * m + 2) ∧
    ((keptLetters (scattered c m).reverse [c 0, c (2 * m + 1)] (m - 1)).map dims).prod = n ^ (2 * m) ∧
    ∀ k < 2 * m, ((keptLetters (matrices c m) [c 0, c (2 * m + 1)] k).map dims).prod = n ^ 2 := by
  refine ⟨scattered_perm c m, ?_, ?_, fun k hk => ?_⟩
  · have := prod_letters (dims := dims) (n := n) (c := c) (js := List.range (2 * m + 2))
      (kept_nodup (scattered c m) [c 0, c (2 * m + 1)] (m - 1)) List.nodup_range
      (fun i hi j hj => hc i (by rw [List.mem_range] at hi; omega) j (by rw [List.mem_range] at hj; omega))
      (fun j hj => hd j (by rw [List.mem_range] at hj; omega)) fun x => ?_
    · rw [this, List.length_range]
    · simp only [keptLetters, List.mem_filter, List.mem_dedup, decide_eq_true_eq]
      rw [show m - 1 + 2 = m + 1 by omega]
      unfold scattered
      rw [List.take_left' (by simp), List.drop_left' (by simp), mem_evens, mem_odds]
      simp only [List.mem_cons, List.not_mem_nil, or_false, List.mem_range]
      constructor
      · rintro ⟨⟨j, hj, rfl⟩, -⟩
        exact ⟨j, by omega, rfl⟩
      · rintro ⟨j, hj, rfl⟩
        refine ⟨⟨j, by omega, rfl⟩, ?_⟩
        rcases Nat.eq_zero_or_pos j with rfl | h0
        · exact .inr (.inl rfl)
        · by_cases h1 : j = 2 * m + 1
          · exact .inr (.inr (by rw [h1]))
          · exact .inl ⟨j, h0, by omega, rfl⟩
  · obtain ⟨q, rfl⟩ : ∃ q, m = q + 1 := ⟨m - 1, by omega⟩
    have hjs : ∀ j, j ∈ (List.range (2 * q + 1)).map (· + 1) ++ [2 * q + 3] ↔ (1 ≤ j ∧ j ≤ 2 * q + 1) ∨ j = 2 * q + 3 := by
      intro j
      simp only [List.mem_append, List.mem_map, List.mem_range, List.mem_singleton]
      refine or_congr ⟨?_, fun h => ⟨j - 1, by omega, by omega⟩⟩ Iff.rfl
      rintro ⟨i, hi, rfl⟩
      omega
    have := prod_letters (dims := dims) (n := n) (c := c) (js := (List.range (2 * q + 1)).map (· + 1) ++ [2 * q + 3])
      (kept_nodup (scattered c (q + 1)).reverse [c 0, c (2 * (q + 1) + 1)] (q + 1 - 1))
      (List.Nodup.append (List.nodup_range.map fun _ _ h => Nat.succ.inj h) (List.nodup_singleton _) (by
        intro j hj hj'
        rw [List.mem_singleton] at hj'
        obtain ⟨i, hi, rfl⟩ := List.mem_map.1 hj
        rw [List.mem_range] at hi
        omega))
      (fun i hi j hj => hc i (by rw [hjs] at hi; omega) j (by rw [hjs] at hj; omega))
      (fun j hj => hd j (by rw [hjs] at hj; omega)) fun x => ?_
    · rw [this]
      simp [Nat.mul_add]
    · have e : (scattered c (q + 1)).reverse =
          (((List.range (q + 1)).map fun i => [c (2 * i + 1), c (2 * i + 2)]).reverse ++ [[c (2 * q + 2), c (2 * q + 3)]]) ++
            ((List.range (q + 1)).map fun i => [c (2 * i), c (2 * i + 1)]).reverse := by
        unfold scattered
        rw [List.range_succ (n := q + 1), List.map_append, List.reverse_append, List.reverse_append]
        simp [Nat.mul_add]
      simp only [keptLetters, List.mem_filter, List.mem_dedup, decide_eq_true_eq]
      rw [e, List.take_left' (by simp), List.drop_left' (by simp), List.flatten_append, List.mem_append,
        (List.reverse_perm _).flatten.mem_iff, (List.reverse_perm _).flatten.mem_iff, mem_evens, mem_odds]
      simp only [List.flatten_cons, List.flatten_nil, List.append_nil, List.mem_cons, List.not_mem_nil, or_false, hjs]
      constructor
      · rintro ⟨h1, h2⟩
        obtain ⟨j, j1, j2, rfl⟩ : ∃ j, 1 ≤ j ∧ j ≤ 2 * q + 3 ∧ x = c j := by
          rcases h1 with ⟨j, j1, j2, rfl⟩ | rfl | rfl
          · exact ⟨j, j1, by omega, rfl⟩
          · exact ⟨_, by omega, by omega, rfl⟩
          · exact ⟨_, by omega, by omega, rfl⟩
        refine ⟨j, ?_, rfl⟩
        rcases h2 with ⟨i, i1, i2⟩ | h | h
        · have := hc _ (by omega) _ (by omega) i2
          omega
        · have := hc _ (by omega) _ (by omega) h
          omega
        · have := hc _ (by omega) _ (by omega) h
          omega
      · rintro ⟨j, (⟨j1, j2⟩ | rfl), rfl⟩
        · exact ⟨.inl ⟨j, j1, by omega, rfl⟩, .inl ⟨j, j2, rfl⟩⟩
        · exact ⟨.inr (.inr rfl), .inr (.inr rfl)⟩
  · have := prod_letters (dims := dims) (n := n) (c := c) (js := [0, k + 2])
      (kept_nodup (matrices c m) [c 0, c (2 * m + 1)] k) (by simp)
      (fun i hi j hj => hc i (by simp at hi; omega) j (by simp at hj; omega))
      (fun j hj => hd j (by simp at hj; omega)) fun x => ?_
    · exact this
    · simp only [keptLetters, matrices, List.mem_filter, List.mem_dedup, decide_eq_true_eq, mem_take_flatten,
        mem_drop_flatten, List.mem_cons, List.not_mem_nil, or_false]
      constructor
      · rintro ⟨⟨i, i1, i2, i3⟩, h2⟩
        obtain ⟨j, j1, rfl⟩ : ∃ j, j ≤ k + 2 ∧ x = c j := by
          rcases i3 with rfl | rfl
          · exact ⟨_, by omega, rfl⟩
          · exact ⟨_, by omega, rfl⟩
        refine ⟨j, ?_, rfl⟩
        rcases h2 with ⟨i, i1, i2, i3 | i3⟩ | h | h
        · have := hc _ (by omega) _ (by omega) i3
          omega
        · have := hc _ (by omega) _ (by omega) i3
          omega
        · have := hc _ (by omega) _ (by omega) h
          omega
        · have := hc _ (by omega) _ (by omega) h
          omega
      · rintro ⟨j, (rfl | rfl), rfl⟩
        · exact ⟨⟨0, by omega, by omega, .inl rfl⟩, .inr (.inl rfl)⟩
        · refine ⟨⟨k + 1, by omega, by omega, .inr rfl⟩, ?_⟩
          by_cases hl : k + 2 = 2 * m + 1
          · exact .inr (.inr (by rw [hl]))
          · exact .inl ⟨k + 2, by omega, by omega, .inl rfl⟩

/-! ## Examples -/

/-- The lengths of the arrays held by the balanced tree: the first keeps the `l` that the last step sums over. -/
example : ∃ p l, EinsumPath.fromPath HashOrd.reversed (.pairs Ex.balanced) = .ok p ∧
    p.intermediates (Alloc.colMajor Int) [Ex.m23, Ex.m32, Ex.m23, Ex.m32] = .ok l ∧
    l.map View.shape = [[2, 3, 2], [2, 2], [2, 2]] := by
  obtain ⟨p, r, h1, h2, -⟩ := C72_order HashOrd.reversed (Alloc.colMajor Int) _ _ _ _ _ _ Ex.contracts_tree Ex.sized_tree
    (forall₂_elem Ex.wf_tree) Ex.ned_tree
  obtain ⟨l, l1, -⟩ := C75_last _ _ _ h1 _ _ _ h2
  exact ⟨p, l, h1, l1, C75_tree HashOrd.reversed UniformAlloc.colMajor _ _ _ _ _ Ex.contracts_tree Ex.sized_tree
    Ex.wf_tree p h1 l l1⟩

/-- Matrices listed as first, third, second: the first step makes an array with all four letters. -/
theorem Ex.sized_scattered : Sized Ex.treeDims [['i', 'j'], ['k', 'l'], ['j', 'k']]
    ([Ex.m23, Ex.m23, Ex.m32].map View.shape) := .cons rfl (.cons rfl (.cons rfl .nil))

theorem Ex.denotes_scattered : Denotes "ij,kl,jk->il" [['i', 'j'], ['k', 'l'], ['j', 'k']] ['i', 'l'] :=
  .inl ⟨by decide, ⟨by simp, by simp [Letter], by simp [Letter]⟩, by simp [OutputOk, Used]⟩

theorem Ex.wf_scattered : ∀ v ∈ [Ex.m23, Ex.m23, Ex.m32], v.Wf := by simp [Ex.e23.1, Ex.e32.1]

example : ∃ r sc p l, einsum HashOrd.reversed (Alloc.colMajor Int) "ij,kl,jk->il" [Ex.m23, Ex.m23, Ex.m32] = .ok (.ok r) ∧
    validateAndSize (HashOrd.reversed.sub 0) "ij,kl,jk->il" [Ex.m23, Ex.m23, Ex.m32] = .ok sc ∧
    EinsumPath.new (HashOrd.reversed.sub 1) sc = .ok p ∧
    p.intermediates (Alloc.colMajor Int) [Ex.m23, Ex.m23, Ex.m32] = .ok l ∧
    (l.map fun v => v.shape.prod) = [36, 6] := by
  obtain ⟨r, h1, -⟩ := C13_einsum HashOrd.reversed (Alloc.colMajor Int) "ij,kl,jk->il" _ _ _ _ _
    ⟨Ex.denotes_scattered, Ex.sized_scattered, forall₂_elem Ex.wf_scattered⟩ fun x _ => .inr fun c _ => by
      unfold Ex.treeDims; split <;> omega
  obtain ⟨sc, p, l, g1, g2, g3, -, g4⟩ := C75_einsum HashOrd.reversed UniformAlloc.colMajor _ _ _ _ _ Ex.denotes_scattered
    Ex.sized_scattered Ex.wf_scattered (by decide) r h1
  exact ⟨r, sc, p, l, h1, g1, g2, g3, g4.trans (by decide)⟩

example : ∃ sc o p l, SizedContraction.fromStringAndShapes HashOrd.insertion "ij,kl,jk->il"
      ([Ex.m23, Ex.m23, Ex.m32].map View.shape) = .ok sc ∧
    generateOptimizedOrder HashOrd.insertion sc .reverse = .ok o ∧ EinsumPath.fromPath HashOrd.reversed o = .ok p ∧
    p.intermediates (Alloc.rowMajor Int) [Ex.m23, Ex.m23, Ex.m32] = .ok l ∧
    (l.map fun v => v.shape.prod) = [9, 6] := by
  obtain ⟨sc, steps, h1, h2, h3⟩ := C72_generated HashOrd.insertion HashOrd.insertion _ _ _ _ _ Ex.denotes_scattered
    Ex.sized_scattered (by decide) .reverse (.inr rfl)
  obtain ⟨p, r, p1, p2, -⟩ := C72_order HashOrd.reversed (Alloc.rowMajor Int) _ _ _ _ _ _ h3 Ex.sized_scattered
    (forall₂_elem Ex.wf_scattered) fun x _ => .inr fun c _ => by unfold Ex.treeDims; split <;> omega
  obtain ⟨l, l1, -⟩ := C75_last _ _ _ p1 _ _ _ p2
  exact ⟨sc, _, p, l, h1, h2, p1, l1, (C75_path _ _ _ UniformAlloc.rowMajor _ _ _ _ _ Ex.denotes_scattered
    Ex.sized_scattered Ex.wf_scattered (by decide) _ (.inr rfl) _ h1 _ h2 _ p1 l l1).2.trans (by decide)⟩

/-- Five matrices of size 10 by 10. -/
example : ((keptLetters ["ab".toList, "cd".toList, "ef".toList, "bc".toList, "de".toList] ['a', 'f'] 1).map fun _ => 10).prod =
    10 ^ 6 :=
  (C75_blowup (fun i => ['a', 'b', 'c', 'd', 'e', 'f'].getD i 'a') 2 10 (by decide) (by decide) (fun _ => 10)
    fun _ _ => rfl).2.1

end Einsum
