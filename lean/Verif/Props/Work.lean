import Verif.SpecWork
import Verif.Proofs.Sorts
import Verif.Props.Wrapped
import Verif.Props.TensordotLaws

/-!
# The number of multiplications: C71
-/

namespace Einsum

open Spec

/-! ## Counting what a path does -/

/-- The loop of `contract_operands` (`runSteps`), on elements that count the multiplications of the current step. -/
def countSteps {A : Type} [Zero A] [Add A] [Mul A] [MulAdd A] (al : Alloc (Counted A)) (operands : List (View A)) :
    List (PairContraction × PairStep) → List (View A) → M Nat
  | [], _ => .ok 0
  | (step, orderStep) :: rest, inter => do
    let lhs ← fetch operands inter orderStep.operandNums.lhs
    let rhs ← fetch operands inter orderStep.operandNums.rhs
    let r ← step.run (al.sub 0) (lhs.map Counted.fresh) (rhs.map Counted.fresh)
    let xs ← r.toVec
    let n ← countSteps (al.sub 1) operands rest (inter ++ [r.map Counted.val])
    return (xs.map Counted.mults).sum + n

/-- The number of multiplications made by `contract_operands`: that of all elements of all intermediate results. -/
def EinsumPath.countMults {A : Type} [Zero A] [Add A] [Mul A] [MulAdd A] (p : EinsumPath) (al : Alloc (Counted A))
    (operands : List (View A)) : M Nat :=
  match p.steps, p.contractionOrder with
  | .singletonContraction c, .singleton _ => do
    let t ← index operands 0
    let r ← c.run al (t.map Counted.fresh)
    let xs ← r.toVec
    return (xs.map Counted.mults).sum
  | .pairContractions steps, .pairs orderSteps => countSteps al operands (steps.zip orderSteps) []
  | _, _ => panic .explicit

section
variable {A : Type} [Zero A] [Add A] [Mul A] [MulAdd A]

/-- Forgetting the count. -/
theorem val_opHom : OpHom (Counted.val : Counted A → A) := ⟨rfl, fun _ _ => rfl, fun _ _ => rfl, fun _ _ _ => rfl⟩

/-! ## One step -/

/-- An element, its count, and what would be computed from ones. -/
structure Probe (A : Type) where
  val : Counted A
  ones : Nat

instance : Zero (Probe A) := ⟨⟨0, 0⟩⟩
instance : Add (Probe A) := ⟨fun x y => ⟨x.val + y.val, x.ones + y.ones⟩⟩
instance : Mul (Probe A) := ⟨fun x y => ⟨x.val * y.val, x.ones * y.ones⟩⟩
instance : MulAdd (Probe A) := ⟨fun x y z => ⟨mulAdd x.val y.val z.val, x.ones * y.ones + z.ones⟩⟩

theorem probe_val : OpHom (Probe.val : Probe A → Counted A) :=
  ⟨rfl, fun _ _ => rfl, fun _ _ => rfl, fun _ _ _ => rfl⟩

theorem probe_ones : OpHom (Probe.ones : Probe A → Nat) :=
  ⟨rfl, fun _ _ => rfl, fun _ _ => rfl, fun _ _ _ => rfl⟩

/-- Products of given elements are counted by the ones. -/
theorem probe_sorts : Sorts (fun x : Probe A => x.val.mults = 0 ∧ x.ones = 1) fun x => x.val.mults = x.ones where
  zero := rfl
  add := fun x y hx hy => by
    change x.val.mults + y.val.mults = x.ones + y.ones
    omega
  mul := fun x y hx hy => by
    change x.val.mults + y.val.mults + 1 = x.ones * y.ones
    rw [hx.1, hx.2, hy.1, hy.2]
  mulAdd := fun x y z hx hy hz => by
    change x.val.mults + y.val.mults + z.val.mults + 1 = x.ones * y.ones + z.ones
    rw [hx.1, hx.2, hy.1, hy.2]
    omega

omit [Mul A] [MulAdd A] in
/-- Adding counts no multiplication. -/
theorem counted_sum : SumClosed fun x : Counted A => x.mults = 0 where
  zero := rfl
  add := fun x y hx hy => by
    change x.mults + y.mults = 0
    omega

omit [Zero A] [Add A] [Mul A] [MulAdd A] in
theorem all_fresh (v : View A) : All (fun x : Counted A => x.mults = 0) (v.map Counted.fresh) := by
  intro x hx
  simp only [View.map, List.mem_map] at hx
  obtain ⟨y, -, rfl⟩ := hx
  rfl

omit [Zero A] [Add A] [Mul A] [MulAdd A] in
theorem map_fresh_val (v : View A) : (v.map Counted.fresh).map Counted.val = v := by
  cases v
  simp [View.map, Counted.fresh, Function.comp_def]

theorem rep_ones {B : Type} [Zero B] {dims : Char → Nat} {L : List Char} {v : View B} (h : Shaped dims L v) :
    Rep (v.map fun _ => (1 : Nat)) L dims fun _ => 1 := by
  obtain ⟨T, hT⟩ := h.1.holds
  rw [h.2] at hT
  refine ⟨by rw [View.map_shape, h.2], by simpa using hT.rep.strides, fun σ hσ => ?_⟩
  rw [View.read_map, hT.rep.get σ hσ]
  rfl

/-- The letters shared by the two operands of a step that are not kept. -/
def sharedLetters (L R out : List Char) : List Char := L.dedup.filter fun c => c ∈ R ∧ c ∉ out

theorem op_counts {dims : Char → Nat} {op : PairOp} {sw : Bool} {L R out : List Char}
    (ho : op.Computes sw dims L R out) (hon : out.Nodup) (al : UniformAlloc) {l r w : View (Counted A)}
    (hl : All (fun x => x.mults = 0) l) (hr : All (fun x => x.mults = 0) r) (sl : Shaped dims L l)
    (sr : Shaped dims R r) (hw : op.run (al.alloc _) l r = .ok w) :
    Shaped dims out w ∧ ∀ idx x, w.read idx = .ok x → x.mults = ((summed [L, R] out).map dims).prod := by
  have lift : ∀ v : View (Counted A), (v.map fun x => (⟨x, 1⟩ : Probe A)).map Probe.val = v := by
    intro v
    cases v
    simp [View.map, Function.comp_def]
  have e1 := PairOp.run_map probe_val (al.compat (Probe.val : Probe A → _)) op
    (l.map fun x => (⟨x, 1⟩ : Probe A)) (r.map fun x => (⟨x, 1⟩ : Probe A))
  have e2 := PairOp.run_map probe_ones (al.compat (Probe.ones : Probe A → _)) op
    (l.map fun x => (⟨x, 1⟩ : Probe A)) (r.map fun x => (⟨x, 1⟩ : Probe A))
  rw [lift, lift, hw] at e1
  cases hq : op.run (al.alloc (Probe A)) (l.map fun x => (⟨x, 1⟩ : Probe A)) (r.map fun x => ⟨x, 1⟩) with
  | error e => rw [hq] at e1; cases e1
  | ok q =>
    rw [hq] at e1 e2
    have hwq : w = q.map Probe.val := by
      injection e1
    have hall := All.pair probe_sorts (Spec.UniformAlloc.tight al (Probe A)) (op := op)
      (l := l.map fun x => (⟨x, 1⟩ : Probe A)) (r := r.map fun x => ⟨x, 1⟩)
      (by
        intro x hx
        simp only [View.map, List.mem_map] at hx
        obtain ⟨y, hy, rfl⟩ := hx
        exact ⟨hl y hy, rfl⟩)
      (by
        intro x hx
        simp only [View.map, List.mem_map] at hx
        obtain ⟨y, hy, rfl⟩ := hx
        exact ⟨hr y hy, rfl⟩) q hq
    have el : ∀ v : View (Counted A), (v.map fun x => (⟨x, 1⟩ : Probe A)).map Probe.ones = v.map fun _ => 1 := by
      intro v
      simp [View.map, Function.comp_def]
    rw [el, el] at e2
    obtain ⟨w', w1, w2⟩ := ho ℕ (al.alloc ℕ) _ _ _ _ (rep_ones sl) (rep_ones sr)
    have hq1 : q.map Probe.ones = w' := by
      have := e2.symm.trans w1
      injection this
    have hs : Shaped dims out (q.map Probe.ones) := by
      rw [hq1]
      exact ⟨w2.wf hon, w2.shape⟩
    have hsq : Shaped dims out q := (shaped_map _).1 hs
    refine ⟨by rw [hwq]; exact (shaped_map _).2 hsq, fun idx x hx => ?_⟩
    rw [hwq, View.read_map] at hx
    cases hy : q.read idx with
    | error e => rw [hy] at hx; cases hx
    | ok y =>
      rw [hy] at hx
      cases hx
      have hv := hall.read idx y hy
      have hi : InB (out.map dims) idx := by
        by_contra hi
        rw [← hsq.2] at hi
        unfold View.read at hy
        rw [if_neg hi] at hy
        cases hy
      obtain ⟨σ, hσ, rfl⟩ := exists_assign hon hi
      have hg := w2.get σ hσ
      rw [← hq1, View.read_map, hy] at hg
      have hg := Except.ok.inj hg
      change y.ones = _ at hg
      rw [hv, hg]
      have : (fun σ : Char → ℕ => mulAs sw (1 : ℕ) 1) = fun _ => 1 := by
        funext σ
        cases sw <;> rfl
      rw [this, sumOver_const, mul_one]
      exact Nat.cast_id _

/-- The choices left for part of a computation. -/
def Spec.UniformAlloc.sub (al : UniformAlloc) (k : Nat) : UniformAlloc :=
  ⟨fun A => (al.alloc A).sub k, fun f p => al.make_map f (k :: p), fun A B p => al.sumOrder_eq A B (k :: p)⟩

theorem prod_eq {dims : Char → Nat} {a b : List Char} (ha : a.Nodup) (hb : b.Nodup) (h : ∀ c, c ∈ a ↔ c ∈ b) :
    (a.map dims).prod = (b.map dims).prod :=
  ((perm_of_nodup ha hb h).map dims).prod_eq

/-- Everything a step multiplies. -/
theorem pair_counts {sc : SizedContraction} {dims : Char → Nat} {L R : List Char}
    (hv : sc.Valid dims) (hops : sc.contraction.operandIndices = [L, R]) (h : HashOrd) {p : PairContraction}
    (hp : PairContraction.new h sc = .ok p) (al : UniformAlloc) {l r : View A}
    (hl : Shaped dims L l) (hr : Shaped dims R r) {w : View (Counted A)}
    (hw : p.run (al.alloc _) (l.map Counted.fresh) (r.map Counted.fresh) = .ok w) :
    Shaped dims sc.contraction.outputIndices w ∧ ∀ idx x, w.read idx = .ok x →
      x.mults = ((sharedLetters L R sc.contraction.outputIndices).map dims).prod := by
  have hsub := hv.out_sub2 hops
  have hon := hv.out.1
  set out := sc.contraction.outputIndices with hO
  obtain ⟨sl, l1, l2, l3, l4⟩ := simplification_ok hv (h.sub 0) (L := L) (R := R) (out := out)
    (by rw [hops]; intro c hc; simp [hc])
  obtain ⟨sr, r1, r2, r3, r4⟩ := simplification_ok hv (h.sub 1) (L := R) (R := L) (out := out)
    (by rw [hops]; intro c hc; simp [hc])
  set NL := newIndicesOr sl L with hNL
  set NR := newIndicesOr sr R with hNR
  obtain ⟨red, h1, h2, h3, h4⟩ := hv.subset (h.sub 2) (ops := [NL, NR]) (out := out)
    (by
      rw [hops]; intro c hc
      simp only [List.flatten_cons, List.flatten_nil, List.append_nil, List.mem_append, l3, r3] at hc ⊢
      tauto)
    ⟨hon, fun c hc => used_iff.2 (by
      simp only [List.flatten_cons, List.flatten_nil, List.append_nil, List.mem_append, l3, r3]
      have := hsub c hc
      tauto)⟩
  obtain ⟨s, op, h5, h6, h7⟩ := pairOp_ok h2 h3 l2 r2
    (by rw [h4]; intro c hc; rw [r3]; have := (l3 c).1 hc; tauto)
    (by rw [h4]; intro c hc; rw [l3]; have := (r3 c).1 hc; tauto)
  obtain ⟨str, hstr⟩ := asEinsumString_ok h3 (by simp)
  rw [h4] at h7
  unfold PairContraction.new at hp
  rw [hops] at hp
  simp only [List.length_cons, List.length_nil, Nat.zero_add, Nat.reduceAdd, decide_true,
    assertThat_true, bind_ok, index_cons_zero, index_one] at hp
  rw [← hO, l1, bind_ok, r1, bind_ok, ← hNL, ← hNR, h1, unwrapR_ok, bind_ok, h5, bind_ok, h6, bind_ok, hstr,
    bind_ok] at hp
  cases hp
  unfold PairContraction.run at hw
  obtain ⟨l', a1, a2⟩ := bind_eq_ok.1 hw
  obtain ⟨r', b1, b2⟩ := bind_eq_ok.1 a2
  have ht := Spec.UniformAlloc.tight al (Counted A)
  have reg : ∀ k, Regular dims ((al.alloc (Counted A)).sub k) := fun k =>
    regular_uniform dims ((al.compat (fun _ : Counted A => PUnit.unit)).sub k)
  have sl' := (reg 0).simp sl L NL _ l4 l2 _ ((shaped_map _).2 hl) l' a1
  have sr' := (reg 1).simp sr R NR _ r4 r2 _ ((shaped_map _).2 hr) r' b1
  obtain ⟨c1, c2⟩ := op_counts h7 hon (al.sub 2) ((all_fresh l).simplify counted_sum (ht.sub 0) l' a1)
    ((all_fresh r).simplify counted_sum (ht.sub 1) r' b1) sl' sr' b2
  refine ⟨c1, fun idx x hx => (c2 idx x hx).trans (prod_eq ?_ ?_ fun c => ?_)⟩
  · exact (List.nodup_dedup _).filter _
  · exact (List.nodup_dedup _).filter _
  · simp only [summed, sharedLetters, List.mem_filter, List.mem_dedup, List.flatten_cons, List.flatten_nil,
      List.append_nil, List.mem_append, l3, r3, decide_eq_true_eq]
    tauto

/-- The letters that a step runs over. -/
def lettersOf (st : PairStep) : List Char :=
  match st.sizedContraction.contraction.operandIndices with
  | [L, R] => st.sizedContraction.contraction.outputIndices ++
      sharedLetters L R st.sizedContraction.contraction.outputIndices
  | _ => []

omit [Add A] [Mul A] [MulAdd A] in
theorem Shaped.sum_toVec {dims : Char → Nat} {L : List Char} {w : View (Counted A)} (hs : Shaped dims L w) {n : Nat}
    (hn : ∀ idx x, w.read idx = .ok x → x.mults = n) :
    ∃ xs, w.toVec = .ok xs ∧ (xs.map Counted.mults).sum = (L.map dims).prod * n := by
  obtain ⟨T, hT⟩ := hs.1.holds
  have hg : ∀ idx ∈ allIdx w.shape, w.read idx = .ok (T idx) := fun idx hi => hT.get idx (mem_allIdx.1 hi)
  refine ⟨_, mapE_ok hg, ?_⟩
  rw [List.map_map, List.sum_eq_card_nsmul _ n, List.length_map, allIdx_length, hs.2, smul_eq_mul]
  intro x hx
  obtain ⟨idx, hi, rfl⟩ := List.mem_map.1 hx
  exact hn idx _ (hg idx hi)

theorem steps_count {dims : Char → Nat} {inputs : List (List Char)} (steps : List PairStep) (h : HashOrd)
    {cs : List PairContraction} (hcs : compileSteps h steps = .ok cs) (outs : List (List Char))
    (hw : Wired dims inputs steps outs) (al : UniformAlloc) (operands inter res : List (View A))
    (ho : List.Forall₂ (Shaped dims) inputs operands) (hi : List.Forall₂ (Shaped dims) outs inter)
    (hr : runSteps (al.alloc A) operands (cs.zip steps) inter = .ok res) :
    countSteps (al.alloc (Counted A)) operands (cs.zip steps) inter =
      .ok (steps.map fun st => ((lettersOf st).map dims).prod).sum := by
  induction steps generalizing h cs outs al inter with
  | nil =>
    cases hcs
    rfl
  | cons st steps ih =>
    obtain ⟨w1, ⟨l, r, w2, w3, w4⟩, w5⟩ := hw
    simp only [compileSteps] at hcs
    obtain ⟨p, c1, c2⟩ := bind_eq_ok.1 hcs
    obtain ⟨cs, c3, c4⟩ := bind_eq_ok.1 c2
    cases c4
    simp only [List.zip_cons_cons, runSteps, countSteps] at hr ⊢
    obtain ⟨lv, f1, g1⟩ := bind_eq_ok.1 hr
    obtain ⟨rv, f2, g2⟩ := bind_eq_ok.1 g1
    obtain ⟨w, f3, g3⟩ := bind_eq_ok.1 g2
    have e := PairContraction.run_map val_opHom ((al.sub 0).compat (Counted.val : Counted A → A)) p
      (lv.map Counted.fresh) (rv.map Counted.fresh)
    rw [map_fresh_val, map_fresh_val] at e
    change p.run ((al.alloc A).sub 0) lv rv = (p.run ((al.alloc (Counted A)).sub 0) _ _).map _ at e
    rw [f3] at e
    cases hq : p.run ((al.alloc (Counted A)).sub 0) (lv.map Counted.fresh) (rv.map Counted.fresh) with
    | error e' => rw [hq] at e; cases e
    | ok q =>
      rw [hq] at e
      have hqw : w = q.map Counted.val := Except.ok.inj e
      obtain ⟨k1, k2⟩ := pair_counts w1 w2 _ c1 (al.sub 0) (fetch_shaped ho hi w3 f1) (fetch_shaped ho hi w4 f2) hq
      obtain ⟨xs, x1, x2⟩ := k1.sum_toVec k2
      have := ih _ c3 _ w5 (al.sub 1) (inter ++ [w])
        (List.rel_append hi (.cons (by rw [hqw]; exact (shaped_map _).2 k1) .nil)) g3
      simp only [f1, f2, bind_ok, hq, x1, ← hqw]
      change (countSteps ((al.sub 1).alloc (Counted A)) operands (cs.zip steps) (inter ++ [w]) >>= _) = _
      rw [this, bind_ok, x2]
      simp only [List.map_cons, List.sum_cons, lettersOf, w2, List.map_append, List.prod_append]
      rfl

/-- A single operand: nothing is multiplied. -/
theorem singleton_counts (c : SingletonContraction) (sc : SizedContraction) (al : UniformAlloc)
    (operands : List (View A)) (hwf : ∀ v ∈ operands, v.Wf) (r : View A)
    (hr : (⟨.singleton sc, .singletonContraction c⟩ : EinsumPath).contractOperands (al.alloc A) operands = .ok r) :
    (⟨.singleton sc, .singletonContraction c⟩ : EinsumPath).countMults (al.alloc (Counted A)) operands = .ok 0 := by
  simp only [EinsumPath.contractOperands, EinsumPath.countMults] at hr ⊢
  obtain ⟨t, t1, t2⟩ := bind_eq_ok.1 hr
  rw [t1, bind_ok]
  have ht : t.Wf := hwf t (List.mem_of_getElem? (index_eq_ok.1 t1))
  have e := SingletonOp.run_map val_opHom (al.compat (Counted.val : Counted A → A)) c.op (t.map Counted.fresh)
  rw [map_fresh_val] at e
  change c.run (al.alloc A) t = (c.run (al.alloc (Counted A)) (t.map Counted.fresh)).map _ at e
  rw [t2] at e
  cases hq : c.run (al.alloc (Counted A)) (t.map Counted.fresh) with
  | error e' => rw [hq] at e; cases e
  | ok q =>
    have hall := (all_fresh t).singleton counted_sum (Spec.UniformAlloc.tight al (Counted A)) q hq
    have hq' : q.Wf := by
      rcases SingletonOp.run_safe c.op ((view_wf_map Counted.fresh).2 ht) (al.alloc (Counted A)) with ⟨k, hk⟩ | ⟨w, h1, h2⟩
      · change c.run _ _ = _ at hk
        rw [hq] at hk; cases hk
      · change c.run _ _ = _ at h1
        rw [hq] at h1; cases h1; exact h2
    obtain ⟨T, hT⟩ := hq'.holds
    have hg : ∀ idx ∈ allIdx q.shape, q.read idx = .ok (T idx) := fun idx hi => hT.get idx (mem_allIdx.1 hi)
    rw [bind_ok, show q.toVec = _ from mapE_ok hg, bind_ok]
    have : (List.map Counted.mults (List.map T (allIdx q.shape))).sum = 0 := by
      rw [List.sum_eq_zero_iff]
      intro n hn
      obtain ⟨x, hx, rfl⟩ := List.mem_map.1 hn
      obtain ⟨idx, hi, rfl⟩ := List.mem_map.1 hx
      exact hall.read idx _ (hg idx hi)
    rw [this]
    rfl

end

/-! ## Orders -/

/-- The operands in the order in which they are taken in. -/
def inOrder {α : Type} (m : OptimizationMethod) (l : List α) : List α :=
  match m with
  | .reverse => l.reverse
  | _ => l

theorem inOrder_getElem? {α : Type} {m : OptimizationMethod} (hm : m = .naive ∨ m = .reverse) {l : List α} {i : Nat}
    (hi : i < l.length) : (inOrder m l)[i]? = l[nthOperand m l.length i]? := by
  rcases hm with rfl | rfl
  · rfl
  · exact List.getElem?_reverse hi

theorem logic_step {a t r d o l : Prop} (h : l ∧ ((r ∨ d) ∨ o) ↔ (a ∨ t) ∧ ((r ∨ d) ∨ o)) :
    ((a ∨ t ∨ r) ∧ (d ∨ o)) ∨ (l ∧ r ∧ ¬ ((a ∨ t ∨ r) ∧ (d ∨ o))) ↔ (a ∨ t ∨ r) ∧ (d ∨ o ∨ (a ∨ t) ∧ r) := by
  by_cases hr : r <;> by_cases hd : d <;> by_cases ho : o <;> simp_all

/-- The letters of the steps of a generated order. -/
theorem letters_generated {h₀ h : HashOrd} {s : String} {inputs : List (List Char)} {out : List Char} {dims : Char → Nat}
    {shapes : List (List Nat)}
    (hsc : SizedContraction.fromStringAndShapes h₀ s shapes = .ok (callSC inputs out dims)) {m : OptimizationMethod}
    (hm : m = .naive ∨ m = .reverse) {steps : List PairStep}
    (ho : generateOptimizedOrder h (callSC inputs out dims) m = .ok (.pairs steps)) :
    (steps.map fun st => ((lettersOf st).map dims).prod).sum = multCount dims (inOrder m inputs) out := by
  have h2 : 2 ≤ inputs.length := by
    obtain ⟨inputs', out', dims', hd, hs, e⟩ := fromStringAndShapes_iff.1 hsc
    have e' : inputs = inputs' := congrArg (fun sc : SizedContraction => sc.contraction.operandIndices) e
    have hne : inputs ≠ [] := by rw [e']; exact hd.inputs_ne.1
    have := List.length_pos_iff.2 hne
    by_contra hlt
    rw [C10_singleton h₀ h s shapes _ hsc m hm (by change inputs.length = 1; omega)] at ho
    cases ho
  obtain ⟨order, first, nums, lhs, rest, steps', dims', o1, o2, o3, o4, o5, o6, o7, o8, o9, o10⟩ :=
    order_spec h₀ h s shapes (callSC inputs out dims) hsc m hm h2
  rw [ho] at o7
  cases o7
  change order.Perm (List.range inputs.length) at o1
  change ∀ i < inputs.length, order[i]? = some (nthOperand m inputs.length i) at o2
  change pick inputs [] order = lhs :: rest at o4
  change nums.length + 1 = inputs.length at o5
  have hlen : (inOrder m inputs).length = inputs.length := by
    rcases hm with rfl | rfl <;> simp [inOrder]
  have horder : inOrder m inputs = lhs :: rest := by
    refine List.ext_getElem? fun i => ?_
    by_cases hi : i < inputs.length
    · obtain ⟨x, hx⟩ : ∃ x, (lhs :: rest)[i]? = some x := ⟨_, List.getElem?_eq_getElem (by simp; omega)⟩
      rw [hx]
      rw [← o4] at hx
      obtain ⟨q, q1, q2⟩ := pick_getElem? o1 hx
      rw [o2 i hi] at q1
      cases q1
      rw [inOrder_getElem? hm hi, q2]
    · rw [List.getElem?_eq_none (by omega), List.getElem?_eq_none (by simp; omega)]
  rw [horder]
  unfold multCount
  congr 1
  refine List.ext_getElem? fun k => ?_
  have hrl : (lhs :: rest).length - 1 = steps.length := by simp [o8]
  by_cases hk : k < steps.length
  · have hst : steps[k]? = some steps[k] := List.getElem?_eq_getElem hk
    rw [List.getElem?_map, hst, List.getElem?_map, List.getElem?_range (by omega)]
    simp only [Option.map_some, Option.some.injEq]
    obtain ⟨a1, a2, ⟨l, r, b1, b2, b3, b4⟩, a4, a5, a6, a7⟩ := o10 k _ hst
    have hl : ∀ c, c ∈ l ∧ (c ∈ (rest.drop k).flatten ∨ c ∈ out) ↔
        (c ∈ lhs ∨ c ∈ (rest.take k).flatten) ∧ (c ∈ (rest.drop k).flatten ∨ c ∈ out) := by
      intro c
      cases k with
      | zero => rw [b3 rfl]; simp
      | succ j =>
        have hj : steps[j]? = some steps[j] := List.getElem?_eq_getElem (by omega)
        rw [b4 j _ rfl hj]
        have := (o10 j _ hj).mem c
        rw [this, and_assoc]
        exact and_congr Iff.rfl (and_self_iff)
    have hr : (lhs :: rest).getD (k + 1) [] = r := by
      rw [List.getD_eq_getElem?_getD, List.getElem?_cons_succ, b2]; rfl
    have hdrop : ∀ c, c ∈ (rest.drop k).flatten ↔ c ∈ r ∨ c ∈ (rest.drop (k + 1)).flatten := by
      intro c
      have hk' : k < rest.length := by omega
      rw [List.drop_eq_getElem_cons hk', List.flatten_cons, List.mem_append]
      rw [List.getElem?_eq_getElem hk'] at b2
      rw [Option.some.inj b2]
    have htake : ∀ c, c ∈ (rest.take (k + 1)).flatten ↔ c ∈ (rest.take k).flatten ∨ c ∈ r := by
      intro c
      rw [List.take_add_one, b2]
      simp
    unfold lettersOf
    rw [b1]
    refine prod_eq ?_ ((List.nodup_dedup _).filter _) fun c => ?_
    · refine List.Nodup.append a4 ((List.nodup_dedup _).filter _) ?_
      intro c hc hc'
      simp only [sharedLetters, List.mem_filter, decide_eq_true_eq] at hc'
      exact hc'.2.2 hc
    · have h1 := hl c
      rw [hdrop] at h1
      have h5 := a5 c
      rw [htake] at h5
      have key := logic_step h1
      simp only [stepLetters, sharedLetters, List.mem_append, List.mem_filter, List.mem_dedup, decide_eq_true_eq,
        hr, List.take_succ_cons, List.drop_succ_cons, List.flatten_cons, htake]
      rw [h5]
      exact key
  · rw [List.getElem?_eq_none (by simp; omega), List.getElem?_eq_none (by simp; omega)]

/-- The number of multiplications of any compiled order whose steps contract the labels of the arrays they use. -/
theorem path_counts {A : Type} [Zero A] [Add A] [Mul A] [MulAdd A] {h₀ h h' : HashOrd} {s : String}
    {inputs : List (List Char)} {out : List Char} {dims : Char → Nat} {shapes : List (List Nat)}
    (hsc : SizedContraction.fromStringAndShapes h₀ s shapes = .ok (callSC inputs out dims)) {m : OptimizationMethod}
    (hm : m = .naive ∨ m = .reverse) {o : ContractionOrder}
    (ho : generateOptimizedOrder h (callSC inputs out dims) m = .ok o) {p : EinsumPath}
    (hp : EinsumPath.fromPath h' o = .ok p) (al : UniformAlloc) (operands : List (View A)) (hwf : ∀ v ∈ operands, v.Wf)
    (hs : Sized dims inputs (operands.map View.shape)) (r : View A)
    (hr : p.contractOperands (al.alloc A) operands = .ok r) :
    p.countMults (al.alloc (Counted A)) operands = .ok (multCount dims (inOrder m inputs) out) := by
  cases o with
  | singleton sc =>
    obtain ⟨c, c1, c2⟩ := bind_eq_ok.1 hp
    cases c2
    rw [singleton_counts c sc al operands hwf r hr]
    have h1 : inputs.length = 1 := by
      by_contra hne
      obtain ⟨inputs', out', dims', hd, hs, e⟩ := fromStringAndShapes_iff.1 hsc
      have e' : inputs = inputs' := congrArg (fun sc : SizedContraction => sc.contraction.operandIndices) e
      have hne' : inputs ≠ [] := by rw [e']; exact hd.inputs_ne.1
      have := List.length_pos_iff.2 hne'
      obtain ⟨order, first, nums, lhs, rest, steps', dims', o1, o2, o3, o4, o5, o6, o7, -⟩ :=
        order_spec h₀ h s shapes (callSC inputs out dims) hsc m hm (by change 2 ≤ inputs.length; omega)
      rw [ho] at o7
      cases o7
    have : (inOrder m inputs).length = 1 := by rcases hm with rfl | rfl <;> simp [inOrder, h1]
    simp [multCount, this]
  | pairs steps =>
    obtain ⟨cs, c1, c2⟩ := bind_eq_ok.1 hp
    cases c2
    simp only [EinsumPath.contractOperands, EinsumPath.countMults] at hr ⊢
    obtain ⟨inter, r1, r2⟩ := bind_eq_ok.1 hr
    rw [steps_count steps h' c1 [] (wired_generated hsc hm ho steps rfl) al operands [] inter (shaped_of hwf hs) .nil r1,
      letters_generated hsc hm ho]

/-! ## Properties -/

/-- C71: contracting one operand multiplies nothing: whatever element of the result is computed from given elements,
no multiplication was made. -/
theorem C71_singleton {A : Type} [Zero A] [Add A] [Mul A] [MulAdd A] (h : HashOrd) (al : UniformAlloc) (s : String)
    (v : View A) (w : View (Counted A)) (hw : einsum h (al.alloc (Counted A)) s [v.map Counted.fresh] = .ok (.ok w))
    (idx : List Nat) (x : Counted A) (hx : w.read idx = .ok x) : x.mults = 0 := by
  simp only [einsum] at hw
  cases hv : validateAndSize (h.sub 0) s [v.map Counted.fresh] with
  | error e => rw [hv] at hw; cases hw
  | ok sc =>
    rw [hv] at hw
    simp only at hw
    obtain ⟨inputs, out, dims, hd, hs, rfl⟩ := fromStringAndShapes_iff.1 hv
    have h1 : inputs.length = 1 := by simpa using hs.length_eq
    obtain ⟨r, w1, hw⟩ := bind_eq_ok.1 hw
    cases hw
    obtain ⟨p, p1, p2⟩ := bind_eq_ok.1 w1
    obtain ⟨o, o1, o2⟩ := bind_eq_ok.1 p1
    rw [C10_singleton (h.sub 0) _ s _ _ hv .naive (.inl rfl) h1] at o1
    cases o1
    obtain ⟨c, c1, c2⟩ := bind_eq_ok.1 o2
    cases c2
    obtain ⟨t, t1, t2⟩ := bind_eq_ok.1 p2
    cases t1
    exact ((all_fresh v).singleton counted_sum (Spec.UniformAlloc.tight al (Counted A)) w t2).read idx x hx

/-- C71: the path that `einsum_path` returns makes exactly `multCount` multiplications (of the operands in the order of
the strategy) whenever it returns an array, whatever the elements. -/
theorem C71_path {B : Type} (h : HashOrd) (s : String) (operands₀ : List (View B)) (inputs : List (List Char))
    (out : List Char) (dims : Char → Nat) (hd : Denotes s inputs out) (hs : Sized dims inputs (operands₀.map View.shape))
    (m : OptimizationMethod) (hm : m = .naive ∨ m = .reverse) :
    ∃ p, einsumPath h s operands₀ m = .ok (.ok p) ∧
      ∀ (A : Type) [Zero A] [Add A] [Mul A] [MulAdd A] (al : UniformAlloc) (operands : List (View A)),
        (∀ v ∈ operands, v.Wf) → operands.map View.shape = operands₀.map View.shape →
        ∀ r, p.contractOperands (al.alloc A) operands = .ok r →
          p.countMults (al.alloc (Counted A)) operands = .ok (multCount dims (inOrder m inputs) out) := by
  have hsc := validateAndSize_ok ((h.sub 0).sub 0) hd hs
  obtain ⟨o, p, c1, c2, -⟩ := C11_compiles ((h.sub 0).sub 0) ((h.sub 0).sub 1) (h.sub 1) s _ _ hsc m hm
  refine ⟨p, ?_, ?_⟩
  · simp only [einsumPath, validateAndOptimizeOrder, hsc, c1, bind_ok, pure_bind, c2]
    rfl
  · intro A _ _ _ _ al operands hwf hsh r hr
    exact path_counts hsc hm c1 c2 al operands hwf (by rw [hsh]; exact hs) r hr

/-- C71: `einsum` makes exactly `multCount` multiplications when it returns an array: it runs a path that does. -/
theorem C71_einsum {A : Type} [Zero A] [Add A] [Mul A] [MulAdd A] (h : HashOrd) (al : UniformAlloc) (s : String)
    (operands : List (View A)) (inputs : List (List Char)) (out : List Char) (dims : Char → Nat)
    (hd : Denotes s inputs out) (hs : Sized dims inputs (operands.map View.shape)) (hwf : ∀ v ∈ operands, v.Wf)
    (r : View A) (hr : einsum h (al.alloc A) s operands = .ok (.ok r)) :
    ∃ sc p, validateAndSize (h.sub 0) s operands = .ok sc ∧ EinsumPath.new (h.sub 1) sc = .ok p ∧
      p.contractOperands (al.alloc A) operands = .ok r ∧
      p.countMults (al.alloc (Counted A)) operands = .ok (multCount dims inputs out) := by
  have hsc := validateAndSize_ok (h.sub 0) hd hs
  simp only [einsum] at hr
  rw [hsc] at hr
  simp only at hr
  obtain ⟨r', w1, hr⟩ := bind_eq_ok.1 hr
  cases hr
  obtain ⟨p, p1, p2⟩ := bind_eq_ok.1 w1
  refine ⟨_, p, hsc, p1, p2, ?_⟩
  obtain ⟨o, o1, o2⟩ := bind_eq_ok.1 p1
  exact path_counts hsc (.inl rfl) o1 o2 al operands hwf hs r p2

/-- C71: without empty axes, `n` operands need at most `n - 1` times the product of all lengths. -/
theorem C71_bound (dims : Char → Nat) (inputs : List (List Char)) (out : List Char)
    (h0 : ∀ c ∈ inputs.flatten, dims c ≠ 0) :
    multCount dims inputs out ≤ (inputs.length - 1) * (inputs.flatten.dedup.map dims).prod := by
  unfold multCount
  refine (List.sum_le_card_nsmul _ (inputs.flatten.dedup.map dims).prod fun n hn => ?_).trans (by simp)
  obtain ⟨k, -, rfl⟩ := List.mem_map.1 hn
  have hsub : (stepLetters inputs out k) ⊆ inputs.flatten.dedup := by
    intro c hc
    simp only [stepLetters, List.mem_filter, List.mem_dedup] at hc ⊢
    obtain ⟨x, hx, hcx⟩ := List.mem_flatten.1 hc.1
    exact List.mem_flatten.2 ⟨x, List.mem_of_mem_take hx, hcx⟩
  have hn : (stepLetters inputs out k).Nodup := (List.nodup_dedup _).filter _
  obtain ⟨l', p1, p2⟩ := hn.subperm hsub
  obtain ⟨l, hl⟩ := p2.exists_perm_append
  rw [← (p1.map dims).prod_eq, (hl.map dims).prod_eq, List.map_append, List.prod_append]
  refine Nat.le_mul_of_pos_right _ (prod_of_pos fun d hd => ?_)
  obtain ⟨c, hc, rfl⟩ := List.mem_map.1 hd
  refine Nat.pos_of_ne_zero (h0 c ?_)
  have := hl.mem_iff.2 (List.mem_append_right _ hc)
  simpa using this

theorem InB_split {s s' idx : List Nat} (h : InB (s ++ s') idx) :
    ∃ a b, idx = a ++ b ∧ InB s a ∧ InB s' b := by
  have hl := h.length_eq
  rw [List.length_append] at hl
  have e := (List.take_append_drop s.length idx).symm
  rw [e] at h
  obtain ⟨ha, hb⟩ := (InB_append (by simp; omega)).1 h
  exact ⟨_, _, e, ha, hb⟩

theorem Spec.Expr.eval_hom {V A B : Type} [Zero A] [Add A] [Mul A] [MulAdd A] [Zero B] [Add B] [Mul B] [MulAdd B]
    {g : A → B} (hg : OpHom g) (f : V → A) (e : Expr V) : g (e.eval f) = e.eval fun x => g (f x) := by
  induction e with
  | var x => rfl
  | zero => exact hg.zero
  | add a b iha ihb => simp only [Expr.eval, hg.add, iha, ihb]
  | mul a b iha ihb => simp only [Expr.eval, hg.mul, iha, ihb]
  | mulAdd a b c iha ihb ihc => simp only [Expr.eval, hg.mulAdd, iha, ihb, ihc]

/-- C71: each element of a `tensordot` costs the product of the lengths of the paired axes. -/
theorem C71_tensordot {A : Type} [Zero A] [Add A] [Mul A] [MulAdd A] (al : UniformAlloc) (l r : View A) (la ra : List Nat)
    (hp : Paired l.shape r.shape la ra) (hl : l.Wf) (hr : r.Wf) :
    ∃ w : View (Counted A),
      tensordot (al.alloc (Counted A)) (l.map Counted.fresh) (r.map Counted.fresh) la ra = .ok w ∧ w.Wf ∧
      w.shape = lengths l.shape (kept l.shape.length la) ++ lengths r.shape (kept r.shape.length ra) ∧
      ∀ idx x, w.read idx = .ok x → x.mults = (lengths l.shape la).prod := by
  obtain ⟨T, hT⟩ := hl.holds
  obtain ⟨U, hU⟩ := hr.holds
  obtain ⟨R, R1, R2, R3, R4⟩ := C59_uniform al l r T U la ra hp ⟨hl, hT.get⟩ ⟨hr, hU.get⟩
  have e1 := R3 (Probe A) fun x => ⟨Counted.fresh x, 1⟩
  refine ⟨_, R3 (Counted A) Counted.fresh, (view_wf_map _).2 R1, R2, fun idx x hx => ?_⟩
  have hprobe : ∀ v : View A, All (fun x : Probe A => x.val.mults = 0 ∧ x.ones = 1)
      (v.map fun x => (⟨Counted.fresh x, 1⟩ : Probe A)) := by
    intro v x hx
    simp only [View.map, List.mem_map] at hx
    obtain ⟨y, hy, rfl⟩ := hx
    exact ⟨rfl, rfl⟩
  have hall : Post (tensordot (al.alloc (Probe A)) (l.map fun x => (⟨Counted.fresh x, 1⟩ : Probe A))
      (r.map fun x => ⟨Counted.fresh x, 1⟩) la ra) (All fun x => x.val.mults = x.ones) :=
    .bind .trivial fun _ _ => .bind .trivial fun _ _ => .bind .trivial fun _ _ =>
      (hprobe l).general probe_sorts (Spec.UniformAlloc.tight al (Probe A)) (hprobe r)
  have hi : InB (lengths l.shape (kept l.shape.length la) ++ lengths r.shape (kept r.shape.length ra)) idx := by
    by_contra hi
    rw [← R2, ← View.map_shape (Expr.eval Counted.fresh)] at hi
    unfold View.read at hx
    rw [if_neg hi] at hx
    cases hx
  obtain ⟨a, b, rfl, ha, hb⟩ := InB_split hi
  obtain ⟨e, r1, r2⟩ := R4 a b ha hb
  rw [View.read_map, r1] at hx
  cases hx
  have hq : (e.eval fun x => (⟨Counted.fresh x, 1⟩ : Probe A)).val.mults =
      (e.eval fun x => (⟨Counted.fresh x, 1⟩ : Probe A)).ones :=
    (hall _ e1).read (a ++ b) (e.eval fun x => ⟨Counted.fresh x, 1⟩) (by rw [View.read_map, r1]; rfl)
  rw [Spec.Expr.eval_hom probe_ones, Spec.Expr.eval_hom probe_val] at hq
  have h1 := r2 ℕ fun _ => 1
  refine hq.trans (h1.trans ?_)
  simp [pairedSum, sumIdx_const, show (Nat.cast : ℕ → ℕ) = id from rfl]

/-! ## Examples -/

/-- A product of a `2 × 3`, a `3 × 4` and a `4 × 5` matrix: 24 + 40 from the left, 60 + 30 from the right. -/
def Ex.chainDims (c : Char) : Nat := if c = 'i' then 2 else if c = 'j' then 3 else if c = 'k' then 4 else 5

example : multCount Ex.chainDims [['i', 'j'], ['j', 'k'], ['k', 'l']] ['i', 'l'] = 64 := by decide
example : multCount Ex.chainDims (inOrder .reverse [['i', 'j'], ['j', 'k'], ['k', 'l']]) ['i', 'l'] = 90 := by decide
example : (3 - 1) * ([['i', 'j'], ['j', 'k'], ['k', 'l']].flatten.dedup.map Ex.chainDims).prod = 240 := by decide

/-- Letters of one operand only are summed before anything is multiplied. -/
example : multCount Ex.chainDims [['i', 'j'], ['k', 'l']] [] = 1 := by decide

example : multCount Ex.chainDims [['i', 'j'], ['j', 'k'], ['k', 'l']] ['i', 'l'] ≤
    2 * ([['i', 'j'], ['j', 'k'], ['k', 'l']].flatten.dedup.map Ex.chainDims).prod :=
  C71_bound _ _ _ (by decide)

theorem Ex.wf_three : ∀ v ∈ [Ex.m23, Ex.m332, Ex.m23], v.Wf := by simp [Ex.e23.1, Ex.e332.1]

/-- Two steps of twelve multiplications. -/
example : ∃ r : View Int, einsum HashOrd.insertion (Alloc.rowMajor Int) "ij,jjk,kj->ij" [Ex.m23, Ex.m332, Ex.m23] =
      .ok (.ok r) ∧ ∃ sc p, validateAndSize (HashOrd.insertion.sub 0) "ij,jjk,kj->ij" [Ex.m23, Ex.m332, Ex.m23] = .ok sc ∧
    EinsumPath.new (HashOrd.insertion.sub 1) sc = .ok p ∧
    p.contractOperands (Alloc.rowMajor Int) [Ex.m23, Ex.m332, Ex.m23] = .ok r ∧
    p.countMults (Alloc.rowMajor (Counted Int)) [Ex.m23, Ex.m332, Ex.m23] = .ok 24 := by
  obtain ⟨r, hr, -⟩ := C13_einsum HashOrd.insertion (Alloc.rowMajor Int) _ _ _ _ _ _ Ex.call_three Ex.ned_three
  obtain ⟨sc, p, h1, h2, h3, h4⟩ := C71_einsum HashOrd.insertion UniformAlloc.rowMajor _ _ _ _ _ Ex.denotes_three
    Ex.call_three.sized Ex.wf_three r hr
  exact ⟨r, hr, sc, p, h1, h2, h3, h4⟩

/-- Two steps of six in the other order. -/
example : ∃ p, einsumPath HashOrd.reversed "ij,jjk,kj->ij" [Ex.m23, Ex.m332, Ex.m23] .reverse = .ok (.ok p) ∧
    ∀ r, p.contractOperands (Alloc.rowMajor Int) [Ex.m23, Ex.m332, Ex.m23] = .ok r →
      p.countMults (Alloc.rowMajor (Counted Int)) [Ex.m23, Ex.m332, Ex.m23] = .ok 12 := by
  obtain ⟨p, hp, h⟩ := C71_path HashOrd.reversed _ _ _ _ _ Ex.denotes_three Ex.call_three.sized .reverse (.inr rfl)
  exact ⟨p, hp, fun r hr => h Int UniformAlloc.rowMajor _ Ex.wf_three rfl r hr⟩

/-- Six multiplications for each element. -/
example : ∃ w : View (Counted Int), tensordot (Alloc.rowMajor (Counted Int)) (Ex.m332.map Counted.fresh)
    (Ex.m32.map Counted.fresh) [2, 1] [1, 0] = .ok w ∧ w.shape = [3] ∧ ∀ idx x, w.read idx = .ok x → x.mults = 6 := by
  obtain ⟨w, h1, -, h2, h3⟩ := C71_tensordot UniformAlloc.rowMajor Ex.m332 Ex.m32 [2, 1] [1, 0] Ex.paired Ex.e332.1
    Ex.e32.1
  exact ⟨w, h1, h2, h3⟩

example : ∃ w : View (Counted Int), einsum HashOrd.insertion (Alloc.rowMajor (Counted Int)) "jjk->k"
    [Ex.m332.map Counted.fresh] = .ok (.ok w) ∧ ∀ idx x, w.read idx = .ok x → x.mults = 0 := by
  obtain ⟨R, -, h1⟩ := C52_uniform HashOrd.insertion UniformAlloc.rowMajor _ _ _ _ _ _ Ex.call_trace Ex.ned_trace
  exact ⟨_, h1 (Counted Int) Counted.fresh, C71_singleton _ UniformAlloc.rowMajor _ _ _ (h1 (Counted Int) Counted.fresh)⟩

end Einsum
