import Verif.SpecTree
import Verif.Props.Adds
import Verif.Props.Depth
import Verif.Props.TreesLawless

/-!
# Contraction trees, step by step: C83, C87 and C88
-/

namespace Einsum

open Spec

/-! ## A step compiles to the pair contraction of its labels -/

section
variable {sc : SizedContraction} {L R O : List Char} {dims : Char → Nat}

theorem subset_sizes (hsz : ∀ c, c ∈ L ∨ c ∈ R → sc.outputSize c = some (dims c)) (h : HashOrd) (ops : List (List Char))
    (hs : ∀ c ∈ ops.flatten, c ∈ L ∨ c ∈ R) (o : List Char) :
    sc.subset h ops o = (callSC [L, R] O dims).subset h ops o := by
  have e : ∀ c ∈ ops.flatten, sc.outputSize c = (callSC [L, R] O dims).outputSize c := fun c hc => by
    rw [hsz c (hs c hc)]
    simp only [callSC]
    rw [if_pos (by simpa using hs c hc)]
  unfold SizedContraction.subset
  dsimp only
  have e1 : ((h.iter [3] (hset ops.flatten)).any fun c => (sc.outputSize c).isNone) =
      (h.iter [3] (hset ops.flatten)).any fun c => ((callSC [L, R] O dims).outputSize c).isNone := by
    rw [Bool.eq_iff_iff]
    simp only [List.any_eq_true]
    refine exists_congr fun c => and_congr_right fun hc => ?_
    rw [e c (mem_hset.1 ((h.perm _ _).mem_iff.1 hc))]
  have e2 : (fun k => if k ∈ hset ops.flatten then sc.outputSize k else none) =
      fun k => if k ∈ hset ops.flatten then (callSC [L, R] O dims).outputSize k else none := by
    funext k
    split
    · rename_i hk
      exact e k (mem_hset.1 hk)
    · rfl
  rw [e1, e2]

theorem simplify_sizes (hsz : ∀ c, c ∈ L ∨ c ∈ R → sc.outputSize c = some (dims c)) (h : HashOrd)
    (this other o : List Char) (hs : ∀ c ∈ this, c ∈ L ∨ c ∈ R) :
    SimplificationMethodAndOutput.fromIndicesAndSizes h this other o sc =
      SimplificationMethodAndOutput.fromIndicesAndSizes h this other o (callSC [L, R] O dims) := by
  unfold SimplificationMethodAndOutput.fromIndicesAndSizes
  dsimp only
  rw [subset_sizes (O := O) hsz _ [this] (by simpa using hs)]

theorem simplify_indices {h : HashOrd} {this other o : List Char} {s : Option SimplificationMethodAndOutput}
    (hs : SimplificationMethodAndOutput.fromIndicesAndSizes h this other o sc = .ok s) :
    ∀ c ∈ newIndicesOr s this, c ∈ this := by
  unfold SimplificationMethodAndOutput.fromIndicesAndSizes at hs
  dsimp only at hs
  obtain ⟨a, -, hs⟩ := bind_eq_ok.1 hs
  obtain ⟨c, -, hs⟩ := bind_eq_ok.1 hs
  intro x hx
  cases s with
  | none => exact hx
  | some s =>
    have e : s.newIndices = desiredIndices (h.sub 0) this other o := by
      split at hs
      · cases hs
      · cases hs
      · obtain ⟨t, -, hs⟩ := bind_eq_ok.1 hs
        cases hs
        rfl
    change x ∈ s.newIndices at hx
    rw [e] at hx
    exact (mem_desired.1 hx).1

/-- The sizes of letters that a step does not have do not matter, nor do the summation labels. -/
theorem new_sizes (hops : sc.contraction.operandIndices = [L, R]) (hO : sc.contraction.outputIndices = O)
    (hsz : ∀ c, c ∈ L ∨ c ∈ R → sc.outputSize c = some (dims c)) (h : HashOrd) :
    PairContraction.new h sc = PairContraction.new h (callSC [L, R] O dims) := by
  have e1 : (callSC [L, R] O dims).contraction.operandIndices = [L, R] := rfl
  have e2 : (callSC [L, R] O dims).contraction.outputIndices = O := rfl
  unfold PairContraction.new
  dsimp only
  rw [hops, hO, e1, e2]
  simp only [List.length_cons, List.length_nil, Nat.zero_add, Nat.reduceAdd, decide_true, assertThat_true, bind_ok,
    index_cons_zero, index_one]
  rw [simplify_sizes (O := O) hsz _ L R O (fun c hc => .inl hc), simplify_sizes (O := O) hsz _ R L O (fun c hc => .inr hc)]
  refine bind_congr_ok fun ls hl => bind_congr_ok fun rs hr => ?_
  rw [subset_sizes (O := O) hsz _ _ (by
    intro c hc
    simp only [List.flatten_cons, List.flatten_nil, List.append_nil, List.mem_append] at hc
    exact hc.imp (simplify_indices hl c) (simplify_indices hr c))]

end

theorem fetch_last {A : Type} (operands inter : List (View A)) (w : View A) :
    fetch operands (inter ++ [w]) (.intermediateResult inter.length) = .ok w :=
  index_eq_ok.2 (by simp)

/-! ## Additions -/

theorem tree_adds {A : Type} [Zero A] [Add A] [Mul A] [MulAdd A] {a : Nat → Nat} {dims : Char → Nat} {out : List Char}
    {k : Nat} {pending : List (OperandNumber × List Char)} {steps : List PairStep}
    (hc : Contracts dims out k pending steps) {operands : List (View A)} :
    ∀ (h : HashOrd) (cs : List PairContraction) (al : Alloc (Tallied A)) (inter : List (View A)),
      compileSteps h steps = .ok cs → (∀ p n, additions (al.sumOrder p n) = a n) → inter.length = k →
      (∀ x ∈ pending, ∃ y G, fetch operands inter x.1 = .ok y ∧ Rep y x.2 dims G ∧ y.Wf ∧
        (x.2.Nodup ∨ ∀ c ∈ x.2, dims c ≠ 0)) →
      tallySteps al operands (cs.zip steps) inter = .ok (steps.map (stepAdds a dims)).sum := by
  induction hc with
  | done k =>
    intro h cs al inter hcs _ _ _
    cases hcs
    rfl
  | @step k pending rest l r L R O st steps hperm hn hops hO hsz hok hkeep _ ih =>
    intro h cs al inter hcs ha hk hp
    simp only [compileSteps] at hcs
    obtain ⟨c, c1, hcs⟩ := bind_eq_ok.1 hcs
    obtain ⟨cs', c2, hcs⟩ := bind_eq_ok.1 hcs
    cases hcs
    rw [new_sizes hops hO hsz] at c1
    obtain ⟨x, F, x1, x2, x3, x4⟩ := hp (l, L) (hperm.mem_iff.2 (by simp))
    obtain ⟨y, G, y1, y2, y3, y4⟩ := hp (r, R) (hperm.mem_iff.2 (by simp))
    obtain ⟨w, H, w1, w2⟩ := pair_adds hok x4 y4 c1 (al := al.sub 0) (fun p n => ha (0 :: p) n) x2 y2 x3 y3
    have key := ih (h.sub 1) cs' (al.sub 1) (inter ++ [w]) c2 (fun p n => ha (1 :: p) n) (by simp [hk]) (by
      intro z hz
      rcases List.mem_cons.1 hz with rfl | hz
      · exact ⟨w, H, by rw [← hk]; exact fetch_last _ _ _, w2, w2.wf hok.1, .inl hok.1⟩
      · obtain ⟨v, V, v1, v2⟩ := hp z (hperm.mem_iff.2 (by simp [hz]))
        exact ⟨v, V, fetch_append v1, v2⟩)
    simp only [List.zip_cons_cons, tallySteps, hn]
    rw [x1, bind_ok, y1, bind_ok, w1, bind_ok, key, bind_ok]
    simp only [List.map_cons, List.sum_cons, stepAdds, hops, hO]
    rfl

/-! ## Roundings -/

theorem tree_within {dims : Char → Nat} {d : Nat → Nat} {out : List Char}
    {k : Nat} {pending : List (OperandNumber × List Char)} {steps : List PairStep}
    (hc : Contracts dims out k pending steps) {operands : List (View Grade)} :
    ∀ (h : HashOrd) (cs : List PairContraction) (al : Alloc Grade) (inter : List (View Grade)) (g : OperandNumber → Nat),
      compileSteps h steps = .ok cs → (∀ p n, depth (al.sumOrder p n) ≤ d n) → inter.length = k →
      (∀ x ∈ pending, ∃ y G, fetch operands inter x.1 = .ok y ∧ Rep y x.2 dims G ∧ y.Wf ∧
        (x.2.Nodup ∨ ∀ c ∈ x.2, dims c ≠ 0) ∧ ∀ σ, InRange dims x.2 σ → Grade.Within (g x.1) (G σ)) →
      ∃ w H, (runSteps al operands (cs.zip steps) inter >>= fun i => unwrapO i.getLast?) = .ok w ∧ Rep w out dims H ∧
        ∀ σ, InRange dims out σ → Grade.Within ((pending.map fun x => g x.1).sum + (steps.map (stepRoundings d dims)).sum) (H σ) := by
  induction hc with
  | done k =>
    intro h cs al inter g hcs _ hk hp
    cases hcs
    obtain ⟨y, G, y1, y2, y3, y4, y5⟩ := hp (.intermediateResult k, out) (by simp)
    refine ⟨y, G, ?_, y2, fun σ hσ => by simpa using y5 σ hσ⟩
    have : inter.getLast? = some y := by
      rw [List.getLast?_eq_getElem?, hk]
      exact index_eq_ok.1 y1
    simp only [List.zip_nil_left, runSteps, bind_ok, this]
    rfl
  | @step k pending rest l r L R O st steps hperm hn hops hO hsz hok hkeep _ ih =>
    intro h cs al inter g hcs hd hk hp
    simp only [compileSteps] at hcs
    obtain ⟨c, c1, hcs⟩ := bind_eq_ok.1 hcs
    obtain ⟨cs', c2, hcs⟩ := bind_eq_ok.1 hcs
    cases hcs
    rw [new_sizes hops hO hsz] at c1
    obtain ⟨x, F, x1, x2, x3, x4, x5⟩ := hp (l, L) (hperm.mem_iff.2 (by simp))
    obtain ⟨y, G, y1, y2, y3, y4, y5⟩ := hp (r, R) (hperm.mem_iff.2 (by simp))
    obtain ⟨h', hrun⟩ := C83_call hok _ c c1
    obtain ⟨w, H, w1, w2, w3⟩ := pair_within hok x4 y4 h' hd x2 y2 x3 y3 x5 y5
    rw [hrun] at w1
    obtain ⟨z, Z, z1, z2, z3⟩ := ih (h.sub 1) cs' (al.sub 1) (inter ++ [w])
      (Function.update g (.intermediateResult k) (g l + g r + pairRoundings d dims L R O)) c2
      (fun p n => hd (1 :: p) n) (by simp [hk]) (by
      intro z hz
      rcases List.mem_cons.1 hz with rfl | hz
      · exact ⟨w, H, by rw [← hk]; exact fetch_last _ _ _, w2, w2.wf hok.1, .inl hok.1, by
          rw [Function.update_self]; exact w3⟩
      · obtain ⟨v, V, v1, v2, v3, v4, v5⟩ := hp z (hperm.mem_iff.2 (by simp [hz]))
        refine ⟨v, V, fetch_append v1, v2, v3, v4, ?_⟩
        rw [Function.update_of_ne]
        · exact v5
        · intro e
          rw [e] at v1
          have := (List.getElem?_eq_some_iff.1 (index_eq_ok.1 v1)).1
          omega)
    refine ⟨z, Z, ?_, z2, fun σ hσ => (z3 σ hσ).mono (le_of_eq ?_)⟩
    · simp only [List.zip_cons_cons, runSteps, hn]
      rw [x1, bind_ok, y1, bind_ok, w1, bind_ok]
      exact z1
    · have e : (rest.map fun x => Function.update g (.intermediateResult k) (g l + g r + pairRoundings d dims L R O) x.1) =
          rest.map fun x => g x.1 := List.map_congr_left fun z hz => by
        rw [Function.update_of_ne]
        intro e
        obtain ⟨v, V, v1, -⟩ := hp z (hperm.mem_iff.2 (by simp [hz]))
        rw [e] at v1
        have := (List.getElem?_eq_some_iff.1 (index_eq_ok.1 v1)).1
        omega
      rw [List.map_cons, List.sum_cons, e, Function.update_self, (hperm.map fun x => g x.1).sum_eq]
      simp only [List.map_cons, List.sum_cons, stepRoundings, hops, hO]
      omega

theorem tree_pending {inputs : List (List Char)} {P : OperandNumber × List Char → Prop}
    (h : ∀ n R, inputs[n]? = some R → P (.input n, R)) : ∀ x ∈ numbered inputs, P x := by
  intro x hx
  obtain ⟨i, hi, rfl⟩ := List.mem_map.1 hx
  have hi := List.mem_range.1 hi
  refine h i _ ?_
  rw [List.getD_eq_getElem?_getD, List.getElem?_eq_getElem hi]
  rfl

/-! ## C88 -/

/-- C88 for any contraction tree: the additions are those of its steps. -/
theorem C88_tree {A : Type} [Zero A] [Add A] [Mul A] [MulAdd A] (h : HashOrd) (al : Alloc (Tallied A)) (a : Nat → Nat)
    (steps : List PairStep) (inputs : List (List Char)) (out : List Char) (dims : Char → Nat) (operands : List (View A))
    (hc : Contracts dims out 0 (numbered inputs) steps) (hs : Sized dims inputs (operands.map View.shape))
    (hw : ∀ v ∈ operands, v.Wf) (hn : NoEmptyDiagonal dims inputs) (ha : ∀ p n, additions (al.sumOrder p n) = a n)
    (p : EinsumPath) (hp : EinsumPath.fromPath h (.pairs steps) = .ok p) :
    p.countAdds al operands = .ok (steps.map (stepAdds a dims)).sum := by
  obtain ⟨cs, c1, c2⟩ := bind_eq_ok.1 hp
  cases c2
  refine tree_adds hc h cs al [] c1 ha rfl (tree_pending fun n R hR => ?_)
  obtain ⟨y, G, y1, y2, y3⟩ := operand_rep hs hw n R hR
  exact ⟨y, G, y1, y2, y3, hn R (List.mem_of_getElem? hR)⟩

/-! ## C87 -/

section
variable {F K : Type} [Zero F] [Add F] [Mul F] [MulAdd F] [Field K] [LinearOrder K] [IsStrictOrderedRing K]

/-- C87 for any contraction tree: the exponent is the sum of the roundings of its steps. -/
theorem C87_tree {val : F → K} {u : K} (hr : Rounded val u) (h : HashOrd) (al : UniformAlloc) (steps : List PairStep)
    (inputs : List (List Char)) (out : List Char) (dims : Char → Nat) (operands : List (View F))
    (ts : List (List Nat → F)) (hc : Contracts dims out 0 (numbered inputs) steps)
    (hs : Sized dims inputs (operands.map View.shape)) (he : List.Forall₂ Elements operands ts)
    (hn : NoEmptyDiagonal dims inputs) (d : Nat → Nat) (hd : ∀ p n, depth ((al.alloc F).sumOrder p n) ≤ d n) :
    ∃ p r, EinsumPath.fromPath h (.pairs steps) = .ok p ∧ p.contractOperands (al.alloc F) operands = .ok r ∧
      r.Wf ∧ r.shape = out.map dims ∧
      ∀ σ, InRange dims out σ → ∃ y, r.read (out.map σ) = .ok y ∧
        |val y - Spec.einsum dims inputs (ts.map fun t idx => val (t idx)) out σ| ≤
          ((1 + u) ^ (steps.map (stepRoundings d dims)).sum - 1) *
            Spec.einsum dims inputs (ts.map fun t idx => |val (t idx)|) out σ := by
  obtain ⟨p, p1, R, ⟨h1, h2, h3⟩, h4⟩ := C74_uniform h al steps inputs out dims operands ts hc hs he hn
  obtain ⟨cs, c1, c2⟩ := bind_eq_ok.1 p1
  cases c2
  obtain ⟨w, H, w1, w2, w3⟩ := tree_within (d := d) hc (operands := operands.map (View.map fun _ => Grade.upto 0)) h cs
    (al.alloc Grade) [] (fun _ => 0) c1 (fun p n => by rw [al.sumOrder_eq F]; exact hd p n) rfl
    (tree_pending fun n R hR => by
      obtain ⟨y, G, y1, y2, y3, y4⟩ := operand_within hs (wf_of_elements he) n R hR
      exact ⟨y, G, y1, y2, y3, hn R (List.mem_of_getElem? hR), y4⟩)
  have w1' := h4 Grade fun _ => Grade.upto 0
  change (runSteps _ _ _ _ >>= _) = _ at w1'
  rw [w1] at w1'
  cases w1'
  have := h4 F id
  rw [map_map_id] at this
  refine ⟨_, _, p1, this, h1.map _, h2, fun σ hσ => ?_⟩
  obtain ⟨e, e1, e2⟩ := h3 σ hσ
  refine ⟨e.eval id, by rw [View.read_map, e1]; rfl, formal_graded hr e2 ?_⟩
  have g := w2.get σ hσ
  rw [View.read_map, e1] at g
  rw [Except.ok.inj g]
  exact (w3 σ hσ).mono (by simp)

/-- C87: the backward error bounds for any contraction tree, with this exponent. -/
theorem C87_tree_backward {val : F → K} {u : K} (hr : Rounded val u) (h : HashOrd) (al : UniformAlloc) (steps : List PairStep)
    (inputs : List (List Char)) (out : List Char) (dims : Char → Nat) (operands : List (View F))
    (ts : List (List Nat → F)) (ho : ∀ c ∈ out, Used inputs c) (hc : Contracts dims out 0 (numbered inputs) steps)
    (hs : Sized dims inputs (operands.map View.shape)) (he : List.Forall₂ Elements operands ts)
    (hn : NoEmptyDiagonal dims inputs) (d : Nat → Nat) (hd : ∀ p n, depth ((al.alloc F).sumOrder p n) ≤ d n) :
    ∃ p r, EinsumPath.fromPath h (.pairs steps) = .ok p ∧ p.contractOperands (al.alloc F) operands = .ok r ∧
      r.Wf ∧ r.shape = out.map dims ∧
      (∀ k ix t, inputs[k]? = some ix → ts[k]? = some t → (∀ c, Used inputs c → c ∈ ix ∨ c ∈ out) →
        ∀ σ, InRange dims out σ → ∃ y, r.read (out.map σ) = .ok y ∧ ∃ t' : List Nat → K,
          (∀ idx, |t' idx - val (t idx)| ≤ ((1 + u) ^ (steps.map (stepRoundings d dims)).sum - 1) * |val (t idx)|) ∧
          val y = Spec.einsum dims inputs ((ts.map fun t idx => val (t idx)).set k t') out σ) ∧
      ∀ k ix t, inputs[k]? = some ix → ts[k]? = some t → (∀ c, Used inputs c → c ∈ ix) → ∃ t' : List Nat → K,
        (∀ idx, |t' idx - val (t idx)| ≤ ((1 + u) ^ (steps.map (stepRoundings d dims)).sum - 1) * |val (t idx)|) ∧
        ∀ σ, InRange dims out σ → ∃ y, r.read (out.map σ) = .ok y ∧
          val y = Spec.einsum dims inputs ((ts.map fun t idx => val (t idx)).set k t') out σ := by
  obtain ⟨p, r, p1, r1, r2, r3, r4⟩ := C87_tree hr h al steps inputs out dims operands ts hc hs he hn d hd
  exact ⟨p, r, p1, r1, r2, r3, fun k ix t hk ht hall σ hσ =>
      ErrorWithin.element (inputs := inputs) r4 (gamma_nonneg hr.nonneg _) hk ht hall hσ,
    fun k ix t hk ht hall => ErrorWithin.whole (inputs := inputs) r4 (gamma_nonneg hr.nonneg _) ho hk ht hall⟩

end

theorem tree_roundings_le {dims : Char → Nat} {out : List Char}
    {k : Nat} {pending : List (OperandNumber × List Char)} {steps : List PairStep}
    (hc : Contracts dims out k pending steps) : (∀ x ∈ pending, ∀ c ∈ x.2, c ∉ out → dims c ≠ 0) →
    (steps.map (stepRoundings (fun n => n - 1) dims)).sum + 2 ≤ termCount dims (pending.map Prod.snd) out + pending.length := by
  induction hc with
  | done k =>
    intro _
    have : summed [out] out = [] := List.eq_nil_iff_forall_not_mem.2 fun c hc => by
      have := mem_summed.1 hc
      simp at this
    simp [termCount, this]
  | @step k pending rest l r L R O st steps hperm hn hops hO hsz hok hkeep _ ih =>
    intro h
    have h0 : ∀ c, c ∈ L ∨ c ∈ R ∨ (∃ x ∈ rest, c ∈ x.2) → c ∉ out → dims c ≠ 0 := by
      rintro c (hc | hc | ⟨x, hx, hc⟩) ho
      · exact h (l, L) (hperm.mem_iff.2 (by simp)) c hc ho
      · exact h (r, R) (hperm.mem_iff.2 (by simp)) c hc ho
      · exact h x (hperm.mem_iff.2 (by simp [hx])) c hc ho
    have hO' : ∀ c ∈ O, c ∈ L ∨ c ∈ R := fun c hc => by
      have := used_iff.1 (hok.2 c hc)
      simpa using this
    have h' := ih fun x hx c hc ho => by
      rcases List.mem_cons.1 hx with rfl | hx
      · rcases hO' c hc with hc | hc
        · exact h0 c (.inl hc) ho
        · exact h0 c (.inr (.inl hc)) ho
      · exact h0 c (.inr (.inr ⟨x, hx, hc⟩)) ho
    have keep' : ∀ c, c ∈ L ∨ c ∈ R → c ∉ O → c ∉ out ∧ c ∉ (rest.map Prod.snd).flatten := fun c hc hcO =>
      ⟨fun ho => hcO (hkeep c hc (.inl ho)), fun hr => hcO (hkeep c hc (.inr (by
        obtain ⟨y, hy, hcy⟩ := List.mem_flatten.1 hr
        obtain ⟨x, hx, rfl⟩ := List.mem_map.1 hy
        exact ⟨x, hx, hcy⟩)))⟩
    have hA := sum_pred_lt (dims := dims) (L.dedup.filter fun c => c ∉ R ++ O) fun c hc => by
      simp only [List.mem_filter, List.mem_dedup, decide_eq_true_eq, List.mem_append, not_or] at hc
      exact h0 c (.inl hc.1) (keep' c (.inl hc.1) hc.2.2).1
    have hB := sum_pred_lt (dims := dims) (R.dedup.filter fun c => c ∉ L ++ O) fun c hc => by
      simp only [List.mem_filter, List.mem_dedup, decide_eq_true_eq, List.mem_append, not_or] at hc
      exact h0 c (.inr (.inl hc.1)) (keep' c (.inr hc.1) hc.2.2).1
    have hC := sum_pred_lt (dims := dims) (L.dedup.filter fun c => c ∈ R ∧ c ∉ O) fun c hc => by
      simp only [List.mem_filter, List.mem_dedup, decide_eq_true_eq] at hc
      exact h0 c (.inl hc.1) (keep' c (.inl hc.1) hc.2.2).1
    have hE := sum_pred_lt (dims := dims) (summed (O :: rest.map Prod.snd) out) fun c hc => by
      obtain ⟨h1, h2⟩ := mem_summed.1 hc
      refine h0 c ?_ h2
      rw [List.flatten_cons, List.mem_append] at h1
      rcases h1 with h1 | h1
      · exact (hO' c h1).imp_right .inl
      · obtain ⟨y, hy, hcy⟩ := List.mem_flatten.1 h1
        obtain ⟨x, hx, rfl⟩ := List.mem_map.1 hy
        exact .inr (.inr ⟨x, hx, hcy⟩)
    have e : termCount dims (pending.map Prod.snd) out =
        ((L.dedup.filter fun c => c ∉ R ++ O).map dims).prod *
        (((R.dedup.filter fun c => c ∉ L ++ O).map dims).prod *
        (((L.dedup.filter fun c => c ∈ R ∧ c ∉ O).map dims).prod *
        termCount dims (O :: rest.map Prod.snd) out)) := by
      unfold termCount
      rw [← List.prod_append, ← List.prod_append, ← List.prod_append, ← List.map_append, ← List.map_append, ← List.map_append]
      have n1 : (summed (O :: rest.map Prod.snd) out).Nodup := (List.nodup_dedup _).filter _
      have m1 : ∀ c, c ∈ summed (O :: rest.map Prod.snd) out ↔ (c ∈ O ∨ c ∈ (rest.map Prod.snd).flatten) ∧ c ∉ out := fun c => by
        rw [mem_summed]
        simp only [List.flatten_cons, List.mem_append]
      have m2 : ∀ c, c ∈ summed (pending.map Prod.snd) out ↔
          (c ∈ L ∨ c ∈ R ∨ c ∈ (rest.map Prod.snd).flatten) ∧ c ∉ out := fun c => by
        rw [mem_summed, ((hperm.map Prod.snd).flatten).mem_iff]
        simp only [List.map_cons, List.flatten_cons, List.mem_append]
      generalize summed (O :: rest.map Prod.snd) out = S at n1 m1
      have n2 : (summed (pending.map Prod.snd) out).Nodup := (List.nodup_dedup _).filter _
      generalize summed (pending.map Prod.snd) out = T at n2 m2
      generalize (rest.map Prod.snd).flatten = Q at m1 m2 keep'
      refine prod_of_mem n2 ?_ (fun c => ?_) dims
      · refine List.Nodup.append ((List.nodup_dedup _).filter _) (List.Nodup.append ((List.nodup_dedup _).filter _)
          (List.Nodup.append ((List.nodup_dedup _).filter _) n1 ?_) ?_) ?_
        all_goals
          intro c h1 h2
          have k1 := keep' c
          simp only [List.mem_append, List.mem_filter, List.mem_dedup, decide_eq_true_eq, m1] at h1 h2
          clear * - h1 h2 k1
          tauto
      · have k1 := keep' c
        have k2 := hO' c
        simp only [List.mem_append, List.mem_filter, List.mem_dedup, decide_eq_true_eq, m1, m2]
        clear * - k1 k2
        by_cases c ∈ L <;> by_cases c ∈ R <;> by_cases c ∈ Q <;> by_cases c ∈ out <;> by_cases c ∈ O <;> simp_all
    have h4 := four_factors (le_trans (by omega) hA) (le_trans (by omega) hB) (le_trans (by omega) hC)
      (le_trans (by omega) hE)
    rw [e, hperm.length_eq]
    simp only [List.map_cons, List.sum_cons, List.length_cons, stepRoundings, hops, hO, pairRoundings] at h' ⊢
    unfold termCount at h' ⊢
    omega

/-- C87: for any contraction tree the exponent is at most that of C74, whatever the orders of the additions. -/
theorem C87_tree_sharper (steps : List PairStep) (inputs : List (List Char)) (out : List Char) (dims : Char → Nat)
    (hc : Contracts dims out 0 (numbered inputs) steps) (h : ∀ c ∈ summed inputs out, dims c ≠ 0) :
    (steps.map (stepRoundings (fun n => n - 1) dims)).sum ≤ termCount dims inputs out + inputs.length - 2 := by
  have e : (numbered inputs).map Prod.snd = inputs := by
    rw [numbered, List.map_map]
    exact List.ext_getElem (by simp) fun i h1 h2 => by simp [List.getD_eq_getElem?_getD, List.getElem?_eq_getElem h2]
  have := tree_roundings_le hc (tree_pending fun n R hR c hc ho => h c (mem_summed.2
    ⟨List.mem_flatten.2 ⟨R, List.mem_of_getElem? hR, hc⟩, ho⟩))
  rw [e, numbered, List.length_map, List.length_range] at this
  omega

/-! ## Examples -/

/-- `kl,lm->mlk`, `jk,ij->ik`, `mlk,ik->im`, in which `j` and `l` are `3` and the others `2`, with sums that start at zero:
twelve sums of one number, four of three, then twelve that remove `l` and four of two. -/
example : ∃ p, EinsumPath.fromPath HashOrd.reversed (.pairs Ex.balanced) = .ok p ∧
    p.countAdds (Alloc.rowMajor (Tallied Int)) [Ex.m23, Ex.m32, Ex.m23, Ex.m32] = .ok (12 * 1 + 4 * 3 + (4 * 3 + 4 * 2)) := by
  obtain ⟨p, -, h1, -⟩ := C72_order HashOrd.reversed (Alloc.rowMajor Int) _ _ _ _ _ _ Ex.contracts_tree Ex.sized_tree
    (forall₂_elem Ex.wf_tree) Ex.ned_tree
  have := C88_tree HashOrd.reversed (Alloc.rowMajor (Tallied Int)) id _ _ _ _ _ Ex.contracts_tree Ex.sized_tree Ex.wf_tree
    Ex.ned_tree (fun _ n => C88_sequential n) p h1
  rw [show (Ex.balanced.map (stepAdds id Ex.treeDims)).sum = 44 by decide +kernel] at this
  exact ⟨p, h1, this⟩

/-- Three multiplications, and the additions of `3`, `3` and `2` numbers. -/
example : (Ex.balanced.map (stepRoundings (· - 1) Ex.treeDims)).sum = 8 := by decide

/-- The exponent is `8`, where C74 has `20`. -/
example : ∃ p r, EinsumPath.fromPath HashOrd.reversed (.pairs Ex.balanced) = .ok p ∧
    p.contractOperands (Alloc.fused Fl)
      ([Ex.m23, Ex.m32, Ex.m23, Ex.m32].map (View.map fun z : Int => Fl.mk ((z : ℚ) / 10))) = .ok r ∧
    ∀ σ, InRange Ex.treeDims ['i', 'm'] σ → ∃ y, r.read [σ 'i', σ 'm'] = .ok y ∧
      |y.q - Spec.einsum Ex.treeDims Ex.treeInputs
        ([Ex.m23, Ex.m32, Ex.m23, Ex.m32].map fun v idx => (v.elem idx : ℚ) / 10) ['i', 'm'] σ| ≤
      ((1 + 2⁻¹ ^ 53) ^ 8 - 1) * Spec.einsum Ex.treeDims Ex.treeInputs
        ([Ex.m23, Ex.m32, Ex.m23, Ex.m32].map fun v idx => |(v.elem idx : ℚ) / 10|) ['i', 'm'] σ := by
  obtain ⟨p, r, h1, h2, -, -, h3⟩ := C87_tree Fl.rounded HashOrd.reversed UniformAlloc.fused _ _ _ _ _ _
    Ex.contracts_tree (Ex.sized_tree_map _) (forall₂_map (fun z : Int => Fl.mk ((z : ℚ) / 10)) (forall₂_elem Ex.wf_tree))
    Ex.ned_tree _ (C87_any _)
  exact ⟨p, r, h1, h2, h3⟩

/-- Three operands `ij`, `ij` and `ij`, the last two multiplied first: the sum is that of one changed operand. -/
example : ∃ p r, EinsumPath.fromPath HashOrd.insertion (.pairs Ex.hadamardTree) = .ok p ∧
    p.contractOperands (Alloc.colMajor Fl)
      ([Ex.m23, Ex.m23, Ex.m23].map (View.map fun z : Int => Fl.mk ((z : ℚ) / 10))) = .ok r ∧ ∃ t' : List Nat → ℚ,
    (∀ idx, |t' idx - (Ex.m23.elem idx : ℚ) / 10| ≤ ((1 + 2⁻¹ ^ 53) ^ 4 - 1) * |(Ex.m23.elem idx : ℚ) / 10|) ∧
    ∀ σ, InRange Ex.treeDims ['i'] σ → ∃ y, r.read [σ 'i'] = .ok y ∧
      y.q = Spec.einsum Ex.treeDims [['i', 'j'], ['i', 'j'], ['i', 'j']]
        [t', fun idx => (Ex.m23.elem idx : ℚ) / 10, fun idx => (Ex.m23.elem idx : ℚ) / 10] ['i'] σ := by
  obtain ⟨p, r, h0, h1, -, -, -, h2⟩ := C87_tree_backward Fl.rounded HashOrd.insertion UniformAlloc.colMajor Ex.hadamardTree
    [['i', 'j'], ['i', 'j'], ['i', 'j']] ['i'] Ex.treeDims
    ([Ex.m23, Ex.m23, Ex.m23].map (View.map fun z : Int => Fl.mk ((z : ℚ) / 10))) _ (by simp [Used]) Ex.contracts_hadamard
    (.cons rfl (.cons rfl (.cons rfl .nil)))
    (forall₂_map (fun z : Int => Fl.mk ((z : ℚ) / 10)) (forall₂_elem (operands := [Ex.m23, Ex.m23, Ex.m23]) (fun v hv => Ex.wf_tree v (by simp at hv; simp [hv]))))
    (by simp [NoEmptyDiagonal]) _ (C87_any _)
  exact ⟨p, r, h0, h1, h2 0 ['i', 'j'] _ rfl rfl (by simp [Used])⟩

/-- `8 ≤ 18 + 4 - 2` -/
example : (Ex.balanced.map (stepRoundings (· - 1) Ex.treeDims)).sum ≤ 20 :=
  C87_tree_sharper _ _ _ _ Ex.contracts_tree (by decide)

end Einsum
