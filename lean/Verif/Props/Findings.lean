import Verif.Props.Contractors
import Verif.Props.Order
import Verif.Props.Main
import Mathlib.LinearAlgebra.Matrix.Notation

/-!
# Compiled paths on other operands, and claims that are false: C19, C20, C34, C43
-/

namespace Einsum

open Spec

/-! ## C19: number of operands -/

section C19
variable {A : Type}

/-- The positions of the input operands that a list of steps uses. -/
def inputsUsed (steps : List PairStep) : List Nat :=
  (usedNumbers steps).filterMap fun n =>
    match n with
    | .input i => some i
    | .intermediateResult _ => none

theorem compileSteps_length {h : HashOrd} {steps : List PairStep} {cs : List PairContraction}
    (hc : compileSteps h steps = .ok cs) : cs.length = steps.length := by
  induction steps generalizing h cs with
  | nil => cases hc; rfl
  | cons s steps ih =>
    simp only [compileSteps] at hc
    obtain ⟨c, -, h2⟩ := bind_eq_ok.1 hc
    obtain ⟨cs', h3, h4⟩ := bind_eq_ok.1 h2
    cases h4
    simp [ih h3]

/-- The two forms of a compiled path, and the operands it uses. -/
theorem path_forms {s : String} {operands₀ : List (View A)} {inputs : List (List Char)} {out : List Char}
    (hd : Denotes s inputs out) {h : HashOrd} {m : OptimizationMethod} {p : EinsumPath}
    (hp : einsumPath h s operands₀ m = .ok (.ok p)) :
    (inputs.length = 1 ∧ ∃ c sc, p = ⟨.singleton sc, .singletonContraction c⟩) ∨
    (∃ steps cs, p = ⟨.pairs steps, .pairContractions cs⟩ ∧ cs.length = steps.length ∧
      (inputsUsed steps).Perm (List.range inputs.length)) := by
  simp only [einsumPath, validateAndOptimizeOrder] at hp
  cases hsz : validateAndSize ((h.sub 0).sub 0) s operands₀ with
  | error e =>
    rw [hsz] at hp
    simp only [bind_ok] at hp
    cases hp
  | ok sc =>
    rw [hsz] at hp
    obtain ⟨x, h1, h2⟩ := bind_eq_ok.1 hp
    obtain ⟨o, h3, h4⟩ := bind_eq_ok.1 h1
    cases h4
    obtain ⟨q, h5, h6⟩ := bind_eq_ok.1 h2
    cases h6
    have hm : m = .naive ∨ m = .reverse := by
      cases m <;> first | exact .inl rfl | exact .inr rfl | cases h3
    have hlen : sc.contraction.operandIndices = inputs := by
      obtain ⟨i', o', d', e1, -, rfl⟩ := fromStringAndShapes_iff.1 hsz
      exact (e1.unique hd).1
    by_cases hone : inputs.length = 1
    · left
      refine ⟨hone, ?_⟩
      rw [C10_singleton _ _ s _ sc hsz m hm (by rw [hlen]; exact hone)] at h3
      cases h3
      obtain ⟨c, -, h8⟩ := bind_eq_ok.1 h5
      cases h8
      exact ⟨c, sc, rfl⟩
    · right
      have h2 : 2 ≤ inputs.length := by
        have := List.length_pos_iff.2 hd.inputs_ne.1
        omega
      obtain ⟨steps, g1, g2⟩ := C10_each_once _ ((h.sub 0).sub 1) s _ sc hsz m hm _ (by rw [hlen]) h2
      rw [g1] at h3
      cases h3
      obtain ⟨cs, h7, h8⟩ := bind_eq_ok.1 h5
      cases h8
      refine ⟨steps, cs, rfl, compileSteps_length h7, ?_⟩
      have := g2.filterMap fun n => match n with
        | .input i => some i
        | .intermediateResult _ => none
      refine this.trans ?_
      rw [List.filterMap_append, List.filterMap_map, List.filterMap_map]
      simp

theorem mem_inputsUsed {steps : List PairStep} {n : Nat} :
    n ∈ inputsUsed steps ↔ ∃ st ∈ steps, st.operandNums.lhs = .input n ∨ st.operandNums.rhs = .input n := by
  simp only [inputsUsed, usedNumbers, List.mem_filterMap, List.mem_flatMap]
  constructor
  · rintro ⟨x, ⟨st, hst, hx⟩, hn⟩
    cases x with
    | input i =>
      simp only [Option.some.injEq] at hn
      subst hn
      simp only [List.mem_cons, List.not_mem_nil, or_false] at hx
      exact ⟨st, hst, hx.imp Eq.symm Eq.symm⟩
    | intermediateResult i => simp at hn
  · rintro ⟨st, hst, h | h⟩
    · exact ⟨.input n, ⟨st, hst, by simp [h]⟩, rfl⟩
    · exact ⟨.input n, ⟨st, hst, by simp [h]⟩, rfl⟩

theorem bind_panics {α β : Type} {m : M α} (h : ∃ k, m = panic k) (f : α → M β) : ∃ k, (m >>= f) = panic k := by
  obtain ⟨k, rfl⟩ := h
  exact ⟨k, rfl⟩

theorem Safe.bind_panics {α β : Type} {m : M α} {Q : α → Prop} (h : Safe m Q) {f : α → M β}
    (hf : ∀ w, Q w → ∃ k, f w = Einsum.panic k) : ∃ k, (m >>= f) = Einsum.panic k := by
  rcases h with ⟨k, rfl⟩ | ⟨w, rfl, hw⟩
  · exact ⟨k, rfl⟩
  · exact hf w hw

theorem Safe.bind_panics_eq {α β : Type} {m : M α} {Q : α → Prop} (h : Safe m Q) {f : α → M β}
    (hf : ∀ w, m = .ok w → Q w → ∃ k, f w = Einsum.panic k) : ∃ k, (m >>= f) = Einsum.panic k := by
  rcases h with ⟨k, rfl⟩ | ⟨w, rfl, hw⟩
  · exact ⟨k, rfl⟩
  · exact hf w rfl hw

theorem index_panics {α : Type} {l : List α} {i : Nat} (h : l.length ≤ i) : ∃ k, index l i = panic k := by
  refine ⟨.indexOutOfBounds, ?_⟩
  simp [index, List.getElem?_eq_none h]

theorem runSteps_panics [Zero A] [Add A] [Mul A] [MulAdd A] {operands : List (View A)} (hw : ∀ v ∈ operands, v.Wf) {n : Nat}
    (hn : operands.length ≤ n) (steps : List (PairContraction × PairStep))
    (hs : ∃ st ∈ steps, st.2.operandNums.lhs = .input n ∨ st.2.operandNums.rhs = .input n)
    (inter : List (View A)) (hi : ∀ v ∈ inter, v.Wf) (al : Alloc A) :
    ∃ k, runSteps al operands steps inter = panic k := by
  induction steps generalizing inter al with
  | nil => obtain ⟨st, h, -⟩ := hs; cases h
  | cons s steps ih =>
    obtain ⟨step, orderStep⟩ := s
    rw [runSteps]
    by_cases h1 : orderStep.operandNums.lhs = .input n
    · rw [h1]
      exact bind_panics (index_panics hn) _
    · refine (fetch_safe hw hi _).bind_panics fun l hl => ?_
      by_cases h2 : orderStep.operandNums.rhs = .input n
      · rw [h2]
        exact bind_panics (index_panics hn) _
      · refine (fetch_safe hw hi _).bind_panics fun r hr => (step.run_safe hl hr _).bind_panics fun w hww => ?_
        refine ih ?_ _ (fun v hv => ?_) _
        · obtain ⟨st, g1, g2⟩ := hs
          rcases List.mem_cons.1 g1 with rfl | g1
          · rcases g2 with g2 | g2
            · exact absurd g2 h1
            · exact absurd g2 h2
          · exact ⟨st, g1, g2⟩
        · rcases List.mem_append.1 hv with hv | hv
          · exact hi v hv
          · rw [List.mem_singleton.1 hv]; exact hww

/-- C19: a compiled path panics when it is given fewer operands than it was compiled for, whatever valid arrays
they are and whatever the element type. -/
theorem C19_fewer {B : Type} [Zero A] [Add A] [Mul A] [MulAdd A] (h : HashOrd) (al : Alloc A) (s : String) (operands₀ : List (View B))
    (inputs : List (List Char)) (out : List Char) (hd : Denotes s inputs out) (m : OptimizationMethod)
    (p : EinsumPath) (hp : einsumPath h s operands₀ m = .ok (.ok p)) (operands : List (View A))
    (hw : ∀ v ∈ operands, v.Wf) (hlt : operands.length < inputs.length) :
    ∃ k, p.contractOperands al operands = panic k := by
  rcases path_forms hd hp with ⟨h1, c, sc, rfl⟩ | ⟨steps, cs, rfl, hl, hu⟩
  · have : operands = [] := List.length_eq_zero_iff.1 (by omega)
    subst this
    exact ⟨_, rfl⟩
  · have hmem : operands.length ∈ inputsUsed steps := hu.mem_iff.2 (List.mem_range.2 hlt)
    obtain ⟨st, g1, g2⟩ := mem_inputsUsed.1 hmem
    obtain ⟨i, hi, rfl⟩ := List.getElem_of_mem g1
    simp only [EinsumPath.contractOperands]
    refine bind_panics (runSteps_panics hw (n := operands.length) (le_refl _) _ ?_ [] (by simp) al) _
    refine ⟨(cs[i]'(by omega), steps[i]), ?_, g2⟩
    rw [List.mem_iff_getElem]
    exact ⟨i, by simp; omega, by simp⟩

theorem index_append {α : Type} {l : List α} {i : Nat} (h : i < l.length) (e : List α) :
    index (l ++ e) i = index l i := by
  simp [index, List.getElem?_append_left h]

theorem runSteps_append [Zero A] [Add A] [Mul A] [MulAdd A] {operands : List (View A)} (extra : List (View A))
    (steps : List (PairContraction × PairStep))
    (hs : ∀ st ∈ steps, ∀ n, st.2.operandNums.lhs = .input n ∨ st.2.operandNums.rhs = .input n →
      n < operands.length) (inter : List (View A)) (al : Alloc A) :
    runSteps al (operands ++ extra) steps inter = runSteps al operands steps inter := by
  induction steps generalizing inter al with
  | nil => rfl
  | cons s steps ih =>
    obtain ⟨step, orderStep⟩ := s
    have hf : ∀ num, (num = orderStep.operandNums.lhs ∨ num = orderStep.operandNums.rhs) →
        fetch (operands ++ extra) inter num = fetch operands inter num := by
      intro num hnum
      cases num with
      | input n => exact index_append (hs (step, orderStep) (by simp) n (hnum.imp Eq.symm Eq.symm)) _
      | intermediateResult n => rfl
    simp only [runSteps]
    rw [hf _ (.inl rfl), hf _ (.inr rfl)]
    simp only [ih fun st hst => hs st (List.mem_cons_of_mem _ hst)]

/-- C19: operands beyond the number the path was compiled for are ignored. -/
theorem C19_extra {B : Type} [Zero A] [Add A] [Mul A] [MulAdd A] (h : HashOrd) (al : Alloc A) (s : String) (operands₀ : List (View B))
    (inputs : List (List Char)) (out : List Char) (hd : Denotes s inputs out) (m : OptimizationMethod)
    (p : EinsumPath) (hp : einsumPath h s operands₀ m = .ok (.ok p)) (operands extra : List (View A))
    (hlen : operands.length = inputs.length) :
    p.contractOperands al (operands ++ extra) = p.contractOperands al operands := by
  rcases path_forms hd hp with ⟨h1, c, sc, rfl⟩ | ⟨steps, cs, rfl, hl, hu⟩
  · simp only [EinsumPath.contractOperands]
    rw [index_append (by omega)]
  · simp only [EinsumPath.contractOperands]
    rw [runSteps_append]
    intro st hst n hn
    have : n ∈ inputsUsed steps := mem_inputsUsed.2 ⟨st.2, (List.of_mem_zip (a := st.1) (b := st.2) hst).2, hn⟩
    rw [hlen]
    exact List.mem_range.1 (hu.mem_iff.1 this)

end C19

/-- C19 on a path for three operands, given two. -/
example : ∃ p, einsumPath HashOrd.reversed "ij,jjk,kj->ij" [Ex.m23, Ex.m332, Ex.m23] .reverse = .ok (.ok p) ∧
    (∃ k, p.contractOperands (Alloc.rowMajor Int) [Ex.m23, Ex.m332] = panic k) ∧
    p.contractOperands (Alloc.rowMajor Int) ([Ex.m23, Ex.m332, Ex.m23] ++ [Ex.m00]) =
      p.contractOperands (Alloc.rowMajor Int) [Ex.m23, Ex.m332, Ex.m23] := by
  obtain ⟨p, hp, -⟩ := einsumPath_ok Ex.denotes_three Ex.call_three.sized HashOrd.reversed (m := .reverse) (.inr rfl)
  exact ⟨p, hp, C19_fewer _ _ _ _ _ _ Ex.denotes_three _ p hp _
    (by simp [Ex.e23.1, Ex.e332.1]) (by simp), C19_extra _ _ _ _ _ _ Ex.denotes_three _ p hp _ _ (by simp)⟩

/-! ## C20: shapes are not checked when a path is run -/

section C20
set_option maxRecDepth 100000

/-- The path compiled for "ij,jk->ik" with lengths 2, 3, 2. -/
def Ex.path20 : EinsumPath :=
  match (do EinsumPath.fromPath (HashOrd.insertion.sub 1) (← generateOptimizedOrder ((HashOrd.insertion.sub 0).sub 1)
    (callSC [['i', 'j'], ['j', 'k']] ['i', 'k'] Ex.dims) .naive) : M EinsumPath) with
  | .ok p => p
  | .error _ => ⟨.pairs [], .pairContractions []⟩

/-- C20: a path compiled for a 2 by 3 and a 3 by 2 matrix accepts a 3 by 2 and a 2 by 3 matrix and returns a
2 by 2 array; for these operands the call itself would give a 3 by 3 array. -/
theorem C20_shapes_unchecked : ∃ (p : EinsumPath) (r r' : View Int),
    einsumPath HashOrd.insertion "ij,jk->ik" [Ex.m23, Ex.m32] .naive = .ok (.ok p) ∧
    p.contractOperands (Alloc.rowMajor Int) [Ex.m32, Ex.m23] = .ok r ∧ r.shape = [2, 2] ∧
    einsum HashOrd.insertion (Alloc.rowMajor Int) "ij,jk->ik" [Ex.m32, Ex.m23] = .ok (.ok r') ∧
    r'.shape = [3, 3] := by
  let d' : Char → Nat := fun c => if c = 'j' then 2 else 3
  have hs' : Sized d' [['i', 'j'], ['j', 'k']] ([Ex.m32, Ex.m23].map View.shape) :=
    .cons (by decide) (.cons (by decide) .nil)
  obtain ⟨r', h1, h2⟩ := C13_einsum HashOrd.insertion (Alloc.rowMajor Int) _ _ _ _ d' _
    ⟨Ex.denotes_matmul, hs', .cons Ex.e32 (.cons Ex.e23 .nil)⟩ (by simp [NoEmptyDiagonal])
  have e : einsumPath HashOrd.insertion "ij,jk->ik" [Ex.m23, Ex.m32] .naive = .ok (.ok Ex.path20) := by
    simp only [einsumPath, validateAndOptimizeOrder,
      validateAndSize_ok ((HashOrd.insertion.sub 0).sub 0) Ex.denotes_matmul Ex.call_matmul.sized]
    with_unfolding_all rfl
  exact ⟨Ex.path20, ⟨[41, 56, 14, 20], 0, [2, 2], [2, 1]⟩, r', e, by with_unfolding_all rfl, rfl, h1, h2.2.1⟩

end C20

section C20b

/-- The contractors that `PairSummary::get_strategy` can select for the labels `L`, `R`. -/
theorem selected_forms {sc : SizedContraction} {L R : List Char} (hops : sc.contraction.operandIndices = [L, R])
    {s : PairSummary} {op : PairOp} (hop : PairOp.new sc s.getStrategy = .ok op) :
    (∃ p, op = .hadamardProductGeneral p) ∨ (∃ p, op = .scalarMatrixProductGeneral p ∧ L = []) ∨
    (∃ p, op = .matrixScalarProductGeneral p ∧ R = []) ∨ (∃ p, op = .tensordotGeneral p) ∨
    ∃ p, op = .stackedTensordotGeneral p := by
  obtain ⟨a, b, c, d⟩ := s
  rw [pairStrategy_eq] at hop
  split at hop
  · obtain ⟨p, -, h2⟩ := bind_eq_ok.1 hop
    cases h2
    exact .inl ⟨p, rfl⟩
  · split at hop
    · obtain ⟨p, h1, h2⟩ := bind_eq_ok.1 hop
      cases h2
      refine .inr (.inl ⟨p, rfl, ?_⟩)
      simp only [ScalarMatrixProductGeneral.new, hops, List.length_cons, List.length_nil, Nat.zero_add, Nat.reduceAdd,
        decide_true, assertThat_true, bind_ok, index_cons_zero, index_one] at h1
      obtain ⟨u, h3, -⟩ := bind_eq_ok.1 h1
      by_contra hL
      have : ¬ L.length = 0 := by simpa using hL
      simp [assertThat, this, panic] at h3
    · split at hop
      · obtain ⟨p, h1, h2⟩ := bind_eq_ok.1 hop
        cases h2
        refine .inr (.inr (.inl ⟨p, rfl, ?_⟩))
        simp only [MatrixScalarProductGeneral.new, hops, List.length_cons, List.length_nil, Nat.zero_add, Nat.reduceAdd,
          decide_true, assertThat_true, bind_ok, index_cons_zero, index_one] at h1
        obtain ⟨u, h3, -⟩ := bind_eq_ok.1 h1
        by_contra hL
        have : ¬ R.length = 0 := by simpa using hL
        simp [assertThat, this, panic] at h3
      · split at hop
        · obtain ⟨p, -, h2⟩ := bind_eq_ok.1 hop
          cases h2
          exact .inr (.inr (.inr (.inl ⟨p, rfl⟩)))
        · obtain ⟨p, -, h2⟩ := bind_eq_ok.1 hop
          cases h2
          exact .inr (.inr (.inr (.inr ⟨p, rfl⟩)))

theorem permuted_perm {A : Type} {v w : View A} {axes : List Nat} (h : v.permutedAxes axes = .ok w) :
    axes.Perm (List.range v.shape.length) := by
  by_contra hn
  rw [View.permutedAxes_panic hn] at h
  cases h

theorem permuted_rank {A B : Type} {v w : View A} {axes : List Nat} (h : v.permutedAxes axes = .ok w) {x : View B}
    (hx : x.shape.length ≠ v.shape.length) : x.permutedAxes axes = panic .ndarray := by
  refine View.permutedAxes_panic fun hp => hx ?_
  have h1 := (permuted_perm h).length_eq
  have h2 := hp.length_eq
  simp only [List.length_range] at h1 h2
  omega

/-- An array of zeros for given labels. -/
theorem zeros_rep (L : List Char) (dims : Char → Nat) :
    ∃ v : View Nat, v.shape = L.map dims ∧ Rep v L dims fun _ => 0 := by
  have hh : Holds (⟨(allIdx (L.map dims)).map fun _ => (0 : Nat), 0, L.map dims, defaultStrides (L.map dims)⟩ : View Nat)
      (L.map dims) fun _ => 0 := holds_of_buf fun n hn => by
    rw [map_allIdx_getElem? (T := fun _ => (0 : Nat)) hn]
  exact ⟨_, rfl, hh.rep⟩

theorem rank_strict {sc : SizedContraction} {sw : Bool} {dims : Char → Nat} {L R out : List Char}
    (hops : sc.contraction.operandIndices = [L, R]) {s : PairSummary} {op : PairOp}
    (hop : PairOp.new sc s.getStrategy = .ok op) (hc : op.Computes sw dims L R out)
    {A : Type} [Zero A] [Add A] [Mul A] [MulAdd A] {l r : View A} (hl : l.Wf) (al : Alloc A)
    (hrank : (L ≠ [] ∧ l.shape.length ≠ L.length) ∨ (R ≠ [] ∧ r.shape.length ≠ R.length)) :
    ∃ k, op.run al l r = panic k := by
  obtain ⟨zl, sl, rl⟩ := zeros_rep L dims
  obtain ⟨zr, sr, rr⟩ := zeros_rep R dims
  obtain ⟨w, hw, -⟩ := hc Nat (Alloc.rowMajor Nat) zl zr _ _ rl rr
  have el : zl.shape.length = L.length := by rw [sl]; simp
  have er : zr.shape.length = R.length := by rw [sr]; simp
  rw [← el, ← er] at hrank
  have both : ∀ (p q : Permutation) (x y : View Nat) (f : View A → View A → M (View A)),
      p.view zl = .ok x → q.view zr = .ok y →
      ∃ k, (p.view l >>= fun l' => q.view r >>= fun r' => f l' r') = panic k := by
    intro p q x y f hx hy
    rcases hrank with ⟨-, h⟩ | ⟨-, h⟩
    · exact bind_panics ⟨_, permuted_rank hx h⟩ _
    · exact (hl.permutedAxes _).bind_panics fun l' _ => bind_panics ⟨_, permuted_rank hy h⟩ _
  rcases selected_forms hops hop with ⟨p, rfl⟩ | ⟨p, rfl, hL⟩ | ⟨p, rfl, hR⟩ | ⟨p, rfl⟩ | ⟨p, rfl⟩
  · simp only [PairOp.run, HadamardProductGeneral.run] at hw ⊢
    obtain ⟨x, hx, hw⟩ := bind_eq_ok.1 hw
    obtain ⟨y, hy, -⟩ := bind_eq_ok.1 hw
    exact both _ _ x y _ hx hy
  · simp only [PairOp.run, ScalarMatrixProductGeneral.run] at hw ⊢
    obtain ⟨x, hx, -⟩ := bind_eq_ok.1 hw
    rcases hrank with ⟨h, -⟩ | ⟨-, h⟩
    · exact absurd hL h
    · exact bind_panics ⟨_, permuted_rank hx h⟩ _
  · simp only [PairOp.run, MatrixScalarProductGeneral.run] at hw ⊢
    obtain ⟨x, hx, -⟩ := bind_eq_ok.1 hw
    rcases hrank with ⟨-, h⟩ | ⟨h, -⟩
    · exact bind_panics ⟨_, permuted_rank hx h⟩ _
    · exact absurd hR h
  · simp only [PairOp.run, TensordotGeneral.run] at hw ⊢
    obtain ⟨x, hx, hw⟩ := bind_eq_ok.1 hw
    obtain ⟨y, hy, -⟩ := bind_eq_ok.1 hw
    exact both _ _ x y _ hx hy
  · simp only [PairOp.run, StackedTensordotGeneral.run] at hw ⊢
    obtain ⟨x, hx, hw⟩ := bind_eq_ok.1 hw
    rcases hrank with ⟨-, h⟩ | ⟨-, h⟩
    · exact bind_panics ⟨_, permuted_rank hx h⟩ _
    · refine (hl.permutedAxes _).bind_panics fun l' hl' => ?_
      obtain ⟨d, hd, -⟩ := hl'.toVec
      rw [hd, bind_ok]
      obtain ⟨dn, -, hw⟩ := bind_eq_ok.1 hw
      split at hw
      · cases hw
      · obtain ⟨y, hy, -⟩ := bind_eq_ok.1 hw
        split
        · exact ⟨_, rfl⟩
        · exact bind_panics ⟨_, permuted_rank hy h⟩ _

/-- C20: a compiled pair step that applies no simplification to an operand panics when that operand has another
number of axes than its labels (and has at least one label). -/
theorem C20_rank {A : Type} [Zero A] [Add A] [Mul A] [MulAdd A] (h h' : HashOrd) (al : Alloc A) (L R out : List Char)
    (shapes : List (List Nat)) (sc : SizedContraction) (hsc : SizingOf h [L, R] out shapes sc)
    (p : PairContraction) (hp : PairContraction.new h' sc = .ok p) (l r : View A) (hl : l.Wf) (hr : r.Wf)
    (hrank : (p.lhsSimplification = none ∧ L ≠ [] ∧ l.shape.length ≠ L.length) ∨
      (p.rhsSimplification = none ∧ R ≠ [] ∧ r.shape.length ≠ R.length)) :
    ∃ k, p.run al l r = panic k := by
  obtain ⟨dims, hs⟩ := hsc.sized
  obtain ⟨ho, rfl⟩ := hsc.eq hs
  have hv := callSC_valid (dims := dims) ho
  simp only [PairContraction.new] at hp
  obtain ⟨-, -, hp⟩ := bind_eq_ok.1 hp
  change (index [L, R] 0 >>= fun lhs => index [L, R] 1 >>= fun rhs => _) = _ at hp
  rw [index_cons_zero, bind_ok, index_one, bind_ok] at hp
  obtain ⟨ls, hls, hp⟩ := bind_eq_ok.1 hp
  obtain ⟨rs, hrs, hp⟩ := bind_eq_ok.1 hp
  obtain ⟨red, hred, hp⟩ := bind_eq_ok.1 hp
  obtain ⟨summary, hsum, hp⟩ := bind_eq_ok.1 hp
  obtain ⟨op, hop, hp⟩ := bind_eq_ok.1 hp
  obtain ⟨str, hstr, hp⟩ := bind_eq_ok.1 hp
  cases hp
  obtain ⟨ls', e1, nl, ml, -⟩ := simplification_ok hv (h'.sub 0) (L := L) (R := R) (out := out)
    (fun c hc => by simp [callSC, hc])
  obtain ⟨rs', e2, nr, mr, -⟩ := simplification_ok hv (h'.sub 1) (L := R) (R := L) (out := out)
    (fun c hc => by simp [callSC, hc])
  change SimplificationMethodAndOutput.fromIndicesAndSizes (h'.sub 0) L R out _ = _ at hls
  change SimplificationMethodAndOutput.fromIndicesAndSizes (h'.sub 1) R L out _ = _ at hrs
  rw [hls] at e1
  rw [hrs] at e2
  cases e1
  cases e2
  obtain ⟨red', f1, f2, f3, f4⟩ := hv.subset (h'.sub 2) (ops := [newIndicesOr ls L, newIndicesOr rs R]) (out := out)
    (by
      intro c hc
      simp only [List.flatten_cons, List.flatten_nil, List.append_nil, List.mem_append, ml, mr] at hc
      simp only [callSC, List.flatten_cons, List.flatten_nil, List.append_nil, List.mem_append]
      tauto)
    ⟨ho.1, fun c hc => by
      have := used_iff.1 (ho.2 c hc)
      rw [used_iff]
      simp only [List.flatten_cons, List.flatten_nil, List.append_nil, List.mem_append, ml, mr] at this ⊢
      tauto⟩
  change unwrapR (SizedContraction.subset (h'.sub 2) _ [newIndicesOr ls L, newIndicesOr rs R] out) = _ at hred
  rw [f1] at hred
  cases hred
  obtain ⟨s2, op2, g1, g2, g3⟩ := pairOp_ok f2 f3 nl nr
    (fun c hc => by rw [f4, mr]; rw [ml] at hc; tauto) (fun c hc => by rw [f4, ml]; rw [mr] at hc; tauto)
  rw [hsum] at g1
  cases g1
  rw [hop] at g2
  cases g2
  simp only [PairContraction.run]
  refine (simplifyOperand_safe ls hl _).bind_panics_eq fun l' e1 hl' =>
    (simplifyOperand_safe rs hr _).bind_panics_eq fun r' e2 _ => ?_
  refine rank_strict f3 hop g3 hl' _ ?_
  rcases hrank with ⟨h1, h2, h3⟩ | ⟨h1, h2, h3⟩
  · simp only at h1
    subst h1
    cases e1
    exact .inl ⟨h2, h3⟩
  · simp only at h1
    subst h1
    cases e2
    exact .inr ⟨h2, h3⟩

/-- C20 on the step "ij,jk->ik" given a right operand with three axes. -/
example : ∃ p, PairContraction.new HashOrd.reversed (callSC [['i', 'j'], ['j', 'k']] ['i', 'k'] Ex.dims) = .ok p ∧
    ∃ k, p.run (Alloc.rowMajor Int) Ex.m23 Ex.m332 = panic k := by
  have e : PairContraction.new HashOrd.reversed (callSC [['i', 'j'], ['j', 'k']] ['i', 'k'] Ex.dims) =
      .ok ⟨none, none, .tensordotGeneral, .tensordotGeneral ⟨⟨[0, 1]⟩, ⟨[0, 1]⟩, ⟨2, 2, 3, [2, 2]⟩, ⟨[0, 1]⟩⟩, "ij,jk->ik"⟩ := by
    with_unfolding_all rfl
  exact ⟨_, e, C20_rank HashOrd.insertion _ _ ['i', 'j'] ['j', 'k'] ['i', 'k'] [[2, 3], [3, 2]] _
    (sizes_callSC (by simp [OutputOk, Used]) Ex.call_matmul.sized) _ e _ _ Ex.e23.1 Ex.e332.1
    (.inr ⟨rfl, by simp, by decide⟩)⟩

end C20b

/-! ## C34: the order of multiplication -/

/-- A vector of one element. -/
def Ex.vec1 {A : Type} (x : A) : View A := ⟨[x], 0, [1], [1]⟩

theorem Ex.denotes_ij_j : Denotes "i,j->j" [['i'], ['j']] ['j'] :=
  .inl ⟨by decide, ⟨by simp, by simp [Letter], by simp [Letter]⟩, by simp [OutputOk, Used]⟩

/-- C34: for elements whose multiplication need not be commutative, the call "i,j->j" on `[x]`, `[y]` returns
`[y * x]`: the product is formed in the opposite of operand order. -/
theorem C34_reversed {A : Type} [Semiring A] (x y : A) :
    einsum HashOrd.insertion (Alloc.rowMajor A) "i,j->j" [Ex.vec1 x, Ex.vec1 y] =
      .ok (.ok (Ex.vec1 (y * x))) := by
  have hs : Sized (fun _ => 1) [['i'], ['j']] ([Ex.vec1 x, Ex.vec1 y].map View.shape) :=
    .cons rfl (.cons rfl .nil)
  have e : (callSC [['i'], ['j']] ['j'] fun _ => 1).contractOperands (HashOrd.insertion.sub 1) (Alloc.rowMajor A)
      [Ex.vec1 x, Ex.vec1 y] = .ok (Ex.vec1 (y * (0 + x))) := rfl
  simp only [Einsum.einsum, validateAndSize_ok _ Ex.denotes_ij_j hs, e, zero_add]
  rfl

/-- C34: there is a ring and a call whose result is not the sum of the products in operand order. -/
theorem C34_not_operand_order : ∃ (x y : Matrix (Fin 2) (Fin 2) ℤ),
    einsum HashOrd.insertion (Alloc.rowMajor _) "i,j->j" [Ex.vec1 x, Ex.vec1 y] ≠ .ok (.ok (Ex.vec1 (x * y))) := by
  refine ⟨!![0, 1; 0, 0], !![0, 0; 1, 0], fun h => ?_⟩
  rw [C34_reversed] at h
  have h' : (!![0, 0; 1, 0] : Matrix (Fin 2) (Fin 2) ℤ) * !![0, 1; 0, 0] =
      !![0, 1; 0, 0] * !![0, 0; 1, 0] := by
    injection h with h
    injection h with h
    injection h with h
    exact (List.cons.inj h).1
  have := congrFun (congrFun h' 0) 0
  revert this
  decide

/-! ## C43: additions in an order that depends on hash iteration -/

/-- Numbers from -9 to 9 with saturating arithmetic: commutative, with a zero and a one, but addition is not
associative (the same holds for floating-point numbers). -/
def Sat : Type := {z : Int // -9 ≤ z ∧ z ≤ 9}

namespace Sat

def clamp (z : Int) : Sat := ⟨max (-9) (min 9 z), by omega⟩

instance : Zero Sat := ⟨⟨0, by decide⟩⟩
instance : One Sat := ⟨⟨1, by decide⟩⟩
instance : Add Sat := ⟨fun a b => clamp (a.1 + b.1)⟩
instance : Mul Sat := ⟨fun a b => clamp (a.1 * b.1)⟩
instance : DecidableEq Sat := fun a b => decidable_of_iff (a.1 = b.1) Subtype.ext_iff.symm

theorem laws (a b : Sat) : a + b = b + a ∧ 0 + a = a ∧ a * b = b * a ∧ 1 * a = a := by
  refine ⟨?_, ?_, ?_, ?_⟩
  · change clamp (a.1 + b.1) = clamp (b.1 + a.1)
    rw [Int.add_comm]
  · obtain ⟨a, h⟩ := a
    refine Subtype.ext ?_
    change max (-9) (min 9 (0 + a)) = a
    omega
  · change clamp (a.1 * b.1) = clamp (b.1 * a.1)
    rw [Int.mul_comm]
  · obtain ⟨a, h⟩ := a
    refine Subtype.ext ?_
    change max (-9) (min 9 (1 * a)) = a
    omega

end Sat

/-- The array `[[[9], [9]], [[-9], [-9]]]` with one more axis of length one in front. -/
def Ex.a43 : View Sat := ⟨[⟨9, by decide⟩, ⟨9, by decide⟩, ⟨-9, by decide⟩, ⟨-9, by decide⟩], 0, [1, 2, 2, 1], [4, 2, 1, 1]⟩

/-- An array of ones. -/
def Ex.b43 : View Sat := ⟨[1, 1, 1, 1], 0, [1, 2, 2], [4, 2, 1]⟩

def Ex.dims43 (c : Char) : Nat := if c = 'i' ∨ c = 'j' then 2 else 1

theorem Ex.denotes_43 : Denotes "xijk,xij->x" [['x', 'i', 'j', 'k'], ['x', 'i', 'j']] ['x'] :=
  .inl ⟨by decide, ⟨by simp, by simp [Letter], by simp [Letter]⟩, by simp [OutputOk, Used]⟩

set_option maxRecDepth 100000 in
/-- C43: the same call with the same operands and the same memory layout returns different arrays for two
iteration orders of the hash maps, for an element type whose addition is commutative but not associative. -/
theorem C43_order_observable : ∃ (h h' : HashOrd) (r r' : View Sat),
    einsum h (Alloc.rowMajor Sat) "xijk,xij->x" [Ex.a43, Ex.b43] = .ok (.ok r) ∧
    einsum h' (Alloc.rowMajor Sat) "xijk,xij->x" [Ex.a43, Ex.b43] = .ok (.ok r') ∧
    r.read [0] ≠ r'.read [0] := by
  have hs : Sized Ex.dims43 [['x', 'i', 'j', 'k'], ['x', 'i', 'j']] ([Ex.a43, Ex.b43].map View.shape) :=
    .cons (by decide) (.cons (by decide) .nil)
  refine ⟨HashOrd.insertion, HashOrd.reversed, ⟨[⟨-9, by decide⟩], 0, [1], [1]⟩, ⟨[0], 0, [1], [1]⟩, ?_, ?_, ?_⟩
  · have e : (callSC [['x', 'i', 'j', 'k'], ['x', 'i', 'j']] ['x'] Ex.dims43).contractOperands
        (HashOrd.insertion.sub 1) (Alloc.rowMajor Sat) [Ex.a43, Ex.b43] =
        .ok ⟨[⟨-9, by decide⟩], 0, [1], [1]⟩ := rfl
    simp only [Einsum.einsum, validateAndSize_ok _ Ex.denotes_43 hs, e]
    rfl
  · have e : (callSC [['x', 'i', 'j', 'k'], ['x', 'i', 'j']] ['x'] Ex.dims43).contractOperands
        (HashOrd.reversed.sub 1) (Alloc.rowMajor Sat) [Ex.a43, Ex.b43] = .ok ⟨[0], 0, [1], [1]⟩ := rfl
    simp only [Einsum.einsum, validateAndSize_ok _ Ex.denotes_43 hs, e]
    rfl
  · decide

/-- C43: the element type used satisfies commutativity and the laws of zero and one. -/
theorem C43_laws (a b : Sat) : a + b = b + a ∧ 0 + a = a ∧ a * b = b * a ∧ 1 * a = a := Sat.laws a b

end Einsum
