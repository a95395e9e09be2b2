import Verif.Props.Main
import Verif.Proofs.Safe

/-!
# C51: hand-built contractions

The fields of `Contraction` and `SizedContraction` are public, so they need not come from validation.
-/

namespace Einsum

open Spec

variable {A α β : Type}

/-- A value or a panic. -/
def NoUb (m : M α) : Prop := (∃ k, m = panic k) ∨ ∃ a, m = .ok a

theorem NoUb.ok {a : α} : NoUb (.ok a : M α) := .inr ⟨a, rfl⟩
theorem NoUb.pure {a : α} : NoUb (Pure.pure a : M α) := .inr ⟨a, rfl⟩
theorem NoUb.panic {k : PanicKind} : NoUb (Einsum.panic k : M α) := .inl ⟨k, rfl⟩

theorem NoUb.bind {m : M α} {f : α → M β} (h : NoUb m) (h' : ∀ a, NoUb (f a)) : NoUb (m >>= f) := by
  rcases h with ⟨k, rfl⟩ | ⟨a, rfl⟩
  · exact .inl ⟨k, rfl⟩
  · exact h' a

theorem noUb_assertThat (b : Bool) : NoUb (assertThat b) := by
  cases b
  · exact .panic
  · exact .ok

theorem noUb_index (l : List α) (i : Nat) : NoUb (index l i) := by
  unfold index; split
  · exact .ok
  · exact .panic

theorem noUb_unwrapO (o : Option α) : NoUb (unwrapO o) := by
  cases o
  · exact .panic
  · exact .ok

theorem noUb_unwrapR (o : Except String α) : NoUb (unwrapR o) := by
  cases o
  · exact .panic
  · exact .ok

theorem noUb_usub (a b : Nat) : NoUb (usub a b) := by
  unfold usub; split
  · exact .ok
  · exact .panic

theorem noUb_get (m : OutputSize) (c : Char) : NoUb (m.get c) := by
  unfold OutputSize.get; split
  · exact .ok
  · exact .panic

theorem noUb_mapE {f : α → M β} (h : ∀ a, NoUb (f a)) (l : List α) : NoUb (mapE f l) := by
  induction l with
  | nil => exact .ok
  | cons a l ih => exact .bind (h a) fun _ => .bind ih fun _ => .pure

/-- Steps of a computation made of the primitives above. -/
macro "noub" : tactic => `(tactic|
  repeat' first
    | exact NoUb.ok
    | exact NoUb.pure
    | exact NoUb.panic
    | exact noUb_assertThat _
    | exact noUb_index _ _
    | exact noUb_unwrapO _
    | exact noUb_unwrapR _
    | exact noUb_usub _ _
    | exact noUb_get _ _
    | assumption
    | refine NoUb.bind ?_ fun _ => ?_
    | refine noUb_mapE (fun _ => ?_) _
    | split)

theorem noUb_permutation (sc : SizedContraction) : NoUb (Permutation.new sc) := by
  unfold Permutation.new; noub

theorem noUb_fromSizes (a b : Nat) : NoUb (Summation.fromSizes a b) := by
  unfold Summation.fromSizes; noub

theorem noUb_summation (sc : SizedContraction) : NoUb (Summation.new sc) := by
  unfold Summation.new
  refine .bind (noUb_index _ _) fun _ => .bind (noUb_usub _ _) fun _ => noUb_fromSizes _ _

theorem noUb_diagonalization (sc : SizedContraction) : NoUb (Diagonalization.new sc) := by
  unfold Diagonalization.new; noub

theorem noUb_singletonOp (sc : SizedContraction) (m : SingletonMethod) : NoUb (SingletonOp.new sc m) := by
  cases m with
  | identity => exact .ok
  | permutation => exact .bind (noUb_permutation sc) fun _ => .pure
  | summation => exact .bind (noUb_summation sc) fun _ => .pure
  | diagonalization => exact .bind (noUb_diagonalization sc) fun _ => .pure
  | permutationAndSummation =>
    refine .bind ?_ fun _ => .pure
    unfold PermutationAndSummation.new
    have := noUb_summation sc
    noub
  | diagonalizationAndSummation =>
    refine .bind ?_ fun _ => .pure
    unfold DiagonalizationAndSummation.new
    exact .bind (noUb_diagonalization sc) fun _ => .bind (noUb_usub _ _) fun _ => .bind (noUb_fromSizes _ _)
      fun _ => .pure

theorem noUb_singletonSummary (sc : SizedContraction) : NoUb (SingletonSummary.new sc) := by
  unfold SingletonSummary.new SingletonSummary.fromIndices; noub

theorem noUb_singletonContraction (sc : SizedContraction) : NoUb (SingletonContraction.new sc) :=
  .bind (noUb_singletonSummary sc) fun _ => .bind (noUb_singletonOp sc _) fun _ => .pure

theorem noUb_asEinsumString (sc : SizedContraction) : NoUb sc.asEinsumString := by
  unfold SizedContraction.asEinsumString; noub

theorem noUb_simplification (h : HashOrd) (this other out : List Char) (orig : SizedContraction) :
    NoUb (SimplificationMethodAndOutput.fromIndicesAndSizes h this other out orig) := by
  unfold SimplificationMethodAndOutput.fromIndicesAndSizes
  refine .bind (noUb_unwrapR _) fun s => .bind (noUb_singletonContraction s) fun c => ?_
  split
  · exact .pure
  · exact .pure
  · exact .bind (noUb_asEinsumString s) fun _ => .pure

theorem noUb_maybeFind (out input : List Char) : NoUb (maybeFindOutputsInInputsUnique out input) := by
  unfold maybeFindOutputsInInputsUnique; noub

theorem noUb_find (out input : List Char) : NoUb (findOutputsInInputsUnique out input) :=
  .bind (noUb_maybeFind _ _) fun _ => noUb_mapE (fun _ => noUb_unwrapO _) _

theorem noUb_sizesOf (sc : SizedContraction) (l : List Char) : NoUb (sizesOf sc l) :=
  noUb_mapE (fun _ => noUb_get _ _) _

theorem noUb_lhsLoop (n k : Nat) (l : List Nat) (axis : Nat) (acc : Nat × Nat × List Nat) :
    NoUb (lhsLoop n k axis l acc) := by
  induction l generalizing axis acc with
  | nil => exact .ok
  | cons x l ih =>
    obtain ⟨u, c, out⟩ := acc
    rw [lhsLoop]
    refine .bind (noUb_usub _ _) fun cut => ?_
    split
    · exact ih _ _
    · exact ih _ _

theorem noUb_fromShapes (l r : List Nat) (n : Nat) : NoUb (TensordotFixedPosition.fromShapes l r n) :=
  .bind (noUb_lhsLoop _ _ _ _ _) fun _ => .bind (noUb_assertThat _) fun _ => .pure

theorem noUb_fixed (sc : SizedContraction) : NoUb (TensordotFixedPosition.new sc) :=
  .bind (noUb_assertThat _) fun _ => .bind (noUb_index _ _) fun _ => .bind (noUb_index _ _) fun _ =>
    .bind (noUb_usub _ _) fun _ => .bind (noUb_assertThat _) fun _ => .bind (noUb_sizesOf _ _) fun _ =>
    .bind (noUb_sizesOf _ _) fun _ => noUb_fromShapes _ _ _

theorem noUb_axisNumbers (l r la ra o : List Nat) : NoUb (TensordotGeneral.fromShapesAndAxisNumbers l r la ra o) :=
  .bind (noUb_assertThat _) fun _ => .bind (noUb_assertThat _) fun _ => .bind (noUb_assertThat _) fun _ =>
    .bind (noUb_mapE (fun _ => noUb_index _ _) _) fun _ => .bind (noUb_mapE (fun _ => noUb_index _ _) _) fun _ =>
    .bind (noUb_fromShapes _ _ _) fun _ => .pure

theorem noUb_tensordot (sc : SizedContraction) : NoUb (TensordotGeneral.new sc) :=
  .bind (noUb_assertThat _) fun _ => .bind (noUb_index _ _) fun _ => .bind (noUb_index _ _) fun _ =>
    .bind (noUb_sizesOf _ _) fun _ => .bind (noUb_sizesOf _ _) fun _ =>
    .bind (noUb_find _ _) fun _ => .bind (noUb_find _ _) fun _ => .bind (noUb_find _ _) fun _ =>
    noUb_axisNumbers _ _ _ _ _

theorem noUb_stackClassify (sc : SizedContraction) (l : List ((Option Nat × Option Nat) × Char)) (acc : StackAcc) :
    NoUb (stackClassify sc l acc) := by
  induction l generalizing acc with
  | nil => exact .ok
  | cons x l ih =>
    obtain ⟨⟨a, b⟩, c⟩ := x
    cases a <;> cases b <;> rw [stackClassify]
    · exact .panic
    all_goals exact .bind (noUb_get _ _) fun _ => ih _

theorem noUb_stackContracted (sc : SizedContraction) (rhs out : List Char) (l : List Char) (n : Nat) :
    NoUb (stackContracted sc rhs out n l) := by
  induction l generalizing n with
  | nil => exact .ok
  | cons c l ih =>
    rw [stackContracted]
    split
    · exact ih _
    · exact .bind (noUb_unwrapO _) fun _ => .bind (noUb_get _ _) fun _ => .bind (ih _) fun _ => .pure

theorem noUb_stacked (sc : SizedContraction) : NoUb (StackedTensordotGeneral.new sc) :=
  .bind (noUb_assertThat _) fun _ => .bind (noUb_index _ _) fun _ => .bind (noUb_index _ _) fun _ =>
    .bind (noUb_maybeFind _ _) fun _ => .bind (noUb_maybeFind _ _) fun _ =>
    .bind (noUb_stackClassify _ _ _) fun _ => .bind (noUb_stackContracted _ _ _ _ _) fun _ =>
    .bind (noUb_sizesOf _ _) fun _ => .bind (noUb_sizesOf _ _) fun _ => .bind (noUb_find _ _) fun _ =>
    .bind (noUb_sizesOf _ _) fun _ => .bind (noUb_fromShapes _ _ _) fun _ => .pure

theorem noUb_pairOp (sc : SizedContraction) (m : PairMethod) : NoUb (PairOp.new sc m) := by
  cases m with
  | hadamardProduct => refine .bind ?_ fun _ => .pure; unfold HadamardProduct.new; noub
  | hadamardProductGeneral =>
    refine .bind ?_ fun _ => .pure; unfold HadamardProductGeneral.new; noub
  | tensordotFixedPosition => exact .bind (noUb_fixed sc) fun _ => .pure
  | tensordotGeneral => exact .bind (noUb_tensordot sc) fun _ => .pure
  | scalarMatrixProduct => refine .bind ?_ fun _ => .pure; unfold ScalarMatrixProduct.new; noub
  | scalarMatrixProductGeneral =>
    refine .bind ?_ fun _ => .pure; unfold ScalarMatrixProductGeneral.new; noub
  | matrixScalarProduct => refine .bind ?_ fun _ => .pure; unfold MatrixScalarProduct.new; noub
  | matrixScalarProductGeneral =>
    refine .bind ?_ fun _ => .pure; unfold MatrixScalarProductGeneral.new; noub
  | broadcastProductGeneral =>
    refine .bind ?_ fun _ => .pure; unfold BroadcastProductGeneral.new sizesOf; noub
  | stackedTensordotGeneral => exact .bind (noUb_stacked sc) fun _ => .pure

theorem noUb_pairSummary (sc : SizedContraction) : NoUb (PairSummary.new sc) := by
  unfold PairSummary.new PairSummary.fromIndices; noub

theorem noUb_pairContraction (h : HashOrd) (sc : SizedContraction) : NoUb (PairContraction.new h sc) :=
  .bind (noUb_assertThat _) fun _ => .bind (noUb_index _ _) fun _ => .bind (noUb_index _ _) fun _ =>
    .bind (noUb_simplification _ _ _ _ _) fun _ => .bind (noUb_simplification _ _ _ _ _) fun _ =>
    .bind (noUb_unwrapR _) fun r => .bind (noUb_pairSummary r) fun _ => .bind (noUb_pairOp r _) fun _ =>
    .bind (noUb_asEinsumString r) fun _ => .pure

theorem noUb_compileSteps (h : HashOrd) (l : List PairStep) : NoUb (compileSteps h l) := by
  induction l generalizing h with
  | nil => exact .ok
  | cons s l ih => exact .bind (noUb_pairContraction _ _) fun _ => .bind (ih _) fun _ => .pure

theorem noUb_fromPath (h : HashOrd) (o : ContractionOrder) : NoUb (EinsumPath.fromPath h o) := by
  cases o with
  | singleton sc => exact .bind (noUb_singletonContraction sc) fun _ => .pure
  | pairs l => exact .bind (noUb_compileSteps h l) fun _ => .pure

theorem noUb_generateSteps (h : HashOrd) (sc : SizedContraction) (first i : Nat) (lhs : List Char)
    (rest : List (List Char)) (order : List Nat) : NoUb (generateSteps h sc first i lhs rest order) := by
  induction rest generalizing i lhs order with
  | nil => simp only [generateSteps]; exact .ok
  | cons r rest ih =>
    cases order with
    | nil => simp only [generateSteps]; exact .ok
    | cons n order =>
      rw [generateSteps]
      exact .bind (noUb_unwrapR _) fun _ => .bind (ih _ _ _) fun _ => .pure

theorem noUb_generatePath (h : HashOrd) (sc : SizedContraction) (order : List Nat) :
    NoUb (generatePath h sc order) := by
  unfold generatePath
  refine .bind ?_ fun p => ?_
  · exact .bind (noUb_assertThat _) fun _ => .bind (noUb_mapE (fun _ => noUb_index _ _) _) fun _ => noUb_unwrapR _
  · split
    · exact .pure
    · exact .bind (noUb_unwrapR _) fun _ => .pure
    · exact .bind (noUb_generateSteps _ _ _ _ _ _ _) fun _ => .pure
    · exact .panic

theorem noUb_optimizedOrder (h : HashOrd) (sc : SizedContraction) (m : OptimizationMethod) :
    NoUb (generateOptimizedOrder h sc m) := by
  cases m with
  | naive => exact noUb_generatePath _ _ _
  | reverse => exact noUb_generatePath _ _ _
  | _ => exact .panic

/-! ## Safety -/

/-- C51: every constructor, on any sized contraction, panics or returns; there is no undefined behaviour. -/
theorem C51_constructors (h : HashOrd) (sc : SizedContraction) (order : List Nat) (strategy : OptimizationMethod)
    (m : SingletonMethod) (m' : PairMethod) :
    NoUb (SingletonOp.new sc m) ∧ NoUb (PairOp.new sc m') ∧ NoUb (SingletonContraction.new sc) ∧
    NoUb (PairContraction.new h sc) ∧ NoUb (generatePath h sc order) ∧
    NoUb (generateOptimizedOrder h sc strategy) ∧ NoUb (EinsumPath.new h sc) ∧ NoUb sc.asEinsumString :=
  ⟨noUb_singletonOp sc m, noUb_pairOp sc m', noUb_singletonContraction sc, noUb_pairContraction h sc,
    noUb_generatePath h sc order, noUb_optimizedOrder h sc strategy,
    .bind (noUb_optimizedOrder _ sc .naive) fun _ => noUb_fromPath _ _, noUb_asEinsumString sc⟩

/-- C51: compiling any contraction order, for instance a hand-built one, and running it on any valid arrays. -/
theorem C51_path [Zero A] [Add A] [Mul A] [MulAdd A] (h : HashOrd) (al : Alloc A) (o : ContractionOrder)
    (operands : List (View A)) (hw : ∀ v ∈ operands, v.Wf) :
    (∃ k, (EinsumPath.fromPath h o >>= fun p => p.contractOperands al operands) = panic k) ∨
    ∃ r, (EinsumPath.fromPath h o >>= fun p => p.contractOperands al operands) = .ok r ∧ r.Wf := by
  rcases noUb_fromPath h o with ⟨k, hk⟩ | ⟨p, hp⟩
  · exact .inl ⟨k, by rw [hk]; rfl⟩
  · rw [hp, bind_ok]; exact p.contractOperands_safe hw al

/-- C51: `einsum_sc` on any sized contraction and any valid arrays. -/
theorem C51_einsum_sc [Zero A] [Add A] [Mul A] [MulAdd A] (h : HashOrd) (al : Alloc A) (sc : SizedContraction)
    (operands : List (View A)) (hw : ∀ v ∈ operands, v.Wf) :
    (∃ k, sc.contractOperands h al operands = panic k) ∨
    ∃ r, sc.contractOperands h al operands = .ok r ∧ r.Wf := by
  unfold SizedContraction.contractOperands
  rcases (C51_constructors h sc [] .naive .identity .hadamardProduct).2.2.2.2.2.2.1 with ⟨k, hk⟩ | ⟨p, hp⟩
  · exact .inl ⟨k, by rw [hk]; rfl⟩
  · rw [hp, bind_ok]; exact p.contractOperands_safe hw al

/-! ## Meaning -/

/-- C51: the recorded summation letters are not used. -/
theorem C51_summation_unused (h : HashOrd) (ops : List (List Char)) (out s s' : List Char) (sz : OutputSize) :
    EinsumPath.new h ⟨⟨ops, out, s⟩, sz⟩ = EinsumPath.new h ⟨⟨ops, out, s'⟩, sz⟩ := rfl

theorem mapE_index_range (l : List α) : mapE (index l) (List.range l.length) = .ok l := by
  refine mapE_eq_ok.2 (List.forall₂_iff_get.2 ⟨by simp, fun i h1 h2 => ?_⟩)
  simp [index, List.getElem?_eq_getElem h2]

theorem compile_of_sizes (h : HashOrd) (sc : SizedContraction) (dims : Char → Nat)
    (hne : sc.contraction.operandIndices ≠ [])
    (ho : OutputOk sc.contraction.operandIndices sc.contraction.outputIndices)
    (hsz : ∀ c, Used sc.contraction.operandIndices c → sc.outputSize c = some (dims c)) :
    ∃ p, EinsumPath.new h sc = .ok p ∧
      p.Computes dims sc.contraction.operandIndices sc.contraction.outputIndices := by
  obtain ⟨⟨ops, out, s⟩, sz⟩ := sc
  rw [C51_summation_unused h ops out s (summationOf ops out) sz]
  have hv : SizedContraction.Valid ⟨⟨ops, out, summationOf ops out⟩, sz⟩ dims :=
    ⟨ho, rfl, fun c hc => hsz c (used_iff.2 hc)⟩
  obtain ⟨o, o1, o2⟩ := path_ok hv (h.sub 0) (order := naiveOrder ⟨⟨ops, out, summationOf ops out⟩, sz⟩) hne
    (naiveOrder_perm _)
  obtain ⟨p, p1, p2⟩ := o2 (h.sub 1)
  exact ⟨p, by simp only [EinsumPath.new, generateOptimizedOrder, o1, p1, bind_ok], p2⟩

/-- C51: a sized contraction can be compiled exactly if it has an operand, the output labels are distinct and occur
in the operands, and every label of the operands has a recorded length. -/
theorem C51_compiles_iff (h : HashOrd) (sc : SizedContraction) :
    (∃ p, EinsumPath.new h sc = .ok p) ↔
      sc.contraction.operandIndices ≠ [] ∧
      OutputOk sc.contraction.operandIndices sc.contraction.outputIndices ∧
      ∀ c, Used sc.contraction.operandIndices c → sc.outputSize c ≠ none := by
  constructor
  · rintro ⟨p, hp⟩
    obtain ⟨o, ho, -⟩ := bind_eq_ok.1 hp
    obtain ⟨psc, h1, h2⟩ := bind_eq_ok.1 ho
    obtain ⟨-, -, h1⟩ := bind_eq_ok.1 h1
    obtain ⟨ops, h3, h4⟩ := bind_eq_ok.1 h1
    rw [naiveOrder, mapE_index_range] at h3
    cases h3
    cases hs : sc.subset ((h.sub 0).sub 0) sc.contraction.operandIndices sc.contraction.outputIndices with
    | error e => rw [hs] at h4; cases h4
    | ok sc' =>
      rw [hs] at h4
      cases h4
      obtain ⟨g1, g2, g3⟩ := subset_iff.1 hs
      refine ⟨fun h0 => ?_, g2, fun c hc => g1 c (used_iff.1 hc)⟩
      rw [g3] at h2
      simp only [h0, naiveOrder, List.length_nil, List.range_zero] at h2
      cases h2
  · rintro ⟨h1, h2, h3⟩
    obtain ⟨p, hp, -⟩ := compile_of_sizes h sc (fun c => (sc.outputSize c).getD 0) h1 h2 fun c hc => by
      have := h3 c hc
      revert this
      cases sc.outputSize c <;> simp
    exact ⟨p, hp⟩

/-- C51: a sized contraction built by hand that can be compiled computes the Einstein sum of operands whose shapes
agree with the recorded lengths.  The labels can be any characters and an operand can have none. -/
theorem C51_sum [CommSemiring A] (h : HashOrd) (al : Alloc A) (sc : SizedContraction) (dims : Char → Nat)
    (operands : List (View A)) (ts : List (List Nat → A)) (hne : sc.contraction.operandIndices ≠ [])
    (ho : OutputOk sc.contraction.operandIndices sc.contraction.outputIndices)
    (hsz : ∀ c, Used sc.contraction.operandIndices c → sc.outputSize c = some (dims c))
    (hs : Sized dims sc.contraction.operandIndices (operands.map View.shape))
    (he : List.Forall₂ Elements operands ts) (hn : NoEmptyDiagonal dims sc.contraction.operandIndices) :
    ∃ r, sc.contractOperands h al operands = .ok r ∧
      IsEinsum dims sc.contraction.operandIndices ts sc.contraction.outputIndices r := by
  obtain ⟨p, hp, hp'⟩ := compile_of_sizes h sc dims hne ho hsz
  rw [SizedContraction.contractOperands, hp, bind_ok]
  exact (hp'.outcome ho.1 hs he al).1 (not_emptyDiagonal hn)

namespace Ex

/-- A hand-built contraction with a scalar operand, labels that are not letters, wrong summation letters and a
length for a label that does not occur. -/
def handBuilt : SizedContraction :=
  ⟨⟨[[], ['1', '#'], ['#', '2']], ['2', '1'], ['z', 'z']⟩,
    fun c => if c = '#' then some 3 else if c = '1' ∨ c = '2' ∨ c = 'q' then some 2 else none⟩

def handDims (c : Char) : Nat := if c = '#' then 3 else 2

/-- A scalar. -/
def s7 : View Int := ⟨[7], 0, [], []⟩

theorem es7 : Elements s7 (elems s7) := elements_of rfl (by decide)

theorem handOk : OutputOk handBuilt.contraction.operandIndices handBuilt.contraction.outputIndices := by
  simp [handBuilt, OutputOk, Used]

end Ex

example : ∃ p, EinsumPath.new HashOrd.reversed Ex.handBuilt = .ok p :=
  (C51_compiles_iff _ _).2 ⟨by simp [Ex.handBuilt], Ex.handOk, by
    intro c hc
    simp only [Ex.handBuilt, Used] at hc ⊢
    obtain ⟨ix, h1, h2⟩ := hc
    simp only [List.mem_cons, List.not_mem_nil, or_false] at h1
    rcases h1 with rfl | rfl | rfl <;> simp at h2 <;> rcases h2 with rfl | rfl <;> simp⟩

example : ∃ r, Ex.handBuilt.contractOperands HashOrd.reversed (Alloc.colMajor Int) [Ex.s7, Ex.m23, Ex.m32] = .ok r ∧
    IsEinsum Ex.handDims [[], ['1', '#'], ['#', '2']] [Ex.elems Ex.s7, Ex.elems Ex.m23, Ex.elems Ex.m32]
      ['2', '1'] r :=
  C51_sum _ _ Ex.handBuilt Ex.handDims _ _ (by simp [Ex.handBuilt]) Ex.handOk
    (by
      intro c hc
      simp only [Ex.handBuilt, Used] at hc ⊢
      obtain ⟨ix, h1, h2⟩ := hc
      simp only [List.mem_cons, List.not_mem_nil, or_false] at h1
      rcases h1 with rfl | rfl | rfl <;> simp at h2 <;> rcases h2 with rfl | rfl <;> simp [Ex.handDims])
    (.cons (by decide) (.cons (by decide) (.cons (by decide) .nil)))
    (.cons Ex.es7 (.cons Ex.e23 (.cons Ex.e32 .nil))) (by simp [Ex.handBuilt, NoEmptyDiagonal])

/-- A label without a length: compiling panics. -/
example : ¬ ∃ p, EinsumPath.new HashOrd.insertion ⟨⟨[['a']], ['a'], []⟩, fun _ => none⟩ = .ok p := by
  rw [C51_compiles_iff]
  rintro ⟨-, -, h⟩
  exact h 'a' ⟨['a'], by simp, by simp⟩ rfl

/-- An inconsistent contraction run on an array of another rank: a panic. -/
example : (∃ k, SizedContraction.contractOperands HashOrd.insertion (Alloc.rowMajor Int)
      ⟨⟨[['a', 'a']], ['a'], []⟩, fun _ => some 5⟩ [Ex.m23] = panic k) ∨
    ∃ r, SizedContraction.contractOperands HashOrd.insertion (Alloc.rowMajor Int)
      ⟨⟨[['a', 'a']], ['a'], []⟩, fun _ => some 5⟩ [Ex.m23] = .ok r ∧ r.Wf :=
  C51_einsum_sc _ _ _ _ (by simpa using Ex.e23.1)

end Einsum
