import Verif.Props.Main
import Verif.Props.Selection
import Verif.Proofs.Alike

/-!
# Compiled paths and arrays of other sizes (C79)
-/

namespace Einsum

open Spec

/-! ## Specification -/

/-- The methods for one operand that store no lengths. -/
def Spec.SizeFree : SingletonMethod → Prop
  | .identity | .permutation | .summation | .permutationAndSummation => True
  | .diagonalization | .diagonalizationAndSummation => False

/-- The methods for two operands that store no lengths. -/
def Spec.SizeFreePair : PairMethod → Prop
  | .hadamardProduct | .hadamardProductGeneral | .scalarMatrixProduct | .scalarMatrixProductGeneral
  | .matrixScalarProduct | .matrixScalarProductGeneral => True
  | .tensordotFixedPosition | .tensordotGeneral | .stackedTensordotGeneral | .broadcastProductGeneral => False

/-- A step that multiplies elementwise or by a number, after summations at most. -/
def Spec.SizeFreeStep (p : PairContraction) : Prop :=
  SizeFreePair p.method ∧ (∀ s ∈ p.lhsSimplification, SizeFree s.method) ∧
    ∀ s ∈ p.rhsSimplification, SizeFree s.method

/-- No step is a tensordot or takes a diagonal. -/
def Spec.SizeFreeSteps : EinsumPathSteps → Prop
  | .singletonContraction c => SizeFree c.method
  | .pairContractions cs => ∀ c ∈ cs, SizeFreeStep c

/-- What the steps tell apart from the contractors. -/
def Spec.simplificationData (s : SimplificationMethodAndOutput) : SingletonMethod × List Char × String :=
  (s.method, s.newIndices, s.einsumString)

/-- The same methods, kept labels and strings. -/
structure Spec.AgreeStep (p p' : PairContraction) : Prop where
  method : p'.method = p.method
  string : p'.simplifiedEinsumString = p.simplifiedEinsumString
  lhs : p'.lhsSimplification.map simplificationData = p.lhsSimplification.map simplificationData
  rhs : p'.rhsSimplification.map simplificationData = p.rhsSimplification.map simplificationData

/-- The same methods, kept labels and strings, step by step, and the same operands in every step. -/
inductive Spec.AgreePath : EinsumPath → EinsumPath → Prop
  | singleton {sc sc' : SizedContraction} {c c' : SingletonContraction} : sc'.contraction = sc.contraction →
      c'.method = c.method → AgreePath ⟨.singleton sc, .singletonContraction c⟩ ⟨.singleton sc', .singletonContraction c'⟩
  | pairs {ss ss' : List PairStep} {cs cs' : List PairContraction} :
      List.Forall₂ (fun s s' => s'.operandNums = s.operandNums ∧
        s'.sizedContraction.contraction = s.sizedContraction.contraction) ss ss' →
      List.Forall₂ AgreeStep cs cs' →
      AgreePath ⟨.pairs ss, .pairContractions cs⟩ ⟨.pairs ss', .pairContractions cs'⟩

/-! ## Compiling for two sizings -/

theorem unwrapR_inv {α : Type} {x : Except String α} {y : α} (h : unwrapR x = .ok y) : x = .ok y := by
  cases x with
  | error e => cases h
  | ok a => cases h; rfl

theorem subset_inv {sc sc1 : SizedContraction} {h : HashOrd} {ops : List (List Char)} {out : List Char}
    (hs : sc.subset h ops out = .ok sc1) : Contraction.fromIndices (h.sub 4) ops out = .ok sc1.contraction := by
  unfold SizedContraction.subset at hs
  dsimp only at hs
  split at hs
  · cases hs
  · cases hc : Contraction.fromIndices (h.sub 4) ops out with
    | error e => rw [hc] at hs; cases hs
    | ok c => rw [hc] at hs; cases hs; rfl

theorem subset_same {sc sc' sc1 sc1' : SizedContraction} {h : HashOrd} {ops : List (List Char)} {out : List Char}
    (hs : unwrapR (sc.subset h ops out) = .ok sc1) (hs' : unwrapR (sc'.subset h ops out) = .ok sc1') :
    sc1'.contraction = sc1.contraction := by
  have e := subset_inv (unwrapR_inv hs)
  rw [subset_inv (unwrapR_inv hs')] at e
  exact Except.ok.inj e

theorem string_same {sc sc' : SizedContraction} (e : sc'.contraction = sc.contraction) :
    sc'.asEinsumString = sc.asEinsumString := by
  unfold SizedContraction.asEinsumString
  rw [e]

theorem singletonOp_same {sc sc' : SizedContraction} (e : sc'.contraction = sc.contraction) {m : SingletonMethod}
    (hm : SizeFree m) : SingletonOp.new sc' m = SingletonOp.new sc m := by
  cases m <;> first
    | exact hm.elim
    | simp only [SingletonOp.new, Permutation.new, Summation.new, PermutationAndSummation.new, e]

theorem singletonContraction_inv {sc : SizedContraction} {c : SingletonContraction}
    (h : SingletonContraction.new sc = .ok c) :
    ∃ s, SingletonSummary.new sc = .ok s ∧ c.method = s.getStrategy ∧ SingletonOp.new sc c.method = .ok c.op := by
  unfold SingletonContraction.new at h
  obtain ⟨s, h1, h⟩ := bind_eq_ok.1 h
  obtain ⟨op, h2, h⟩ := bind_eq_ok.1 h
  cases h
  exact ⟨s, h1, rfl, h2⟩

theorem singletonContraction_same {sc sc' : SizedContraction} (e : sc'.contraction = sc.contraction)
    {c c' : SingletonContraction} (h : SingletonContraction.new sc = .ok c) (h' : SingletonContraction.new sc' = .ok c') :
    c'.method = c.method ∧ (SizeFree c.method → c' = c) := by
  obtain ⟨s, h1, h2, h3⟩ := singletonContraction_inv h
  obtain ⟨s', h1', h2', h3'⟩ := singletonContraction_inv h'
  have es : s' = s := by
    have : SingletonSummary.new sc' = SingletonSummary.new sc := by simp only [SingletonSummary.new, e]
    rw [h1, h1'] at this
    exact Except.ok.inj this
  subst es
  have em : c'.method = c.method := h2'.trans h2.symm
  refine ⟨em, fun hf => ?_⟩
  rw [em, singletonOp_same e hf, h3] at h3'
  obtain ⟨m, op⟩ := c
  obtain ⟨m', op'⟩ := c'
  simp only at em
  subst em
  simp only [Except.ok.injEq] at h3'
  rw [h3']

theorem simplification_same {sc sc' : SizedContraction} {h : HashOrd} {L R out : List Char}
    {s s' : Option SimplificationMethodAndOutput}
    (hs : SimplificationMethodAndOutput.fromIndicesAndSizes h L R out sc = .ok s)
    (hs' : SimplificationMethodAndOutput.fromIndicesAndSizes h L R out sc' = .ok s') :
    s'.map simplificationData = s.map simplificationData ∧ ((∀ x ∈ s, SizeFree x.method) → s' = s) := by
  unfold SimplificationMethodAndOutput.fromIndicesAndSizes at hs hs'
  dsimp only at hs hs'
  obtain ⟨a, a1, hs⟩ := bind_eq_ok.1 hs
  obtain ⟨a', a1', hs'⟩ := bind_eq_ok.1 hs'
  obtain ⟨c, c1, hs⟩ := bind_eq_ok.1 hs
  obtain ⟨c', c1', hs'⟩ := bind_eq_ok.1 hs'
  have e := subset_same a1 a1'
  obtain ⟨em, eq⟩ := singletonContraction_same e c1 c1'
  rw [em] at hs'
  have key : ∀ {x x' : Option SimplificationMethodAndOutput},
      (a.asEinsumString >>= fun t => .ok (some ⟨c.method, c.op, desiredIndices (h.sub 0) L R out, t⟩)) = .ok x →
      (a'.asEinsumString >>= fun t => .ok (some ⟨c'.method, c'.op, desiredIndices (h.sub 0) L R out, t⟩)) = .ok x' →
      x'.map simplificationData = x.map simplificationData ∧ ((∀ y ∈ x, SizeFree y.method) → x' = x) := by
    intro x x' hx hx'
    obtain ⟨t, t1, hx⟩ := bind_eq_ok.1 hx
    obtain ⟨t', t1', hx'⟩ := bind_eq_ok.1 hx'
    rw [string_same e, t1] at t1'
    cases t1'; cases hx; cases hx'
    refine ⟨by simp [simplificationData, em], fun hf => ?_⟩
    rw [eq (hf _ rfl)]
  cases hm : c.method <;> rw [hm] at hs hs' <;> simp only at hs hs'
  · cases hs; cases hs'; exact ⟨rfl, fun _ => rfl⟩
  · cases hs; cases hs'; exact ⟨rfl, fun _ => rfl⟩
  all_goals rw [← hm] at hs; rw [← hm, ← em] at hs'; exact key hs hs'

theorem newIndicesOr_same {s s' : Option SimplificationMethodAndOutput}
    (h : s'.map simplificationData = s.map simplificationData) (L : List Char) :
    newIndicesOr s' L = newIndicesOr s L := by
  cases s <;> cases s' <;> simp [simplificationData, newIndicesOr] at h ⊢
  exact h.2.1

theorem pairOp_same {sc sc' : SizedContraction} (e : sc'.contraction = sc.contraction) {m : PairMethod}
    (hm : SizeFreePair m) : PairOp.new sc' m = PairOp.new sc m := by
  cases m <;> first
    | exact hm.elim
    | simp only [PairOp.new, HadamardProduct.new, HadamardProductGeneral.new, ScalarMatrixProduct.new,
        ScalarMatrixProductGeneral.new, MatrixScalarProduct.new, MatrixScalarProductGeneral.new, e]

theorem pairContraction_same {sc sc' : SizedContraction} (e : sc'.contraction = sc.contraction) {h : HashOrd}
    {p p' : PairContraction} (hp : PairContraction.new h sc = .ok p) (hp' : PairContraction.new h sc' = .ok p') :
    AgreeStep p p' ∧ (SizeFreeStep p → p' = p) := by
  unfold PairContraction.new at hp hp'
  rw [e] at hp'
  obtain ⟨-, -, hp⟩ := bind_eq_ok.1 hp
  obtain ⟨-, -, hp'⟩ := bind_eq_ok.1 hp'
  obtain ⟨L, hL, hp⟩ := bind_eq_ok.1 hp
  obtain ⟨L', hL', hp'⟩ := bind_eq_ok.1 hp'
  rw [hL] at hL'; cases hL'
  obtain ⟨R, hR, hp⟩ := bind_eq_ok.1 hp
  obtain ⟨R', hR', hp'⟩ := bind_eq_ok.1 hp'
  rw [hR] at hR'; cases hR'
  dsimp only at hp hp'
  obtain ⟨ls, l1, hp⟩ := bind_eq_ok.1 hp
  obtain ⟨ls', l1', hp'⟩ := bind_eq_ok.1 hp'
  obtain ⟨rs, r1, hp⟩ := bind_eq_ok.1 hp
  obtain ⟨rs', r1', hp'⟩ := bind_eq_ok.1 hp'
  obtain ⟨l2, l3⟩ := simplification_same l1 l1'
  obtain ⟨r2, r3⟩ := simplification_same r1 r1'
  rw [newIndicesOr_same l2, newIndicesOr_same r2] at hp'
  obtain ⟨a, a1, hp⟩ := bind_eq_ok.1 hp
  obtain ⟨a', a1', hp'⟩ := bind_eq_ok.1 hp'
  have ea := subset_same a1 a1'
  obtain ⟨s, s1, hp⟩ := bind_eq_ok.1 hp
  obtain ⟨s', s1', hp'⟩ := bind_eq_ok.1 hp'
  have es : s' = s := by
    have : PairSummary.new a' = PairSummary.new a := by simp only [PairSummary.new, ea]
    rw [s1, s1'] at this
    exact Except.ok.inj this
  subst es
  obtain ⟨op, o1, hp⟩ := bind_eq_ok.1 hp
  obtain ⟨op', o1', hp'⟩ := bind_eq_ok.1 hp'
  obtain ⟨t, t1, hp⟩ := bind_eq_ok.1 hp
  obtain ⟨t', t1', hp'⟩ := bind_eq_ok.1 hp'
  rw [string_same ea, t1] at t1'
  cases t1'; cases hp; cases hp'
  refine ⟨⟨rfl, rfl, l2, r2⟩, fun hf => ?_⟩
  rw [pairOp_same ea hf.1, o1] at o1'
  cases o1'
  rw [l3 hf.2.1, r3 hf.2.2]

theorem compileSteps_same {h : HashOrd} {ss ss' : List PairStep} {cs cs' : List PairContraction}
    (hs : List.Forall₂ (fun s s' : PairStep => s'.operandNums = s.operandNums ∧
      s'.sizedContraction.contraction = s.sizedContraction.contraction) ss ss')
    (h1 : compileSteps h ss = .ok cs) (h2 : compileSteps h ss' = .ok cs') :
    List.Forall₂ AgreeStep cs cs' ∧ ((∀ c ∈ cs, SizeFreeStep c) → cs' = cs) := by
  induction hs generalizing h cs cs' with
  | nil => cases h1; cases h2; exact ⟨.nil, fun _ => rfl⟩
  | cons e _ ih =>
    simp only [compileSteps] at h1 h2
    obtain ⟨c, c1, h1⟩ := bind_eq_ok.1 h1
    obtain ⟨c', c1', h2⟩ := bind_eq_ok.1 h2
    obtain ⟨r, r1, h1⟩ := bind_eq_ok.1 h1
    obtain ⟨r', r1', h2⟩ := bind_eq_ok.1 h2
    cases h1; cases h2
    obtain ⟨p1, p2⟩ := pairContraction_same e.2 c1 c1'
    obtain ⟨q1, q2⟩ := ih r1 r1'
    exact ⟨.cons p1 q1, fun hf => by rw [p2 (hf c (by simp)), q2 fun x hx => hf x (by simp [hx])]⟩

theorem generateSteps_same {h : HashOrd} {sc sc' : SizedContraction} (e : sc'.contraction = sc.contraction) {first : Nat}
    (idx : Nat) (lhs : List Char) (rest : List (List Char)) (nums : List Nat) {ss ss' : List PairStep}
    (h1 : generateSteps h sc first idx lhs rest nums = .ok ss)
    (h2 : generateSteps h sc' first idx lhs rest nums = .ok ss') :
    List.Forall₂ (fun s s' : PairStep => s'.operandNums = s.operandNums ∧
      s'.sizedContraction.contraction = s.sizedContraction.contraction) ss ss' := by
  induction rest generalizing idx lhs nums ss ss' with
  | nil => simp only [generateSteps] at h1 h2; cases h1; cases h2; exact .nil
  | cons r rest ih =>
    cases nums with
    | nil => simp only [generateSteps] at h1 h2; cases h1; cases h2; exact .nil
    | cons n nums =>
      simp only [generateSteps, generateSizedContractionPair, e] at h1 h2
      obtain ⟨a, a1, h1⟩ := bind_eq_ok.1 h1
      obtain ⟨a', a1', h2⟩ := bind_eq_ok.1 h2
      obtain ⟨t, t1, h1⟩ := bind_eq_ok.1 h1
      obtain ⟨t', t1', h2⟩ := bind_eq_ok.1 h2
      cases h1; cases h2
      exact .cons ⟨rfl, subset_same a1 a1'⟩ (ih _ _ _ t1 t1')

/-- Orders of contraction with the same labels. -/
inductive SameOrder : ContractionOrder → ContractionOrder → Prop
  | singleton {sc sc' : SizedContraction} : sc'.contraction = sc.contraction → SameOrder (.singleton sc) (.singleton sc')
  | pairs {ss ss' : List PairStep} : List.Forall₂ (fun s s' : PairStep => s'.operandNums = s.operandNums ∧
      s'.sizedContraction.contraction = s.sizedContraction.contraction) ss ss' → SameOrder (.pairs ss) (.pairs ss')

theorem generatePath_same {h : HashOrd} {sc sc' : SizedContraction} (e : sc'.contraction = sc.contraction)
    {order : List Nat} {o o' : ContractionOrder} (h1 : generatePath h sc order = .ok o)
    (h2 : generatePath h sc' order = .ok o') : SameOrder o o' := by
  unfold generatePath at h1 h2
  simp only [generatePermutedContraction, e] at h1 h2
  obtain ⟨a, a1, h1⟩ := bind_eq_ok.1 h1
  obtain ⟨a', a1', h2⟩ := bind_eq_ok.1 h2
  have ea : a'.contraction = a.contraction := by
    obtain ⟨-, -, a1⟩ := bind_eq_ok.1 a1
    obtain ⟨-, -, a1'⟩ := bind_eq_ok.1 a1'
    obtain ⟨x, x1, a1⟩ := bind_eq_ok.1 a1
    obtain ⟨x', x1', a1'⟩ := bind_eq_ok.1 a1'
    rw [x1] at x1'; cases x1'
    exact subset_same a1 a1'
  rw [ea] at h2
  match hq : a.contraction.operandIndices, order with
  | [_], _ =>
    simp only [hq] at h1 h2
    cases h1; cases h2
    exact .singleton ea
  | [l, r], t0 :: t1 :: _ =>
    simp only [hq, generateSizedContractionPair] at h1 h2
    obtain ⟨b, b1, h1⟩ := bind_eq_ok.1 h1
    obtain ⟨b', b1', h2⟩ := bind_eq_ok.1 h2
    cases h1; cases h2
    exact .pairs (.cons ⟨rfl, subset_same b1 b1'⟩ .nil)
  | [l, r], [t0] =>
    simp only [hq] at h1 h2
    obtain ⟨b, b1, h1⟩ := bind_eq_ok.1 h1
    obtain ⟨b', b1', h2⟩ := bind_eq_ok.1 h2
    cases h1; cases h2
    exact .pairs (generateSteps_same ea _ _ _ _ b1 b1')
  | l :: x :: y :: rest, t0 :: ts =>
    simp only [hq] at h1 h2
    obtain ⟨b, b1, h1⟩ := bind_eq_ok.1 h1
    obtain ⟨b', b1', h2⟩ := bind_eq_ok.1 h2
    cases h1; cases h2
    exact .pairs (generateSteps_same ea _ _ _ _ b1 b1')
  | [], _ => simp only [hq] at h1; cases h1
  | _ :: _ :: _, [] => simp only [hq] at h1; cases h1

theorem optimizedOrder_same {h : HashOrd} {sc sc' : SizedContraction} (e : sc'.contraction = sc.contraction)
    {strategy : OptimizationMethod} {o o' : ContractionOrder} (h1 : generateOptimizedOrder h sc strategy = .ok o)
    (h2 : generateOptimizedOrder h sc' strategy = .ok o') : SameOrder o o' := by
  cases strategy with
  | naive =>
    simp only [generateOptimizedOrder, naiveOrder, e] at h1 h2
    exact generatePath_same e h1 h2
  | reverse =>
    simp only [generateOptimizedOrder, reverseOrder, e] at h1 h2
    exact generatePath_same e h1 h2
  | _ => cases h1

theorem fromPath_same {h : HashOrd} {o o' : ContractionOrder} (ho : SameOrder o o') {p p' : EinsumPath}
    (h1 : EinsumPath.fromPath h o = .ok p) (h2 : EinsumPath.fromPath h o' = .ok p') :
    AgreePath p p' ∧ (SizeFreeSteps p.steps → p'.steps = p.steps) := by
  cases ho with
  | singleton e =>
    simp only [EinsumPath.fromPath] at h1 h2
    obtain ⟨c, c1, h1⟩ := bind_eq_ok.1 h1
    obtain ⟨c', c1', h2⟩ := bind_eq_ok.1 h2
    cases h1; cases h2
    obtain ⟨q1, q2⟩ := singletonContraction_same e c1 c1'
    exact ⟨.singleton e q1, fun hf => by rw [q2 hf]⟩
  | pairs e =>
    simp only [EinsumPath.fromPath] at h1 h2
    obtain ⟨c, c1, h1⟩ := bind_eq_ok.1 h1
    obtain ⟨c', c1', h2⟩ := bind_eq_ok.1 h2
    cases h1; cases h2
    obtain ⟨q1, q2⟩ := compileSteps_same e c1 c1'
    exact ⟨.pairs e q1, fun hf => by rw [q2 hf]⟩

theorem einsumPath_inv {A : Type} {h : HashOrd} {s : String} {ops : List (View A)} {strategy : OptimizationMethod}
    {p : EinsumPath} (hp : einsumPath h s ops strategy = .ok (.ok p)) :
    ∃ sc o, validateAndSize ((h.sub 0).sub 0) s ops = .ok sc ∧
      generateOptimizedOrder ((h.sub 0).sub 1) sc strategy = .ok o ∧ EinsumPath.fromPath (h.sub 1) o = .ok p := by
  unfold einsumPath validateAndOptimizeOrder at hp
  cases hv : validateAndSize ((h.sub 0).sub 0) s ops with
  | error e => rw [hv] at hp; cases hp
  | ok sc =>
    rw [hv] at hp
    obtain ⟨x, x1, hp⟩ := bind_eq_ok.1 hp
    obtain ⟨o, o1, x1⟩ := bind_eq_ok.1 x1
    cases x1
    obtain ⟨q, q1, hp⟩ := bind_eq_ok.1 hp
    cases hp
    exact ⟨sc, o, rfl, o1, q1⟩

theorem validateAndSize_inv {A : Type} {h : HashOrd} {s : String} {ops : List (View A)} {sc : SizedContraction}
    (hv : validateAndSize h s ops = .ok sc) : validate h s = .ok sc.contraction := by
  unfold validateAndSize SizedContraction.fromStringAndShapes at hv
  cases hc : validate h s with
  | error e => rw [hc] at hv; cases hv
  | ok c =>
    rw [hc] at hv
    change SizedContraction.fromContractionAndShapes c _ = _ at hv
    unfold SizedContraction.fromContractionAndShapes at hv
    cases hz : OutputSize.fromContractionAndShapes c (ops.map View.shape) with
    | error e => rw [hz] at hv; cases hv
    | ok z => rw [hz] at hv; cases hv; rfl

theorem einsumPath_same {A B : Type} {h : HashOrd} {s : String} {ops : List (View A)} {ops' : List (View B)}
    {strategy : OptimizationMethod} {p p' : EinsumPath} (hp : einsumPath h s ops strategy = .ok (.ok p))
    (hp' : einsumPath h s ops' strategy = .ok (.ok p')) :
    AgreePath p p' ∧ (SizeFreeSteps p.steps → p'.steps = p.steps) := by
  obtain ⟨sc, o, h1, h2, h3⟩ := einsumPath_inv hp
  obtain ⟨sc', o', h1', h2', h3'⟩ := einsumPath_inv hp'
  have e : sc'.contraction = sc.contraction := by
    have := validateAndSize_inv h1'
    rw [validateAndSize_inv h1] at this
    exact (Except.ok.inj this).symm
  exact fromPath_same (optimizedOrder_same e h2 h2') h3 h3'

/-! ## Paths of one and of two operands -/

section parts
variable {A : Type} {h : HashOrd} {s : String} {dims : Char → Nat} {L R out : List Char} {p : EinsumPath}

theorem Valid.subset_of {sc sc1 : SizedContraction} (hv : sc.Valid dims) {k : HashOrd} {ops : List (List Char)}
    {o : List Char} (hs : ∀ c ∈ ops.flatten, c ∈ sc.contraction.operandIndices.flatten) (ho : OutputOk ops o)
    (e : unwrapR (sc.subset k ops o) = .ok sc1) :
    sc1.Valid dims ∧ sc1.contraction.operandIndices = ops ∧ sc1.contraction.outputIndices = o := by
  obtain ⟨sc2, h1, h2⟩ := hv.subset k hs ho
  rw [unwrapR_inv e] at h1
  cases h1
  exact h2

theorem path_one {v : View A} (hd : Denotes s [L] out) (hs : Sized dims [L] [v.shape]) {m : OptimizationMethod}
    (hp : einsumPath h s [v] m = .ok (.ok p)) :
    ∃ sc c, p = ⟨.singleton sc, .singletonContraction c⟩ ∧ sc.Valid dims ∧ sc.contraction.operandIndices = [L] ∧
      sc.contraction.outputIndices = out ∧ SingletonContraction.new sc = .ok c := by
  obtain ⟨sc, o, h1, h2, h3⟩ := einsumPath_inv hp
  rw [validateAndSize_ok _ hd hs] at h1
  cases h1
  have hv := callSC_valid (dims := dims) hd.outputOk
  have key : generatePath ((h.sub 0).sub 1) (callSC [L] out dims) [0] = .ok o := by
    cases m with
    | naive => exact h2
    | reverse => exact h2
    | _ => cases h2
  unfold generatePath generatePermutedContraction at key
  obtain ⟨a, a1, key⟩ := bind_eq_ok.1 key
  obtain ⟨-, -, a1⟩ := bind_eq_ok.1 a1
  obtain ⟨x, x1, a1⟩ := bind_eq_ok.1 a1
  have : x = [L] := by cases x1; rfl
  subst this
  obtain ⟨b1, b2, b3⟩ := Valid.subset_of hv (by simp [callSC]) hd.outputOk a1
  rw [b2] at key
  cases key
  simp only [EinsumPath.fromPath] at h3
  obtain ⟨c, c1, h3⟩ := bind_eq_ok.1 h3
  cases h3
  exact ⟨a, c, rfl, b1, b2, b3, c1⟩

theorem path_two {l r : View A} (hd : Denotes s [L, R] out) (hs : Sized dims [L, R] [l.shape, r.shape])
    (hp : einsumPath h s [l, r] .naive = .ok (.ok p)) :
    ∃ sc k c, p = ⟨.pairs [⟨sc, ⟨.input 0, .input 1⟩⟩], .pairContractions [c]⟩ ∧ sc.Valid dims ∧
      sc.contraction.operandIndices = [L, R] ∧ sc.contraction.outputIndices = out ∧
      PairContraction.new k sc = .ok c := by
  obtain ⟨sc, o, h1, h2, h3⟩ := einsumPath_inv hp
  rw [validateAndSize_ok _ hd hs] at h1
  cases h1
  have hv := callSC_valid (dims := dims) hd.outputOk
  have key : generatePath ((h.sub 0).sub 1) (callSC [L, R] out dims) [0, 1] = .ok o := h2
  unfold generatePath generatePermutedContraction at key
  obtain ⟨a, a1, key⟩ := bind_eq_ok.1 key
  obtain ⟨-, -, a1⟩ := bind_eq_ok.1 a1
  obtain ⟨x, x1, a1⟩ := bind_eq_ok.1 a1
  have : x = [L, R] := by cases x1; rfl
  subst this
  obtain ⟨b1, b2, b3⟩ := Valid.subset_of hv (by simp [callSC]) hd.outputOk a1
  rw [b2] at key
  simp only [generateSizedContractionPair] at key
  obtain ⟨b, g1, key⟩ := bind_eq_ok.1 key
  rw [b3] at g1
  obtain ⟨d1, d2, d3⟩ := Valid.subset_of b1 (by simp [b2]) hd.outputOk g1
  cases key
  simp only [EinsumPath.fromPath, compileSteps] at h3
  obtain ⟨cs, c1, h3⟩ := bind_eq_ok.1 h3
  cases h3
  obtain ⟨c, e1, c2⟩ := bind_eq_ok.1 c1
  cases c2
  exact ⟨b, _, c, rfl, d1, d2, d3, e1⟩

theorem contract_two [Zero A] [Add A] [Mul A] [MulAdd A] {sc : SizedContraction} {c : PairContraction} {al : Alloc A}
    {l r : View A} : EinsumPath.contractOperands ⟨.pairs [⟨sc, ⟨.input 0, .input 1⟩⟩], .pairContractions [c]⟩ al [l, r] =
      c.run (al.sub 0) l r := by
  simp only [EinsumPath.contractOperands, List.zip_cons_cons, List.zip_nil_left, runSteps, fetch, index_cons_zero,
    index_one, bind_ok, List.nil_append]
  cases c.run (al.sub 0) l r <;> rfl

end parts

/-! ## Diagonals of arrays with longer and shorter axes -/

section diag
variable {ι A : Type} [DecidableEq ι] {dims : ι → Nat}

/-- A diagonal view that is to have an axis longer than those of the array does not exist. -/
theorem Rep.diagView_short {t : View A} {L adj : List ι} {F : (ι → Nat) → A} (h : Rep t L dims F)
    (hwf : t.Wf) (hp : 0 < (L.map dims).prod) (hc : isContiguous t.shape t.strides = true)
    (hpos : ∀ s ∈ t.strides, 0 < s) (hLa : ∀ c ∈ L, c ∈ adj) {big : ι → Nat} (hsm : ∀ c ∈ L, dims c ≤ big c)
    (hlt : ∃ c ∈ L, dims c < big c) (haL : ∀ c ∈ adj, c ∈ L) :
    Diagonalization.view ⟨L.map fun c => pos c adj, adj.map big⟩ t = panic .unwrapErr := by
  have hsh := h.shape
  have hp' : 0 < t.shape.prod := by rw [hsh]; exact hp
  obtain ⟨data, hd1, hd2, hd3⟩ := slice_read hwf hp' hc hpos
  have hl := hwf.1
  have hn : t.shape.length = L.length := by rw [hsh]; simp
  obtain ⟨r, hr1, hr2, hr3⟩ := diagStrides_ok (mapping := L.map fun c => pos c adj)
    (acc := (adj.map big).map fun _ => 0) (ss := t.strides) (idx := 0)
    (by simp [hl, hn]) (by
      intro k hk
      obtain ⟨c, hc, rfl⟩ := List.mem_map.1 hk
      simpa using pos_lt (hLa c hc)) hpos
  simp only [List.length_map] at hr2 hr3
  have hz : ∀ (w : Nat → Nat), ∑ k ∈ Finset.range adj.length,
      w k * (List.map (fun _ => 0) (adj.map big)).getD k 0 = 0 := by
    intro w
    apply Finset.sum_eq_zero
    intro k hk
    have : k < adj.length := by simpa using hk
    simp [this]
  have hr4 : ∀ w : Nat → Nat, ∑ k ∈ Finset.range adj.length, w k * r.getD k 0 =
      ∑ i ∈ Finset.range L.length, w ((L.map fun c => pos c adj).getD i 0) * strAt t.strides i := by
    intro w
    rw [hr3 w, hz w, Nat.zero_add, hl, hn]
    simp only [Nat.zero_add]
  have hμ' : ∀ i (hi : i < L.length), ∀ f : ι → Nat,
      (adj.map f).getD ((L.map fun c => pos c adj).getD i 0) 0 = f L[i] := by
    intro i hi f
    rw [show (L.map fun c => pos c adj).getD i 0 = pos L[i] adj by simp [hi],
      getD_pos (hLa _ (List.getElem_mem hi))]
  have hdim : ∀ i (hi : i < L.length), dimAt t.shape i = dims L[i] := by
    intro i hi; simp [dimAt, hsh, hi]
  have hpd : ∀ c ∈ L, 0 < dims c := fun c hc =>
    Nat.pos_of_ne_zero fun e => by rw [List.prod_eq_zero (List.mem_map.2 ⟨c, hc, e⟩)] at hp; omega
  have hmax : t.shape.prod < maxOffset (adj.map big) r + 1 := by
    rw [maxOffset_sum (by simpa using hr2), List.length_map, hr4 fun k => (adj.map big).getD k 0 - 1,
      ← contig_span hl hp' hc, hn]
    apply Nat.add_lt_add_right
    apply Finset.sum_lt_sum
    · intro i hi
      have hi : i < L.length := by simpa using hi
      rw [hμ' i hi big, hdim i hi]
      exact Nat.mul_le_mul_right _ (Nat.sub_le_sub_right (hsm _ (List.getElem_mem hi)) 1)
    · obtain ⟨c, hcL, hc2⟩ := hlt
      obtain ⟨i, hi, rfl⟩ := List.mem_iff_getElem.1 hcL
      refine ⟨i, by simpa using hi, ?_⟩
      rw [hμ' i hi big, hdim i hi]
      refine Nat.mul_lt_mul_of_pos_right ?_ ?_
      · have := hpd _ (List.getElem_mem hi)
        omega
      · have hi' : i < t.strides.length := by omega
        have := hpos _ (List.getElem_mem hi')
        simp [strAt, List.getD_eq_getElem?_getD, List.getElem?_eq_getElem hi']
        omega
  have hne : (adj.map big).any (· = 0) = false := by
    rw [List.any_eq_false]
    intro x hx
    obtain ⟨c, hc, rfl⟩ := List.mem_map.1 hx
    have := hpd c (haL c hc)
    have := hsm c (haL c hc)
    simp
    omega
  simp only [Diagonalization.view]
  rw [hr1, hd1]
  simp only [bind_ok, unwrapO_some]
  have : fromShapeStrides (adj.map big) r data = none := by
    unfold fromShapeStrides
    rw [if_neg (by simp [hr2])]
    simp only [hne]
    rw [if_neg (by simp), if_pos (by simp; omega)]
  rw [this]

theorem Rep.diagRun_short {t : View A} {L adj : List ι} {F : (ι → Nat) → A} (h : Rep t L dims F)
    (hwf : t.Wf) (hp : 0 < (L.map dims).prod) (hLa : ∀ c ∈ L, c ∈ adj) {big : ι → Nat} (hsm : ∀ c ∈ L, dims c ≤ big c)
    (hlt : ∃ c ∈ L, dims c < big c) (haL : ∀ c ∈ adj, c ∈ L) (al : Alloc A) :
    Diagonalization.run ⟨L.map fun c => pos c adj, adj.map big⟩ al t = panic .unwrapErr := by
  classical
  have hin : ∃ i, InB t.shape i := ⟨unravel t.shape 0, InB_unravel (by rw [h.shape]; exact hp)⟩
  obtain ⟨i0, hi0⟩ := hin
  obtain ⟨x0, _⟩ := hwf.2 i0 hi0
  have : ∃ T, Holds t t.shape T := by
    refine ⟨fun idx => if hi : InB t.shape idx then (hwf.2 idx hi).choose else x0, rfl, hwf.1,
      fun idx hi => ?_⟩
    rw [dif_pos hi]; exact (hwf.2 idx hi).choose_spec
  obtain ⟨T, hT⟩ := this
  obtain ⟨cl, h1, h2, h3⟩ := fromShapeVec_map_self t.shape T
  have hcl : Rep cl L dims F := by
    refine ⟨by rw [h3.shape, h.shape], by rw [h3.strides, h.shape]; simp, fun σ hσ => ?_⟩
    have hi := inB_of_inRange hσ
    rw [← h.shape] at hi
    rw [h3.get _ hi, ← hT.get _ hi, h.get σ hσ]
  have h4 := hcl.diagView_short (adj := adj) h3.wf hp
    (by rw [h3.shape, h2]; exact isContiguous_default _)
    (by rw [h2]; exact default_pos (by rw [h.shape]; exact hp)) hLa hsm hlt haL
  simp [Diagonalization.run, hT.toVec, h1, h4]

end diag

section diagOps
variable {A : Type} {dims big : Char → Nat} {sc : SizedContraction} {L : List Char} {p : SingletonContraction}

/-- What a compiled diagonal consists of. -/
theorem diag_parts (hv : sc.Valid dims) (hops : sc.contraction.operandIndices = [L]) (hn : ¬ L.Nodup)
    (hp : SingletonContraction.new sc = .ok p) :
    ∃ new : List Char, (sc.contraction.outputIndices ++ new).Nodup ∧
      (∀ c, c ∈ new ↔ c ∈ L ∧ c ∉ sc.contraction.outputIndices) ∧
      (new = [] ∧ p.op = .diagonalization ⟨L.map fun c => pos c sc.contraction.outputIndices,
          sc.contraction.outputIndices.map dims⟩ ∨
        new ≠ [] ∧ p.op = .diagonalizationAndSummation
          ⟨⟨L.map fun c => pos c (sc.contraction.outputIndices ++ new), (sc.contraction.outputIndices ++ new).map dims⟩,
            ⟨(List.range new.length).map (sc.contraction.outputIndices.length + ·),
              List.replicate new.length sc.contraction.outputIndices.length⟩⟩) := by
  obtain ⟨q, q1, q2⟩ := singleton_method hv hops
  rw [hp] at q1
  cases q1
  obtain ⟨s, -, -, h3⟩ := singletonContraction_inv hp
  obtain ⟨new, hd, hdn, hnew⟩ := Diagonalization.new_ok hv hops
  refine ⟨new, hdn, hnew, ?_⟩
  set out := sc.contraction.outputIndices with hO
  rw [q2, singletonMethod, if_neg hn] at h3
  by_cases hs : ∀ c ∈ L, c ∈ out
  · rw [if_pos hs] at h3
    have hnil' : new = [] := by
      rw [List.eq_nil_iff_forall_not_mem]
      intro c hc
      exact ((hnew c).1 hc).2 (hs c ((hnew c).1 hc).1)
    rw [hnil', List.append_nil] at hd
    simp only [SingletonOp.new, hd, bind_ok] at h3
    exact .inl ⟨hnil', (Except.ok.inj h3).symm⟩
  · rw [if_neg hs] at h3
    have hne : new ≠ [] := by
      rintro rfl
      refine hs fun c hc => ?_
      by_contra ho
      exact absurd ((hnew c).2 ⟨hc, ho⟩) (by simp)
    have hlen : 1 ≤ new.length := List.length_pos_iff.2 hne
    have e : usub ((out ++ new).map dims).length out.length = .ok new.length := by
      rw [usub_of_le (by simp)]; simp
    simp only [SingletonOp.new, DiagonalizationAndSummation.new, hd, ← hO, bind_ok, e,
      Summation.fromSizes_ok hlen] at h3
    exact .inr ⟨hne, (Except.ok.inj h3).symm⟩

end diagOps

/-! ## Reshaped operands of a tensordot -/

/-- Position of an index tuple in row-major order. -/
def Spec.rowMajorRank : List Nat → List Nat → Nat
  | _ :: ds, i :: is => i * ds.prod + Spec.rowMajorRank ds is
  | _, _ => 0

/-- `t₀` is `t` with the axes in the order `P`, reshaped in row-major order from the lengths `dims'` to `dims`. -/
def Spec.Regrouped {A : Type} (L P : List Char) (dims' dims : Char → Nat) (t t₀ : List Nat → A) : Prop :=
  ∀ σ' σ, InRange dims' P σ' → InRange dims P σ →
    Spec.rowMajorRank (P.map dims) (P.map σ) = Spec.rowMajorRank (P.map dims') (P.map σ') →
    t₀ (P.map σ) = t (L.map σ')

theorem rowMajorRank_eq (s i : List Nat) : rowMajorRank s i = ravel s i := by
  induction s generalizing i with
  | nil => rfl
  | cons d ds ih =>
    cases i with
    | nil => rfl
    | cons j is => simp only [rowMajorRank, ravel, ih]

section regroup
variable {A : Type}

theorem asMatrix_reshaped [Zero A] {v v₀ : View A} {s s₀ : List Nat} {T : List Nat → A} (h : Holds v s T)
    (hs : s₀.prod = s.prod) (h₀ : Holds v₀ s₀ fun idx => T (unravel s (ravel s₀ idx))) (rows cols : Nat) :
    MRel Alike (asMatrix v rows cols) (asMatrix v₀ rows cols) := by
  by_cases hp : rows * cols = s.prod
  · obtain ⟨w, w1, w2, w3⟩ := h.asMatrix hp
    obtain ⟨x, x1, x2, x3⟩ := h₀.asMatrix (hp.trans hs.symm)
    refine .inr ⟨w, x, w1, x1, alike_of_holds w3 (x3.congr fun idx hi => ?_) (w2.trans x2.symm)⟩
    have := ravel_lt hi
    rw [ravel_unravel (by simpa [hs, ← hp] using this)]
  · rw [h.asMatrix_panic hp, h₀.asMatrix_panic (by rw [hs]; exact hp)]
    exact .panic _

theorem Rep.regroup {v : View A} {L P : List Char} {dims' dims : Char → Nat} {t : List Nat → A} (hP : P.Perm L)
    (hn : L.Nodup) (h : Rep v P dims' fun σ => t (L.map σ)) (hs : (P.map dims).prod = (P.map dims').prod) :
    ∃ v₀ t₀, Regrouped L P dims' dims t t₀ ∧ (Rep v₀ P dims fun σ => t₀ (P.map σ)) ∧
      ∀ [Zero A] rows cols, MRel Alike (asMatrix v rows cols) (asMatrix v₀ rows cols) := by
  have hPn := hP.nodup_iff.2 hn
  have H := h.holds hPn
  obtain ⟨v₀, -, -, h₀⟩ := fromShapeVec_map (s := P.map dims') (s' := P.map dims) hs
    (fun idx => t (L.map (assign P idx)))
  refine ⟨v₀, fun idx => t (L.map (assign P (unravel (P.map dims') (ravel (P.map dims) idx)))), ?_, h₀.rep,
    fun rows cols => asMatrix_reshaped H hs h₀ rows cols⟩
  intro σ' σ hσ' hσ e
  rw [rowMajorRank_eq, rowMajorRank_eq] at e
  simp only
  rw [e, unravel_ravel (inB_of_inRange hσ')]
  congr 1
  exact List.map_congr_left fun c hc => assign_map (hP.mem_iff.2 hc)

theorem Rep.tensordot_resized [Semiring A] {l r : View A} {L R C out : List Char} {dims dl dr : Char → Nat}
    {t u : List Nat → A} (hl : Rep l L dl fun σ => t (L.map σ)) (hr : Rep r R dr fun σ => u (R.map σ))
    (hL : L.Nodup) (hR : R.Nodup)
    (hCn : C.Nodup) (hCL : ∀ c ∈ C, c ∈ L) (hCR : ∀ c ∈ C, c ∈ R)
    (hn : ((L.filter fun c => c ∉ C) ++ R.filter fun c => c ∉ C).Nodup)
    (po : out.Perm ((L.filter fun c => c ∉ C) ++ R.filter fun c => c ∉ C)) (al : Alloc A)
    (op : TensordotGeneral) (hop : op = ⟨⟨((L.filter fun c => c ∉ C) ++ C).map fun c => pos c L⟩,
        ⟨(C ++ R.filter fun c => c ∉ C).map fun c => pos c R⟩,
        ⟨((L.filter fun c => c ∉ C).map dims).prod, ((R.filter fun c => c ∉ C).map dims).prod,
          (C.map dims).prod, ((L.filter fun c => c ∉ C) ++ R.filter fun c => c ∉ C).map dims⟩,
        ⟨out.map fun c => pos c ((L.filter fun c => c ∉ C) ++ R.filter fun c => c ∉ C)⟩⟩) :
    ((L.map dl).prod = (L.map dims).prod → (R.map dr).prod = (R.map dims).prod →
      ∃ w t₀ u₀, op.run al l r = .ok w ∧ Regrouped L ((L.filter fun c => c ∉ C) ++ C) dl dims t t₀ ∧
        Regrouped R (C ++ R.filter fun c => c ∉ C) dr dims u u₀ ∧
        Rep w out dims (sumOver dims C fun σ =>
          t₀ (((L.filter fun c => c ∉ C) ++ C).map σ) * u₀ ((C ++ R.filter fun c => c ∉ C).map σ))) ∧
    ((L.map dl).prod ≠ (L.map dims).prod ∨ (R.map dr).prod ≠ (R.map dims).prod → ∃ k, op.run al l r = panic k) := by
  subst hop
  have pL := filter_append_perm_of hL hCn hCL
  have pR := List.perm_append_comm.trans (filter_append_perm_of hR hCn hCR)
  obtain ⟨l', l1, l2⟩ := hl.permute hL pL
  obtain ⟨r', r1, r2⟩ := hr.permute hR pR
  have eL : ∀ d : Char → Nat, (((L.filter fun c => c ∉ C) ++ C).map d).prod = (L.map d).prod := fun d =>
    (pL.map d).prod_eq
  have eR : ∀ d : Char → Nat, ((C ++ R.filter fun c => c ∉ C).map d).prod = (R.map d).prod := fun d =>
    (pR.map d).prod_eq
  constructor
  · intro c1 c2
    obtain ⟨l₀, t₀, a1, a2, a3⟩ := Rep.regroup (dims := dims) pL hL l2 (by rw [eL, eL, c1])
    obtain ⟨r₀, u₀, b1, b2, b3⟩ := Rep.regroup (dims := dims) pR hR r2 (by rw [eR, eR, c2])
    obtain ⟨x, h1, h2⟩ := a2.fixed b2 (pL.nodup_iff.2 hL) (pR.nodup_iff.2 hR) (al.sub 0)
    obtain ⟨w, h3, h4⟩ := h2.permutationRun hn po (al.sub 1)
    have e : ∀ f : TensordotFixedPosition, f.run (al.sub 0) l' r' = f.run (al.sub 0) l₀ r₀ := fun f =>
      (a3 _ _).bind_eq fun _ _ g1 => (b3 _ _).bind_eq fun _ _ g2 => by rw [g1.dot g2]
    exact ⟨w, t₀, u₀, by simp only [TensordotGeneral.run, Permutation.view, l1, r1, e, h1, h3, bind_ok], a1, b1, h4⟩
  · intro hne
    have hl' := l2.holds (pL.nodup_iff.2 hL)
    have hr' := r2.holds (pR.nodup_iff.2 hR)
    simp only [TensordotGeneral.run, Permutation.view, l1, r1, bind_ok, TensordotFixedPosition.run]
    by_cases c1 : (L.map dl).prod = (L.map dims).prod
    · have c2 := hne.resolve_left (not_not.2 c1)
      obtain ⟨m, m1, -⟩ := hl'.asMatrix (rows := ((L.filter fun c => c ∉ C).map dims).prod) (cols := (C.map dims).prod)
        (by rw [eL dl, c1, ← eL dims]; simp)
      rw [m1, hr'.asMatrix_panic (by rw [eR dr, show (C.map dims).prod * ((R.filter fun c => c ∉ C).map dims).prod =
        (R.map dims).prod by rw [← eR dims]; simp]; exact Ne.symm c2)]
      exact ⟨_, rfl⟩
    · rw [hl'.asMatrix_panic (by rw [eL dl, show ((L.filter fun c => c ∉ C).map dims).prod * (C.map dims).prod =
        (L.map dims).prod by rw [← eL dims]; simp]; exact Ne.symm c1)]
      exact ⟨_, rfl⟩

end regroup

/-! ## Labels of size-free paths -/

section free
variable {sc : SizedContraction} {L R : List Char} {h : HashOrd}

theorem singleton_nodup {c : SingletonContraction} (hops : sc.contraction.operandIndices = [L])
    (hc : SingletonContraction.new sc = .ok c) (hf : SizeFree c.method) : L.Nodup := by
  obtain ⟨s, h1, h2, -⟩ := singletonContraction_inv hc
  unfold SingletonSummary.new at h1
  rw [hops] at h1
  simp only [List.length_singleton, decide_true, assertThat_true, bind_ok, index_cons_zero] at h1
  unfold SingletonSummary.fromIndices at h1
  obtain ⟨n, -, h1⟩ := bind_eq_ok.1 h1
  cases h1
  rw [h2, getStrategy_eq] at hf
  rw [← diag_zero_iff]
  by_contra hd
  rw [if_neg hd] at hf
  split at hf <;> exact hf

theorem simplification_nodup {out : List Char} {s : Option SimplificationMethodAndOutput}
    (hs : SimplificationMethodAndOutput.fromIndicesAndSizes h L R out sc = .ok s) (hf : ∀ x ∈ s, SizeFree x.method) :
    L.Nodup := by
  unfold SimplificationMethodAndOutput.fromIndicesAndSizes at hs
  dsimp only at hs
  obtain ⟨a, a1, hs⟩ := bind_eq_ok.1 hs
  obtain ⟨c, c1, hs⟩ := bind_eq_ok.1 hs
  have ha : a.contraction.operandIndices = [L] := by
    rw [(fromIndices_iff.1 (subset_inv (unwrapR_inv a1))).2]
  refine singleton_nodup ha c1 ?_
  cases hm : c.method with
  | identity => trivial
  | permutation => trivial
  | _ =>
    rw [hm] at hs
    simp only at hs
    obtain ⟨t, -, hs⟩ := bind_eq_ok.1 hs
    cases hs
    exact hf _ rfl

theorem pair_nodup {c : PairContraction} (hops : sc.contraction.operandIndices = [L, R])
    (hc : PairContraction.new h sc = .ok c) (hf : SizeFreeStep c) : L.Nodup ∧ R.Nodup := by
  unfold PairContraction.new at hc
  rw [hops] at hc
  simp only [List.length_cons, List.length_nil, Nat.zero_add, Nat.reduceAdd, decide_true,
    assertThat_true, bind_ok, index_cons_zero, index_one] at hc
  obtain ⟨ls, l1, hc⟩ := bind_eq_ok.1 hc
  obtain ⟨rs, r1, hc⟩ := bind_eq_ok.1 hc
  obtain ⟨a, -, hc⟩ := bind_eq_ok.1 hc
  obtain ⟨s, -, hc⟩ := bind_eq_ok.1 hc
  obtain ⟨op, -, hc⟩ := bind_eq_ok.1 hc
  obtain ⟨t, -, hc⟩ := bind_eq_ok.1 hc
  cases hc
  exact ⟨simplification_nodup l1 hf.2.1, simplification_nodup r1 hf.2.2⟩

theorem steps_nodup {first : Nat} (k : HashOrd) (idx : Nat) (lhs : List Char) (rest : List (List Char)) (nums : List Nat)
    (hl : rest.length = nums.length) (hne : rest ≠ []) {ss : List PairStep} {cs : List PairContraction}
    (h1 : generateSteps h sc first idx lhs rest nums = .ok ss) (h2 : compileSteps k ss = .ok cs)
    (hf : ∀ c ∈ cs, SizeFreeStep c) : lhs.Nodup ∧ ∀ r ∈ rest, r.Nodup := by
  induction rest generalizing k idx lhs nums ss cs with
  | nil => exact absurd rfl hne
  | cons r rest ih =>
    cases nums with
    | nil => simp at hl
    | cons n nums =>
      simp only [generateSteps, generateSizedContractionPair] at h1
      obtain ⟨a, a1, h1⟩ := bind_eq_ok.1 h1
      obtain ⟨t, t1, h1⟩ := bind_eq_ok.1 h1
      cases h1
      simp only [compileSteps] at h2
      obtain ⟨c, c1, h2⟩ := bind_eq_ok.1 h2
      obtain ⟨cs', c2, h2⟩ := bind_eq_ok.1 h2
      cases h2
      have ha : a.contraction.operandIndices = [lhs, r] := by
        rw [(fromIndices_iff.1 (subset_inv (unwrapR_inv a1))).2]
      obtain ⟨g1, g2⟩ := pair_nodup ha c1 (hf c (by simp))
      refine ⟨g1, fun x hx => ?_⟩
      rcases List.mem_cons.1 hx with rfl | hx
      · exact g2
      · exact (ih _ _ _ _ (by simpa using hl) (by rintro rfl; simp at hx) t1 c2 fun y hy => hf y (by simp [hy])).2 x hx

theorem path_nodup {order : List Nat} {o : ContractionOrder} {k : HashOrd} {p : EinsumPath}
    (hmem : ∀ i < sc.contraction.operandIndices.length, i ∈ order)
    (h1 : generatePath h sc order = .ok o) (h2 : EinsumPath.fromPath k o = .ok p) (hf : SizeFreeSteps p.steps) :
    ∀ L ∈ sc.contraction.operandIndices, L.Nodup := by
  unfold generatePath generatePermutedContraction at h1
  obtain ⟨a, a1, h1⟩ := bind_eq_ok.1 h1
  obtain ⟨-, -, a1⟩ := bind_eq_ok.1 a1
  obtain ⟨x, x1, a1⟩ := bind_eq_ok.1 a1
  have ha : a.contraction.operandIndices = x := by
    rw [(fromIndices_iff.1 (subset_inv (unwrapR_inv a1))).2]
  have hlen := mapE_length x1
  suffices key : ∀ L ∈ x, L.Nodup by
    intro L hL
    obtain ⟨i, hi, rfl⟩ := List.mem_iff_getElem.1 hL
    obtain ⟨j, hj, e⟩ := List.mem_iff_getElem.1 (hmem i hi)
    have := (List.forall₂_iff_get.1 (mapE_eq_ok.1 x1)).2 j hj (by omega)
    simp only [List.get_eq_getElem, e] at this
    rw [index_eq_ok, List.getElem?_eq_getElem hi] at this
    rw [Option.some.inj this]
    exact key _ (List.getElem_mem _)
  rw [ha] at h1
  match hx : x, order with
  | [_], _ =>
    subst hx
    cases h1
    simp only [EinsumPath.fromPath] at h2
    obtain ⟨c, c1, h2⟩ := bind_eq_ok.1 h2
    cases h2
    simpa using singleton_nodup ha c1 hf
  | [l, r], t0 :: t1 :: _ =>
    simp only [generateSizedContractionPair] at h1
    obtain ⟨b, b1, h1⟩ := bind_eq_ok.1 h1
    cases h1
    simp only [EinsumPath.fromPath, compileSteps] at h2
    obtain ⟨cs, c1, h2⟩ := bind_eq_ok.1 h2
    cases h2
    obtain ⟨c, d1, d2⟩ := bind_eq_ok.1 c1
    cases d2
    have hb : b.contraction.operandIndices = [l, r] := by
      rw [(fromIndices_iff.1 (subset_inv (unwrapR_inv b1))).2]
    have := pair_nodup hb d1 (hf c (by simp))
    simpa using this
  | [l, r], [t0] => simp at hlen
  | l :: y :: z :: rest, t0 :: ts =>
    obtain ⟨b, b1, h1⟩ := bind_eq_ok.1 h1
    cases h1
    simp only [EinsumPath.fromPath] at h2
    obtain ⟨cs, c1, h2⟩ := bind_eq_ok.1 h2
    cases h2
    obtain ⟨g1, g2⟩ := steps_nodup _ _ _ _ _ (by simpa using hlen) (by simp) b1 c1 hf
    intro L hL
    rcases List.mem_cons.1 hL with rfl | hL
    · exact g1
    · exact g2 L hL
  | [], _ => simp
  | _ :: _ :: _, [] => simp at hlen

end free

/-! ## C79 -/

theorem contract_same {A : Type} [Zero A] [Add A] [Mul A] [MulAdd A] {p p' : EinsumPath} (h : AgreePath p p')
    (hs : p'.steps = p.steps) (al : Alloc A) (xs : List (View A)) :
    p'.contractOperands al xs = p.contractOperands al xs := by
  cases h with
  | singleton _ _ =>
    cases hs
    rfl
  | pairs h1 _ =>
    cases hs
    simp only [EinsumPath.contractOperands]
    have key : ∀ {ss ss' : List PairStep}, List.Forall₂ (fun s s' : PairStep => s'.operandNums = s.operandNums ∧
        s'.sizedContraction.contraction = s.sizedContraction.contraction) ss ss' →
        ∀ (al : Alloc A) (cs : List PairContraction) (inter : List (View A)),
          runSteps al xs (cs.zip ss') inter = runSteps al xs (cs.zip ss) inter := by
      intro ss ss' hss
      induction hss with
      | nil => intro al cs inter; rfl
      | cons e _ ih =>
        intro al cs inter
        cases cs with
        | nil => rfl
        | cons c cs =>
          simp only [List.zip_cons_cons, runSteps, e.1]
          congr 1; funext l
          congr 1; funext r
          congr 1; funext w
          exact ih _ _ _
    rw [key h1]

/-- C79: for other sizes the same methods, order and kept labels; if no step stores sizes, the same steps and the same
results on every list of arrays. -/
theorem C79_same {A B : Type} (h : HashOrd) (s : String) (ops : List (View A)) (ops' : List (View B))
    (m : OptimizationMethod) (p p' : EinsumPath) (hp : einsumPath h s ops m = .ok (.ok p))
    (hp' : einsumPath h s ops' m = .ok (.ok p')) :
    AgreePath p p' ∧ (SizeFreeSteps p.steps → p'.steps = p.steps ∧
      ∀ (K : Type) [Zero K] [Add K] [Mul K] [MulAdd K] (al : Alloc K) (xs : List (View K)),
        p'.contractOperands al xs = p.contractOperands al xs) := by
  obtain ⟨h1, h2⟩ := einsumPath_same hp hp'
  exact ⟨h1, fun hf => ⟨h2 hf, fun K _ _ _ _ al xs => contract_same h1 (h2 hf) al xs⟩⟩

/-- C79: a path that stores no sizes computes the Einstein sum of arrays of any consistent sizes. -/
theorem C79_free {A B : Type} [CommSemiring A] (h : HashOrd) (s : String) (ops₀ : List (View B))
    (m : OptimizationMethod) (p : EinsumPath) (hp : einsumPath h s ops₀ m = .ok (.ok p)) (hf : SizeFreeSteps p.steps)
    (operands : List (View A)) (inputs : List (List Char)) (out : List Char) (dims : Char → Nat)
    (ts : List (List Nat → A)) (hc : Call s operands inputs out dims ts) (al : Alloc A) :
    ∃ w, p.contractOperands al operands = .ok w ∧ IsEinsum dims inputs ts out w := by
  have hm : m = .naive ∨ m = .reverse := by
    obtain ⟨sc, o, -, h2, -⟩ := einsumPath_inv hp
    cases m with
    | naive => exact .inl rfl
    | reverse => exact .inr rfl
    | _ => cases h2
  obtain ⟨p', p1, p2⟩ := einsumPath_ok hc.denotes hc.sized h hm
  obtain ⟨h1, h2⟩ := einsumPath_same hp p1
  have hs := h2 hf
  have hn : ∀ L ∈ inputs, L.Nodup := by
    obtain ⟨sc, o, g1, g2, g3⟩ := einsumPath_inv p1
    rw [validateAndSize_ok _ hc.denotes hc.sized] at g1
    cases g1
    rcases hm with rfl | rfl
    · exact path_nodup (sc := callSC inputs out dims) (order := naiveOrder _) (by simp [naiveOrder]) g2 g3
        (by rw [hs]; exact hf)
    · exact path_nodup (sc := callSC inputs out dims) (order := reverseOrder _) (by simp [reverseOrder]) g2 g3
        (by rw [hs]; exact hf)
  rw [← contract_same h1 hs]
  exact (p2.outcome hc.denotes.outputOk.1 hc.sized hc.elements al).1 (not_emptyDiagonal (fun ix hx => .inl (hn ix hx)))

/-- C79: the path of one operand stores no sizes exactly if no letter is repeated. -/
theorem C79_single {A : Type} (h : HashOrd) (s : String) (v : View A) (L out : List Char) (dims : Char → Nat)
    (hd : Denotes s [L] out) (hs : Sized dims [L] [v.shape]) (m : OptimizationMethod) (p : EinsumPath)
    (hp : einsumPath h s [v] m = .ok (.ok p)) : SizeFreeSteps p.steps ↔ L.Nodup := by
  obtain ⟨sc, c, rfl, h1, h2, h3, h4⟩ := path_one hd hs hp
  refine ⟨fun hf => singleton_nodup h2 h4 hf, fun hn => ?_⟩
  obtain ⟨q, q1, q2⟩ := singleton_method h1 h2
  rw [h4] at q1
  cases q1
  simp only [SizeFreeSteps, q2, singletonMethod, if_pos hn]
  split_ifs <;> trivial

/-- C79: the path of two operands stores no sizes exactly if no letter is repeated in an operand and the two are
multiplied elementwise or one of them is summed completely. -/
theorem C79_two {A : Type} (h : HashOrd) (s : String) (l r : View A) (L R out : List Char) (dims : Char → Nat)
    (hd : Denotes s [L, R] out) (hs : Sized dims [L, R] [l.shape, r.shape]) (p : EinsumPath)
    (hp : einsumPath h s [l, r] .naive = .ok (.ok p)) :
    SizeFreeSteps p.steps ↔ L.Nodup ∧ R.Nodup ∧ (((∀ c ∈ L, c ∈ R ∨ c ∈ out → c ∈ R ∧ c ∈ out) ∧
      (∀ c ∈ R, c ∈ L ∨ c ∈ out → c ∈ L ∧ c ∈ out)) ∨ (∀ c ∈ L, c ∉ R ∧ c ∉ out) ∨ ∀ c ∈ R, c ∉ L ∧ c ∉ out) := by
  obtain ⟨sc, k, c, rfl, h1, h2, h3, h4⟩ := path_two hd hs hp
  obtain ⟨q, q1, q2, q3, q4, -⟩ := pair_parts h1 h2 k
  rw [h4] at q1
  cases q1
  rw [h3] at q2 q3 q4
  have hL : ∀ c ∈ L, c ∈ sc.contraction.operandIndices.flatten := by rw [h2]; intro c hc; simp [hc]
  have hR : ∀ c ∈ R, c ∈ sc.contraction.operandIndices.flatten := by rw [h2]; intro c hc; simp [hc]
  obtain ⟨sl, l1, l2⟩ := simplification_parts h1 (k.sub 0) (R := R) (out := out) hL
  obtain ⟨sr, r1, r2⟩ := simplification_parts h1 (k.sub 1) (R := L) (out := out) hR
  rw [q2] at l1; cases l1
  rw [q3] at r1; cases r1
  have free : ∀ {M N O : List Char} {x : Option SimplificationMethodAndOutput} , M.Nodup →
      (x = none ∧ ¬ NeedsSimplification M N O ∨ NeedsSimplification M N O ∧ ∃ y, x = some y ∧ y.newIndices.Nodup ∧
          (∀ c, c ∈ y.newIndices ↔ c ∈ M ∧ (c ∈ N ∨ c ∈ O)) ∧
          y.method = singletonMethod M y.newIndices ∧ y.einsumString = text [M] y.newIndices ∧
          y.op.Computes dims M y.newIndices) → ∀ y ∈ x, SizeFree y.method := by
    intro M N O x hM hx y hy
    rcases hx with ⟨rfl, -⟩ | ⟨-, z, rfl, -, -, e, -⟩
    · cases hy
    · cases hy
      rw [e, singletonMethod, if_pos hM]
      split_ifs <;> trivial
  have hm : SizeFreePair c.method ↔ (((∀ c ∈ L, c ∈ R ∨ c ∈ out → c ∈ R ∧ c ∈ out) ∧
      (∀ c ∈ R, c ∈ L ∨ c ∈ out → c ∈ L ∧ c ∈ out)) ∨ (∀ c ∈ L, c ∉ R ∧ c ∉ out) ∨ ∀ c ∈ R, c ∉ L ∧ c ∉ out) := by
    rw [q4, pairMethod]
    split_ifs with g1 g2 g3 g4
    · exact ⟨fun _ => .inl g1, fun _ => trivial⟩
    · exact ⟨fun _ => .inr (.inl g2), fun _ => trivial⟩
    · exact ⟨fun _ => .inr (.inr g3), fun _ => trivial⟩
    · exact ⟨fun x => x.elim, fun x => by rcases x with x | x | x; exacts [g1 x, g2 x, g3 x]⟩
    · exact ⟨fun x => x.elim, fun x => by rcases x with x | x | x; exacts [g1 x, g2 x, g3 x]⟩
  constructor
  · intro hf
    have hf' : SizeFreeStep c := hf c (by simp)
    obtain ⟨a, b⟩ := pair_nodup h2 h4 hf'
    exact ⟨a, b, hm.1 hf'.1⟩
  · rintro ⟨a, b, g⟩ x hx
    cases List.mem_singleton.1 hx
    exact ⟨hm.2 g, free a l2, free b r2⟩

theorem diagSum_run {A : Type} [Zero A] [Add A] (d : DiagonalizationAndSummation) (al : Alloc A) (v : View A) :
    d.run al v = (if v.asSliceMemoryOrder.isSome && v.strides.all (fun s => 0 < s) then d.diagonalization.view v
      else d.diagonalization.run (al.sub 0) v) >>= fun w => d.summation.run (al.sub 1) w := by
  unfold DiagonalizationAndSummation.run
  split <;> rfl

/-- C79, finding: the path of one operand with a repeated letter, run on an array with axes at least as long, returns
the Einstein sum of the block of the compiled sizes. -/
theorem C79_longer {A B : Type} [CommSemiring A] (h : HashOrd) (s : String) (v₀ : View B) (L out : List Char)
    (dims dims' : Char → Nat) (hd : Denotes s [L] out) (hs : Sized dims [L] [v₀.shape]) (m : OptimizationMethod)
    (p : EinsumPath) (hp : einsumPath h s [v₀] m = .ok (.ok p)) (hn : ¬ L.Nodup) (v : View A) (t : List Nat → A)
    (hv : Elements v t) (hsh : v.shape = L.map dims') (hpos : ∀ c ∈ L, 0 < dims' c) (hle : ∀ c ∈ L, dims c ≤ dims' c)
    (al : Alloc A) : ∃ w, p.contractOperands al [v] = .ok w ∧ IsEinsum dims [L] [t] out w := by
  obtain ⟨sc, c, rfl, h1, h2, rfl, h4⟩ := path_one hd hs hp
  obtain ⟨new, d1, d2, d3⟩ := diag_parts h1 h2 hn h4
  set out := sc.contraction.outputIndices
  have hsub := h1.out_sub h2
  have hLa : ∀ c ∈ L, c ∈ out ++ new := fun c hc => by
    rw [List.mem_append, d2]
    by_cases ho : c ∈ out
    · exact .inl ho
    · exact .inr ⟨hc, ho⟩
  have haL : ∀ c ∈ out ++ new, c ∈ L := fun c hc => by
    rcases List.mem_append.1 hc with g | g
    · exact hsub c g
    · exact ((d2 c).1 g).1
  have hr : Rep v L dims' fun σ => t (L.map σ) := Holds.rep (by rw [← hsh]; exact hv.holds)
  have hpp : 0 < (L.map dims').prod := Nat.pos_of_ne_zero fun e => by
    obtain ⟨c, hc, e⟩ := List.mem_map.1 (List.prod_eq_zero_iff.1 e)
    have := hpos c hc
    omega
  have hrun : EinsumPath.contractOperands ⟨.singleton sc, .singletonContraction c⟩ al [v] = c.op.run al v := rfl
  rw [hrun]
  rcases d3 with ⟨rfl, e⟩ | ⟨hne, e⟩
  · rw [List.append_nil] at hLa haL d1
    obtain ⟨w, w1, w2⟩ := hr.diagRun_le hv.1 hpp d1 hLa haL hle al
    refine ⟨w, by rw [e]; exact w1, Rep.isEinsum_one d1 ?_⟩
    rwa [show summed [L] out = [] from by
      rw [List.eq_nil_iff_forall_not_mem]
      intro c hc
      have := mem_summed.1 hc
      simp only [List.flatten_cons, List.flatten_nil, List.append_nil] at this
      exact this.2 (hLa c this.1)]
  · obtain ⟨x, x1, x2⟩ := hr.diagEither_le hv.1 hpp d1 hLa haL hle (al.sub 0)
    obtain ⟨w, w1, w2⟩ := x2.summation d1 hne ((List.range new.length).map (out.length + ·)) (al.sub 1)
    refine ⟨w, ?_, Rep.isEinsum_one h1.out.1 ?_⟩
    · rw [e]
      simp only [SingletonOp.run]
      rw [diagSum_run, x1]
      exact w1
    · rw [← sumOver_summed (S := new) (List.nodup_append.1 d1).2.1 fun c => by simpa using d2 c]
      exact w2

/-- C79: on arrays with a shorter axis and no longer one it panics. -/
theorem C79_shorter {A B : Type} [Zero A] [Add A] [Mul A] [MulAdd A] (h : HashOrd) (s : String) (v₀ : View B)
    (L out : List Char) (dims dims' : Char → Nat) (hd : Denotes s [L] out) (hs : Sized dims [L] [v₀.shape])
    (m : OptimizationMethod) (p : EinsumPath) (hp : einsumPath h s [v₀] m = .ok (.ok p)) (hn : ¬ L.Nodup) (v : View A)
    (t : List Nat → A) (hv : Elements v t) (hsh : v.shape = L.map dims') (hpos : ∀ c ∈ L, 0 < dims' c)
    (hle : ∀ c ∈ L, dims' c ≤ dims c) (hlt : ∃ c ∈ L, dims' c < dims c) (al : Alloc A) :
    p.contractOperands al [v] = panic .unwrapErr := by
  obtain ⟨sc, c, rfl, h1, h2, rfl, h4⟩ := path_one hd hs hp
  obtain ⟨new, d1, d2, d3⟩ := diag_parts h1 h2 hn h4
  set out := sc.contraction.outputIndices
  have hsub := h1.out_sub h2
  have hLa : ∀ c ∈ L, c ∈ out ++ new := fun c hc => by
    rw [List.mem_append, d2]
    by_cases ho : c ∈ out
    · exact .inl ho
    · exact .inr ⟨hc, ho⟩
  have haL : ∀ c ∈ out ++ new, c ∈ L := fun c hc => by
    rcases List.mem_append.1 hc with g | g
    · exact hsub c g
    · exact ((d2 c).1 g).1
  have hr : Rep v L dims' fun σ => t (L.map σ) := Holds.rep (by rw [← hsh]; exact hv.holds)
  have hpp : 0 < (L.map dims').prod := Nat.pos_of_ne_zero fun e => by
    obtain ⟨c, hc, e⟩ := List.mem_map.1 (List.prod_eq_zero_iff.1 e)
    have := hpos c hc
    omega
  have hrun : EinsumPath.contractOperands ⟨.singleton sc, .singletonContraction c⟩ al [v] = c.op.run al v := rfl
  rw [hrun]
  rcases d3 with ⟨rfl, e⟩ | ⟨hne, e⟩
  · rw [List.append_nil] at hLa haL
    rw [e]
    exact hr.diagRun_short hv.1 hpp hLa hle hlt haL al
  · rw [e]
    simp only [SingletonOp.run]
    have key : (if v.asSliceMemoryOrder.isSome && v.strides.all (fun s => 0 < s) then
        Diagonalization.view ⟨L.map fun c => pos c (out ++ new), (out ++ new).map dims⟩ v
        else Diagonalization.run ⟨L.map fun c => pos c (out ++ new), (out ++ new).map dims⟩ (al.sub 0) v) =
        panic .unwrapErr := by
      split
      · rename_i hcond
        simp only [Bool.and_eq_true, List.all_eq_true, decide_eq_true_eq] at hcond
        refine hr.diagView_short hv.1 hpp ?_ hcond.2 hLa hle hlt haL
        have := hcond.1
        unfold View.asSliceMemoryOrder at this
        split at this
        · assumption
        · simp at this
      · exact hr.diagRun_short hv.1 hpp hLa hle hlt haL _
    rw [diagSum_run, key]
    rfl

theorem pair_inv {sc : SizedContraction} {L R : List Char} {k : HashOrd} {c : PairContraction}
    (hops : sc.contraction.operandIndices = [L, R]) (hc : PairContraction.new k sc = .ok c)
    (hl : c.lhsSimplification = none) (hr : c.rhsSimplification = none) :
    ∃ red k', unwrapR (sc.subset k' [L, R] sc.contraction.outputIndices) = .ok red ∧ PairOp.new red c.method = .ok c.op := by
  unfold PairContraction.new at hc
  rw [hops] at hc
  simp only [List.length_cons, List.length_nil, Nat.zero_add, Nat.reduceAdd, decide_true,
    assertThat_true, bind_ok, index_cons_zero, index_one] at hc
  obtain ⟨ls, l1, hc⟩ := bind_eq_ok.1 hc
  obtain ⟨rs, r1, hc⟩ := bind_eq_ok.1 hc
  obtain ⟨a, a1, hc⟩ := bind_eq_ok.1 hc
  obtain ⟨s, -, hc⟩ := bind_eq_ok.1 hc
  obtain ⟨op, o1, hc⟩ := bind_eq_ok.1 hc
  obtain ⟨t, -, hc⟩ := bind_eq_ok.1 hc
  cases hc
  simp only at hl hr
  subst hl hr
  exact ⟨a, _, a1, o1⟩

/-- C79, finding: a path of two operands that are contracted by a plain tensordot checks the number of elements of each
operand and nothing else.  `C` lists the contracted letters in alphabetic order. -/
theorem C79_tensordot {A B : Type} [CommSemiring A] (h : HashOrd) (s : String) (l₀ r₀ : View B) (L R C out : List Char)
    (dims : Char → Nat) (hd : Denotes s [L, R] out) (hs : Sized dims [L, R] [l₀.shape, r₀.shape]) (p : EinsumPath)
    (hp : einsumPath h s [l₀, r₀] .naive = .ok (.ok p)) (hsimp : Simplified L R out)
    (hm : pairMethod L R out = .tensordotGeneral) (hC : C.Pairwise (· < ·))
    (mC : ∀ c, c ∈ C ↔ c ∈ L ∧ c ∈ R) (l r : View A) (t u : List Nat → A)
    (hl : Elements l t) (hr : Elements r u) (dl dr : Char → Nat) (sl : l.shape = L.map dl) (sr : r.shape = R.map dr)
    (al : Alloc A) :
    ((L.map dl).prod = (L.map dims).prod → (R.map dr).prod = (R.map dims).prod →
      ∃ w t₀ u₀, p.contractOperands al [l, r] = .ok w ∧
        Regrouped L ((L.filter fun c => c ∈ out) ++ C) dl dims t t₀ ∧
        Regrouped R (C ++ R.filter fun c => c ∈ out) dr dims u u₀ ∧
        IsEinsum dims [(L.filter fun c => c ∈ out) ++ C, C ++ R.filter fun c => c ∈ out] [t₀, u₀] out w) ∧
    ((L.map dl).prod ≠ (L.map dims).prod ∨ (R.map dr).prod ≠ (R.map dims).prod →
      ∃ k, p.contractOperands al [l, r] = panic k) := by
  have h0 : ∀ c ∈ L, c ∈ R → c ∉ out := by
    rw [pairMethod] at hm
    split_ifs at hm with g1 g2 g3 g4
    exact g4
  obtain ⟨sc, k, c, rfl, h1, h2, rfl, h4⟩ := path_two hd hs hp
  set out := sc.contraction.outputIndices
  obtain ⟨q, q1, q2, q3, q4, -⟩ := pair_parts h1 h2 k
  rw [h4] at q1
  cases q1
  have hL : ∀ c ∈ L, c ∈ sc.contraction.operandIndices.flatten := by rw [h2]; intro c hc; simp [hc]
  have hR : ∀ c ∈ R, c ∈ sc.contraction.operandIndices.flatten := by rw [h2]; intro c hc; simp [hc]
  obtain ⟨xl, l1, l2⟩ := simplification_parts h1 (k.sub 0) (R := R) (out := out) hL
  obtain ⟨xr, r1, r2⟩ := simplification_parts h1 (k.sub 1) (R := L) (out := out) hR
  rw [q2] at l1; cases l1
  rw [q3] at r1; cases r1
  have nl : c.lhsSimplification = none := by
    rcases l2 with ⟨e, -⟩ | ⟨hn | ⟨x, hx, g⟩, -⟩
    · exact e
    · exact absurd hsimp.lhs_nodup hn
    · exact absurd (hsimp.lhs_used x hx) (not_or.2 g)
  have nr : c.rhsSimplification = none := by
    rcases r2 with ⟨e, -⟩ | ⟨hn | ⟨x, hx, g⟩, -⟩
    · exact e
    · exact absurd hsimp.rhs_nodup hn
    · exact absurd (hsimp.rhs_used x hx) (not_or.2 g)
  obtain ⟨red, k', a1, a2⟩ := pair_inv h2 h4 nl nr
  obtain ⟨b1, b2, b3⟩ := Valid.subset_of h1 (by rw [h2]; exact fun _ h => h) (by rw [← h2]; exact h1.out) a1
  obtain ⟨C', ⟨c0, c1, c2, c3, c4, c5, c6⟩, c7⟩ := tensordotGeneral_new b1 b2 hsimp.lhs_nodup hsimp.rhs_nodup
    (by rw [b3]; exact hsimp.lhs_used) (by rw [b3]; exact hsimp.rhs_used) (by rw [b3]; exact h0)
  rw [b3] at c2 c6 c7
  have eC : C' = C := by
    refine List.Perm.eq_of_pairwise (le := (· < ·)) (fun a b _ _ x y => absurd (lt_trans x y) (lt_irrefl _)) c0 hC
      (perm_of_nodup c1 (hC.imp fun x => ne_of_lt x) fun x => ?_)
    rw [mC]
    exact ⟨fun hx => ⟨c3 x hx, c4 x hx⟩, fun hx => (c2 x).2 ⟨.inl hx.1, h0 x hx.1 hx.2⟩⟩
  subst eC
  have fL : (L.filter fun c => c ∈ out) = L.filter fun c => c ∉ C' := by
    apply List.filter_congr
    intro x hx
    rw [decide_eq_decide, c2]
    simp [hx, out]
  have fR : (R.filter fun c => c ∈ out) = R.filter fun c => c ∉ C' := by
    apply List.filter_congr
    intro x hx
    rw [decide_eq_decide, c2]
    simp [hx, out]
  rw [q4, hm, c7] at a2
  have eop := (Except.ok.inj a2).symm
  have hrl : Rep l L dl fun σ => t (L.map σ) := Holds.rep (by rw [← sl]; exact hl.holds)
  have hrr : Rep r R dr fun σ => u (R.map σ) := Holds.rep (by rw [← sr]; exact hr.holds)
  have key := hrl.tensordot_resized hrr hsimp.lhs_nodup hsimp.rhs_nodup c1 c3 c4 c5 c6 ((al.sub 0).sub 2) _ rfl
    (dims := dims)
  have hrun : EinsumPath.contractOperands ⟨.pairs [⟨sc, ⟨.input 0, .input 1⟩⟩], .pairContractions [c]⟩ al [l, r] =
      c.op.run ((al.sub 0).sub 2) l r := by
    rw [contract_two, PairContraction.run, nl, nr]
    rfl
  rw [hrun, eop, fL, fR]
  refine ⟨fun x y => ?_, key.2⟩
  obtain ⟨w, t₀, u₀, w1, w2, w3, w4⟩ := key.1 x y
  refine ⟨w, t₀, u₀, w1, w2, w3, Rep.isEinsum_two h1.out.1 c1 (fun x => ?_) w4⟩
  simp only [List.mem_append, List.mem_filter, decide_not, Bool.not_eq_true', decide_eq_false_iff_not]
  constructor
  · intro hx
    exact ⟨.inl (.inr hx), ((c2 x).1 hx).2⟩
  · rintro ⟨(⟨g1, g2⟩ | g) | g | ⟨g1, g2⟩, g'⟩
    · exact (c2 x).2 ⟨.inl g1, g'⟩
    · exact g
    · exact g
    · exact (c2 x).2 ⟨.inr g1, g'⟩

/-! ### Cases -/

theorem Ex.denotes_ii : Denotes "ii->" [['i', 'i']] [] :=
  .inl ⟨by decide, ⟨by simp, by simp [Letter], by simp⟩, by simp [OutputOk, Used]⟩

/-- A 2 by 2 matrix, a 3 by 3 matrix and a 1 by 1 matrix. -/
def Ex.resized2 : View Int := ⟨[1, 2, 3, 4], 0, [2, 2], [2, 1]⟩
def Ex.resized3 : View Int := ⟨[1, 2, 3, 4, 5, 6, 7, 8, 9], 0, [3, 3], [3, 1]⟩
def Ex.resized1 : View Int := ⟨[7], 0, [1, 1], [1, 1]⟩

theorem Ex.sized_ii : Sized (fun _ => 2) [['i', 'i']] [Ex.resized2.shape] := .cons rfl .nil

/-- The hypotheses of `C79_longer` and `C79_shorter`: a path for traces of 2 by 2 matrices returns 6 for a 3 by 3 matrix
with trace 15, and panics for a 1 by 1 matrix. -/
example (h : HashOrd) (al : Alloc Int) : ∃ p, einsumPath h "ii->" [Ex.resized2] .naive = .ok (.ok p) ∧
    (∃ w, p.contractOperands al [Ex.resized3] = .ok w ∧ w.read [] = .ok 6) ∧
    p.contractOperands al [Ex.resized1] = panic .unwrapErr := by
  obtain ⟨p, hp, -⟩ := einsumPath_ok (operands := [Ex.resized2]) Ex.denotes_ii Ex.sized_ii h (.inl rfl)
  refine ⟨p, hp, ?_, ?_⟩
  · obtain ⟨w, w1, w2⟩ := C79_longer h "ii->" Ex.resized2 ['i', 'i'] [] (fun _ => 2) (fun _ => 3) Ex.denotes_ii Ex.sized_ii
      .naive p hp (by decide) Ex.resized3 (Ex.elems Ex.resized3) (elements_of rfl (by decide)) rfl (by simp) (by simp) al
    refine ⟨w, w1, ?_⟩
    have := w2.2.2 (fun _ => 0) (by simp [InRange])
    rw [show ([] : List Char).map (fun _ => 0) = [] from rfl] at this
    rw [this]
    rfl
  · exact C79_shorter h "ii->" Ex.resized2 ['i', 'i'] [] (fun _ => 2) (fun _ => 1) Ex.denotes_ii Ex.sized_ii
      .naive p hp (by decide) Ex.resized1 (Ex.elems Ex.resized1) (elements_of rfl (by decide)) rfl (by simp) (by simp)
      ⟨'i', by simp, by simp⟩ al

theorem Ex.denotes_ijji : Denotes "ij->ji" [['i', 'j']] ['j', 'i'] :=
  .inl ⟨by decide, ⟨by simp, by simp [Letter], by simp [Letter]⟩, by simp [OutputOk, Used]⟩

/-- The hypotheses of `C79_same`, `C79_single` and `C79_free`: a path for the transpose of a 2 by 2 matrix transposes a 2 by 3
matrix. -/
example (h : HashOrd) (al : Alloc Int) : ∃ p p', einsumPath h "ij->ji" [Ex.resized2] .naive = .ok (.ok p) ∧
    einsumPath h "ij->ji" [Ex.m23] .naive = .ok (.ok p') ∧ p'.steps = p.steps ∧
    ∃ w, p.contractOperands al [Ex.m23] = .ok w ∧
      IsEinsum Ex.dims [['i', 'j']] [Ex.elems Ex.m23] ['j', 'i'] w := by
  have s1 : Sized (fun _ => 2) [['i', 'j']] [Ex.resized2.shape] := .cons rfl .nil
  have s2 : Sized Ex.dims [['i', 'j']] [Ex.m23.shape] := .cons (by decide) .nil
  obtain ⟨p, hp, -⟩ := einsumPath_ok (operands := [Ex.resized2]) Ex.denotes_ijji s1 h (.inl rfl)
  obtain ⟨p', hp', -⟩ := einsumPath_ok (operands := [Ex.m23]) Ex.denotes_ijji s2 h (.inl rfl)
  have hf := (C79_single h _ Ex.resized2 _ _ _ Ex.denotes_ijji s1 .naive p hp).2 (by decide)
  exact ⟨p, p', hp, hp', ((C79_same h _ _ _ _ p p' hp hp').2 hf).1,
    C79_free h _ _ _ p hp hf [Ex.m23] _ _ Ex.dims [Ex.elems Ex.m23]
      ⟨Ex.denotes_ijji, s2, .cons Ex.e23 .nil⟩ al⟩

/-- The hypotheses of `C79_two`: an elementwise product. -/
example (h : HashOrd) : ∃ p, einsumPath h "ij,ij->ij" [Ex.m23, Ex.m23] .naive = .ok (.ok p) ∧ SizeFreeSteps p.steps := by
  have d : Denotes "ij,ij->ij" [['i', 'j'], ['i', 'j']] ['i', 'j'] :=
    .inl ⟨by decide, ⟨by simp, by simp [Letter], by simp [Letter]⟩, by simp [OutputOk, Used]⟩
  have s1 : Sized Ex.dims [['i', 'j'], ['i', 'j']] [Ex.m23.shape, Ex.m23.shape] := .cons (by decide) (.cons (by decide) .nil)
  obtain ⟨p, hp, -⟩ := einsumPath_ok (operands := [Ex.m23, Ex.m23]) d s1 h (.inl rfl)
  exact ⟨p, hp, (C79_two h _ _ _ _ _ _ _ d s1 p hp).2 ⟨by decide, by decide, .inl ⟨by decide, by decide⟩⟩⟩

/-- The hypotheses of `C79_tensordot`: a path for the product of a 2 by 3 and a 3 by 2 matrix accepts a 3 by 2 and a 2 by 3
matrix and returns a 2 by 2 matrix. -/
example (h : HashOrd) (al : Alloc Int) : ∃ p, einsumPath h "ij,jk->ik" [Ex.m23, Ex.m32] .naive = .ok (.ok p) ∧
    ∃ w, p.contractOperands al [Ex.m32, Ex.m23] = .ok w ∧ w.shape = [2, 2] := by
  have s1 : Sized Ex.dims [['i', 'j'], ['j', 'k']] [Ex.m23.shape, Ex.m32.shape] := .cons (by decide) (.cons (by decide) .nil)
  obtain ⟨p, hp, -⟩ := einsumPath_ok (operands := [Ex.m23, Ex.m32]) Ex.denotes_matmul s1 h (.inl rfl)
  refine ⟨p, hp, ?_⟩
  obtain ⟨w, t₀, u₀, w1, -, -, w2⟩ := (C79_tensordot h _ Ex.m23 Ex.m32 ['i', 'j'] ['j', 'k'] ['j'] ['i', 'k'] Ex.dims
    Ex.denotes_matmul s1 p hp ⟨by decide, by decide, by decide, by decide⟩ (by decide) (by simp)
    (fun c => by
      simp only [List.mem_cons, List.not_mem_nil, or_false]
      refine ⟨fun e => ⟨.inr e, .inl e⟩, ?_⟩
      rintro ⟨rfl | e, e' | e'⟩
      · exact e'
      · exact absurd e' (by decide)
      · exact e
      · exact e) Ex.m32 Ex.m23
    (Ex.elems Ex.m32) (Ex.elems Ex.m23) Ex.e32 Ex.e23 (fun c => if c = 'i' then 3 else 2)
    (fun c => if c = 'j' then 2 else 3) (by decide) (by decide) al).1 (by decide) (by decide)
  exact ⟨w, w1, w2.2.1.trans (by decide)⟩

namespace Ex
/-- Lengths: `j ↦ 1`, everything else `3`. -/
def dims133 (c : Char) : Nat := if c = 'j' then 1 else 3

theorem denotes_jii : Denotes "jii->ji" [['j', 'i', 'i']] ['j', 'i'] :=
  .inl ⟨by decide, ⟨by simp, by simp [Letter], by simp [Letter]⟩, by simp [OutputOk, Used]⟩
end Ex

/-- C79, finding: with one axis longer and another shorter than compiled the result can have elements off the diagonal: the
diagonals of a 1 by 3 by 3 array, taken of a 2 by 2 by 2 array, end with the element at `[1, 1, 0]`. -/
theorem C79_mixed {B : Type} (h : HashOrd) (v₀ : View B) (hs : v₀.shape = [1, 3, 3]) (m : OptimizationMethod) (p : EinsumPath)
    (hp : einsumPath h "jii->ji" [v₀] m = .ok (.ok p)) :
    View.read (⟨[0, 1, 2, 3, 4, 5, 6, 7], 0, [2, 2, 2], [4, 2, 1]⟩ : View Int) [1, 1, 0] = .ok 6 ∧
    p.contractOperands (Alloc.rowMajor Int) [⟨[0, 1, 2, 3, 4, 5, 6, 7], 0, [2, 2, 2], [4, 2, 1]⟩] =
      .ok ⟨[0, 3, 6], 0, [1, 3], [3, 1]⟩ := by
  refine ⟨rfl, ?_⟩
  obtain ⟨sc, c, rfl, h1, h2, h3, h4⟩ := path_one (dims := Ex.dims133) Ex.denotes_jii
    (by rw [hs]; exact .cons (by decide) .nil) hp
  obtain ⟨new, d1, d2, d3⟩ := diag_parts h1 h2 (by decide) h4
  have hnew : new = [] := by
    rw [List.eq_nil_iff_forall_not_mem]
    intro c hc
    have := (d2 c).1 hc
    rw [h3] at this
    simp at this
    tauto
  rcases d3 with ⟨-, e⟩ | ⟨hne, -⟩
  · show c.op.run _ _ = _
    rw [e, h3]
    have o : strideOrder [4, 3] = [1, 0] := by
      simp [strideOrder, List.mergeSort, List.range, List.range.loop, List.MergeSort.Internal.splitInTwo]
    have o' : strideOrder [4, 2, 1] = [2, 1, 0] := by
      simp [strideOrder, List.mergeSort, List.range, List.range.loop, List.MergeSort.Internal.splitInTwo]
    have f : fromShapeStrides [1, 3] [4, 3] [(0 : Int), 1, 2, 3, 4, 5, 6, 7] = some ⟨[0, 1, 2, 3, 4, 5, 6, 7], 0, [1, 3], [4, 3]⟩ := by
      unfold fromShapeStrides
      rw [show [4, 3].map Int.ofNat = [4, 3] from rfl, o]
      rfl
    have w : Diagonalization.view ⟨[0, 1, 1], [1, 3]⟩ ⟨[(0 : Int), 1, 2, 3, 4, 5, 6, 7], 0, [2, 2, 2], [4, 2, 1]⟩ =
        .ok ⟨[0, 1, 2, 3, 4, 5, 6, 7], 0, [1, 3], [4, 3]⟩ := by
      have a : (⟨[0, 1, 2, 3, 4, 5, 6, 7], 0, [2, 2, 2], [4, 2, 1]⟩ : View Int).asSliceMemoryOrder =
          some [0, 1, 2, 3, 4, 5, 6, 7] := by
        unfold View.asSliceMemoryOrder
        have : isContiguous [2, 2, 2] [4, 2, 1] = true := by unfold isContiguous; rw [o']; rfl
        simp only [this]
        rfl
      unfold Diagonalization.view
      rw [a, show diagStrides [0, 1, 1] ([1, 3].map fun _ => 0) 0 [4, 2, 1] = .ok [4, 3] from rfl, bind_ok]
      simp only [unwrapO, bind_ok, f]
    have t : (⟨[0, 1, 2, 3, 4, 5, 6, 7], 0, [2, 2, 2], [4, 2, 1]⟩ : View Int).toVec = .ok [0, 1, 2, 3, 4, 5, 6, 7] := by
      decide +kernel
    show Diagonalization.run ⟨[0, 1, 1], [1, 3]⟩ _ _ = _
    unfold Diagonalization.run
    rw [t, bind_ok, show fromShapeVec [2, 2, 2] [(0 : Int), 1, 2, 3, 4, 5, 6, 7] =
      some ⟨[0, 1, 2, 3, 4, 5, 6, 7], 0, [2, 2, 2], [4, 2, 1]⟩ from by decide +kernel]
    simp only [w, bind_ok]
    decide +kernel
  · exact absurd hnew hne

/-- There is such a path. -/
example (h : HashOrd) : ∃ p, einsumPath h "jii->ji" [(⟨[1, 2, 3, 4, 5, 6, 7, 8, 9], 0, [1, 3, 3], [9, 3, 1]⟩ : View Int)]
    .naive = .ok (.ok p) := by
  obtain ⟨p, hp, -⟩ := einsumPath_ok (dims := Ex.dims133) (operands := [(⟨[1, 2, 3, 4, 5, 6, 7, 8, 9], 0, [1, 3, 3], [9, 3, 1]⟩ : View Int)])
    Ex.denotes_jii (.cons (by decide) .nil) h (.inl rfl)
  exact ⟨p, hp⟩

end Einsum
