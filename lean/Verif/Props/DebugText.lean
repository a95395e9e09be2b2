import Verif.Props.Debug
import Verif.Props.Resized

/-!
# Property C56, continued: the text that a path prints, up to the fields of the contractors
-/

namespace Einsum

open Spec

/-- The name of a method, and of its contractor, as declared in the source. -/
def singletonName : SingletonMethod → String
  | .identity => "Identity"
  | .permutation => "Permutation"
  | .summation => "Summation"
  | .diagonalization => "Diagonalization"
  | .permutationAndSummation => "PermutationAndSummation"
  | .diagonalizationAndSummation => "DiagonalizationAndSummation"

/-- The name of a method, and of its contractor, as declared in the source. -/
def pairName : PairMethod → String
  | .hadamardProduct => "HadamardProduct"
  | .hadamardProductGeneral => "HadamardProductGeneral"
  | .tensordotFixedPosition => "TensordotFixedPosition"
  | .tensordotGeneral => "TensordotGeneral"
  | .scalarMatrixProduct => "ScalarMatrixProduct"
  | .scalarMatrixProductGeneral => "ScalarMatrixProductGeneral"
  | .matrixScalarProduct => "MatrixScalarProduct"
  | .matrixScalarProductGeneral => "MatrixScalarProductGeneral"
  | .broadcastProductGeneral => "BroadcastProductGeneral"
  | .stackedTensordotGeneral => "StackedTensordotGeneral"

/-- The text for an operand with the labels `L`, of which `keep` are needed further on. It is "None" exactly if nothing
is simplified; otherwise the labels `N` are kept. -/
def Spec.SimplificationText (L : List Char) (keep : Char → Prop) (N : List Char) (txt : String) : Prop :=
  (L.Nodup ∧ (∀ c ∈ L, keep c) → txt = "None" ∧ N = L) ∧
  (¬ (L.Nodup ∧ ∀ c ∈ L, keep c) → N.Nodup ∧ (∀ c, c ∈ N ↔ c ∈ L ∧ keep c) ∧
    ∃ fields, txt = "Some(SingletonContraction { method: " ++ singletonName (singletonMethod L N) ++ ", op: " ++
      singletonName (singletonMethod L N) ++ fields ++ ", new_indices: [" ++
      ", ".intercalate (N.map fun c => "'" ++ String.singleton c ++ "'") ++ "], einsum_string: \"" ++
      text [L] N ++ "\" })")

/-- The text for a step that contracts arrays with the labels `L` and `R` to `out`. The closing brace is missing. -/
def Spec.StepText (L R out : List Char) (txt : String) : Prop :=
  ∃ lhs rhs fields N M, txt = "PairContraction { lhs_simplification: " ++ lhs ++
      ", rhs_simplification: " ++ rhs ++ ", method: " ++ pairName (pairMethod L R out) ++ ", op: " ++
      pairName (pairMethod L R out) ++ fields ++ ", simplified_einsum_string: \"" ++ text [N, M] out ++ "\"" ∧
    Spec.SimplificationText L (fun c => c ∈ R ∨ c ∈ out) N lhs ∧
    Spec.SimplificationText R (fun c => c ∈ L ∨ c ∈ out) M rhs

theorem singletonOp_text {sc : SizedContraction} {m : SingletonMethod} {op : SingletonOp}
    (h : SingletonOp.new sc m = .ok op) : ∃ fields, op.debug = singletonName m ++ fields := by
  cases m <;> simp only [SingletonOp.new] at h
  · cases h
    exact ⟨"", by decide⟩
  all_goals
    obtain ⟨x, -, h⟩ := bind_eq_ok.1 h
    cases h
    exact ⟨_, by
      simp only [SingletonOp.debug, Permutation.debug, Summation.debug, Diagonalization.debug,
        PermutationAndSummation.debug, DiagonalizationAndSummation.debug, debugStruct, String.append_assoc]
      rfl⟩

theorem pairOp_text {sc : SizedContraction} {m : PairMethod} {op : PairOp}
    (h : PairOp.new sc m = .ok op) : ∃ fields, op.debug = pairName m ++ fields := by
  cases m <;> simp only [PairOp.new] at h
  all_goals
    obtain ⟨x, -, h⟩ := bind_eq_ok.1 h
    cases h
    first
    | exact ⟨"", by decide⟩
    | exact ⟨_, by
        simp only [PairOp.debug, TensordotFixedPosition.debug, TensordotGeneral.debug, HadamardProductGeneral.debug,
          ScalarMatrixProductGeneral.debug, MatrixScalarProductGeneral.debug, BroadcastProductGeneral.debug,
          StackedTensordotGeneral.debug, debugStruct, String.append_assoc]
        rfl⟩

theorem singletonMethod_text (m : SingletonMethod) : m.debug = singletonName m := by cases m <;> rfl

theorem pairMethod_text (m : PairMethod) : m.debug = pairName m := by cases m <;> rfl

/-- C56: what a path of one operand prints: the selected method and the contractor of the same name. -/
theorem C56_single {A : Type} (h : HashOrd) (s : String) (v : View A) (L out : List Char) (dims : Char → Nat)
    (hd : Denotes s [L] out) (hs : Sized dims [L] [v.shape]) (m : OptimizationMethod) (p : EinsumPath)
    (hp : einsumPath h s [v] m = .ok (.ok p)) :
    ∃ fields, p.debug = "only_step: SingletonContraction { method: " ++ singletonName (singletonMethod L out) ++
      ", op: " ++ singletonName (singletonMethod L out) ++ fields ++ " }" := by
  obtain ⟨sc, c, rfl, h1, h2, h3, h4⟩ := path_one hd hs hp
  obtain ⟨q, q1, q2⟩ := singleton_method h1 h2
  rw [h4] at q1
  cases q1
  unfold SingletonContraction.new at h4
  obtain ⟨sm, -, h4⟩ := bind_eq_ok.1 h4
  obtain ⟨op, g, h4⟩ := bind_eq_ok.1 h4
  cases h4
  obtain ⟨f, hf⟩ := singletonOp_text g
  rw [h3] at q2
  simp only at q2
  refine ⟨f, ?_⟩
  simp only [EinsumPath.debug, SingletonContraction.debug, writePieces, singletonMethod_text, hf, q2,
    String.append_assoc, String.append_empty]
  rfl

theorem commaSep_eq (l : List String) : commaSep l = ", ".intercalate l := by
  induction l with
  | nil => decide
  | cons a l ih =>
    cases l with
    | nil => simp [commaSep]
    | cons b l => rw [commaSep, ih, String.intercalate_cons_cons]

theorem simplification_text {sc : SizedContraction} {dims : Char → Nat} (hv : sc.Valid dims) {k : HashOrd}
    {L R out : List Char} (hL : ∀ c ∈ L, c ∈ sc.contraction.operandIndices.flatten)
    {x : Option SimplificationMethodAndOutput}
    (hx : SimplificationMethodAndOutput.fromIndicesAndSizes k L R out sc = .ok x) :
    (L.Nodup ∧ (∀ c ∈ L, c ∈ R ∨ c ∈ out) ∧ debugOption SimplificationMethodAndOutput.debug x = "None" ∧
      newIndicesOr x L = L) ∨
    (¬ (L.Nodup ∧ ∀ c ∈ L, c ∈ R ∨ c ∈ out)) ∧ ∃ N fields, newIndicesOr x L = N ∧ N.Nodup ∧
      (∀ c, c ∈ N ↔ c ∈ L ∧ (c ∈ R ∨ c ∈ out)) ∧ debugOption SimplificationMethodAndOutput.debug x =
        "Some(SingletonContraction { method: " ++ singletonName (singletonMethod L N) ++ ", op: " ++
          singletonName (singletonMethod L N) ++ fields ++ ", new_indices: [" ++
          ", ".intercalate (N.map fun c => "'" ++ String.singleton c ++ "'") ++ "], einsum_string: \"" ++
          text [L] N ++ "\" })" := by
  obtain ⟨s, s1, s2⟩ := simplification_parts hv k (R := R) (out := out) hL
  rw [hx] at s1
  cases s1
  rcases s2 with ⟨rfl, hn⟩ | ⟨hn, y, rfl, y1, y2, y3, y4, -⟩
  · unfold NeedsSimplification at hn
    push Not at hn
    refine .inl ⟨hn.1, fun c hc => ?_, by decide, rfl⟩
    by_cases g : c ∈ R
    · exact .inl g
    · exact .inr (hn.2 c hc g)
  · refine .inr ⟨fun ⟨a, b⟩ => ?_, y.newIndices, ?_⟩
    · rcases hn with hn | ⟨c, c1, c2, c3⟩
      · exact hn a
      · exact (b c c1).elim c2 c3
    have key : ∃ f, y.op.debug = singletonName y.method ++ f := by
      unfold SimplificationMethodAndOutput.fromIndicesAndSizes at hx
      obtain ⟨sc', -, hx⟩ := bind_eq_ok.1 hx
      obtain ⟨c, hc, hx⟩ := bind_eq_ok.1 hx
      unfold SingletonContraction.new at hc
      obtain ⟨sm, -, hc⟩ := bind_eq_ok.1 hc
      obtain ⟨op, g, hc⟩ := bind_eq_ok.1 hc
      cases hc
      split at hx
      · cases hx
      · cases hx
      · obtain ⟨str, -, hx⟩ := bind_eq_ok.1 hx
        cases hx
        exact singletonOp_text g
    obtain ⟨f, hf⟩ := key
    refine ⟨f, rfl, y1, y2, ?_⟩
    simp only [debugOption, SimplificationMethodAndOutput.debug, writePieces, singletonMethod_text, hf, ← y3, y4,
      debugChars, debugVec, debugString, commaSep_eq, String.append_assoc, String.append_empty]
    rfl

theorem pair_text {sc : SizedContraction} {dims : Char → Nat} (h1 : sc.Valid dims) {L R : List Char}
    (h2 : sc.contraction.operandIndices = [L, R]) {k : HashOrd} {c : PairContraction}
    (h4 : PairContraction.new k sc = .ok c) : StepText L R sc.contraction.outputIndices c.debug := by
  obtain ⟨q, q1, q2, q3, q4, q5, -⟩ := pair_parts h1 h2 k
  rw [h4] at q1
  cases q1
  have hL : ∀ c ∈ L, c ∈ sc.contraction.operandIndices.flatten := by rw [h2]; intro c hc; simp [hc]
  have hR : ∀ c ∈ R, c ∈ sc.contraction.operandIndices.flatten := by rw [h2]; intro c hc; simp [hc]
  have tl := simplification_text h1 hL q2
  have tr := simplification_text h1 hR q3
  have key : ∃ f, c.op.debug = pairName c.method ++ f := by
    unfold PairContraction.new at h4
    obtain ⟨-, -, h4⟩ := bind_eq_ok.1 h4
    obtain ⟨a, -, h4⟩ := bind_eq_ok.1 h4
    obtain ⟨b, -, h4⟩ := bind_eq_ok.1 h4
    obtain ⟨ls, -, h4⟩ := bind_eq_ok.1 h4
    obtain ⟨rs, -, h4⟩ := bind_eq_ok.1 h4
    obtain ⟨red, -, h4⟩ := bind_eq_ok.1 h4
    obtain ⟨sm, -, h4⟩ := bind_eq_ok.1 h4
    obtain ⟨op, g, h4⟩ := bind_eq_ok.1 h4
    obtain ⟨str, -, h4⟩ := bind_eq_ok.1 h4
    cases h4
    exact pairOp_text g
  obtain ⟨f, hf⟩ := key
  refine ⟨debugOption SimplificationMethodAndOutput.debug c.lhsSimplification,
    debugOption SimplificationMethodAndOutput.debug c.rhsSimplification, f, newIndicesOr c.lhsSimplification L,
    newIndicesOr c.rhsSimplification R, ?_, ⟨?_, ?_⟩, ⟨?_, ?_⟩⟩
  · simp only [PairContraction.debug, writePieces, pairMethod_text, hf, q4, q5, debugString, String.append_assoc,
      String.append_empty]
    rfl
  · intro g
    rcases tl with ⟨-, -, a, b⟩ | ⟨a, -⟩
    · exact ⟨a, b⟩
    · exact absurd g a
  · intro g
    rcases tl with ⟨a, b, -⟩ | ⟨-, N, f, rfl, a, b, c⟩
    · exact absurd ⟨a, b⟩ g
    · exact ⟨a, b, f, c⟩
  · intro g
    rcases tr with ⟨-, -, a, b⟩ | ⟨a, -⟩
    · exact ⟨a, b⟩
    · exact absurd g a
  · intro g
    rcases tr with ⟨a, b, -⟩ | ⟨-, N, f, rfl, a, b, c⟩
    · exact absurd ⟨a, b⟩ g
    · exact ⟨a, b, f, c⟩

theorem compileSteps_forall {h : HashOrd} {steps : List PairStep} {cs : List PairContraction}
    (hc : compileSteps h steps = .ok cs) :
    List.Forall₂ (fun st c => ∃ h', PairContraction.new h' st.sizedContraction = .ok c) steps cs := by
  induction steps generalizing h cs with
  | nil =>
    obtain rfl : [] = cs := by simpa [compileSteps] using hc
    exact .nil
  | cons st steps ih =>
    simp only [compileSteps] at hc
    obtain ⟨c, h1, hc⟩ := bind_eq_ok.1 hc
    obtain ⟨cs', h2, hc⟩ := bind_eq_ok.1 hc
    obtain rfl : c :: cs' = cs := by simpa using hc
    exact .cons ⟨_, h1⟩ (ih h2)

/-- C56: what a path of any number of operands prints: the text of each step of its order, in order. -/
theorem C56_steps {A : Type} (h : HashOrd) (s : String) (operands : List (View A)) (inputs : List (List Char))
    (out : List Char) (dims : Char → Nat) (hd : Denotes s inputs out)
    (hs : Sized dims inputs (operands.map View.shape)) (h2 : 2 ≤ inputs.length) (m : OptimizationMethod)
    (hm : m = .naive ∨ m = .reverse) (p : EinsumPath) (hp : einsumPath h s operands m = .ok (.ok p)) :
    ∃ steps texts, p.contractionOrder = .pairs steps ∧ steps.length = inputs.length - 1 ∧
      p.debug = "steps: [" ++ ", ".intercalate texts ++ "]" ∧
      List.Forall₂ (fun st txt => ∃ L R, st.sizedContraction.contraction.operandIndices = [L, R] ∧
        StepText L R st.sizedContraction.contraction.outputIndices txt) steps texts := by
  have hv : (callSC inputs out dims).Valid dims := callSC_valid hd.outputOk
  obtain ⟨order, o1, o2, -⟩ := order_eq (callSC inputs out dims) m hm ((h.sub 0).sub 1)
  simp only [einsumPath, validateAndOptimizeOrder, validateAndSize_ok ((h.sub 0).sub 0) hd hs, o2] at hp
  rcases path_shape hv ((h.sub 0).sub 1) (order := order) hd.inputs_ne.1 o1 with
    ⟨psc, ix, e, -⟩ | ⟨first, nums, lhs, rest, steps, -, a2, -, -, a5, a6, a7⟩
  · change inputs = [ix] at e
    subst e
    simp at h2
  · rw [a5] at hp
    change (EinsumPath.fromPath (h.sub 1) (.pairs steps) >>= fun p => pure (Except.ok p)) = _ at hp
    simp only [EinsumPath.fromPath] at hp
    obtain ⟨q, q1, q2⟩ := bind_eq_ok.1 hp
    obtain ⟨cs, c1, c2⟩ := bind_eq_ok.1 q1
    obtain rfl : q = p := by simpa using q2
    obtain rfl : _ = q := by simpa using c2
    refine ⟨steps, cs.map PairContraction.debug, rfl, ?_, ?_, ?_⟩
    · have hpick : (lhs :: rest).Perm inputs := a2 ▸ pick_perm inputs [] (by simpa [callSC] using o1)
      rw [a6, ← hpick.length_eq]
      simp
    · simp only [EinsumPath.debug, debugVec, commaSep_eq, writePieces, String.append_assoc, String.append_empty]
      rfl
    · rw [List.forall₂_map_right_iff]
      refine List.forall₂_iff_get.2 ⟨(compileSteps_forall c1).length_eq, fun i g1 g2 => ?_⟩
      have hk : steps[i]? = some (steps.get ⟨i, g1⟩) := by simp [g1]
      obtain ⟨h', hc⟩ := (List.forall₂_iff_get.1 (compileSteps_forall c1)).2 i g1 g2
      have hst := a7 i _ hk
      obtain ⟨l, r, e, -⟩ := hst.labels
      exact ⟨l, r, e, pair_text hst.valid e hc⟩

/-- C56: what a path of two operands prints. -/
theorem C56_two {A : Type} (h : HashOrd) (s : String) (l r : View A) (L R out : List Char) (dims : Char → Nat)
    (hd : Denotes s [L, R] out) (hs : Sized dims [L, R] [l.shape, r.shape]) (p : EinsumPath)
    (hp : einsumPath h s [l, r] .naive = .ok (.ok p)) :
    ∃ txt, p.debug = "steps: [" ++ txt ++ "]" ∧ StepText L R out txt := by
  obtain ⟨sc, k, c, rfl, h1, h2, h3, h4⟩ := path_two hd hs hp
  refine ⟨c.debug, ?_, h3 ▸ pair_text h1 h2 h4⟩
  simp only [EinsumPath.debug, List.map_cons, List.map_nil, debugVec, commaSep, writePieces, String.append_assoc,
    String.append_empty]
  rfl

example (h : HashOrd) : ∃ p fields, einsumPath h "jjk->k" [Ex.m332] .naive = .ok (.ok p) ∧
    p.debug = "only_step: SingletonContraction { method: DiagonalizationAndSummation, op: DiagonalizationAndSummation" ++
      fields ++ " }" := by
  obtain ⟨p, hp, -⟩ := einsumPath_ok Ex.call_trace.denotes Ex.call_trace.sized h (.inl rfl)
  obtain ⟨f, hf⟩ := C56_single h _ _ _ _ _ Ex.call_trace.denotes Ex.call_trace.sized _ p hp
  exact ⟨p, f, hp, hf⟩

example (h : HashOrd) : ∃ p fields, einsumPath h "ij,jk->ik" [Ex.m23, Ex.m32] .naive = .ok (.ok p) ∧
    p.debug = "steps: [PairContraction { lhs_simplification: None, rhs_simplification: None, method: TensordotGeneral, " ++
      "op: TensordotGeneral" ++ fields ++ ", simplified_einsum_string: \"ij,jk->ik\"]" := by
  have s1 : Sized Ex.dims [['i', 'j'], ['j', 'k']] [Ex.m23.shape, Ex.m32.shape] := .cons (by decide) (.cons (by decide) .nil)
  obtain ⟨p, hp, -⟩ := einsumPath_ok (operands := [Ex.m23, Ex.m32]) Ex.denotes_matmul s1 h (.inl rfl)
  obtain ⟨t, e, x, y, f, N, M, rfl, ⟨a, -⟩, ⟨b, -⟩⟩ := C56_two h _ _ _ _ _ _ _ Ex.denotes_matmul s1 p hp
  obtain ⟨rfl, rfl⟩ := a (by decide)
  obtain ⟨rfl, rfl⟩ := b (by decide)
  refine ⟨p, f, hp, e.trans ?_⟩
  simp only [String.append_assoc]
  rfl

example (h : HashOrd) : ∃ p steps a b, einsumPath h "ij,jjk,kj->ij" [Ex.m23, Ex.m332, Ex.m23] .reverse = .ok (.ok p) ∧
    p.contractionOrder = .pairs steps ∧ p.debug = "steps: [" ++ a ++ ", " ++ b ++ "]" := by
  obtain ⟨p, hp, -⟩ := einsumPath_ok Ex.call_three.denotes Ex.call_three.sized h (.inr rfl)
  obtain ⟨steps, t, h1, h2, h3, h4⟩ := C56_steps h _ _ _ _ _ Ex.call_three.denotes Ex.call_three.sized (by decide) _
    (.inr rfl) p hp
  rw [h4.length_eq] at h2
  obtain ⟨a, b, rfl⟩ := List.length_eq_two.1 h2
  refine ⟨p, steps, a, b, hp, h1, h3.trans ?_⟩
  simp only [String.intercalate_cons_cons, String.intercalate_singleton, String.append_assoc]

end Einsum
