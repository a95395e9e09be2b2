import Verif.Model.Debug
import Verif.Props.Order
import Verif.Props.Selection

/-!
# Property C56: the `Debug` output of paths
-/

namespace Einsum

open Spec

/-- Opening minus closing braces. -/
def excess (s : String) : Int := (s.toList.count '{' : Int) - s.toList.count '}'

theorem excess_append (s t : String) : excess (s ++ t) = excess s + excess t := by
  simp only [excess, String.toList_append, List.count_append]
  push_cast
  ring

theorem excess_zero {s : String} (h : '{' ∉ s.toList ∧ '}' ∉ s.toList) : excess s = 0 := by
  simp [excess, List.count_eq_zero.2 h.1, List.count_eq_zero.2 h.2]

theorem excess_writePieces (l : List String) : excess (writePieces l) = (l.map excess).sum := by
  induction l with
  | nil => decide
  | cons x l ih => rw [writePieces, excess_append, ih, List.map_cons, List.sum_cons]

theorem excess_commaSep (l : List String) : excess (commaSep l) = (l.map excess).sum := by
  have h : excess ", " = 0 := by decide
  induction l with
  | nil => decide
  | cons x l ih =>
    cases l with
    | nil => simp [commaSep]
    | cons y l => rw [commaSep, excess_append, excess_append, ih, h]; simp

theorem excess_debugVec (l : List String) : excess (debugVec l) = (l.map excess).sum := by
  have h : excess "[" = 0 ∧ excess "]" = 0 := by decide
  rw [debugVec, excess_append, excess_append, excess_commaSep, h.1, h.2]
  omega

theorem excess_repr (n : Nat) : excess n.repr = 0 := by
  apply excess_zero
  rw [Nat.toList_repr]
  constructor <;> intro h
  · have := Nat.isDigit_of_mem_toDigits (by decide) (by decide) h
    simp at this
  · have := Nat.isDigit_of_mem_toDigits (by decide) (by decide) h
    simp at this

theorem excess_debugNats (l : List Nat) : excess (debugNats l) = 0 := by
  rw [debugNats, excess_debugVec, List.map_map]
  apply List.sum_eq_zero
  intro x hx
  obtain ⟨n, -, rfl⟩ := List.mem_map.1 hx
  exact excess_repr n

theorem excess_debugStruct (name : String) (fields : List (String × String)) :
    excess (debugStruct name fields) = excess name + (fields.map fun f => excess f.1 + excess f.2).sum := by
  have h : excess " { " = 1 ∧ excess " }" = -1 ∧ excess ": " = 0 := by decide
  rw [debugStruct, excess_append, excess_append, excess_append, excess_commaSep, h.1, h.2.1, List.map_map]
  have : (excess ∘ fun f : String × String => f.1 ++ ": " ++ f.2) = fun f => excess f.1 + excess f.2 := by
    funext f
    simp [excess_append, h.2.2]
  rw [this]
  omega

theorem excess_permutation (p : Permutation) : excess p.debug = 0 := by
  simp (decide := true) [Permutation.debug, excess_debugStruct, excess_debugNats, excess_zero]

theorem excess_summation (p : Summation) : excess p.debug = 0 := by
  simp (decide := true) [Summation.debug, excess_debugStruct, excess_debugNats, excess_zero]

theorem excess_diagonalization (p : Diagonalization) : excess p.debug = 0 := by
  simp (decide := true) [Diagonalization.debug, excess_debugStruct, excess_debugNats, excess_zero]

theorem excess_fixed (p : TensordotFixedPosition) : excess p.debug = 0 := by
  simp (decide := true) [TensordotFixedPosition.debug, excess_debugStruct, excess_debugNats, excess_repr, excess_zero]

theorem excess_singletonOp (o : SingletonOp) : excess o.debug = 0 := by
  cases o <;> simp (decide := true) [SingletonOp.debug, PermutationAndSummation.debug, DiagonalizationAndSummation.debug,
    excess_debugStruct, excess_permutation, excess_summation, excess_diagonalization, excess_zero]

theorem excess_pairOp (o : PairOp) : excess o.debug = 0 := by
  cases o <;> simp (decide := true) [PairOp.debug, TensordotGeneral.debug, HadamardProductGeneral.debug,
    ScalarMatrixProductGeneral.debug, MatrixScalarProductGeneral.debug, BroadcastProductGeneral.debug,
    StackedTensordotGeneral.debug, excess_debugStruct, excess_debugNats, excess_permutation, excess_fixed, excess_zero]

theorem excess_singletonMethod (m : SingletonMethod) : excess m.debug = 0 := by
  cases m <;> decide

theorem excess_pairMethod (m : PairMethod) : excess m.debug = 0 := by
  cases m <;> decide

theorem excess_singleton (c : SingletonContraction) : excess c.debug = 0 := by
  have h : excess "SingletonContraction { method: " = 1 ∧ excess " }" = -1 ∧ excess ", op: " = 0 := by decide
  simp only [SingletonContraction.debug, excess_writePieces, List.map_cons, List.map_nil, List.sum_cons, List.sum_nil, excess_singletonOp, excess_singletonMethod, h.1, h.2.1, h.2.2]
  omega

theorem letter_not_brace {c : Char} (h : Letter c) : c ≠ '{' ∧ c ≠ '}' := by
  constructor <;> rintro rfl <;> simp [Letter] at h

theorem mem_commaJoin {c : Char} {ps : List (List Char)} (h : c ∈ commaJoin ps) : c = ',' ∨ ∃ p ∈ ps, c ∈ p := by
  induction ps with
  | nil => simp [commaJoin] at h
  | cons p ps ih =>
    simp only [commaJoin, List.mem_cons, List.mem_append] at h
    rcases h with h | h | h
    · exact .inl h
    · exact .inr ⟨p, by simp, h⟩
    · rcases ih h with h | ⟨q, h, h'⟩
      · exact .inl h
      · exact .inr ⟨q, by simp [h], h'⟩

theorem excess_text {inputs : List (List Char)} {out : List Char} (hi : ∀ p ∈ inputs, ∀ c ∈ p, Letter c)
    (ho : ∀ c ∈ out, Letter c) : excess (text inputs out) = 0 := by
  have key : ∀ c ∈ (text inputs out).toList, c ≠ '{' ∧ c ≠ '}' := by
    intro c hc
    simp only [text, String.toList_ofList, render, List.mem_append, List.mem_cons] at hc
    rcases hc with hc | hc | hc | hc
    · cases inputs with
      | nil => simp at hc
      | cons p ps =>
        rw [intercalate_cons, List.mem_append] at hc
        rcases hc with hc | hc
        · exact letter_not_brace (hi p (by simp) c hc)
        · rcases mem_commaJoin hc with rfl | ⟨q, h1, h2⟩
          · decide
          · exact letter_not_brace (hi q (by simp [h1]) c h2)
    · subst hc; decide
    · subst hc; decide
    · exact letter_not_brace (ho c hc)
  exact excess_zero ⟨fun h => (key _ h).1 rfl, fun h => (key _ h).2 rfl⟩

theorem excess_debugChars {l : List Char} (h : ∀ c ∈ l, Letter c) : excess (debugChars l) = 0 := by
  rw [debugChars, excess_debugVec, List.map_map]
  apply List.sum_eq_zero
  intro x hx
  obtain ⟨c, hc, rfl⟩ := List.mem_map.1 hx
  have hb := letter_not_brace (h c hc)
  have hq : excess "'" = 0 := by decide
  have h1 : excess (String.singleton c) = 0 :=
    excess_zero (by simpa [String.toList_singleton] using And.intro hb.1.symm hb.2.symm)
  simp only [Function.comp, excess_append, hq, h1]
  omega

theorem excess_debugString {s : String} (h : excess s = 0) : excess (debugString s) = 0 := by
  have hq : excess "\"" = 0 := by decide
  simp only [debugString, excess_append, hq, h]
  omega

theorem excess_simplification {s : Option SimplificationMethodAndOutput}
    (h : ∀ x ∈ s, (∀ c ∈ x.newIndices, Letter c) ∧ excess x.einsumString = 0) :
    excess (debugOption SimplificationMethodAndOutput.debug s) = 0 := by
  cases s with
  | none => decide
  | some x =>
    have hx := h x rfl
    have e1 : excess "Some(" = 0 := by decide
    have e2 : excess ")" = 0 := by decide
    have e3 : excess "SingletonContraction { method: " = 1 := by decide
    have e4 : excess " }" = -1 := by decide
    have e5 : excess ", op: " = 0 := by decide
    have e6 : excess ", new_indices: " = 0 := by decide
    have e7 : excess ", einsum_string: " = 0 := by decide
    simp only [debugOption, SimplificationMethodAndOutput.debug, excess_writePieces, List.map_cons, List.map_nil, List.sum_cons, List.sum_nil, excess_singletonMethod,
      excess_singletonOp, excess_debugChars hx.1, excess_debugString hx.2, e1, e2, e3, e4, e5, e6, e7]
    omega

/-- A pair contraction prints one closing brace too few. -/
theorem excess_pairContraction {sc : SizedContraction} {dims : Char → Nat} {L R : List Char} (hv : sc.Valid dims)
    (hops : sc.contraction.operandIndices = [L, R]) (hl : ∀ c, c ∈ L ∨ c ∈ R → Letter c) {h : HashOrd}
    {p : PairContraction} (hp : PairContraction.new h sc = .ok p) : excess p.debug = 1 := by
  obtain ⟨q, q1, q2, q3, -, q5, -⟩ := pair_parts hv hops h
  obtain rfl : q = p := by rw [hp] at q1; simpa using q1.symm
  have ho : ∀ c ∈ sc.contraction.outputIndices, c ∈ L ∨ c ∈ R := fun c hc => by
    obtain ⟨x, hx, hcx⟩ := hv.out.2 c hc
    rw [hops] at hx
    simp only [List.mem_cons, List.not_mem_nil, or_false] at hx
    rcases hx with rfl | rfl
    · exact .inl hcx
    · exact .inr hcx
  have key : ∀ {k : HashOrd} {L' R' : List Char} {s : Option SimplificationMethodAndOutput},
      (∀ c ∈ L', Letter c) → (∀ c ∈ L', c ∈ sc.contraction.operandIndices.flatten) →
      SimplificationMethodAndOutput.fromIndicesAndSizes k L' R' sc.contraction.outputIndices sc = .ok s →
      (∀ x ∈ s, (∀ c ∈ x.newIndices, Letter c) ∧ excess x.einsumString = 0) ∧ ∀ c ∈ newIndicesOr s L', Letter c := by
    intro k L' R' s h1 h2 h3
    obtain ⟨s', s1, s2⟩ := simplification_parts hv k (L := L') (R := R') (out := sc.contraction.outputIndices) h2
    obtain rfl : s' = s := by rw [h3] at s1; simpa using s1.symm
    rcases s2 with ⟨rfl, -⟩ | ⟨-, x, rfl, -, x2, -, x4, -⟩
    · exact ⟨by simp, h1⟩
    · have hx : ∀ c ∈ x.newIndices, Letter c := fun c hc => h1 c ((x2 c).1 hc).1
      refine ⟨fun y hy => ?_, hx⟩
      obtain rfl : x = y := by simpa using hy
      exact ⟨hx, by rw [x4]; exact excess_text (by simpa using h1) hx⟩
  obtain ⟨l1, l2⟩ := key (fun c hc => hl c (.inl hc)) (fun c hc => by simp [hops, hc]) q2
  obtain ⟨r1, r2⟩ := key (fun c hc => hl c (.inr hc)) (fun c hc => by simp [hops, hc]) q3
  have hs : excess q.simplifiedEinsumString = 0 := by
    rw [q5]
    refine excess_text ?_ fun c hc => hl c (ho c hc)
    simp only [List.mem_cons, List.not_mem_nil, or_false]
    rintro x (rfl | rfl)
    · exact l2
    · exact r2
  have e1 : excess "PairContraction { lhs_simplification: " = 1 := by decide
  have e2 : excess ", rhs_simplification: " = 0 := by decide
  have e3 : excess ", method: " = 0 := by decide
  have e4 : excess ", op: " = 0 := by decide
  have e5 : excess ", simplified_einsum_string: " = 0 := by decide
  simp only [PairContraction.debug, excess_writePieces, List.map_cons, List.map_nil, List.sum_cons, List.sum_nil, excess_simplification l1, excess_simplification r1,
    excess_pairMethod, excess_pairOp, excess_debugString hs, e1, e2, e3, e4, e5]
  omega

theorem compileSteps_mem {h : HashOrd} {steps : List PairStep} {cs : List PairContraction}
    (hc : compileSteps h steps = .ok cs) : cs.length = steps.length ∧
      ∀ c ∈ cs, ∃ st ∈ steps, ∃ h', PairContraction.new h' st.sizedContraction = .ok c := by
  induction steps generalizing h cs with
  | nil =>
    obtain rfl : [] = cs := by simpa [compileSteps] using hc
    simp
  | cons st steps ih =>
    simp only [compileSteps] at hc
    obtain ⟨c, h1, hc⟩ := bind_eq_ok.1 hc
    obtain ⟨cs', h2, hc⟩ := bind_eq_ok.1 hc
    obtain rfl : c :: cs' = cs := by simpa using hc
    obtain ⟨i1, i2⟩ := ih h2
    refine ⟨by simp [i1], fun x hx => ?_⟩
    rcases List.mem_cons.1 hx with rfl | hx
    · exact ⟨st, by simp, _, h1⟩
    · obtain ⟨st', m, r⟩ := i2 x hx
      exact ⟨st', by simp [m], r⟩

/-- C56: the `Debug` output of a compiled path has as many closing as opening braces if there is one operand, and
otherwise lacks one closing brace for each of the `n - 1` steps. -/
theorem C56_debug {A : Type} (h : HashOrd) (s : String) (operands : List (View A)) (inputs : List (List Char))
    (out : List Char) (dims : Char → Nat) (hd : Denotes s inputs out)
    (hs : Sized dims inputs (operands.map View.shape)) (m : OptimizationMethod) (hm : m = .naive ∨ m = .reverse) :
    ∃ p, einsumPath h s operands m = .ok (.ok p) ∧
      p.debug.toList.count '{' = p.debug.toList.count '}' + (inputs.length - 1) := by
  obtain ⟨p, p1, -⟩ := einsumPath_ok hd hs h hm
  refine ⟨p, p1, ?_⟩
  suffices he : excess p.debug = ((inputs.length - 1 : Nat) : Int) by
    unfold excess at he
    omega
  have hv : (callSC inputs out dims).Valid dims := callSC_valid hd.outputOk
  obtain ⟨order, o1, o2, -⟩ := order_eq (callSC inputs out dims) m hm ((h.sub 0).sub 1)
  simp only [einsumPath, validateAndOptimizeOrder, validateAndSize_ok ((h.sub 0).sub 0) hd hs, o2] at p1
  rcases path_shape hv ((h.sub 0).sub 1) (order := order) hd.inputs_ne.1 o1 with
    ⟨psc, ix, e, g, -⟩ | ⟨first, nums, lhs, rest, steps, a1, a2, -, a4, a5, a6, a7⟩
  · change inputs = [ix] at e
    subst e
    rw [g] at p1
    change (EinsumPath.fromPath (h.sub 1) (.singleton psc) >>= fun p => pure (Except.ok p)) = _ at p1
    simp only [EinsumPath.fromPath] at p1
    obtain ⟨q, q1, q2⟩ := bind_eq_ok.1 p1
    obtain ⟨c, c1, c2⟩ := bind_eq_ok.1 q1
    obtain rfl : q = p := by simpa using q2
    obtain rfl : _ = q := by simpa using c2
    have e1 : excess "only_step: " = 0 := by decide
    simp only [EinsumPath.debug, excess_writePieces, List.map_cons, List.map_nil, List.sum_cons, List.sum_nil,
      excess_singleton, e1]
    rfl
  · rw [a5] at p1
    change (EinsumPath.fromPath (h.sub 1) (.pairs steps) >>= fun p => pure (Except.ok p)) = _ at p1
    simp only [EinsumPath.fromPath] at p1
    obtain ⟨q, q1, q2⟩ := bind_eq_ok.1 p1
    obtain ⟨cs, c1, c2⟩ := bind_eq_ok.1 q1
    obtain rfl : q = p := by simpa using q2
    obtain rfl : _ = q := by simpa using c2
    obtain ⟨l1, l2⟩ := compileSteps_mem c1
    have hpick : (lhs :: rest).Perm inputs := a2 ▸ pick_perm inputs [] (by simpa [callSC] using o1)
    have hlet : ∀ x ∈ lhs :: rest, ∀ c ∈ x, Letter c := fun x hx => (hd.inputs_ne.2 x (hpick.subset hx)).2
    have hone : ∀ c ∈ cs, excess c.debug = 1 := by
      intro c hc
      obtain ⟨st, s1, h', s2⟩ := l2 c hc
      obtain ⟨k, hk⟩ := List.mem_iff_getElem?.1 s1
      have hst := a7 k st hk
      obtain ⟨l, r, e, e2, e3, e4⟩ := hst.labels
      refine excess_pairContraction hst.valid e ?_ s2
      rintro x (hx | hx)
      · cases k with
        | zero => exact hlet lhs (by simp) x (e3 rfl ▸ hx)
        | succ j =>
          have hj : j < steps.length := by
            have := (List.getElem?_eq_some_iff.1 hk).1
            omega
          have hsj := List.getElem?_eq_getElem hj
          rw [e4 j _ rfl hsj] at hx
          rcases (((a7 j _ hsj).mem x).1 hx).1 with hm | hm
          · exact hlet lhs (by simp) x hm
          · obtain ⟨y, hy, hxy⟩ := List.mem_flatten.1 hm
            exact hlet y (by simp [List.mem_of_mem_take hy]) x hxy
      · exact hlet r (by simp [List.mem_of_getElem? e2]) x hx
    have hsum : ((cs.map PairContraction.debug).map excess).sum = (cs.length : Int) := by
      clear c1 l1 l2 c2 q1 q2 p1
      induction cs with
      | nil => rfl
      | cons c cs ih =>
        rw [List.map_cons, List.map_cons, List.sum_cons, ih fun c hc => hone c (by simp [hc]), hone c (by simp)]
        push_cast [List.length_cons]
        ring
    have e1 : excess "steps: " = 0 := by decide
    simp only [EinsumPath.debug, excess_writePieces, List.map_cons, List.map_nil, List.sum_cons, List.sum_nil,
      excess_debugVec, hsum, e1, l1, a6]
    have := hpick.length_eq
    rw [← this]
    simp

example : ∃ p, einsumPath .reversed "ij,jjk,kj->ij" [Ex.m23, Ex.m332, Ex.m23] .reverse = .ok (.ok p) ∧
    p.debug.toList.count '{' = p.debug.toList.count '}' + 2 :=
  C56_debug _ _ _ _ _ _ Ex.call_three.denotes Ex.call_three.sized _ (.inr rfl)

example : ∃ p, einsumPath .insertion "jjk->k" [Ex.m332] .naive = .ok (.ok p) ∧
    p.debug.toList.count '{' = p.debug.toList.count '}' :=
  C56_debug _ _ _ _ _ _ Ex.call_trace.denotes Ex.call_trace.sized _ (.inl rfl)

/-- The whole text, for one call: the last brace is missing. -/
def Ex.debugText : String :=
  match einsumPath .insertion "ij,jk->ik" [Ex.m23, Ex.m32] .naive with
  | .ok (.ok p) => p.debug
  | _ => ""

#guard Ex.debugText = "steps: [PairContraction { lhs_simplification: None, rhs_simplification: None, " ++
  "method: TensordotGeneral, op: TensordotGeneral { lhs_permutation: Permutation { permutation: [0, 1] }, " ++
  "rhs_permutation: Permutation { permutation: [0, 1] }, tensordot_fixed_position: TensordotFixedPosition { " ++
  "len_uncontracted_lhs: 2, len_uncontracted_rhs: 2, len_contracted_axes: 3, output_shape: [2, 2] }, " ++
  "output_permutation: Permutation { permutation: [0, 1] } }, simplified_einsum_string: \"ij,jk->ik\"]"

end Einsum
