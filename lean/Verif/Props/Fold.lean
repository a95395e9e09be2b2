import Verif.Props.Resized
import Verif.Props.Selection
import Verif.Proofs.Order

/-!
# Property C83: a path is a sequence of two-operand calls
-/

namespace Einsum

open Spec

variable {L R o : List Char} {dims : Char → Nat}

/-- The hash order that at the program point `q` is `k`. -/
def HashOrd.at (k : HashOrd) : List Nat → HashOrd
  | [] => k
  | a :: q =>
    { iter := fun p l => match p with
        | [] => l
        | b :: p => if b = a then (HashOrd.at k q).iter p l else l
      perm := fun p l => by
        cases p with
        | nil => exact .refl _
        | cons b p =>
          simp only
          split
          · exact (HashOrd.at k q).perm p l
          · exact .refl _ }

theorem HashOrd.sub_at (k : HashOrd) (a : Nat) (q : List Nat) : (HashOrd.at k (a :: q)).sub a = HashOrd.at k q := by
  simp [HashOrd.sub, HashOrd.at]

/-- Restricting the sizes to the letters of some of the operands. -/
theorem subset_callSC {inputs ops : List (List Char)} {out : List Char} (h : HashOrd)
    (hs : ∀ c ∈ ops.flatten, c ∈ inputs.flatten) (ho : OutputOk ops o) :
    (callSC inputs out dims).subset h ops o = .ok (callSC ops o dims) := by
  rw [subset_ok (fun c hc => by simp only [callSC, if_pos (hs c hc)]; simp) ho]
  simp only [callSC]
  congr 2
  funext c
  by_cases hc : c ∈ ops.flatten
  · rw [if_pos hc, if_pos hc, if_pos (hs c hc)]
  · rw [if_neg hc, if_neg hc]

/-- The path of a sized contraction of two operands. -/
theorem new_two (h : HashOrd) (ho : OutputOk [L, R] o) :
    EinsumPath.new h (callSC [L, R] o dims) = (PairContraction.new ((h.sub 1).sub 0) (callSC [L, R] o dims)).map
      fun c => ⟨.pairs [⟨callSC [L, R] o dims, ⟨.input 0, .input 1⟩⟩], .pairContractions [c]⟩ := by
  have e1 : generateOptimizedOrder (h.sub 0) (callSC [L, R] o dims) .naive =
      .ok (.pairs [⟨callSC [L, R] o dims, ⟨.input 0, .input 1⟩⟩]) := by
    show generatePath (h.sub 0) (callSC [L, R] o dims) [0, 1] = _
    have p1 : generatePermutedContraction ((h.sub 0).sub 0) (callSC [L, R] o dims) [0, 1] = .ok (callSC [L, R] o dims) := by
      show unwrapR ((callSC [L, R] o dims).subset _ [L, R] o) = _
      rw [subset_callSC _ (fun _ h => h) ho]
      rfl
    unfold generatePath
    rw [p1, bind_ok]
    show (do let sc' ← unwrapR ((callSC [L, R] o dims).subset _ [L, R] o); return _) = _
    rw [subset_callSC _ (fun _ h => h) ho]
    rfl
  unfold EinsumPath.new
  rw [e1, bind_ok]
  show (do let steps ← (do let c ← PairContraction.new _ _; return [c]); return _) = _
  cases PairContraction.new ((h.sub 1).sub 0) (callSC [L, R] o dims) <;> rfl

/-- C83: a compiled pair contraction is a call for two operands. -/
theorem C83_call (ho : OutputOk [L, R] o) (k : HashOrd) (c : PairContraction)
    (hc : PairContraction.new k (callSC [L, R] o dims) = .ok c) :
    ∃ h, ∀ (A : Type) [Zero A] [Add A] [Mul A] [MulAdd A] (al : Alloc A) (l r : View A),
      (callSC [L, R] o dims).contractOperands h al [l, r] = c.run (al.sub 0) l r := by
  refine ⟨HashOrd.at k [1, 0], fun A _ _ _ _ al l r => ?_⟩
  unfold SizedContraction.contractOperands
  rw [new_two _ ho, HashOrd.sub_at, HashOrd.sub_at]
  show (do let path ← (PairContraction.new k _).map _; _) = _
  rw [hc]
  exact contract_two

/-- C83: and a call of `einsum` with the string of the step, if its operands have letters and the shapes fit. -/
theorem C83_string (ho : OutputOk [L, R] o) (k : HashOrd) (c : PairContraction)
    (hc : PairContraction.new k (callSC [L, R] o dims) = .ok c) (hL : L ≠ []) (hR : R ≠ [])
    (hl : ∀ x, x ∈ L ∨ x ∈ R → Letter x) :
    ∃ h, ∀ (A : Type) [Zero A] [Add A] [Mul A] [MulAdd A] (al : Alloc A) (l r : View A), l.shape = L.map dims →
      r.shape = R.map dims → einsum h al (text [L, R] o) [l, r] = (c.run (al.sub 0) l r).map .ok := by
  refine ⟨HashOrd.at k [1, 1, 0], fun A _ _ _ _ al l r h1 h2 => ?_⟩
  have hd : Denotes (text [L, R] o) [L, R] o := denotes_text (by simp) (by
    intro p hp
    simp only [List.mem_cons, List.not_mem_nil, or_false] at hp
    rcases hp with rfl | rfl
    · exact ⟨hL, fun c hc => hl c (.inl hc)⟩
    · exact ⟨hR, fun c hc => hl c (.inr hc)⟩) ho
  have hs : Sized dims [L, R] [l.shape, r.shape] := .cons h1 (.cons h2 .nil)
  unfold einsum
  rw [validateAndSize_ok (operands := [l, r]) _ hd hs]
  simp only
  unfold SizedContraction.contractOperands
  rw [new_two _ ho, HashOrd.sub_at, HashOrd.sub_at, HashOrd.sub_at]
  show (do let r ← (do let path ← (PairContraction.new k _).map _; _); return Except.ok r) = _
  rw [hc]
  show EinsumPath.contractOperands ⟨.pairs [⟨callSC [L, R] o dims, ⟨.input 0, .input 1⟩⟩], .pairContractions [c]⟩ al [l, r] >>=
    (fun r => pure (Except.ok r)) = _
  rw [contract_two]
  cases c.run (al.sub 0) l r <;> rfl

/-- C83: a step with an operand that has no letters is not a call of `einsum` with the string of the step. -/
theorem C83_no_string (h : HashOrd) (hl : ∀ x, x ∈ L ∨ x ∈ R → Letter x) (hn : L = [] ∨ R = []) :
    ∃ e, validate h (text [L, R] o) = .error e := by
  cases hv : validate h (text [L, R] o) with
  | error e => exact ⟨e, rfl⟩
  | ok c =>
    refine absurd (validate_iff.1 hv).1 (not_denotes_text ?_ rfl (by rcases hn with rfl | rfl <;> simp))
    intro l hl' c hc
    simp only [List.mem_cons, List.not_mem_nil, or_false] at hl'
    rcases hl' with rfl | rfl
    · exact hl c (.inl hc)
    · exact hl c (.inr hc)

/-- One call for two operands: the result so far and an operand of the path. -/
structure TwoCall where
  order : HashOrd
  contraction : SizedContraction
  operand : Nat

/-- The loop of the README: `result = einsum_pair(contraction, &result, operands[rhs])`. -/
def foldCalls {A : Type} [Zero A] [Add A] [Mul A] [MulAdd A] (operands : List (View A)) :
    List TwoCall → Alloc A → View A → M (View A)
  | [], _, x => .ok x
  | c :: cs, al, x => do
    let y ← index operands c.operand
    let z ← c.contraction.contractOperands c.order al [x, y]
    foldCalls operands cs (al.sub 1) z

/-- The calls take in the operands with the labels `inputs`, each the result of the one before; the last has the labels
`out`. A call keeps the labels that are needed later, in the output or in the operands of the later calls. -/
def Linked (dims : Char → Nat) (inputs : List (List Char)) : List Char → List TwoCall → List Char → Prop
  | L, [], out => L = out
  | L, c :: cs, out => ∃ R o, inputs[c.operand]? = some R ∧ OutputOk [L, R] o ∧ c.contraction = callSC [L, R] o dims ∧
    (∀ x, x ∈ o ↔ (x ∈ L ∨ x ∈ R) ∧ (x ∈ out ∨ ∃ d ∈ cs, ∃ S, inputs[d.operand]? = some S ∧ x ∈ S)) ∧
    Linked dims inputs o cs out

section steps

variable {inputs pin : List (List Char)} {out : List Char}

omit dims in
theorem mem_operands {rest : List (List Char)} {nums : List Nat} (hf : List.Forall₂ (fun R n => inputs[n]? = some R) rest nums)
    (x : Char) : (∃ n ∈ nums, ∃ S, inputs[n]? = some S ∧ x ∈ S) ↔ x ∈ rest.flatten := by
  induction hf with
  | nil => simp
  | cons h1 _ ih => simp [h1, ih]

theorem steps_fold (h : HashOrd) (first : Nat) (hon : out.Nodup) (rest : List (List Char)) :
    ∀ (idx : Nat) (lhs : List Char) (nums : List Nat) (steps : List PairStep) (k : HashOrd) (cs : List PairContraction),
    List.Forall₂ (fun R n => inputs[n]? = some R) rest nums → (idx = 0 → rest ≠ []) →
    (rest = [] → lhs = out) →
    (∀ c ∈ lhs, c ∈ pin.flatten) → (∀ c ∈ rest.flatten, c ∈ pin.flatten) →
    (∀ c ∈ out, c ∈ lhs ∨ c ∈ rest.flatten) →
    generateSteps h (callSC pin out dims) first idx lhs rest nums = .ok steps → compileSteps k steps = .ok cs →
    ∃ calls : List TwoCall, calls.map TwoCall.operand = nums ∧ Linked dims inputs lhs calls out ∧
      ∀ (A : Type) [Zero A] [Add A] [Mul A] [MulAdd A] (al : Alloc A) (operands inter : List (View A)) (x : View A),
        inter.length = idx → (if idx = 0 then index operands first = .ok x else inter.getLast? = some x) →
        (runSteps al operands (cs.zip steps) inter >>= fun i => unwrapO i.getLast?) = foldCalls operands calls al x := by
  induction rest with
  | nil =>
    intro idx lhs nums steps k cs hf hi hlo _ _ _ hg hc
    cases hf
    simp only [generateSteps] at hg
    cases hg
    simp only [compileSteps] at hc
    cases hc
    refine ⟨[], rfl, hlo rfl, fun A _ _ _ _ al operands inter x hl hx => ?_⟩
    rw [if_neg (fun e => hi e rfl)] at hx
    simp only [List.zip_nil_left, runSteps, bind_ok, hx, foldCalls]
    rfl
  | cons rhs later ih =>
    intro idx lhs nums steps k cs hf _ _ hlhs hrest hout hg hc
    obtain - | @⟨_, num, _, nums, hnum, hf⟩ := hf
    simp only [generateSteps, generateSizedContractionPair] at hg
    obtain ⟨n1, n2⟩ := stepOutput_spec (h := h.sub (2 * idx)) (lhs := lhs) (rhs := rhs) (later := later) hon
      fun c hc => by simpa using hout c hc
    have hN : stepOutput (h.sub (2 * idx)) lhs rhs later (callSC pin out dims).contraction.outputIndices =
      stepOutput (h.sub (2 * idx)) lhs rhs later out := rfl
    rw [hN] at hg
    have hlast : later = [] → stepOutput (h.sub (2 * idx)) lhs rhs later out = out := by rintro rfl; rfl
    generalize stepOutput (h.sub (2 * idx)) lhs rhs later out = N at n1 n2 hg hlast
    have ho : OutputOk [lhs, rhs] N := ⟨n1, fun c hc => used_iff.2 (by simpa using ((n2 c).1 hc).1)⟩
    rw [subset_callSC (h.sub (2 * idx + 1)) (ops := [lhs, rhs]) (by
          intro c hc
          simp only [List.flatten_cons, List.flatten_nil, List.append_nil, List.mem_append] at hc
          rcases hc with hc | hc
          · exact hlhs c hc
          · exact hrest c (by simp [hc])) ho, unwrapR_ok, bind_ok] at hg
    obtain ⟨steps', g1, g2⟩ := bind_eq_ok.1 hg
    cases g2
    obtain ⟨c, c1, hc⟩ := bind_eq_ok.1 hc
    obtain ⟨cs', c2, hc⟩ := bind_eq_ok.1 hc
    cases hc
    obtain ⟨calls, a1, a2, a3⟩ := ih (idx + 1) N nums steps' (k.sub 1) cs' hf (by omega) hlast
      (fun c hc => by
        rcases ((n2 c).1 hc).1 with h | h
        · exact hlhs c h
        · exact hrest c (by simp [h]))
      (fun c hc => hrest c (by rw [List.flatten_cons]; simp only [List.mem_append]; exact .inr hc))
      (fun c hc => by
        rw [n2]
        have h1 := hout c hc
        rw [List.flatten_cons, List.mem_append] at h1
        tauto) g1 c2
    obtain ⟨hh, hrun⟩ := C83_call ho _ c c1
    have hkeep : ∀ x, (∃ d ∈ calls, ∃ S, inputs[d.operand]? = some S ∧ x ∈ S) ↔ x ∈ later.flatten := by
      intro x
      have hmap : (∃ d ∈ calls, ∃ S, inputs[d.operand]? = some S ∧ x ∈ S) ↔ ∃ n ∈ nums, ∃ S, inputs[n]? = some S ∧ x ∈ S := by
        rw [← a1]
        simp
      rw [hmap]
      exact mem_operands hf x
    refine ⟨⟨hh, callSC [lhs, rhs] N dims, num⟩ :: calls, by rw [List.map_cons, a1], ⟨rhs, N, hnum, ho, rfl, fun x => by
        rw [n2, hkeep, or_comm (a := x ∈ out)], a2⟩,
      fun A _ _ _ _ al operands inter x hl hx => ?_⟩
    have e1 : fetch operands inter (if idx = 0 then (⟨.input first, .input num⟩ : OperandNumPair)
        else ⟨.intermediateResult (idx - 1), .input num⟩).lhs = .ok x := by
      split
      · rw [if_pos ‹_›] at hx
        exact hx
      · rw [if_neg ‹_›] at hx
        rw [List.getLast?_eq_getElem?, hl] at hx
        exact index_eq_ok.2 hx
    have e2 : fetch operands inter (if idx = 0 then (⟨.input first, .input num⟩ : OperandNumPair)
        else ⟨.intermediateResult (idx - 1), .input num⟩).rhs = index operands num := by
      split <;> rfl
    simp only [List.zip_cons_cons, runSteps, foldCalls]
    rw [e1, e2, bind_ok]
    cases index operands num with
    | error e => rfl
    | ok y =>
      simp only [bind_ok, hrun]
      cases c.run (al.sub 0) x y with
      | error e => rfl
      | ok z =>
        simp only [bind_ok]
        exact a3 A (al.sub 1) operands (inter ++ [z]) z (by simp [hl])
          (by rw [if_neg (by omega)]; simp)

/-- The order of the operands. -/
def operandOrder (m : OptimizationMethod) (n : Nat) : List Nat :=
  match m with
  | .reverse => (List.range n).reverse
  | _ => List.range n

/-- The steps of a generated order, and the operands they take in. -/
theorem order_parts (ho : OutputOk inputs out) (h2 : 2 ≤ inputs.length) (m : OptimizationMethod) (h : HashOrd)
    (or : ContractionOrder) (hor : generateOptimizedOrder h (callSC inputs out dims) m = .ok or) :
    ∃ (first : Nat) (lhs : List Char) (rest : List (List Char)) (nums : List Nat) (h' : HashOrd) (steps : List PairStep),
      inputs[first]? = some lhs ∧ List.Forall₂ (fun R n => inputs[n]? = some R) rest nums ∧
      first :: nums = operandOrder m inputs.length ∧ rest ≠ [] ∧ OutputOk (lhs :: rest) out ∧
      generateSteps h' (callSC (lhs :: rest) out dims) first 0 lhs rest nums = .ok steps ∧ or = .pairs steps := by
  have key : generatePath h (callSC inputs out dims) (operandOrder m inputs.length) = .ok or := by
    cases m with
    | naive => exact hor
    | reverse => exact hor
    | _ => cases hor
  have hperm : (operandOrder m inputs.length).Perm (List.range inputs.length) := by
    cases m <;> first | exact .refl _ | exact List.reverse_perm _
  generalize operandOrder m inputs.length = order at key hperm
  have hlen : order.length = inputs.length := by simpa using hperm.length_eq
  set pin := pick inputs [] order with hpin
  have hpp : pin.Perm inputs := pick_perm inputs [] hperm
  have hop : OutputOk pin out := ⟨ho.1, fun c hc => used_iff.2 (hpp.flatten.mem_iff.2 (used_iff.1 (ho.2 c hc)))⟩
  have hpf : List.Forall₂ (fun R n => inputs[n]? = some R) pin order := by
    rw [hpin, pick, List.forall₂_map_left_iff, List.forall₂_same]
    intro i hi
    have : i < inputs.length := by simpa using hperm.mem_iff.1 hi
    simp [this]
  have hgp : generatePermutedContraction (h.sub 0) (callSC inputs out dims) order = .ok (callSC pin out dims) := by
    unfold generatePermutedContraction
    rw [assertThat_of (by simpa [callSC] using hlen.symm), bind_ok, mapE_ok (g := fun i => inputs.getD i [])]
    · rw [bind_ok]
      exact (congrArg unwrapR (subset_callSC (h.sub 0) (fun c hc => hpp.flatten.mem_iff.1 hc) hop)).trans (unwrapR_ok _)
    · intro i hi
      have : i < inputs.length := by simpa using hperm.mem_iff.1 hi
      show index inputs i = _
      rw [index_getElem this]; simp [this]
  have hpl : 2 ≤ pin.length := by rw [hpp.length_eq]; exact h2
  clear_value pin
  obtain ⟨lhs, rest, rfl⟩ : ∃ lhs rest, pin = lhs :: rest := by
    cases pin with
    | nil => simp at hpl
    | cons a b => exact ⟨a, b, rfl⟩
  obtain - | @⟨_, first, _, nums, hfirst, hf⟩ := hpf
  have hrest : rest ≠ [] := by rintro rfl; simp at hpl
  have hsteps : ∃ h' steps, generateSteps h' (callSC (lhs :: rest) out dims) first 0 lhs rest nums = .ok steps ∧
      or = .pairs steps := by
    unfold generatePath at key
    rw [hgp, bind_ok] at key
    cases hf with
    | nil => exact absurd rfl hrest
    | @cons rhs t1 later nums hr hf =>
      cases hf with
      | nil =>
        refine ⟨HashOrd.insertion, [⟨callSC [lhs, rhs] out dims, ⟨.input first, .input t1⟩⟩], ?_, ?_⟩
        · simp only [generateSteps, generateSizedContractionPair, stepOutput]
          rw [show (callSC [lhs, rhs] out dims).contraction.outputIndices = out from rfl,
            subset_callSC _ (fun _ h => h) hop]
          rfl
        · simp only [callSC, generateSizedContractionPair] at key
          have e := subset_callSC (dims := dims) (inputs := [lhs, rhs]) (out := out) (h.sub 1) (fun _ h => h) hop
          simp only [callSC] at e
          rw [e] at key
          cases key
          rfl
      | cons hr2 hf =>
        obtain ⟨steps, g1, g2⟩ := bind_eq_ok.1 key
        cases g2
        exact ⟨_, steps, g1, rfl⟩
  obtain ⟨h', steps, g1, g2⟩ := hsteps
  exact ⟨first, lhs, rest, nums, h', steps, hfirst, hf, rfl, hrest, hop, g1, g2⟩

theorem order_fold (ho : OutputOk inputs out) (h2 : 2 ≤ inputs.length) (m : OptimizationMethod) (h k : HashOrd)
    (or : ContractionOrder) (p : EinsumPath) (hor : generateOptimizedOrder h (callSC inputs out dims) m = .ok or)
    (hp : EinsumPath.fromPath k or = .ok p) :
    ∃ (first : Nat) (L : List Char) (calls : List TwoCall), inputs[first]? = some L ∧
      first :: calls.map TwoCall.operand = operandOrder m inputs.length ∧ Linked dims inputs L calls out ∧
      ∀ (A : Type) [Zero A] [Add A] [Mul A] [MulAdd A] (al : Alloc A) (operands : List (View A)),
        p.contractOperands al operands = (do let x ← index operands first; foldCalls operands calls al x) := by
  obtain ⟨first, lhs, rest, nums, h', steps, hfirst, hf, hord, hrest, hop, g1, rfl⟩ := order_parts ho h2 m h or hor
  obtain ⟨cs, c1, c2⟩ := bind_eq_ok.1 hp
  cases c2
  obtain ⟨calls, a1, a2, a3⟩ := steps_fold (inputs := inputs) h' first ho.1 rest 0 lhs nums steps k cs hf (fun _ => hrest)
    (fun e => absurd e hrest) (fun c hc => by simp [hc])
    (fun c hc => by rw [List.flatten_cons, List.mem_append]; exact .inr hc)
    (fun c hc => by
      have := used_iff.1 (hop.2 c hc)
      rwa [List.flatten_cons, List.mem_append] at this) g1 c1
  refine ⟨first, lhs, calls, hfirst, by rw [a1, hord], a2, fun A _ _ _ _ al operands => ?_⟩
  simp only [EinsumPath.contractOperands]
  cases hx : index operands first with
  | ok x => exact a3 A al operands [] x rfl (by rw [if_pos rfl]; exact hx)
  | error e =>
    obtain ⟨rhs, later, rfl⟩ : ∃ a b, rest = a :: b := by
      cases rest with
      | nil => exact absurd rfl hrest
      | cons a b => exact ⟨a, b, rfl⟩
    obtain - | @⟨_, num, _, nums, hnum, hf⟩ := hf
    simp only [generateSteps] at g1
    obtain ⟨sc, -, g1⟩ := bind_eq_ok.1 g1
    obtain ⟨steps', -, g2⟩ := bind_eq_ok.1 g1
    cases g2
    obtain ⟨c, -, c1⟩ := bind_eq_ok.1 c1
    obtain ⟨cs', -, c1⟩ := bind_eq_ok.1 c1
    cases c1
    simp only [List.zip_cons_cons, runSteps, if_true, fetch, hx]
    rfl

end steps

/-- C83: a compiled path runs the algorithm of the README. -/
theorem C83_path {B : Type} (h : HashOrd) (s : String) (ops : List (View B)) (inputs : List (List Char)) (out : List Char)
    (dims : Char → Nat) (hd : Denotes s inputs out) (hs : Sized dims inputs (ops.map View.shape)) (h2 : 2 ≤ inputs.length)
    (m : OptimizationMethod) (p : EinsumPath) (hp : einsumPath h s ops m = .ok (.ok p)) :
    ∃ (first : Nat) (L : List Char) (calls : List TwoCall), inputs[first]? = some L ∧
      first :: calls.map TwoCall.operand = operandOrder m inputs.length ∧ Linked dims inputs L calls out ∧
      ∀ (A : Type) [Zero A] [Add A] [Mul A] [MulAdd A] (al : Alloc A) (operands : List (View A)),
        p.contractOperands al operands = (do let x ← index operands first; foldCalls operands calls al x) := by
  obtain ⟨sc, or, g1, g2, g3⟩ := einsumPath_inv hp
  rw [validateAndSize_ok _ hd hs] at g1
  cases g1
  exact order_fold hd.outputOk h2 m _ _ or p g2 g3

/-- C83: `einsum` runs the algorithm of the README. -/
theorem C83_einsum (h : HashOrd) (s : String) (inputs : List (List Char)) (out : List Char)
    (dims : Char → Nat) (hd : Denotes s inputs out) (h2 : 2 ≤ inputs.length) :
    ∃ (L : List Char) (calls : List TwoCall), inputs[0]? = some L ∧
      0 :: calls.map TwoCall.operand = List.range inputs.length ∧ Linked dims inputs L calls out ∧
      ∀ (A : Type) [Zero A] [Add A] [Mul A] [MulAdd A] (al : Alloc A) (operands : List (View A)),
        Sized dims inputs (operands.map View.shape) →
        einsum h al s operands = (do
          let x ← index operands 0
          let r ← foldCalls operands calls al x
          return .ok r) := by
  obtain ⟨or, ho, o2⟩ := path_ok (callSC_valid (dims := dims) hd.outputOk) ((h.sub 1).sub 0) hd.inputs_ne.1
    (naiveOrder_perm (callSC inputs out dims))
  obtain ⟨p, hp, -⟩ := o2 ((h.sub 1).sub 1)
  replace ho : generateOptimizedOrder ((h.sub 1).sub 0) (callSC inputs out dims) .naive = .ok or := ho
  obtain ⟨first, L, calls, a1, a2, a3, a4⟩ := order_fold hd.outputOk h2 .naive _ _ or p ho hp
  have hf : first = 0 := by
    have := congrArg (fun l : List Nat => l[0]?) a2
    simpa [operandOrder, show 0 < inputs.length by omega] using this
  subst hf
  refine ⟨L, calls, a1, a2, a3, fun A _ _ _ _ al operands hs => ?_⟩
  unfold einsum SizedContraction.contractOperands EinsumPath.new
  rw [validateAndSize_ok _ hd hs]
  simp only [ho, bind_ok, hp, a4]
  cases index operands 0 with
  | error e => rfl
  | ok x => simp only [bind_ok]

/-- A step and the operands it names as a call for two operands. -/
def runCalls {A : Type} [Zero A] [Add A] [Mul A] [MulAdd A] (al : Alloc A) (operands : List (View A)) :
    List (HashOrd × PairStep) → List (View A) → M (List (View A))
  | [], results => .ok results
  | (h, step) :: rest, results => do
    let x ← fetch operands results step.operandNums.lhs
    let y ← fetch operands results step.operandNums.rhs
    let z ← step.sizedContraction.contractOperands h al [x, y]
    runCalls (al.sub 1) operands rest (results ++ [z])

theorem steps_calls (steps : List PairStep) : ∀ (k : HashOrd) (cs : List PairContraction),
    (∀ s ∈ steps, ∃ L R o dims, OutputOk [L, R] o ∧ s.sizedContraction = callSC [L, R] o dims) →
    compileSteps k steps = .ok cs →
    ∃ orders : List HashOrd, orders.length = steps.length ∧
      ∀ (A : Type) [Zero A] [Add A] [Mul A] [MulAdd A] (al : Alloc A) (operands inter : List (View A)),
        runSteps al operands (cs.zip steps) inter = runCalls al operands (orders.zip steps) inter := by
  induction steps with
  | nil =>
    intro k cs _ hc
    cases hc
    exact ⟨[], rfl, fun A _ _ _ _ al operands inter => rfl⟩
  | cons s ss ih =>
    intro k cs hs hc
    simp only [compileSteps] at hc
    obtain ⟨c, c1, hc⟩ := bind_eq_ok.1 hc
    obtain ⟨cs, c2, hc⟩ := bind_eq_ok.1 hc
    cases hc
    obtain ⟨orders, o1, o2⟩ := ih _ cs (fun s h => hs s (List.mem_cons_of_mem _ h)) c2
    obtain ⟨L, R, o, dims, ho, he⟩ := hs s List.mem_cons_self
    rw [he] at c1
    obtain ⟨h, hh⟩ := C83_call ho _ c c1
    refine ⟨h :: orders, by simp [o1], fun A _ _ _ _ al operands inter => ?_⟩
    simp only [List.zip_cons_cons, runSteps, runCalls, he, hh, o2]

/-- C83: every step of a hand-edited order is a call for two operands. -/
theorem C83_steps (steps : List PairStep) (k : HashOrd) (p : EinsumPath)
    (hs : ∀ s ∈ steps, ∃ L R o dims, OutputOk [L, R] o ∧ s.sizedContraction = callSC [L, R] o dims)
    (hp : EinsumPath.fromPath k (.pairs steps) = .ok p) :
    ∃ orders : List HashOrd, orders.length = steps.length ∧
      ∀ (A : Type) [Zero A] [Add A] [Mul A] [MulAdd A] (al : Alloc A) (operands : List (View A)),
        p.contractOperands al operands = (do
          let results ← runCalls al operands (orders.zip steps) []
          unwrapO results.getLast?) := by
  obtain ⟨cs, c1, c2⟩ := bind_eq_ok.1 hp
  cases c2
  obtain ⟨orders, o1, o2⟩ := steps_calls steps k cs hs c1
  exact ⟨orders, o1, fun A _ _ _ _ al operands => by simp only [EinsumPath.contractOperands, o2]⟩

/-- Three operands from the last to the first: two calls, of operands 1 and 0. -/
example (h : HashOrd) : ∃ p, einsumPath h "ij,jjk,kj->ij" [Ex.m23, Ex.m332, Ex.m23] .reverse = .ok (.ok p) ∧
    ∃ c1 c2 : TwoCall, c1.operand = 1 ∧ c2.operand = 0 ∧
      ∀ (A : Type) [Zero A] [Add A] [Mul A] [MulAdd A] (al : Alloc A) (operands : List (View A)),
        p.contractOperands al operands = (do
          let x ← index operands 2
          foldCalls operands [c1, c2] al x) := by
  obtain ⟨p, hp, -⟩ := einsumPath_ok Ex.call_three.denotes Ex.call_three.sized h (.inr rfl)
  obtain ⟨first, L, calls, a1, a2, a3, a4⟩ := C83_path h _ _ _ _ _ Ex.call_three.denotes Ex.call_three.sized (by decide) _ p hp
  refine ⟨p, hp, ?_⟩
  obtain ⟨c1, c2, rfl⟩ := List.length_eq_two.1 (show calls.length = 2 by simpa [operandOrder] using congrArg List.length a2)
  have e : [first, c1.operand, c2.operand] = [2, 1, 0] := a2
  simp only [List.cons.injEq, and_true] at e
  obtain ⟨rfl, e1, e2⟩ := e
  exact ⟨c1, c2, e1, e2, a4⟩

/-- The same operands in their order. -/
example (h : HashOrd) (al : Alloc Int) : ∃ c1 c2 : TwoCall, c1.operand = 1 ∧ c2.operand = 2 ∧
    einsum h al "ij,jjk,kj->ij" [Ex.m23, Ex.m332, Ex.m23] = (do
      let y ← c1.contraction.contractOperands c1.order al [Ex.m23, Ex.m332]
      let z ← c2.contraction.contractOperands c2.order (al.sub 1) [y, Ex.m23]
      return .ok z) := by
  obtain ⟨L, calls, a1, a2, a3, a4⟩ := C83_einsum h _ _ _ Ex.dims Ex.call_three.denotes (by decide)
  have a4 := a4 Int al _ Ex.call_three.sized
  obtain ⟨c1, c2, rfl⟩ := List.length_eq_two.1 (show calls.length = 2 by simpa using congrArg List.length a2)
  have e : [0, c1.operand, c2.operand] = [0, 1, 2] := a2
  simp only [List.cons.injEq, and_true, true_and] at e
  refine ⟨c1, c2, e.1, e.2, ?_⟩
  rw [a4]
  simp only [foldCalls, e.1, e.2, show index [Ex.m23, Ex.m332, Ex.m23] 0 = .ok Ex.m23 from rfl,
    show index [Ex.m23, Ex.m332, Ex.m23] 1 = .ok Ex.m332 from rfl,
    show index [Ex.m23, Ex.m332, Ex.m23] 2 = .ok Ex.m23 from rfl, bind_ok]
  cases c1.contraction.contractOperands c1.order al [Ex.m23, Ex.m332] with
  | error e => rfl
  | ok y =>
    simp only [bind_ok]
    cases c2.contraction.contractOperands c2.order (al.sub 1) [y, Ex.m23] <;> rfl

/-- A step of the README's loop as a call by its string. -/
example (k : HashOrd) (c : PairContraction) (hc : PairContraction.new k (callSC [['i', 'j'], ['j', 'k']] ['i', 'k'] Ex.dims) = .ok c) :
    ∃ h, ∀ (al : Alloc Int), einsum h al "ij,jk->ik" [Ex.m23, Ex.m32] = (c.run (al.sub 0) Ex.m23 Ex.m32).map .ok := by
  obtain ⟨h, hh⟩ := C83_string (L := ['i', 'j']) (R := ['j', 'k']) (o := ['i', 'k']) (dims := Ex.dims)
    (by simp [OutputOk, Used]) k c hc (by simp) (by simp) (by
      intro x hx
      simp only [List.mem_cons, List.not_mem_nil, or_false] at hx
      rcases hx with (rfl | rfl) | rfl | rfl <;> simp [Letter])
  exact ⟨h, fun al => hh Int al _ _ (by decide) (by decide)⟩

/-- A step with a scalar operand has no string. -/
example (h : HashOrd) : ∃ e, validate h (text [['i', 'j'], []] ['i', 'j']) = .error e :=
  C83_no_string h (by simp [Letter]) (.inr rfl)

/-- An order edited by hand: both steps take operands of the path, and the second is the result. -/
example (k : HashOrd) (p : EinsumPath)
    (hp : EinsumPath.fromPath k (.pairs [⟨callSC [['i', 'j'], ['j', 'k']] ['i', 'k'] Ex.dims, ⟨.input 2, .input 2⟩⟩,
      ⟨callSC [['i'], ['i']] [] Ex.dims, ⟨.intermediateResult 0, .input 1⟩⟩]) = .ok p) :
    ∃ k1 k2 : HashOrd, ∀ (al : Alloc Int) (operands : List (View Int)),
      p.contractOperands al operands = (do
        let results ← runCalls al operands
          [(k1, ⟨callSC [['i', 'j'], ['j', 'k']] ['i', 'k'] Ex.dims, ⟨.input 2, .input 2⟩⟩),
          (k2, ⟨callSC [['i'], ['i']] [] Ex.dims, ⟨.intermediateResult 0, .input 1⟩⟩)] []
        unwrapO results.getLast?) := by
  obtain ⟨orders, o1, o2⟩ := C83_steps _ k p (by
    intro s hs
    simp only [List.mem_cons, List.not_mem_nil, or_false] at hs
    rcases hs with rfl | rfl
    · exact ⟨_, _, _, _, by simp [OutputOk, Used], rfl⟩
    · exact ⟨_, _, _, _, by simp [OutputOk], rfl⟩) hp
  obtain ⟨k1, k2, rfl⟩ := List.length_eq_two.1 o1
  exact ⟨k1, k2, fun al operands => o2 Int al operands⟩

end Einsum
