import Verif.Props.Fold
import Verif.Props.Positions
import Verif.Props.Stretch

/-!
# The reverse order (C104)
-/

namespace Einsum

open Spec

/-- Operand `k` of `n` operands, counted from the end. -/
def Spec.fromEnd (n k : Nat) : Nat := if k < n then n - 1 - k else k

def Spec.fromEndNumber (n : Nat) : OperandNumber → OperandNumber
  | .input k => .input (fromEnd n k)
  | .intermediateResult k => .intermediateResult k

/-- A step with the operands counted from the end. -/
def Spec.fromEndStep (n : Nat) (s : PairStep) : PairStep :=
  ⟨s.sizedContraction, ⟨fromEndNumber n s.operandNums.lhs, fromEndNumber n s.operandNums.rhs⟩⟩

/-- A contraction order with the operands counted from the end. -/
def Spec.fromEndOrder (n : Nat) : ContractionOrder → ContractionOrder
  | .singleton sc => .singleton sc
  | .pairs steps => .pairs (steps.map (fromEndStep n))

section
variable {h : HashOrd} {n : Nat}

theorem generateSteps_fromEnd (h : HashOrd) (sc : SizedContraction) (first : Nat) :
    ∀ (rest : List (List Char)) (idx : Nat) (lhs : List Char) (nums : List Nat) (steps : List PairStep),
      generateSteps h sc first idx lhs rest nums = .ok steps →
      generateSteps h sc (fromEnd n first) idx lhs rest (nums.map (fromEnd n)) = .ok (steps.map (fromEndStep n))
  | [], idx, lhs, nums, steps, hg => by
    simp only [generateSteps] at hg ⊢
    cases hg
    rfl
  | rhs :: later, idx, lhs, [], steps, hg => by
    simp only [generateSteps, List.map_nil] at hg ⊢
    cases hg
    rfl
  | rhs :: later, idx, lhs, num :: nums, steps, hg => by
    simp only [generateSteps, List.map_cons] at hg ⊢
    obtain ⟨sc', g1, hg⟩ := bind_eq_ok.1 hg
    obtain ⟨st, g2, hg⟩ := bind_eq_ok.1 hg
    cases hg
    rw [g1, bind_ok, generateSteps_fromEnd h sc first later _ _ _ _ g2, bind_ok]
    simp only [List.map_cons, fromEndStep]
    split <;> rfl

theorem compileSteps_fromEnd : ∀ (k : HashOrd) (steps : List PairStep),
    compileSteps k (steps.map (fromEndStep n)) = compileSteps k steps
  | k, [] => rfl
  | k, s :: ss => by
    simp only [List.map_cons, compileSteps, compileSteps_fromEnd (k.sub 1) ss, fromEndStep]

theorem index_fromEnd {A : Type} (l : List A) (k : Nat) : index l (fromEnd l.length k) = index l.reverse k := by
  unfold fromEnd
  split
  · rename_i hk
    rw [index_getElem (by omega), index_getElem (by simpa using hk)]
    simp
  · rename_i hk
    simp [index, hk]

theorem runSteps_fromEnd {A : Type} [Zero A] [Add A] [Mul A] [MulAdd A] (operands : List (View A)) :
    ∀ (steps : List PairStep) (cs : List PairContraction) (al : Alloc A) (inter : List (View A)),
      runSteps al operands (cs.zip (steps.map (fromEndStep operands.length))) inter =
        runSteps al operands.reverse (cs.zip steps) inter
  | [], cs, al, inter => by simp [runSteps]
  | s :: ss, [], al, inter => by simp [runSteps]
  | s :: ss, c :: cs, al, inter => by
    have hf : ∀ x, fetch operands inter (fromEndNumber operands.length x) = fetch operands.reverse inter x := by
      intro x
      cases x with
      | input k => exact index_fromEnd operands k
      | intermediateResult k => rfl
    simp only [List.map_cons, List.zip_cons_cons, runSteps, runSteps_fromEnd operands ss cs]
    simp only [fromEndStep, hf]

end

theorem reverse_range (n : Nat) : (List.range n).reverse = (List.range n).map (fromEnd n) := by
  apply List.ext_getElem
  · simp
  · intro i h1 h2
    have : i < n := by simpa using h1
    simp [fromEnd, this]

theorem pick_fromEnd (inputs : List (List Char)) :
    pick inputs [] (List.range inputs.length).reverse = inputs.reverse := by
  rw [pick, List.map_reverse]
  exact congrArg List.reverse (pick_range inputs [])

/-- The contraction with its operands in another order. -/
theorem permuted_callSC {inputs : List (List Char)} {out : List Char} {dims : Char → Nat} (ho : OutputOk inputs out)
    (h : HashOrd) {order : List Nat} (hperm : order.Perm (List.range inputs.length)) :
    generatePermutedContraction h (callSC inputs out dims) order = .ok (callSC (pick inputs [] order) out dims) := by
  have hlen : order.length = inputs.length := by simpa using hperm.length_eq
  have hpp : (pick inputs [] order).Perm inputs := pick_perm inputs [] hperm
  have hop : OutputOk (pick inputs [] order) out :=
    ⟨ho.1, fun c hc => used_iff.2 (hpp.flatten.mem_iff.2 (used_iff.1 (ho.2 c hc)))⟩
  unfold generatePermutedContraction
  rw [assertThat_of (by simpa [callSC] using hlen.symm), bind_ok, mapE_ok (g := fun i => inputs.getD i [])]
  · rw [bind_ok]
    exact (congrArg unwrapR (subset_callSC h (fun c hc => hpp.flatten.mem_iff.1 hc) hop)).trans (unwrapR_ok _)
  · intro i hi
    have : i < inputs.length := by simpa using hperm.mem_iff.1 hi
    show index inputs i = _
    rw [index_getElem this]; simp [this]

/-- The order of the operands in reverse, with the names of the operands in the list. -/
theorem order_fromEnd {inputs : List (List Char)} {out : List Char} {dims : Char → Nat} (ho : OutputOk inputs out)
    (h : HashOrd) (or : ContractionOrder)
    (hor : generateOptimizedOrder h (callSC inputs.reverse out dims) .naive = .ok or) :
    generateOptimizedOrder h (callSC inputs out dims) .reverse = .ok (fromEndOrder inputs.length or) := by
  have ho' : OutputOk inputs.reverse out := ⟨ho.1, fun c hc => used_iff.2 (by simpa using used_iff.1 (ho.2 c hc))⟩
  have e1 := permuted_callSC (dims := dims) ho (h.sub 0) (order := (List.range inputs.length).reverse) (List.reverse_perm _)
  have e2 := permuted_callSC (dims := dims) ho' (h.sub 0) (order := List.range inputs.reverse.length) (.refl _)
  rw [pick_fromEnd] at e1
  rw [pick_range] at e2
  have hor : generatePath h (callSC inputs.reverse out dims) (List.range inputs.reverse.length) = .ok or := hor
  show generatePath h (callSC inputs out dims) (List.range inputs.length).reverse = _
  unfold generatePath at hor ⊢
  rw [e1, bind_ok]
  rw [e2, bind_ok, List.length_reverse] at hor
  rw [reverse_range]
  set n := inputs.length
  generalize List.range n = order at hor
  simp only [show (callSC inputs.reverse out dims).contraction.operandIndices = inputs.reverse from rfl] at hor ⊢
  generalize callSC inputs.reverse out dims = P at hor ⊢
  clear e1 e2
  generalize inputs.reverse = I at hor ⊢
  rcases I with _ | ⟨a, _ | ⟨b, _ | ⟨c, l⟩⟩⟩ <;> rcases order with _ | ⟨x, _ | ⟨y, o⟩⟩ <;>
    simp only [List.map_cons, List.map_nil] at hor ⊢
  all_goals first
    | (cases hor; done)
    | (cases hor; rfl)
    | skip
  all_goals
    obtain ⟨s, g1, g2⟩ := bind_eq_ok.1 hor
    cases g2
    first
    | (rw [g1, bind_ok]; rfl)
    | (have g := generateSteps_fromEnd (n := n) _ _ _ _ _ _ _ _ g1
       simp only [List.map_cons] at g
       rw [g, bind_ok]; rfl)

section path
variable {B : Type} {h : HashOrd} {s s' : String} {ops ops' : List (View B)} {inputs : List (List Char)} {out : List Char}
  {dims : Char → Nat}

/-- C104: the path for the reverse order. -/
theorem C104_path (h : HashOrd) (s s' : String) (ops ops' : List (View B)) (inputs : List (List Char)) (out : List Char)
    (dims : Char → Nat) (hd : Denotes s inputs out) (hd' : Denotes s' inputs.reverse out)
    (hs : Sized dims inputs (ops.map View.shape)) (hs' : Sized dims inputs.reverse (ops'.map View.shape)) :
    ∃ p p', einsumPath h s ops .reverse = .ok (.ok p) ∧ einsumPath h s' ops' .naive = .ok (.ok p') ∧
      p.steps = p'.steps ∧ p.contractionOrder = fromEndOrder inputs.length p'.contractionOrder := by
  obtain ⟨p', hp', -⟩ := einsumPath_ok hd' hs' h (.inl rfl)
  obtain ⟨sc, o, h1, h2, h3⟩ := einsumPath_inv hp'
  rw [validateAndSize_ok _ hd' hs'] at h1
  cases h1
  have h4 := order_fromEnd hd.outputOk _ _ h2
  have h5 : ∃ p, EinsumPath.fromPath (h.sub 1) (fromEndOrder inputs.length o) = .ok p ∧ p.steps = p'.steps ∧
      p.contractionOrder = fromEndOrder inputs.length p'.contractionOrder := by
    cases o with
    | singleton sc =>
      obtain ⟨c, c1, h3⟩ := bind_eq_ok.1 h3
      cases h3
      exact ⟨_, by simp only [fromEndOrder, EinsumPath.fromPath, c1, bind_ok]; rfl, rfl, rfl⟩
    | pairs steps =>
      obtain ⟨cs, c1, h3⟩ := bind_eq_ok.1 h3
      cases h3
      exact ⟨⟨.pairs (steps.map (fromEndStep inputs.length)), .pairContractions cs⟩, by
        simp only [fromEndOrder, EinsumPath.fromPath, compileSteps_fromEnd, c1, bind_ok]; rfl, rfl, rfl⟩
  obtain ⟨p, h5, h6, h7⟩ := h5
  refine ⟨p, p', ?_, hp', h6, h7⟩
  unfold einsumPath validateAndOptimizeOrder
  rw [validateAndSize_ok _ hd hs]
  simp only [h4, bind_ok]
  exact bind_eq_ok.2 ⟨_, rfl, bind_eq_ok.2 ⟨p, h5, rfl⟩⟩

/-- A path of the reverse order runs on a list of arrays as its counterpart on the reversed list. -/
theorem run_fromEnd {p p' : EinsumPath} (h1 : p.steps = p'.steps) {n : Nat}
    (h2 : p.contractionOrder = fromEndOrder n p'.contractionOrder) {A : Type} [Zero A] [Add A] [Mul A] [MulAdd A]
    (al : Alloc A) {operands : List (View A)} (hn : operands.length = n)
    (hsg : ∀ sc, p'.contractionOrder = .singleton sc → n = 1) :
    p.contractOperands al operands = p'.contractOperands al operands.reverse := by
  obtain ⟨o, st⟩ := p
  obtain ⟨o', st'⟩ := p'
  simp only at h1 h2 hsg
  subst h1 h2
  cases o' with
  | singleton sc =>
    have : operands.reverse = operands := by
      have := hsg sc rfl
      rw [← hn] at this
      obtain ⟨x, rfl⟩ := List.length_eq_one_iff.1 this
      rfl
    rw [this]
    cases st <;> rfl
  | pairs steps =>
    subst hn
    cases st with
    | singletonContraction c => rfl
    | pairContractions cs =>
      simp only [EinsumPath.contractOperands, fromEndOrder, runSteps_fromEnd]

/-- C104: a path of the reverse order does on any arrays what the path for the reversed operands does on the reversed arrays. -/
theorem C104_runs (h : HashOrd) (s s' : String) (ops ops' : List (View B)) (inputs : List (List Char)) (out : List Char)
    (dims : Char → Nat) (hd : Denotes s inputs out) (hd' : Denotes s' inputs.reverse out)
    (hs : Sized dims inputs (ops.map View.shape)) (hs' : Sized dims inputs.reverse (ops'.map View.shape)) :
    ∃ p p', einsumPath h s ops .reverse = .ok (.ok p) ∧ einsumPath h s' ops' .naive = .ok (.ok p') ∧
      ∀ (A : Type) [Zero A] [Add A] [Mul A] [MulAdd A] (al : Alloc A) (operands : List (View A)),
        operands.length = inputs.length → p.contractOperands al operands = p'.contractOperands al operands.reverse := by
  obtain ⟨p, p', h1, h2, h3, h4⟩ := C104_path h s s' ops ops' inputs out dims hd hd' hs hs'
  refine ⟨p, p', h1, h2, fun A _ _ _ _ al operands hn => run_fromEnd h3 h4 al hn fun sc e => ?_⟩
  obtain ⟨sc', o, g1, g2, g3⟩ := einsumPath_inv h2
  rw [validateAndSize_ok _ hd' hs'] at g1
  cases g1
  by_contra hne
  have h2 : 2 ≤ inputs.reverse.length := by
    have := List.length_pos_iff.2 hd.inputs_ne.1
    rw [List.length_reverse]
    omega
  obtain ⟨_, _, _, _, _, steps, -, -, -, -, -, -, rfl⟩ := order_parts hd'.outputOk h2 .naive _ _ g2
  obtain ⟨cs, -, g3⟩ := bind_eq_ok.1 g3
  cases g3
  cases e

end path

/-- The string that lists the operands in reverse order. -/
theorem Spec.Denotes.reversed {s : String} {inputs : List (List Char)} {out : List Char} (hd : Denotes s inputs out) :
    ∃ s', Denotes s' inputs.reverse out :=
  ⟨String.ofList (render inputs.reverse (some out)), .inl ⟨String.toList_ofList,
    ⟨by simpa using hd.inputs_ne.1, fun p hp => hd.inputs_ne.2 p (by simpa using hp), fun o e c hc => by
      cases e
      exact hd.letter (used_iff.1 (hd.outputOk.2 c hc))⟩,
    hd.outputOk.1, fun c hc => used_iff.2 (by simpa using used_iff.1 (hd.outputOk.2 c hc))⟩⟩

/-- C104: elementwise products repeat axes of length one in both orders. -/
theorem C104_elementwise {A B : Type} [CommSemiring A] (h : HashOrd) (s : String) (l₀ r₀ : View B) (L R out : List Char)
    (dims : Char → Nat) (hd : Denotes s [L, R] out) (hs : Sized dims [L, R] [l₀.shape, r₀.shape]) (m : OptimizationMethod)
    (p : EinsumPath) (hp : einsumPath h s [l₀, r₀] m = .ok (.ok p)) (hL : L.Nodup) (hR : R.Nodup) (he : Elementwise L R out)
    (l r : View A) (t u : List Nat → A) (hl : Elements l t) (hr : Elements r u) (d e : Char → Nat)
    (sl : l.shape = L.map d) (sr : r.shape = R.map e) (al : Alloc A) :
    ((∀ c ∈ out, d c = e c ∨ d c = 1 ∨ e c = 1) → ∃ w, p.contractOperands al [l, r] = .ok w ∧
      IsEinsum (joined L out d e) [L, R] [repeating L d t, repeating R e u] out w) ∧
    ((∃ c ∈ out, ¬ (d c = e c ∨ d c = 1 ∨ e c = 1)) → p.contractOperands al [l, r] = panic .ndarray) := by
  have hm : m = .naive ∨ m = .reverse := by
    obtain ⟨sc, o, -, h2, -⟩ := einsumPath_inv hp
    cases m <;> first | exact .inl rfl | exact .inr rfl | cases h2
  rcases hm with rfl | rfl
  · exact C103_elementwise h s l₀ r₀ L R out dims hd hs p hp hL hR he l r t u hl hr d e sl sr al
  obtain ⟨s', hd'⟩ := hd.reversed
  have hs' : Sized dims [R, L] [r₀.shape, l₀.shape] := by
    obtain ⟨h1, h2⟩ := List.forall₂_cons.1 hs
    exact .cons (List.forall₂_cons.1 h2).1 (.cons h1 .nil)
  obtain ⟨q, q', h1, h2, h3⟩ := C104_runs h s s' [l₀, r₀] [r₀, l₀] [L, R] out dims hd hd' hs hs'
  rw [hp] at h1
  cases h1
  obtain ⟨k1, k2⟩ := C103_elementwise h s' r₀ l₀ R L out dims hd' hs' q' h2 hR hL ⟨he.2, he.1⟩ r l u t hr hl e d sr sl al
  rw [h3 A al [l, r] rfl]
  refine ⟨fun hc => ?_, fun ⟨c, hc, hn⟩ => k2 ⟨c, hc, fun g => hn ?_⟩⟩
  · obtain ⟨w, w1, w2, w3, w4⟩ := k1 fun c hco => by rcases hc c hco with g | g | g <;> simp [g]
    refine ⟨w, w1, w2, ?_⟩
    have ej : ∀ c ∈ [L, R].flatten, joined R out e d c = joined L out d e c := by
      intro c hcu
      simp only [List.flatten_cons, List.flatten_nil, List.append_nil, List.mem_append] at hcu
      unfold joined
      by_cases hco : c ∈ out
      · rw [if_pos hco, if_pos hco]
        rcases hc c hco with g | g | g <;> split_ifs <;> simp_all
      · rw [if_neg hco, if_neg hco]
        by_cases hcL : c ∈ L
        · rw [if_pos hcL, if_neg fun g => hco (he.1 c hcL (.inl g)).2]
        · rw [if_neg hcL, if_pos (hcu.resolve_left hcL)]
    have ho : ∀ c ∈ out, c ∈ [L, R].flatten := fun c hc => used_iff.1 (hd.outputOk.2 c hc)
    refine ⟨by rw [w3]; exact List.map_congr_left fun c hc => ej c (ho c hc), fun σ hσ => ?_⟩
    rw [w4 σ fun c hc => (hσ c hc).trans_eq (ej c (ho c hc)).symm]
    congr 1
    unfold Spec.einsum
    rw [sumOver_perm (summed_perm (.swap L R []) out), sumOver_dims_congr fun c hc => ej c (mem_summed.1 hc).1]
    exact sumOver_congr fun σ' _ _ => by simp [term, mul_comm]
  · rcases g with g | g | g <;> simp [g]

/-! ### Cases -/

/-- The hypotheses of `C104_path` and `C104_runs`: three matrices in the reverse order. -/
example (h : HashOrd) : ∃ p p', einsumPath h "ij,jk,kl->il" [Ex.m23, Ex.m32, Ex.m23] .reverse = .ok (.ok p) ∧
    einsumPath h "kl,jk,ij->il" [Ex.m23, Ex.m32, Ex.m23] .naive = .ok (.ok p') ∧
      p.steps = p'.steps ∧ p.contractionOrder = fromEndOrder 3 p'.contractionOrder :=
  C104_path h _ _ _ _ [['i', 'j'], ['j', 'k'], ['k', 'l']] ['i', 'l']
    (fun c => if c = 'i' then 2 else if c = 'j' then 3 else if c = 'k' then 2 else 3)
    (.inl ⟨by decide, ⟨by simp, by simp [Letter], by simp [Letter]⟩, by simp [OutputOk, Used]⟩)
    (.inl ⟨by decide, ⟨by simp, by simp [Letter], by simp [Letter]⟩, by simp [OutputOk, Used]⟩)
    (.cons (by decide) (.cons (by decide) (.cons (by decide) .nil)))
    (.cons (by decide) (.cons (by decide) (.cons (by decide) .nil)))

/-- The two paths on arrays that do not fit, with a result or a panic. -/
example (h : HashOrd) (al : Alloc Int) : ∃ p p', einsumPath h "ij,ij->ij" [Ex.rank2, Ex.rank2] .reverse = .ok (.ok p) ∧
    einsumPath h "ij,ij->ij" [Ex.rank2, Ex.rank2] .naive = .ok (.ok p') ∧
      p.contractOperands al [Ex.column, Ex.row] = p'.contractOperands al [Ex.row, Ex.column] ∧
      p.contractOperands al [Ex.column, Ex.m32] = p'.contractOperands al [Ex.m32, Ex.column] := by
  have s1 : Sized (fun _ => 2) [['i', 'j'], ['i', 'j']] [Ex.rank2.shape, Ex.rank2.shape] :=
    .cons (by decide) (.cons (by decide) .nil)
  obtain ⟨p, p', h1, h2, h3⟩ := C104_runs h _ _ [Ex.rank2, Ex.rank2] [Ex.rank2, Ex.rank2] [['i', 'j'], ['i', 'j']] ['i', 'j']
    _ Ex.denotes_elementwise Ex.denotes_elementwise s1 s1
  exact ⟨p, p', h1, h2, h3 _ al _ rfl, h3 _ al _ rfl⟩

/-- The hypotheses of `C104_elementwise`: a column and a row in the reverse order. -/
example (h : HashOrd) (al : Alloc Int) : ∃ p, einsumPath h "ij,ij->ij" [Ex.rank2, Ex.rank2] .reverse = .ok (.ok p) ∧
    ∃ w, p.contractOperands al [Ex.column, Ex.row] = .ok w ∧ w.shape = [2, 3] ∧ w.read [1, 2] = .ok 10 := by
  have s1 : Sized (fun _ => 2) [['i', 'j'], ['i', 'j']] [Ex.rank2.shape, Ex.rank2.shape] :=
    .cons (by decide) (.cons (by decide) .nil)
  obtain ⟨p, hp, -⟩ := einsumPath_ok (operands := [Ex.rank2, Ex.rank2]) Ex.denotes_elementwise s1 h (.inr rfl)
  refine ⟨p, hp, ?_⟩
  obtain ⟨w, w1, -, w2, w3⟩ := (C104_elementwise h _ Ex.rank2 Ex.rank2 ['i', 'j'] ['i', 'j'] ['i', 'j'] _
    Ex.denotes_elementwise s1 _ p hp (by decide) (by decide) ⟨by decide, by decide⟩ Ex.column Ex.row _ _ Ex.ecolumn Ex.erow
    (fun c => if c = 'i' then 2 else 1) (fun c => if c = 'i' then 1 else 3) (by decide) (by decide) al).1 (by decide)
  refine ⟨w, w1, w2.trans (by decide), (w3 (fun c => if c = 'i' then 1 else 2) (by
    simp only [InRange]
    decide)).trans ?_⟩
  decide +kernel

end Einsum
