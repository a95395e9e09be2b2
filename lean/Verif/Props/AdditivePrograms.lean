import Verif.Props.Stored
import Verif.Props.Swapped

/-!
# Property C124: contraction orders as programs, with only the laws of addition
-/

namespace Einsum

open Spec Function

/-- `z` has the elements of a step for `x` and `y` with the labels and the lengths of the sized contraction (see `combined`). -/
inductive Spec.Combines {A : Type} [AddCommMonoid A] [Mul A] (sc : SizedContraction) (x y z : Tensor A) : Prop where
  | mk (dims : Char → Nat) (L R : List Char) :
      sc.contraction.operandIndices = [L, R] → OutputOk [L, R] sc.contraction.outputIndices →
      (∀ c, c ∈ L ∨ c ∈ R → sc.outputSize c = some (dims c)) → x.shape = L.map dims → y.shape = R.map dims →
      NoEmptyDiagonal dims [L, R] → z.shape = sc.contraction.outputIndices.map dims →
      (∀ σ, InRange dims sc.contraction.outputIndices σ → z.elems (sc.contraction.outputIndices.map σ) =
        combined dims L R sc.contraction.outputIndices (fun τ => x.elems (L.map τ)) (fun τ => y.elems (R.map τ)) σ) →
      Combines sc x y z

/-- The steps, executed after those that gave `results`, end with the result `z`. -/
inductive Spec.Leads {A : Type} [AddCommMonoid A] [Mul A] (operands : List (Tensor A)) :
    List (Tensor A) → List PairStep → Tensor A → Prop where
  | done {results : List (Tensor A)} {z : Tensor A} : Leads operands (results ++ [z]) [] z
  | step {results : List (Tensor A)} {st : PairStep} {steps : List PairStep} {x y w z : Tensor A} :
      named operands results st.operandNums.lhs = some x → named operands results st.operandNums.rhs = some y →
      Combines st.sizedContraction x y w → Leads operands (results ++ [w]) steps z → Leads operands results (st :: steps) z

section

variable {A : Type} [AddCommMonoid A] [Mul A]

theorem combines_run {sc : SizedContraction} {x y z : Tensor A} (hp : Combines sc x y z) (h : HashOrd) :
    ∃ p, PairContraction.new h sc = .ok p ∧ ∀ (al : Alloc A) (v w : View A), Is v x → Is w y →
      ∃ r, p.run (al.sub 0) v w = .ok r ∧ Is r z := by
  obtain ⟨dims, L, R, h1, h2, h3, h4, h5, h6, h7, h8⟩ := hp
  obtain ⟨p, p1⟩ := (C99_pair_iff h sc).2 ⟨L, R, h1, h2, fun c hc => by rw [h3 c hc]; simp⟩
  obtain ⟨g, hg⟩ := step_call h1 h2 h3 p1
  refine ⟨p, p1, fun al v w hv hw => ?_⟩
  obtain ⟨r, r1, r2⟩ := Stepwise.pair_value h2 (h6 L (by simp)) (h6 R (by simp)) g al
    (rep_of_elements hv.2 (hv.1.trans h4)) (rep_of_elements hw.2 (hw.1.trans h5)) hv.2.1 hw.2.1
  refine ⟨r, by rw [hg, r1], r2.shape.trans h7.symm, r2.wf h2.1, fun idx hi => ?_⟩
  rw [r2.shape] at hi
  obtain ⟨σ, hσ, rfl⟩ := exists_assign h2.1 hi
  rw [r2.get σ hσ, h8 σ hσ]

theorem leads_run {xs rs : List (Tensor A)} {steps : List PairStep} {z : Tensor A} (hy : Leads xs rs steps z) (h : HashOrd) :
    ∃ cs, compileSteps h steps = .ok cs ∧ ∀ (al : Alloc A) (operands inter : List (View A)), List.Forall₂ Is operands xs →
      List.Forall₂ Is inter rs → ∃ l r, runSteps al operands (cs.zip steps) inter = .ok l ∧ l.getLast? = some r ∧ Is r z := by
  induction hy generalizing h with
  | @done rs z =>
    refine ⟨[], rfl, fun al operands inter _ hr => ?_⟩
    have hl := hr.length_eq
    rw [List.length_append, List.length_singleton] at hl
    have h1 : inter[rs.length]? = some (inter[rs.length]'(by omega)) := List.getElem?_eq_getElem _
    refine ⟨inter, _, rfl, ?_, forall₂_get hr h1 (by simp)⟩
    rw [List.getLast?_eq_getElem?, show inter.length - 1 = rs.length by omega, h1]
  | @step rs st steps x y w z hx hy hp _ ih =>
    obtain ⟨p, p1, p2⟩ := combines_run hp (h.sub 0)
    obtain ⟨cs, c1, c2⟩ := ih (h.sub 1)
    refine ⟨p :: cs, by simp only [compileSteps, p1, c1, bind_ok]; rfl, fun al operands inter ho hr => ?_⟩
    obtain ⟨u, u1, u2⟩ := fetch_is ho hr hx
    obtain ⟨v, v1, v2⟩ := fetch_is ho hr hy
    obtain ⟨r, r1, r2⟩ := p2 al u v u2 v2
    obtain ⟨l, t, t1, t2⟩ := c2 (al.sub 1) operands (inter ++ [r]) ho (List.rel_append hr (.cons r2 .nil))
    exact ⟨l, t, by simp only [List.zip_cons_cons, runSteps, u1, v1, r1, bind_ok, t1], t2⟩

/-- C124: an order of pairs is compiled and returns the result of its last step, for every addition that is commutative and
associative and every multiplication. -/
theorem C124_program (h : HashOrd) (al : Alloc A) (steps : List PairStep) (operands : List (View A)) (xs : List (Tensor A))
    (z : Tensor A) (ho : List.Forall₂ Is operands xs) (hy : Leads xs [] steps z) :
    ∃ p r, EinsumPath.fromPath h (.pairs steps) = .ok p ∧ p.contractOperands al operands = .ok r ∧ Is r z := by
  obtain ⟨cs, c1, c2⟩ := leads_run hy h
  obtain ⟨l, r, h1, h2, h3⟩ := c2 al operands [] ho .nil
  exact ⟨⟨.pairs steps, .pairContractions cs⟩, r, by simp only [EinsumPath.fromPath, c1, bind_ok]; rfl,
    by simp only [EinsumPath.contractOperands, h1, bind_ok, h2]; rfl, h3⟩

theorem fitting_runs {operands operands₂ : List (View A)} {shapes : List (List Nat)} {steps : List PairStep}
    (hf : Fitting (operands.map View.shape) shapes steps) (ho : List.Forall₂ SameArray operands operands₂) {k k₂ : HashOrd}
    {cs cs₂ : List PairContraction} (hc : compileSteps k steps = .ok cs) (hc₂ : compileSteps k₂ steps = .ok cs₂)
    {al al₂ : Alloc A} {inter inter₂ : List (View A)} (hi : List.Forall₂ SameArray inter inter₂)
    (hsh : inter.map View.shape = shapes) :
    ∃ l l₂ r r₂, runSteps al operands (cs.zip steps) inter = .ok l ∧ runSteps al₂ operands₂ (cs₂.zip steps) inter₂ = .ok l₂ ∧
      l.getLast? = some r ∧ l₂.getLast? = some r₂ ∧ SameArray r r₂ := by
  induction hf generalizing k k₂ cs cs₂ al al₂ inter inter₂ with
  | @done shapes hne =>
    have hl := hi.length_eq
    have h0 : inter ≠ [] := by
      rintro rfl
      exact hne hsh.symm
    have h1 : 0 < inter.length := List.length_pos_of_ne_nil h0
    have e1 : inter[inter.length - 1]? = some (inter[inter.length - 1]'(by omega)) := List.getElem?_eq_getElem _
    have e2 : inter₂[inter.length - 1]? = some (inter₂[inter.length - 1]'(by omega)) := List.getElem?_eq_getElem _
    refine ⟨inter, inter₂, _, _, by simp [runSteps], by simp [runSteps], ?_, ?_, forall₂_get hi e1 e2⟩
    · rw [List.getLast?_eq_getElem?, e1]
    · rw [List.getLast?_eq_getElem?, show inter₂.length - 1 = inter.length - 1 by omega, e2]
  | @step shapes st steps dims L R h1 h2 h3 h4 h5 h6 _ ih =>
    subst hsh
    simp only [compileSteps] at hc hc₂
    obtain ⟨c, c1, hc⟩ := bind_eq_ok.1 hc
    obtain ⟨cs, c2, hc⟩ := bind_eq_ok.1 hc
    cases hc
    obtain ⟨c₂, d1, hc₂⟩ := bind_eq_ok.1 hc₂
    obtain ⟨cs₂, d2, hc₂⟩ := bind_eq_ok.1 hc₂
    cases hc₂
    obtain ⟨g, hg⟩ := step_call h1 h2 h3 c1
    obtain ⟨g₂, hg₂⟩ := step_call h1 h2 h3 d1
    obtain ⟨u, u₂, a1, a2, a3, a4⟩ := fetch_same ho hi h5
    obtain ⟨v, v₂, b1, b2, b3, b4⟩ := fetch_same ho hi h6
    have rep : ∀ {x x₂ : View A} {ix : List Char}, SameArray x x₂ → x.shape = ix.map dims →
        (Rep x ix dims fun σ => x.elem (ix.map σ)) ∧ Rep x₂ ix dims fun σ => x.elem (ix.map σ) := by
      intro x x₂ ix hx hix
      refine ⟨rep_of_elements hx.1.elements hix, rep_of_elements (t := x.elem) ⟨hx.2.1, fun idx hidx => ?_⟩ (hx.2.2.1 ▸ hix)⟩
      rw [← hx.2.2.1] at hidx
      rw [← hx.2.2.2 idx hidx, hx.1.elements.2 idx hidx]
    obtain ⟨w, w1, w3⟩ := Stepwise.pair_value h2 (h4 L (by simp)) (h4 R (by simp)) g al (rep a3 a4).1 (rep b3 b4).1 a3.1 b3.1
    obtain ⟨w₂, w2, w4⟩ := Stepwise.pair_value h2 (h4 L (by simp)) (h4 R (by simp)) g₂ al₂ (rep a3 a4).2 (rep b3 b4).2 a3.2.1 b3.2.1
    obtain ⟨l, l₂, r, r₂, r1, r2, r3⟩ := ih c2 d2 (al := al.sub 1) (al₂ := al₂.sub 1) (inter := inter ++ [w])
      (inter₂ := inter₂ ++ [w₂]) (List.rel_append hi (.cons (same_of_rep h2.1 w3 w4) .nil))
      (by rw [List.map_append, List.map_singleton, w3.shape])
    refine ⟨l, l₂, r, r₂, ?_, ?_, r3⟩
    · simp only [List.zip_cons_cons, runSteps, a1, b1, bind_ok, hg, w1, r1]
    · simp only [List.zip_cons_cons, runSteps, a2, b2, bind_ok, hg₂, w2, r2]

/-- C124: a contraction order compiled under two hash orders gives the same elements, whatever the memory layouts and the
orders of additions. -/
theorem C124_same (steps : List PairStep) (operands operands₂ : List (View A)) (al al₂ : Alloc A)
    (hf : Fitting (operands.map View.shape) [] steps) (ho : List.Forall₂ SameArray operands operands₂) (k k₂ : HashOrd)
    (p p₂ : EinsumPath) (hk : EinsumPath.fromPath k (.pairs steps) = .ok p)
    (hk₂ : EinsumPath.fromPath k₂ (.pairs steps) = .ok p₂) :
    ∃ r r₂, p.contractOperands al operands = .ok r ∧ p₂.contractOperands al₂ operands₂ = .ok r₂ ∧ SameArray r r₂ := by
  simp only [EinsumPath.fromPath] at hk hk₂
  obtain ⟨cs, c1, hk⟩ := bind_eq_ok.1 hk
  cases hk
  obtain ⟨cs₂, d1, hk₂⟩ := bind_eq_ok.1 hk₂
  cases hk₂
  obtain ⟨l, l₂, r, r₂, r1, r2, r3, r4, r5⟩ := fitting_runs (al := al) (al₂ := al₂) hf ho c1 d1 .nil rfl
  refine ⟨r, r₂, ?_, ?_, r5⟩
  · simp only [EinsumPath.contractOperands, r1, bind_ok, r3]
    rfl
  · simp only [EinsumPath.contractOperands, r2, bind_ok, r4]
    rfl

/-- C124: with a commutative multiplication the operands of a step may be exchanged. -/
theorem C124_swap {A : Type} [AddCommMonoid A] [CommMagma A] {sc sc₂ : SizedContraction} {x y z : Tensor A} (L R : List Char)
    (h : Combines sc x y z) (h1 : sc.contraction.operandIndices = [L, R]) (h2 : sc₂.contraction.operandIndices = [R, L])
    (h3 : sc₂.contraction.outputIndices = sc.contraction.outputIndices) (h4 : sc₂.outputSize = sc.outputSize) :
    Combines sc₂ y x z := by
  obtain ⟨dims, L', R', a1, a2, a3, a4, a5, a6, a7, a8⟩ := h
  rw [h1] at a1
  cases a1
  refine ⟨dims, R, L, h2, ?_, fun c hc => ?_, a5, a4, fun M hM => a6 M ?_, ?_, fun σ hσ => ?_⟩
  · rw [h3]
    refine ⟨a2.1, fun c hc => ?_⟩
    obtain ⟨M, hM, hcM⟩ := a2.2 c hc
    exact ⟨M, by simp only [List.mem_cons, List.not_mem_nil, or_false] at hM ⊢; exact hM.symm, hcM⟩
  · rw [h4]
    exact a3 c hc.symm
  · simp only [List.mem_cons, List.not_mem_nil, or_false] at hM ⊢
    exact hM.symm
  · rw [h3, a7]
  · rw [h3] at hσ ⊢
    rw [a8 σ hσ, combined_swap]

end

namespace Ex

theorem fit124 : Fitting [[2, 2]] [] (squarings 2 1) := by
  have h1 : ∀ x, ∀ c, c ∈ ['i', 'j'] ∨ c ∈ ['j', 'k'] → (squareStep 2 x).sizedContraction.outputSize c = some 2 := by
    intro x c hc
    have : c = 'i' ∨ c = 'j' ∨ c = 'k' := by simpa [or_assoc] using hc
    simp [squareStep, this]
  have h2 : ∀ x, OutputOk [['i', 'j'], ['j', 'k']] (squareStep 2 x).sizedContraction.contraction.outputIndices := by
    intro x
    simp [squareStep, OutputOk, Used]
  have h3 : NoEmptyDiagonal (fun _ => 2) [['i', 'j'], ['j', 'k']] := by simp [NoEmptyDiagonal]
  exact .step (fun _ => 2) _ _ rfl (h2 _) (h1 _) h3 rfl rfl
    (.step (fun _ => 2) _ _ rfl (h2 _) (h1 _) h3 rfl rfl (.done (by simp)))

/-- Bytes, row by row, and the same matrix column by column. -/
def m124 : View (Unsigned 255) := ⟨[1, 2, 3, 4].map (Unsigned.of 255), 0, [2, 2], [2, 1]⟩

def m124t : View (Unsigned 255) := ⟨[1, 3, 2, 4].map (Unsigned.of 255), 0, [2, 2], [1, 2]⟩

theorem same124 : SameArray m124 m124t := by
  have e1 := elements_of (v := m124) (t := m124.elem) rfl (by decide +kernel)
  have e2 := elements_of (v := m124t) (t := m124.elem) rfl (by decide +kernel)
  exact ⟨e1.1, e2.1, rfl, fun idx hi => by rw [e1.2 idx hi, e2.2 idx hi]⟩

end Ex

/-- The fourth power of a matrix of bytes, in two layouts and with two hash orders. -/
example (p p₂ : EinsumPath) (hk : EinsumPath.fromPath HashOrd.insertion (.pairs (squarings 2 1)) = .ok p)
    (hk₂ : EinsumPath.fromPath HashOrd.reversed (.pairs (squarings 2 1)) = .ok p₂) :=
  C124_same (squarings 2 1) [Ex.m124] [Ex.m124t] (Alloc.rowMajor _) (Alloc.colMajor _) Ex.fit124 (.cons Ex.same124 .nil) _ _ p p₂
    hk hk₂

/-- The square of a matrix, for any multiplication. -/
theorem Ex.combines124 {A : Type} [AddCommMonoid A] [Mul A] (n : Nat) (x : OperandNumber) (f g : List Nat → A) :
    Combines (squareStep n x).sizedContraction ⟨[n, n], f⟩ ⟨[n, n], g⟩
      ⟨[n, n], fun idx => ∑ j ∈ Finset.range n, f [idx.getD 0 0, j] * g [j, idx.getD 1 0]⟩ := by
  refine ⟨fun _ => n, ['i', 'j'], ['j', 'k'], rfl, by simp [squareStep, OutputOk, Used], fun c hc => ?_, rfl, rfl,
    by simp [NoEmptyDiagonal], rfl, fun σ _ => rfl⟩
  have : c = 'i' ∨ c = 'j' ∨ c = 'k' := by simpa [or_assoc] using hc
  simp [squareStep, this]

example {A : Type} [AddCommMonoid A] [Mul A] (h : HashOrd) (al : Alloc A) (v : View A) (f : List Nat → A) (n : Nat)
    (hv : Is v ⟨[n, n], f⟩) :
    ∃ p r, EinsumPath.fromPath h (.pairs (squarings n 0)) = .ok p ∧ p.contractOperands al [v] = .ok r ∧
      Is r ⟨[n, n], fun idx => ∑ j ∈ Finset.range n, f [idx.getD 0 0, j] * f [j, idx.getD 1 0]⟩ :=
  C124_program h al _ [v] [_] _ (.cons hv .nil) (.step rfl rfl (Ex.combines124 n _ f f) .done)

example {A : Type} [AddCommMonoid A] [CommMagma A] (n : Nat) (x : OperandNumber) (f g : List Nat → A) :=
  C124_swap (sc₂ := ⟨⟨[['j', 'k'], ['i', 'j']], ['i', 'k'], ['j']⟩, (squareStep n x).sizedContraction.outputSize⟩) _ _
    (Ex.combines124 n x f g) rfl rfl rfl rfl

end Einsum
