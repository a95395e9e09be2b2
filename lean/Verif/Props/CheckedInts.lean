import Verif.Props.Exact
import Verif.Props.Related
import Verif.Props.Dataflow
import Verif.Props.TreesLawless
import Verif.Props.Fold
import Verif.Props.Work
import Verif.Props.Findings
import Verif.Props.Loops

/-!
# Property C121: integers with overflow checks
-/

namespace Einsum

open Spec

/-! ## The element type -/

/-- The integers between `lo` and `hi` in a build with overflow checks. `none` marks an element for which an operation
left the range; in Rust that operation panics. -/
structure Spec.Ranged (lo hi : ℤ) where
  value : Option ℤ
  deriving DecidableEq

namespace Spec.Ranged

variable {lo hi : ℤ}

/-- The integer, or the mark if it is not in the range. -/
def of (lo hi z : ℤ) : Ranged lo hi := if lo ≤ z ∧ z ≤ hi then ⟨some z⟩ else ⟨none⟩

/-- An operation on elements that are not marked. -/
def op (f : ℤ → ℤ → ℤ) (x y : Ranged lo hi) : Ranged lo hi :=
  match x.value, y.value with
  | some a, some b => of lo hi (f a b)
  | _, _ => ⟨none⟩

instance : Zero (Ranged lo hi) := ⟨⟨some 0⟩⟩
instance : Add (Ranged lo hi) := ⟨op (· + ·)⟩
instance : Mul (Ranged lo hi) := ⟨op (· * ·)⟩

end Spec.Ranged

namespace Ranged

variable {lo hi : ℤ}

theorem of_in {z : ℤ} (h : lo ≤ z ∧ z ≤ hi) : Ranged.of lo hi z = ⟨some z⟩ := if_pos h

theorem of_out {z : ℤ} (h : ¬ (lo ≤ z ∧ z ≤ hi)) : Ranged.of lo hi z = ⟨none⟩ := if_neg h

theorem add_some (a b : ℤ) : (⟨some a⟩ + ⟨some b⟩ : Ranged lo hi) = Ranged.of lo hi (a + b) := rfl

theorem mul_some (a b : ℤ) : (⟨some a⟩ * ⟨some b⟩ : Ranged lo hi) = Ranged.of lo hi (a * b) := rfl

theorem mulAdd_eq (x y z : Ranged lo hi) : mulAdd x y z = x * y + z := rfl

/-- Marked, or the integer `z` of the range. -/
def Says (x : Ranged lo hi) (z : ℤ) : Prop := x.value = none ∨ x.value = some z ∧ lo ≤ z ∧ z ≤ hi

theorem says_of (z : ℤ) : Says (Ranged.of lo hi z) z := by
  by_cases h : lo ≤ z ∧ z ≤ hi
  · rw [of_in h]; exact .inr ⟨rfl, h⟩
  · exact .inl (by rw [Ranged.of, if_neg h])

theorem says_op (f : ℤ → ℤ → ℤ) {x y : Ranged lo hi} {a b : ℤ} (hx : Says x a) (hy : Says y b) :
    Says (Ranged.op f x y) (f a b) := by
  obtain ⟨x⟩ := x
  obtain ⟨y⟩ := y
  rcases hx with rfl | ⟨rfl, -⟩
  · exact .inl rfl
  rcases hy with rfl | ⟨rfl, -⟩
  · exact .inl rfl
  exact says_of _

theorem preserved_says (h0 : lo ≤ 0 ∧ 0 ≤ hi) : Preserved (Says (lo := lo) (hi := hi)) where
  zero := .inr ⟨rfl, h0⟩
  add _ _ _ _ h1 h2 := says_op (· + ·) h1 h2
  mul _ _ _ _ h1 h2 := says_op (· * ·) h1 h2
  mulAdd _ _ _ _ _ _ h1 h2 h3 := says_op (· + ·) (says_op (· * ·) h1 h2) h3

theorem of_add {a b : ℤ} (hz : lo ≤ 0) (ha : 0 ≤ a) (hb : 0 ≤ b) :
    Ranged.of lo hi a + Ranged.of lo hi b = Ranged.of lo hi (a + b) := by
  by_cases h1 : lo ≤ a ∧ a ≤ hi
  · by_cases h2 : lo ≤ b ∧ b ≤ hi
    · rw [of_in h1, of_in h2, add_some]
    · rw [of_in h1, of_out h2, of_out (by omega)]; rfl
  · rw [of_out h1, of_out (z := a + b) (by omega)]; rfl

theorem of_mul {a b : ℤ} (hz : lo ≤ 0) (ha : 1 ≤ a) (hb : 1 ≤ b) :
    Ranged.of lo hi a * Ranged.of lo hi b = Ranged.of lo hi (a * b) := by
  have h3 : a ≤ a * b := le_mul_of_one_le_right (by omega) hb
  have h4 : b ≤ a * b := le_mul_of_one_le_left (by omega) ha
  by_cases h1 : lo ≤ a ∧ a ≤ hi
  · by_cases h2 : lo ≤ b ∧ b ≤ hi
    · rw [of_in h1, of_in h2, mul_some]
    · rw [of_in h1, of_out h2, of_out (by omega)]; rfl
  · rw [of_out h1, of_out (z := a * b) (by omega)]; rfl

theorem eval_zero (f : ℤ → Ranged lo hi) (h0 : lo ≤ 0 ∧ 0 ≤ hi) {e : Expr ℤ} (h : e.IsZ) :
    e.eval f = Ranged.of lo hi 0 ∧ e.eval id = 0 := by
  refine ⟨?_, h.eval id⟩
  induction e with
  | var x => exact h.elim
  | zero => exact (of_in h0).symm
  | add a b iha ihb => rw [Expr.eval, iha h.1, ihb h.2, of_add h0.1 le_rfl le_rfl]; rfl
  | mul a b => exact h.elim
  | mulAdd a b c => exact h.elim

/-- With positive variables an expression is marked if and only if its value is too large. -/
theorem eval_positive (h0 : lo ≤ 0 ∧ 0 ≤ hi) {e : Expr ℤ} (h : e.IsP) (hx : ∀ x, e.Has x → 1 ≤ x) :
    1 ≤ e.eval id ∧ e.eval (Ranged.of lo hi) = Ranged.of lo hi (e.eval id) := by
  induction e with
  | var x => exact ⟨hx x rfl, rfl⟩
  | zero => exact h.elim
  | add a b iha ihb =>
    simp only [Expr.eval]
    rcases h with ⟨h1, h2⟩ | ⟨h1, h2⟩ | ⟨h1, h2⟩
    · obtain ⟨a1, a2⟩ := eval_zero (Ranged.of lo hi) h0 h1
      obtain ⟨b1, b2⟩ := ihb h2 fun x hh => hx x (.inr hh)
      rw [a1, a2, b2, of_add h0.1 le_rfl (by omega)]
      exact ⟨by omega, rfl⟩
    · obtain ⟨a1, a2⟩ := iha h1 fun x hh => hx x (.inl hh)
      obtain ⟨b1, b2⟩ := eval_zero (Ranged.of lo hi) h0 h2
      rw [a2, b1, b2, of_add h0.1 (by omega) le_rfl]
      exact ⟨by omega, rfl⟩
    · obtain ⟨a1, a2⟩ := iha h1 fun x hh => hx x (.inl hh)
      obtain ⟨b1, b2⟩ := ihb h2 fun x hh => hx x (.inr hh)
      rw [a2, b2, of_add h0.1 (by omega) (by omega)]
      exact ⟨by omega, rfl⟩
  | mul a b iha ihb =>
    obtain ⟨a1, a2⟩ := iha h.1 fun x hh => hx x (.inl hh)
    obtain ⟨b1, b2⟩ := ihb h.2 fun x hh => hx x (.inr hh)
    simp only [Expr.eval]
    rw [a2, b2, of_mul h0.1 a1 b1]
    exact ⟨le_trans a1 (le_mul_of_one_le_right (by omega) b1), rfl⟩
  | mulAdd a b c iha ihb ihc =>
    obtain ⟨a1, a2⟩ := iha h.1 fun x hh => hx x (.inl hh)
    obtain ⟨b1, b2⟩ := ihb h.2.1 fun x hh => hx x (.inr (.inl hh))
    have hab : 1 ≤ a.eval id * b.eval id := le_trans a1 (le_mul_of_one_le_right (by omega) b1)
    have hc : 0 ≤ c.eval id ∧ c.eval (Ranged.of lo hi) = Ranged.of lo hi (c.eval id) := by
      rcases h.2.2 with h1 | h1
      · obtain ⟨c1, c2⟩ := eval_zero (Ranged.of lo hi) h0 h1
        rw [c1, c2]
        exact ⟨le_rfl, rfl⟩
      · obtain ⟨c1, c2⟩ := ihc h1 fun x hh => hx x (.inr (.inr hh))
        exact ⟨by omega, c2⟩
    simp only [Expr.eval]
    rw [a2, b2, hc.2, mulAdd_eq, of_mul h0.1 a1 b1, of_add h0.1 (by omega) hc.1]
    change 1 ≤ a.eval id * b.eval id + c.eval id ∧ _
    exact ⟨by have := hc.1; omega, rfl⟩

/-- Nothing takes a mark away. -/
theorem absorbing : Absorbing fun x : Ranged lo hi => x.value = none := by
  have key : ∀ (f : ℤ → ℤ → ℤ) (x y : Ranged lo hi), x.value = none ∨ y.value = none → (Ranged.op f x y).value = none := by
    rintro f ⟨_ | x⟩ ⟨_ | y⟩ h
    · rfl
    · rfl
    · rfl
    · rcases h with h | h <;> cases h
  refine ⟨fun x y h => key _ x y h, fun x y h => key _ x y h, fun x y z h => ?_⟩
  rw [mulAdd_eq]
  rcases h with h | h | h
  · exact key _ _ _ (.inl (key _ _ _ (.inl h)))
  · exact key _ _ _ (.inl (key _ _ _ (.inr h)))
  · exact key _ _ _ (.inr h)

end Ranged

open Ranged (Says)

/-! ## Elements without a mark are exact -/

section exact

variable {lo hi : ℤ}

theorem related_says {vs : List (View ℤ)} (hw : ∀ v ∈ vs, v.Wf) :
    List.Forall₂ (Related (Says (lo := lo) (hi := hi))) (vs.map (View.map (Ranged.of lo hi))) vs := by
  induction vs with
  | nil => exact .nil
  | cons v vs ih =>
    refine .cons ⟨rfl, rfl, ⟨(hw v (by simp)).map _, hw v (by simp)⟩, fun idx x y hx hy => ?_⟩
      (ih fun v hv => hw v (by simp [hv]))
    rw [View.read_map, hy] at hx
    cases hx
    exact Ranged.says_of y

theorem elements_wf {A : Type} {vs : List (View A)} {ts : List (List Nat → A)} (he : List.Forall₂ Elements vs ts) :
    ∀ v ∈ vs, v.Wf := by
  induction he with
  | nil => simp
  | cons h _ ih => simp only [List.mem_cons, forall_eq_or_imp]; exact ⟨h.1, ih⟩

theorem says_result {dims : Char → Nat} {inputs : List (List Char)} {ts : List (List Nat → ℤ)} {out : List Char}
    {r : View (Ranged lo hi)} {r' : View ℤ} (hr : Related Says r r') (h : IsEinsum dims inputs ts out r') :
    r.Wf ∧ r.shape = out.map dims ∧ ∀ σ, InRange dims out σ → ∃ y, r.read (out.map σ) = .ok y ∧
      Says y (Spec.einsum dims inputs ts out σ) := by
  refine ⟨hr.wf.1, hr.shape.trans h.2.1, fun σ hσ => ?_⟩
  have e := h.2.2 σ hσ
  have hi : InB r.shape (out.map σ) := by
    by_contra hi
    rw [hr.shape] at hi
    rw [View.read, if_neg hi] at e
    cases e
  obtain ⟨y, hy⟩ := hr.wf.1.2 _ hi
  exact ⟨y, hy, hr.elements _ _ _ hy e⟩

/-- C121: an element of the result that is not marked is the Einstein sum of the integers. -/
theorem C121_exact (hz : lo ≤ 0 ∧ 0 ≤ hi) (h : HashOrd) (al : UniformAlloc) (s : String) (operands : List (View ℤ))
    (inputs : List (List Char)) (out : List Char) (dims : Char → Nat) (ts : List (List Nat → ℤ))
    (hc : Call s operands inputs out dims ts) (hn : NoEmptyDiagonal dims inputs) :
    ∃ r, einsum h (al.alloc (Ranged lo hi)) s (operands.map (View.map (Ranged.of lo hi))) = .ok (.ok r) ∧ r.Wf ∧
      r.shape = out.map dims ∧ ∀ σ, InRange dims out σ → ∃ y, r.read (out.map σ) = .ok y ∧
        (y.value = none ∨ y.value = some (Spec.einsum dims inputs ts out σ) ∧
          lo ≤ Spec.einsum dims inputs ts out σ ∧ Spec.einsum dims inputs ts out σ ≤ hi) := by
  obtain ⟨r', h1, h2⟩ := C13_einsum h (al.alloc ℤ) s operands inputs out dims ts hc hn
  have key := C63_einsum (Ranged.preserved_says hz) h al s _ operands (related_says (elements_wf hc.elements))
  rw [h1] at key
  cases hr : einsum h (al.alloc (Ranged lo hi)) s (operands.map (View.map (Ranged.of lo hi))) with
  | error e => rw [hr] at key; exact key.elim
  | ok r =>
    rw [hr] at key
    cases r with
    | error e => exact key.elim
    | ok r => exact ⟨r, rfl, says_result key h2⟩

/-- C121: the same for compiled paths. -/
theorem C121_exact_path (hz : lo ≤ 0 ∧ 0 ≤ hi) (h : HashOrd) (al : UniformAlloc) (s : String) (operands : List (View ℤ))
    (inputs : List (List Char)) (out : List Char) (dims : Char → Nat) (ts : List (List Nat → ℤ))
    (m : OptimizationMethod) (hm : m = .naive ∨ m = .reverse)
    (hc : Call s operands inputs out dims ts) (hn : NoEmptyDiagonal dims inputs) :
    ∃ p r, einsumPath h s operands m = .ok (.ok p) ∧
      p.contractOperands (al.alloc (Ranged lo hi)) (operands.map (View.map (Ranged.of lo hi))) = .ok r ∧ r.Wf ∧
      r.shape = out.map dims ∧ ∀ σ, InRange dims out σ → ∃ y, r.read (out.map σ) = .ok y ∧
        (y.value = none ∨ y.value = some (Spec.einsum dims inputs ts out σ) ∧
          lo ≤ Spec.einsum dims inputs ts out σ ∧ Spec.einsum dims inputs ts out σ ≤ hi) := by
  obtain ⟨p, p1, p2⟩ := einsumPath_ok hc.denotes hc.sized h hm
  obtain ⟨r', h1, h2⟩ := (p2.outcome hc.denotes.outputOk.1 hc.sized hc.elements (al.alloc ℤ)).1 (not_emptyDiagonal hn)
  have key := C63_path (Ranged.preserved_says hz) p al _ operands (related_says (elements_wf hc.elements))
  rw [h1] at key
  cases hr : p.contractOperands (al.alloc (Ranged lo hi)) (operands.map (View.map (Ranged.of lo hi))) with
  | error e => rw [hr] at key; exact key.elim
  | ok r => rw [hr] at key; exact ⟨p, r, p1, hr, says_result key h2⟩

end exact

/-! ## Positive integers -/

section positive

variable {lo hi : ℤ}

/-- C121: if all elements are positive, an element of the result is marked if and only if the Einstein sum is too large.
So no order of any kind decides whether a call panics. -/
theorem C121_einsum (hz : lo ≤ 0 ∧ 0 ≤ hi) (h : HashOrd) (al : UniformAlloc) (s : String) (operands : List (View ℤ))
    (inputs : List (List Char)) (out : List Char) (dims : Char → Nat) (ts : List (List Nat → ℤ))
    (hc : Call s operands inputs out dims ts) (h0 : ∀ c ∈ inputs.flatten, dims c ≠ 0)
    (hp : ∀ v ∈ operands, ∀ idx z, v.read idx = .ok z → 1 ≤ z) :
    ∃ r, einsum h (al.alloc (Ranged lo hi)) s (operands.map (View.map (Ranged.of lo hi))) = .ok (.ok r) ∧ r.Wf ∧
      r.shape = out.map dims ∧ ∀ σ, InRange dims out σ →
        r.read (out.map σ) = .ok (Ranged.of lo hi (Spec.einsum dims inputs ts out σ)) := by
  obtain ⟨R, h1, h2, h3, h4⟩ := einsum_positive h al s operands inputs out dims ts hc h0
  refine ⟨_, h3 _ (Ranged.of lo hi), h1.map _, h2, fun σ hσ => ?_⟩
  obtain ⟨e, e1, e2, e3, e4⟩ := h4 σ hσ
  have hx : ∀ x, e.Has x → 1 ≤ x := fun x hh => by obtain ⟨v, hv, idx, hi⟩ := e3 x hh; exact hp v hv idx x hi
  have := e4 ℤ id
  simp only [id_eq, List.map_id'] at this
  rw [View.read_map, e1, ← this, ← (Ranged.eval_positive hz e2 hx).2]
  rfl

/-- C121: the same for compiled paths. -/
theorem C121_path (hz : lo ≤ 0 ∧ 0 ≤ hi) (h : HashOrd) (al : UniformAlloc) (s : String) (operands : List (View ℤ))
    (inputs : List (List Char)) (out : List Char) (dims : Char → Nat) (ts : List (List Nat → ℤ))
    (m : OptimizationMethod) (hm : m = .naive ∨ m = .reverse)
    (hc : Call s operands inputs out dims ts) (h0 : ∀ c ∈ inputs.flatten, dims c ≠ 0)
    (hp : ∀ v ∈ operands, ∀ idx z, v.read idx = .ok z → 1 ≤ z) :
    ∃ p r, einsumPath h s operands m = .ok (.ok p) ∧
      p.contractOperands (al.alloc (Ranged lo hi)) (operands.map (View.map (Ranged.of lo hi))) = .ok r ∧ r.Wf ∧
      r.shape = out.map dims ∧ ∀ σ, InRange dims out σ →
        r.read (out.map σ) = .ok (Ranged.of lo hi (Spec.einsum dims inputs ts out σ)) := by
  obtain ⟨p, p1, R, h1, h2, h3, h4⟩ := path_positive h al s operands inputs out dims ts m hm hc h0
  refine ⟨p, _, p1, h3 _ (Ranged.of lo hi), h1.map _, h2, fun σ hσ => ?_⟩
  obtain ⟨e, e1, e2, e3, e4⟩ := h4 σ hσ
  have hx : ∀ x, e.Has x → 1 ≤ x := fun x hh => by obtain ⟨v, hv, idx, hi⟩ := e3 x hh; exact hp v hv idx x hi
  have := e4 ℤ id
  simp only [id_eq, List.map_id'] at this
  rw [View.read_map, e1, ← this, ← (Ranged.eval_positive hz e2 hx).2]
  rfl

end positive

/-! ## Marks of intermediate results -/

section reaches

variable {A : Type} [Zero A] [Add A] [Mul A] [MulAdd A] {Q : A → Prop}

/-- Some element of the array is in `Q`. -/
def Spec.HasElement (Q : A → Prop) (v : View A) : Prop := ∃ idx x, v.read idx = .ok x ∧ Q x

theorem contracts_two {dims : Char → Nat} {L R o : List Char} (ho : OutputOk [L, R] o) :
    Contracts dims o 0 (numbered [L, R]) [⟨callSC [L, R] o dims, ⟨.input 0, .input 1⟩⟩] := by
  refine .step (rest := []) (l := .input 0) (r := .input 1) (L := L) (R := R) (O := o) (.refl _) rfl rfl rfl ?_ ho ?_ (.done 0)
  · intro c hc
    have : c ∈ [L, R].flatten := by simpa using hc
    simp only [callSC, if_pos this]
  · rintro c - (h | ⟨_, h, -⟩)
    · exact h
    · cases h

theorem call_fromPath {dims : Char → Nat} {L R o : List Char} (ho : OutputOk [L, R] o) (k : HashOrd) {p : EinsumPath}
    (hp : EinsumPath.fromPath (k.sub 1) (.pairs [⟨callSC [L, R] o dims, ⟨.input 0, .input 1⟩⟩]) = .ok p) (al : Alloc A)
    (x y : View A) : (callSC [L, R] o dims).contractOperands k al [x, y] = p.contractOperands al [x, y] := by
  have e : EinsumPath.new k (callSC [L, R] o dims) = .ok p := by
    rw [new_two k ho, ← hp]
    show _ = (do let steps ← (do let c ← PairContraction.new _ _; return [c]); return _ : M EinsumPath)
    cases PairContraction.new ((k.sub 1).sub 0) (callSC [L, R] o dims) <;> rfl
  unfold SizedContraction.contractOperands
  rw [e]
  rfl

omit [Zero A] [Add A] [Mul A] [MulAdd A] in
theorem elements_read [Inhabited A] {v : View A} (h : v.Wf) : Elements v fun idx => (v.read idx).toOption.getD default :=
  ⟨h, fun idx hi => by obtain ⟨x, hx⟩ := h.2 idx hi; simp only [hx]; rfl⟩

theorem mem_of_used {inputs : List (List Char)} {c : Char} (h : Used inputs c) : c ∈ inputs.flatten := used_iff.1 h

/-- One call: every element of the left operand is used for some element of the result. -/
theorem call_reaches (hQ : Absorbing Q) {dims : Char → Nat} {L R o : List Char} (ho : OutputOk [L, R] o) (k : HashOrd)
    (al : UniformAlloc) {x y : View A} (hx : x.Wf) (hy : y.Wf) (sx : x.shape = L.map dims) (sy : y.shape = R.map dims)
    (h0 : ∀ c ∈ [L, R].flatten, dims c ≠ 0) :
    ∃ z, (callSC [L, R] o dims).contractOperands k (al.alloc A) [x, y] = .ok z ∧ z.Wf ∧ z.shape = o.map dims ∧
      (L.Nodup → HasElement Q x → HasElement Q z) := by
  let _ : Inhabited A := ⟨0⟩
  obtain ⟨p, p1, S, h1, h2, h3, h4⟩ := tree_positive (k.sub 1) al _ [L, R] o dims [x, y] _ (contracts_two ho)
    (.cons sx (.cons sy .nil)) (.cons (elements_read hx) (.cons (elements_read hy) .nil)) h0 (by
      intro st hst c d hd
      rw [List.mem_singleton] at hst
      subst hst
      exact Nat.pos_iff_ne_zero.1 (callSC_pos h0 c d hd))
  have hz := h3 A id
  rw [map_map_id] at hz
  refine ⟨_, (call_fromPath ho k p1 _ x y).trans hz, h1.map _, h2, fun hL => ?_⟩
  rintro ⟨idx, a, ha, hq⟩
  have hi : InB (L.map dims) idx := by
    by_contra hi
    rw [View.read, sx, if_neg hi] at ha
    cases ha
  obtain ⟨σ, s1, s2, rfl⟩ := exists_assign_zero hL hi
  have hσ : InRange dims [L, R].flatten σ := fun c hc => by
    by_cases hcL : c ∈ L
    · exact s1 c hcL
    · rw [s2 c hcL]; exact Nat.pos_of_ne_zero (h0 c hc)
  have hσo : InRange dims o σ := fun c hc => hσ c (mem_of_used (ho.2 c hc))
  obtain ⟨e, e1, e2, -, e4⟩ := h4 σ hσo
  refine ⟨o.map σ, e.eval id, by rw [View.read_map, e1]; rfl, Expr.absorbed hQ (x := a) hq ?_⟩
  refine (formal_has hσo e2 e4 a).2 ⟨σ, hσ, fun _ _ => rfl, _, List.mem_cons_self, ?_⟩
  show a = (x.read (L.map σ)).toOption.getD default
  rw [ha]
  rfl

omit [Zero A] [Add A] [Mul A] [MulAdd A] in
/-- The operands have the shapes of their letters. -/
theorem operand_at {dims : Char → Nat} {inputs : List (List Char)} {operands : List (View A)}
    (hs : Sized dims inputs (operands.map View.shape)) (hw : ∀ v ∈ operands, v.Wf) {n : Nat} {R : List Char}
    (hn : inputs[n]? = some R) : ∃ v, index operands n = .ok v ∧ v.Wf ∧ v.shape = R.map dims := by
  unfold Sized at hs
  obtain ⟨hi, rfl⟩ := List.getElem?_eq_some_iff.1 hn
  have hl : n < operands.length := by have := hs.length_eq; rw [List.length_map] at this; omega
  refine ⟨operands[n], index_eq_ok.2 (List.getElem?_eq_getElem hl), hw _ (List.getElem_mem hl), ?_⟩
  have := List.forall₂_iff_get.1 hs |>.2 n hi (by simpa using hl)
  simpa using this

/-- The calls of a path: whatever is in the array so far reaches the result. -/
theorem fold_reaches (hQ : Absorbing Q) {dims : Char → Nat} {inputs : List (List Char)} {out : List Char}
    {operands : List (View A)} (hs : Sized dims inputs (operands.map View.shape)) (hw : ∀ v ∈ operands, v.Wf)
    (h0 : ∀ c ∈ inputs.flatten, dims c ≠ 0) (ds cs : List TwoCall) (L : List Char) (al : UniformAlloc) (x : View A)
    (hl : Linked dims inputs L (cs ++ ds) out) (hx : x.Wf) (sx : x.shape = L.map dims) (hL : ∀ c ∈ L, dims c ≠ 0) :
    ∃ z r, foldCalls operands cs (al.alloc A) x = .ok z ∧ foldCalls operands (cs ++ ds) (al.alloc A) x = .ok r ∧
      r.Wf ∧ r.shape = out.map dims ∧ (L.Nodup ∨ cs ≠ [] → HasElement Q z → HasElement Q r) := by
  induction cs generalizing L al x with
  | nil =>
    suffices h : ∃ r, foldCalls operands ds (al.alloc A) x = .ok r ∧ r.Wf ∧ r.shape = out.map dims ∧
        (L.Nodup → HasElement Q x → HasElement Q r) by
      obtain ⟨r, r1, r2, r3, r4⟩ := h
      exact ⟨x, r, rfl, r1, r2, r3, fun h => r4 (h.resolve_right (· rfl))⟩
    rw [List.nil_append] at hl
    induction ds generalizing L al x with
    | nil => exact ⟨x, rfl, hx, by rw [sx, show L = out from hl], fun _ => id⟩
    | cons d ds ih =>
      obtain ⟨R, o, l1, l2, l3, -, l5⟩ := hl
      obtain ⟨y, y1, y2, y3⟩ := operand_at hs hw l1
      have hd : ∀ c ∈ [L, R].flatten, dims c ≠ 0 := fun c hc => by
        rcases (by simpa using hc : c ∈ L ∨ c ∈ R) with hc | hc
        · exact hL c hc
        · exact h0 c (List.mem_flatten.2 ⟨R, List.mem_of_getElem? l1, hc⟩)
      obtain ⟨z, z1, z2, z3, z4⟩ := call_reaches hQ l2 d.order al hx y2 sx y3 hd
      obtain ⟨r, r1, r2, r3, r4⟩ := ih o (al.sub 1) z l5 z2 z3 fun c hc => hd c (mem_of_used (l2.2 c hc))
      refine ⟨r, ?_, r2, r3, fun h hq => r4 l2.1 (z4 h hq)⟩
      simp only [foldCalls, y1, l3, bind_ok, z1]
      exact r1
  | cons d cs ih =>
    obtain ⟨R, o, l1, l2, l3, -, l5⟩ := hl
    obtain ⟨y, y1, y2, y3⟩ := operand_at hs hw l1
    have hd : ∀ c ∈ [L, R].flatten, dims c ≠ 0 := fun c hc => by
      rcases (by simpa using hc : c ∈ L ∨ c ∈ R) with hc | hc
      · exact hL c hc
      · exact h0 c (List.mem_flatten.2 ⟨R, List.mem_of_getElem? l1, hc⟩)
    obtain ⟨z, z1, z2, z3, -⟩ := call_reaches hQ l2 d.order al hx y2 sx y3 hd
    obtain ⟨w, r, w1, r1, r2, r3, r4⟩ := ih o (al.sub 1) z l5 z2 z3 (fun c hc => hd c (mem_of_used (l2.2 c hc)))
    refine ⟨w, r, ?_, ?_, r2, r3, fun _ => r4 (.inl l2.1)⟩
    · simp only [foldCalls, y1, l3, bind_ok, z1]
      exact w1
    · simp only [List.cons_append, foldCalls, y1, l3, bind_ok, z1]
      exact r1

/-- C121: a compiled path is a sequence of calls for two operands, and an element in `Q` of any of their results leads to
an element in `Q` of the final result, if no operation leaves `Q`. So an overflow that is marked in an intermediate array
is marked in the result. -/
theorem C121_reaches (hQ : Absorbing Q) (h : HashOrd) (al : UniformAlloc) (s : String) (operands : List (View A))
    (inputs : List (List Char)) (out : List Char) (dims : Char → Nat) (m : OptimizationMethod)
    (hd : Denotes s inputs out) (hs : Sized dims inputs (operands.map View.shape)) (hw : ∀ v ∈ operands, v.Wf)
    (h2 : 2 ≤ inputs.length) (h0 : ∀ c ∈ inputs.flatten, dims c ≠ 0) (p : EinsumPath)
    (hp : einsumPath h s operands m = .ok (.ok p)) :
    ∃ (first : Nat) (L : List Char) (calls : List TwoCall) (x r : View A), inputs[first]? = some L ∧
      first :: calls.map TwoCall.operand = operandOrder m inputs.length ∧ Linked dims inputs L calls out ∧
      index operands first = .ok x ∧ p.contractOperands (al.alloc A) operands = .ok r ∧
      foldCalls operands calls (al.alloc A) x = .ok r ∧
      ∀ cs ds, calls = cs ++ ds → cs ≠ [] → ∃ z, foldCalls operands cs (al.alloc A) x = .ok z ∧
        (HasElement Q z → HasElement Q r) := by
  obtain ⟨first, L, calls, c1, c2, c3, c4⟩ := C83_path h s operands inputs out dims hd hs h2 m p hp
  obtain ⟨x, x1, x2, x3⟩ := operand_at hs hw c1
  have hL : ∀ c ∈ L, dims c ≠ 0 := fun c hc => h0 c (List.mem_flatten.2 ⟨L, List.mem_of_getElem? c1, hc⟩)
  have key := fun cs ds (hcs : Linked dims inputs L (cs ++ ds) out) => fold_reaches hQ hs hw h0 ds cs L al x hcs x2 x3 hL
  obtain ⟨_, r, -, r1, -⟩ := key [] calls c3
  rw [List.nil_append] at r1
  refine ⟨first, L, calls, x, r, c1, c2, c3, x1, by rw [c4, x1]; exact r1, r1, fun cs ds hcs hne => ?_⟩
  subst hcs
  obtain ⟨z, r', z1, z2, -, -, z3⟩ := key cs ds c3
  rw [r1] at z2
  cases z2
  exact ⟨z, z1, z3 (.inr hne)⟩

end reaches

/-! ## Findings -/

/-- Signed bytes. -/
abbrev Spec.I8 := Ranged (-128) 127

namespace Ex

def a121 : View I8 := ⟨[⟨some 100⟩, ⟨some 100⟩, ⟨some (-100)⟩, ⟨some (-100)⟩], 0, [1, 2, 2, 1], [4, 2, 1, 1]⟩

def b121 : View I8 := ⟨[⟨some 1⟩, ⟨some 1⟩, ⟨some 1⟩, ⟨some 1⟩], 0, [1, 2, 2], [4, 2, 1]⟩

def v121 (z : ℤ) : View I8 := ⟨[⟨some z⟩], 0, [1], [1]⟩

end Ex

set_option maxRecDepth 100000 in
/-- C121: with negative elements the hash order decides whether an addition overflows: `100 + 100 - 100 - 100` does,
`100 - 100 + 100 - 100` does not. -/
theorem C121_hash : ∃ h h' : HashOrd,
    einsum h (Alloc.rowMajor I8) "xijk,xij->x" [Ex.a121, Ex.b121] = .ok (.ok ⟨[⟨none⟩], 0, [1], [1]⟩) ∧
    einsum h' (Alloc.rowMajor I8) "xijk,xij->x" [Ex.a121, Ex.b121] = .ok (.ok ⟨[⟨some 0⟩], 0, [1], [1]⟩) :=
  ⟨HashOrd.insertion, HashOrd.reversed, by decide +kernel, by decide +kernel⟩

/-- C121: with a zero element the order of the operands decides: `100 * 100 * 0` overflows, `0 * 100 * 100` does not. -/
theorem C121_order :
    einsum HashOrd.insertion (Alloc.rowMajor I8) "i,i,i->i" [Ex.v121 100, Ex.v121 100, Ex.v121 0] =
      .ok (.ok ⟨[⟨none⟩], 0, [1], [1]⟩) ∧
    ∃ p, einsumPath HashOrd.insertion "i,i,i->i" [Ex.v121 100, Ex.v121 100, Ex.v121 0] .reverse = .ok (.ok p) ∧
      p.contractOperands (Alloc.rowMajor I8) [Ex.v121 100, Ex.v121 100, Ex.v121 0] =
        .ok ⟨[⟨some 0⟩], 0, [1], [1]⟩ := by
  refine ⟨by decide +kernel, ?_⟩
  have h : (match einsumPath HashOrd.insertion "i,i,i->i" [Ex.v121 100, Ex.v121 100, Ex.v121 0] .reverse with
    | .ok (.ok p) => p.contractOperands (Alloc.rowMajor I8) [Ex.v121 100, Ex.v121 100, Ex.v121 0]
    | _ => .error .ub) = .ok ⟨[⟨some 0⟩], 0, [1], [1]⟩ := by decide +kernel
  split at h
  · rename_i p hp
    exact ⟨p, hp, h⟩
  · cases h

/-! ## Examples -/

example := C121_exact (lo := -128) (hi := 127) (by decide) HashOrd.reversed UniformAlloc.colMajor "ij,jk->ik" _ _ _ _ _
  Ex.call_matmul (noEmptyDiagonal_of Ex.pos_matmul)

example := C121_exact_path (lo := 0) (hi := 255) (by decide) HashOrd.reversed UniformAlloc.colMajor "ij,jk->ik" _ _ _ _ _
  .reverse (.inr rfl) Ex.call_matmul (noEmptyDiagonal_of Ex.pos_matmul)

namespace Ex

theorem pos_read {v : View ℤ} (h : ∀ idx ∈ allIdx v.shape, ∀ x ∈ v.buf, v.read idx = .ok x → 1 ≤ x) :
    ∀ idx x, v.read idx = .ok x → 1 ≤ x := by
  intro idx x hx
  by_cases hi : InB v.shape idx
  · refine h idx (mem_allIdx.2 hi) x ?_ hx
    rw [View.read, if_pos hi] at hx
    exact List.mem_of_getElem? (readAt_some hx).2
  · rw [View.read, if_neg hi] at hx
    cases hx

theorem pos_121 : ∀ v ∈ [m23, m32], ∀ idx z, v.read idx = .ok z → 1 ≤ z := by
  simp only [List.mem_cons, List.not_mem_nil, or_false, forall_eq_or_imp, forall_eq]
  exact ⟨pos_read (by decide), pos_read (by decide)⟩

end Ex

/-- The matrix product has the element 20: it overflows if and only if 20 is too large. -/
example (hi : ℤ) (h : 0 ≤ hi) : ∃ r, einsum HashOrd.reversed (UniformAlloc.colMajor.alloc (Ranged 0 hi)) "ij,jk->ik"
      ([Ex.m23, Ex.m32].map (View.map (Ranged.of 0 hi))) = .ok (.ok r) ∧
    r.read [0, 0] = .ok (if 20 ≤ hi then ⟨some 20⟩ else ⟨none⟩) := by
  obtain ⟨r, h1, -, -, h2⟩ := C121_einsum (lo := 0) (hi := hi) ⟨le_rfl, h⟩ HashOrd.reversed UniformAlloc.colMajor
    "ij,jk->ik" _ _ _ _ _ Ex.call_matmul Ex.pos_matmul Ex.pos_121
  refine ⟨r, h1, ?_⟩
  have := h2 (fun _ => 0) (by intro c _; exact Nat.pos_of_ne_zero (by unfold Ex.dims; split <;> omega))
  rw [show Spec.einsum Ex.dims [['i', 'j'], ['j', 'k']] [Ex.elems Ex.m23, Ex.elems Ex.m32] ['i', 'k'] (fun _ => 0) = 20 by
    decide +kernel] at this
  rw [show [0, 0] = ['i', 'k'].map (fun _ => 0) from rfl, this, Ranged.of]
  simp

example := C121_path (lo := -128) (hi := 127) (by decide) HashOrd.reversed UniformAlloc.colMajor "ij,jk->ik" _ _ _ _ _
  .reverse (.inr rfl) Ex.call_matmul Ex.pos_matmul Ex.pos_121

/-- Overflows of the intermediate product of three vectors reach the result. -/
example (p : EinsumPath)
    (hp : einsumPath HashOrd.insertion "i,i,i->i" [Ex.v121 100, Ex.v121 100, Ex.v121 0] .naive = .ok (.ok p)) :=
  C121_reaches (Q := fun x : I8 => x.value = none) Ranged.absorbing HashOrd.insertion UniformAlloc.rowMajor "i,i,i->i"
    [Ex.v121 100, Ex.v121 100, Ex.v121 0] [['i'], ['i'], ['i']] ['i'] (fun _ => 1) .naive
    (.inl ⟨by decide, ⟨by simp, by simp [Letter], by simp [Letter]⟩, by simp [OutputOk, Used]⟩)
    (.cons rfl (.cons rfl (.cons rfl .nil)))
    (by
      have h : ∀ z, (Ex.v121 z).Wf := fun z =>
        (elements_of (t := fun _ => ⟨some z⟩) rfl (by
          intro idx hi
          rw [show allIdx (Ex.v121 z).shape = [[0]] from rfl, List.mem_singleton] at hi
          subst hi
          rfl) : Elements (Ex.v121 z) _).1
      simp [h])
    (by decide) (by simp) p hp

end Einsum
