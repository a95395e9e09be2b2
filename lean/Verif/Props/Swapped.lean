import Verif.Props.Additive

/-!
# Property C123: exchanging the first two operands

Addition is commutative and associative, multiplication commutative; nothing connects the two.
-/

namespace Einsum

open Spec Function Stepwise

section

variable {A : Type} [AddCommMonoid A] [CommMagma A]

/-- One step does not depend on the order of its two operands. -/
theorem combined_swap {dims : Char → Nat} {L R later : List Char} {F G : (Char → Nat) → A} :
    combined dims L R later F G = combined dims R L later G F := by
  have nil : ∀ {L R : List Char}, FromLeft L R later → (R.dedup.filter fun c => c ∈ L ∧ c ∉ later) = [] := by
    intro L R h
    rw [List.filter_eq_nil_iff]
    intro c hc
    simp only [decide_eq_true_eq, not_and]
    exact fun hL => ((h.1 c hL).1 (List.mem_dedup.1 hc)).elim
  have anti : FromLeft L R later → ¬ FromLeft R L later := by
    rintro ⟨-, c, h1, h2⟩ ⟨h3, -⟩
    exact (h3 c h1).2 h2
  have e : (L.dedup.filter fun c => c ∈ R ∧ c ∉ later).Perm (R.dedup.filter fun c => c ∈ L ∧ c ∉ later) :=
    perm_of_nodup (L.nodup_dedup.filter _) (R.nodup_dedup.filter _) fun c => by
      simp only [List.mem_filter, List.mem_dedup, decide_eq_true_eq]
      tauto
  funext σ
  simp only [combined]
  by_cases h : FromLeft L R later
  · rw [if_pos h, if_neg (anti h), nil h, sumOver_nil]
  · rw [if_neg h]
    by_cases h' : FromLeft R L later
    · rw [if_pos h', nil h', sumOver_nil]
    · rw [if_neg h', sumOver_perm e]
      exact sumOver_congr fun τ _ _ => mul_comm _ _

theorem steps_swap {dims : Char → Nat} {L R : List Char} {rest : List (List Char)} {t u : List Nat → A}
    {ts : List (List Nat → A)} {out : List Char} :
    einsumSteps dims (L :: R :: rest) (t :: u :: ts) out = einsumSteps dims (R :: L :: rest) (u :: t :: ts) out := by
  funext σ
  simp only [einsumSteps, stepwise]
  rw [combined_swap]
  exact congrFun (stepwise_congr rest _ _ _ ts fun c => by simp [or_comm]) σ

theorem isStepwise_swap {dims : Char → Nat} {L R : List Char} {rest : List (List Char)} {t u : List Nat → A}
    {ts : List (List Nat → A)} {out : List Char} {r : View A}
    (h : IsStepwise dims (L :: R :: rest) (t :: u :: ts) out r) : IsStepwise dims (R :: L :: rest) (u :: t :: ts) out r :=
  ⟨h.1, h.2.1, fun σ hσ => by rw [h.2.2 σ hσ, steps_swap]⟩

/-- C123: the first two operands of a call may be exchanged, whatever the hash orders, the memory layouts and the orders of
additions. -/
theorem C123_swap (h h₂ : HashOrd) (al al₂ : Alloc A) (s s₂ : String) (operands operands₂ : List (View A)) (L R : List Char)
    (rest : List (List Char)) (out : List Char) (dims : Char → Nat) (t u : List Nat → A) (ts : List (List Nat → A))
    (hc : Call s operands (L :: R :: rest) out dims (t :: u :: ts))
    (hc₂ : Call s₂ operands₂ (R :: L :: rest) out dims (u :: t :: ts)) (hn : NoEmptyDiagonal dims (L :: R :: rest)) :
    ∃ r r₂, einsum h al s operands = .ok (.ok r) ∧ einsum h₂ al₂ s₂ operands₂ = .ok (.ok r₂) ∧ SameArray r r₂ := by
  have hn₂ : NoEmptyDiagonal dims (R :: L :: rest) := fun M hM => hn M (by
    simp only [List.mem_cons] at hM ⊢
    tauto)
  obtain ⟨r, r1, r2⟩ := C122_einsum h al s operands _ out dims _ hc hn
  obtain ⟨r₂, r3, r4⟩ := C122_einsum h₂ al₂ s₂ operands₂ _ out dims _ hc₂ hn₂
  exact ⟨r, r₂, r1, r3, same_stepwise hc.denotes.outputOk.1 r2 (isStepwise_swap r4)⟩

/-- C123: all optimization methods give the same array for two operands. -/
theorem C123_methods {B : Type} (h h₂ : HashOrd) (al al₂ : Alloc A) (s : String) (ops : List (View B)) (operands : List (View A))
    (L R : List Char) (out : List Char) (dims : Char → Nat) (t u : List Nat → A) (m m₂ : OptimizationMethod)
    (hd : Denotes s [L, R] out) (hs₀ : Sized dims [L, R] (ops.map View.shape)) (hs : Sized dims [L, R] (operands.map View.shape))
    (he : List.Forall₂ Elements operands [t, u]) (hn : NoEmptyDiagonal dims [L, R]) (p p₂ : EinsumPath)
    (hp : einsumPath h s ops m = .ok (.ok p)) (hp₂ : einsumPath h₂ s ops m₂ = .ok (.ok p₂)) :
    ∃ r r₂, p.contractOperands al operands = .ok r ∧ p₂.contractOperands al₂ operands = .ok r₂ ∧ SameArray r r₂ := by
  have key : ∀ (h : HashOrd) (al : Alloc A) (m : OptimizationMethod) (p : EinsumPath), einsumPath h s ops m = .ok (.ok p) →
      ∃ r, p.contractOperands al operands = .ok r ∧ IsStepwise dims [L, R] [t, u] out r := by
    intro h al m p hp
    obtain ⟨r, r1, r2⟩ := path_value h al s ops operands [L, R] out dims [t, u] m hd hs₀ hs he (by simp) hn p hp
    refine ⟨r, r1, ?_⟩
    cases m <;> first | exact r2 | exact isStepwise_swap r2
  obtain ⟨r, r1, r2⟩ := key h al m p hp
  obtain ⟨r₂, r3, r4⟩ := key h₂ al₂ m₂ p₂ hp₂
  exact ⟨r, r₂, r1, r3, same_stepwise hd.outputOk.1 r2 r4⟩

end

namespace Unsigned

variable {B : ℕ}

theorem mul_def (x y : Unsigned B) : x * y = Unsigned.op (· * ·) x y := rfl

instance : CommMagma (Unsigned B) where
  mul_comm x y := by
    rcases cases_on x with rfl | ⟨a, ha, rfl⟩
    · rw [mul_def, mul_def, op_none_left, op_none_right]
    · rcases cases_on y with rfl | ⟨b, hb, rfl⟩
      · rw [mul_def, mul_def, op_none_left, op_none_right]
      · rw [mul_def, mul_def, op_of _ ha hb, op_of _ hb ha]
        exact congrArg _ (Nat.mul_comm a b)

end Unsigned

/-- C123: so for two operands of unsigned integers with overflow checks the order of the operands does not decide whether an
element of the result overflows. -/
theorem C123_unsigned {B : ℕ} (h h₂ : HashOrd) (al al₂ : Alloc (Unsigned B)) (s s₂ : String)
    (operands operands₂ : List (View (Unsigned B))) (L R out : List Char) (dims : Char → Nat) (t u : List Nat → Unsigned B)
    (hc : Call s operands [L, R] out dims [t, u]) (hc₂ : Call s₂ operands₂ [R, L] out dims [u, t])
    (hn : NoEmptyDiagonal dims [L, R]) :
    ∃ r r₂, einsum h al s operands = .ok (.ok r) ∧ einsum h₂ al₂ s₂ operands₂ = .ok (.ok r₂) ∧
      ∀ σ, InRange dims out σ → ∀ x x₂, r.read (out.map σ) = .ok x → r₂.read (out.map σ) = .ok x₂ →
        (x.value = none ↔ x₂.value = none) := by
  obtain ⟨r, r₂, r1, r3, -, -, -, r4⟩ := C123_swap h h₂ al al₂ s s₂ operands operands₂ L R [] out dims t u [] hc hc₂ hn
  obtain ⟨w, w1, -, w2, -⟩ := C122_einsum h al s operands _ out dims _ hc hn
  rw [r1] at w1
  cases w1
  refine ⟨r, r₂, r1, r3, fun σ hσ x x₂ hx hx₂ => ?_⟩
  have e := r4 (out.map σ) (by rw [w2]; exact inB_of_inRange hσ)
  rw [hx, hx₂] at e
  rw [Except.ok.inj e]

namespace Ex

def v123 (n : ℕ) : View (Unsigned 255) := ⟨[Unsigned.of 255 n], 0, [1], [1]⟩

theorem call123 (n : ℕ) : Call "xij,xijk->x" [b122, a122 n] [['x', 'i', 'j'], ['x', 'i', 'j', 'k']] ['x'] dims122
    [b122.elem, (a122 n).elem] where
  denotes := .inl ⟨by decide, ⟨by simp, by simp [Letter], by simp [Letter]⟩, by simp [OutputOk, Used]⟩
  sized := .cons rfl (.cons rfl .nil)
  elements := by
    obtain ⟨-, -, e⟩ := call122 n
    cases e with
    | cons a b => cases b with
      | cons b c => exact .cons b (.cons a c)

end Ex

/-- C123: the second and the third operand may not be exchanged: `100 * 100 * 0` overflows, `100 * 0 * 100` does not. -/
theorem C123_third :
    einsum HashOrd.insertion (Alloc.rowMajor (Unsigned 255)) "i,i,i->i" [Ex.v123 100, Ex.v123 100, Ex.v123 0] =
      .ok (.ok ⟨[⟨none⟩], 0, [1], [1]⟩) ∧
    einsum HashOrd.insertion (Alloc.rowMajor (Unsigned 255)) "i,i,i->i" [Ex.v123 100, Ex.v123 0, Ex.v123 100] =
      .ok (.ok ⟨[.of 255 0], 0, [1], [1]⟩) :=
  ⟨by decide +kernel, by decide +kernel⟩

/-- C123: without a commutative multiplication the exchange changes the result, already for one element each. -/
theorem C123_commutative {A : Type} [AddCommMonoid A] [Mul A] (h : HashOrd) (al : Alloc A) (x y : A) (hxy : x * y ≠ y * x) :
    ∃ r r₂, einsum h al "i,i->i" [⟨[x], 0, [1], [1]⟩, ⟨[y], 0, [1], [1]⟩] = .ok (.ok r) ∧
      einsum h al "i,i->i" [⟨[y], 0, [1], [1]⟩, ⟨[x], 0, [1], [1]⟩] = .ok (.ok r₂) ∧ ¬ SameArray r r₂ := by
  have elem : ∀ x : A, Elements ⟨[x], 0, [1], [1]⟩ fun _ => x := fun x => (elements_of rfl (by
    intro idx hi
    rw [show allIdx (⟨[x], 0, [1], [1]⟩ : View A).shape = [[0]] from rfl, List.mem_singleton] at hi
    subst hi
    rfl))
  have call : ∀ x y : A, Call "i,i->i" [⟨[x], 0, [1], [1]⟩, ⟨[y], 0, [1], [1]⟩] [['i'], ['i']] ['i'] (fun _ => 1)
      [fun _ => x, fun _ => y] := fun x y => {
    denotes := .inl ⟨by decide, ⟨by simp, by simp [Letter], by simp [Letter]⟩, by simp [OutputOk, Used]⟩
    sized := .cons rfl (.cons rfl .nil)
    elements := .cons (elem x) (.cons (elem y) .nil) }
  have hn : NoEmptyDiagonal (fun _ => 1) [['i'], ['i']] := fun L hL => .inl (by simp_all)
  obtain ⟨r, r1, -, r3, r2⟩ := C122_einsum h al _ _ _ _ _ _ (call x y) hn
  obtain ⟨r', s1, -, s3, s2⟩ := C122_einsum h al _ _ _ _ _ _ (call y x) hn
  refine ⟨r, r', r1, s1, fun hs => hxy ?_⟩
  have hσ : InRange (fun _ => 1) ['i'] fun _ => 0 := by simp [InRange]
  have e1 := r2 _ hσ
  have e2 := s2 _ hσ
  have e3 := hs.2.2.2 [0] (by rw [r3]; exact inB_of_inRange hσ)
  rw [List.map_singleton] at e1 e2
  rw [e1, e2] at e3
  exact Except.ok.inj e3

example := C123_swap HashOrd.insertion HashOrd.reversed (Alloc.rowMajor _) (Alloc.colMajor _) _ _ _ _ _ _ _ _ _ _ _ _
  (Ex.call122 56) (Ex.call123 56) Ex.diag122

example := C123_unsigned HashOrd.insertion HashOrd.reversed (Alloc.rowMajor _) (Alloc.colMajor _) _ _ _ _ _ _ _ _ _ _
  (Ex.call122 56) (Ex.call123 56) Ex.diag122

example (p p₂ : EinsumPath) (hp : einsumPath HashOrd.reversed "xijk,xij->x" [Ex.a122 56, Ex.b122] .naive = .ok (.ok p))
    (hp₂ : einsumPath HashOrd.insertion "xijk,xij->x" [Ex.a122 56, Ex.b122] .reverse = .ok (.ok p₂)) :=
  C123_methods HashOrd.reversed HashOrd.insertion (Alloc.rowMajor _) (Alloc.colMajor _) _ _ _ _ _ _ _ _ _ _ _ (Ex.call122 56).denotes
    (Ex.call122 56).sized (Ex.call122 56).sized (Ex.call122 56).elements Ex.diag122 p p₂ hp hp₂

example := C123_commutative HashOrd.insertion (Alloc.rowMajor (Matrix (Fin 2) (Fin 2) ℤ)) !![1, 1; 0, 1] !![1, 0; 1, 1]
  (by decide)

end Einsum
