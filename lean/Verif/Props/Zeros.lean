import Verif.Props.Main
import Verif.Props.Tensordot
import Mathlib.Algebra.BigOperators.Group.List.Basic
import Mathlib.Algebra.GroupWithZero.Basic

/-!
# Property C128: which elements of the result are zero
-/

namespace Einsum

open Spec Function

/-- The letters can be given values, those of the output as in `σ`, for which no operand has a zero. -/
def Spec.Contribution {A : Type} [Zero A] (dims : Char → Nat) (inputs : List (List Char)) (operands : List (View A))
    (out : List Char) (σ : Char → Nat) : Prop :=
  ∃ τ : Char → Nat, (∀ c ∈ out, τ c = σ c) ∧ InRange dims inputs.flatten τ ∧
    List.Forall₂ (fun ix v => ∃ x, v.read (ix.map τ) = .ok x ∧ x ≠ 0) inputs operands

section
variable {ι A : Type} [DecidableEq ι] [AddCommMonoid A] {dims : ι → Nat}

theorem sumOver_ne {cs : List ι} {f : (ι → Nat) → A} {σ : ι → Nat} (h : sumOver dims cs f σ ≠ 0) :
    ∃ τ, (∀ c, c ∉ cs → τ c = σ c) ∧ InRange dims cs τ ∧ f τ ≠ 0 := by
  by_contra hc
  push Not at hc
  exact h ((sumOver_congr hc).trans (sumOver_zero cs σ))

theorem sum_terms {κ : Type} (hz : ∀ a b : A, a + b = 0 → a = 0) {s : Finset κ} {f : κ → A} (h : ∑ k ∈ s, f k = 0) {k : κ}
    (hk : k ∈ s) : f k = 0 := by
  classical
  rw [← Finset.add_sum_erase s f hk] at h
  exact hz _ _ h

theorem sumOver_terms (hz : ∀ a b : A, a + b = 0 → a = 0) : ∀ {cs : List ι} {f : (ι → Nat) → A} {σ τ : ι → Nat},
    sumOver dims cs f σ = 0 → (∀ c, c ∉ cs → τ c = σ c) → InRange dims cs τ → f τ = 0
  | [], f, σ, τ, h, h1, _ => by
    obtain rfl : τ = σ := funext fun c => h1 c (by simp)
    exact h
  | c :: cs, f, σ, τ, h, h1, h2 => by
    rw [sumOver_cons] at h
    have := sum_terms hz h (k := τ c) (by simpa using h2 c (by simp))
    refine sumOver_terms hz this (fun d hd => ?_) fun d hd => h2 d (by simp [hd])
    by_cases e : d = c
    · rw [e, update_self]
    · rw [update_of_ne e]
      exact h1 d (by simp [e, hd])

end

section
variable {A : Type} [CommSemiring A] {dims : Char → Nat}

theorem factors_iff {operands : List (View A)} {ts : List (List Nat → A)} (he : List.Forall₂ Elements operands ts)
    {τ : Char → Nat} : ∀ {inputs : List (List Char)}, Sized dims inputs (operands.map View.shape) →
    InRange dims inputs.flatten τ →
    (List.Forall₂ (fun ix v => ∃ x, View.read v (ix.map τ) = .ok x ∧ x ≠ 0) inputs operands ↔
      ∀ x ∈ List.zipWith (fun ix t => t (ix.map τ)) inputs ts, x ≠ 0) := by
  induction he with
  | nil =>
    intro inputs hs _
    cases hs
    simp
  | @cons v t ops ts hv _ ih =>
    intro inputs hs hr
    cases hs with
    | @cons ix _ inputs _ hs1 hs2 =>
      have hr1 : InRange dims ix τ := fun c hc => hr c (by simp [hc])
      have hr2 : InRange dims inputs.flatten τ := fun c hc => hr c (by
        rw [List.flatten_cons, List.mem_append]; exact .inr hc)
      have e := hv.2 (ix.map τ) (by rw [hs1]; exact inB_of_inRange hr1)
      rw [List.forall₂_cons, ih hs2 hr2, List.zipWith_cons_cons, List.forall_mem_cons]
      refine and_congr_left fun _ => ?_
      rw [e]
      simp

omit [CommSemiring A] in
theorem zipWith_values {τ τ' : Char → Nat} : ∀ {inputs : List (List Char)} {ts : List (List Nat → A)},
    (∀ c ∈ inputs.flatten, τ' c = τ c) →
    List.zipWith (fun ix t => t (ix.map τ')) inputs ts = List.zipWith (fun ix t => t (ix.map τ)) inputs ts
  | [], _, _ => by simp
  | _ :: _, [], _ => by simp
  | ix :: inputs, t :: ts, h => by
    rw [List.zipWith_cons_cons, List.zipWith_cons_cons, zipWith_values fun c hc => h c (by simp_all),
      List.map_congr_left fun c hc => h c (by simp [hc])]

theorem range_all {inputs : List (List Char)} {out : List Char} {σ τ : Char → Nat} (hσ : InRange dims out σ)
    (h1 : ∀ c, c ∉ summed inputs out → τ c = σ c) (h2 : InRange dims (summed inputs out) τ) :
    InRange dims inputs.flatten τ := fun c hc => by
  by_cases ho : c ∈ out
  · rw [h1 c fun h => (mem_summed.1 h).2 ho]
    exact hσ c ho
  · exact h2 c (mem_summed.2 ⟨hc, ho⟩)

variable (h : HashOrd) (al : Alloc A) (s : String) (operands : List (View A)) (inputs : List (List Char)) (out : List Char)
  (dims : Char → Nat) (hd : Denotes s inputs out) (hs : Sized dims inputs (operands.map View.shape))
  (hw : ∀ v ∈ operands, v.Wf) (r : View A) (hr : einsum h al s operands = .ok (.ok r)) (σ : Char → Nat)
  (hσ : InRange dims out σ)

include hd hs hw hr hσ

/-- C128: an element that is not zero has a contribution without zeros. -/
theorem C128_zeros : ∃ x, r.read (out.map σ) = .ok x ∧ (x ≠ 0 → Contribution dims inputs operands out σ) := by
  refine ⟨_, (isEinsum_of_returned ⟨hd, hs, forall₂_elem hw⟩ hr).2.2 σ hσ, fun hx => ?_⟩
  obtain ⟨τ, h1, h2, h3⟩ := sumOver_ne hx
  have hall := range_all hσ h1 h2
  refine ⟨τ, fun c hc => h1 c fun g => (mem_summed.1 g).2 hc, hall, ?_⟩
  rw [factors_iff (forall₂_elem hw) hs hall]
  intro x hx e
  exact h3 (List.prod_eq_zero (e ▸ hx))

/-- C128: the converse, where sums vanish only if all terms do and there are no zero divisors. -/
theorem C128_exact [NoZeroDivisors A] [Nontrivial A] (hz : ∀ a b : A, a + b = 0 → a = 0) :
    ∃ x, r.read (out.map σ) = .ok x ∧ (x ≠ 0 ↔ Contribution dims inputs operands out σ) := by
  obtain ⟨x, hx, h1⟩ := C128_zeros h al s operands inputs out dims hd hs hw r hr σ hσ
  refine ⟨x, hx, h1, fun ⟨τ, t1, t2, t3⟩ e => ?_⟩
  have hx' := (isEinsum_of_returned ⟨hd, hs, forall₂_elem hw⟩ hr).2.2 σ hσ
  rw [hx, e] at hx'
  have h0 : sumOver dims (summed inputs out) (term inputs (operands.map View.elem)) σ = 0 := (Except.ok.inj hx').symm
  let τ' : Char → Nat := fun c => if c ∈ summed inputs out then τ c else σ c
  have e1 : ∀ c ∈ inputs.flatten, τ' c = τ c := fun c hc => by
    by_cases g : c ∈ summed inputs out
    · simp [τ', g]
    · have : c ∈ out := by
        by_contra ho
        exact g (mem_summed.2 ⟨hc, ho⟩)
      simp [τ', g, t1 c this]
  have h2 := sumOver_terms hz h0 (τ := τ') (fun c hc => by simp [τ', hc]) fun c hc => by
    have := (mem_summed.1 hc).1
    rw [e1 c this]
    exact t2 c this
  rw [factors_iff (forall₂_elem hw) hs t2] at t3
  rw [term, zipWith_values e1] at h2
  exact t3 0 (List.prod_eq_zero_iff.1 h2) rfl

end

/-! ## `tensordot` -/

section
variable {A : Type} [AddCommMonoid A]

theorem sumIdx_ne : ∀ {d : List Nat} {f : List Nat → A}, sumIdx d f ≠ 0 → ∃ c, InB d c ∧ f c ≠ 0
  | [], f, h => ⟨[], trivial, h⟩
  | n :: d, f, h => by
    obtain ⟨i, hi, h1⟩ := Finset.exists_ne_zero_of_sum_ne_zero h
    obtain ⟨c, hc, h2⟩ := sumIdx_ne h1
    exact ⟨i :: c, ⟨by simpa using hi, hc⟩, h2⟩

theorem sumIdx_terms (hz : ∀ a b : A, a + b = 0 → a = 0) : ∀ {d c : List Nat} {f : List Nat → A}, sumIdx d f = 0 → InB d c →
    f c = 0
  | [], [], _, h, _ => h
  | n :: d, i :: c, f, h, hc => by
    have h1 := sum_terms hz (k := i) h (by simpa using hc.1)
    exact sumIdx_terms hz (f := fun c => f (i :: c)) h1 hc.2

end

/-- C128 for `tensordot`: an element that is not zero has a term of which neither factor is zero, and conversely where sums
vanish only if all terms do and there are no zero divisors.  The multiplication need not be commutative. -/
theorem C128_tensordot {A : Type} [NonUnitalNonAssocSemiring A] (al : Alloc A) (l r : View A) (T U : List Nat → A)
    (la ra : List Nat) (hl : Elements l T) (hr : Elements r U) (hlen : la.length = ra.length)
    (hla : la.Nodup) (hra : ra.Nodup) (hal : ∀ a ∈ la, a < l.shape.length)
    (har : ∀ a ∈ ra, a < r.shape.length) (heq : lengths l.shape la = lengths r.shape ra) :
    ∃ w, tensordot al l r la ra = .ok w ∧ ∀ a b, InB (lengths l.shape (kept l.shape.length la)) a →
      InB (lengths r.shape (kept r.shape.length ra)) b → ∃ x, w.read (a ++ b) = .ok x ∧
        let term := ∃ c, InB (lengths l.shape la) c ∧ T (place l.shape.length (kept l.shape.length la ++ la) (a ++ c)) ≠ 0 ∧
          U (place r.shape.length (kept r.shape.length ra ++ ra) (b ++ c)) ≠ 0
        (x ≠ 0 → term) ∧ ((∀ a b : A, a + b = 0 → a = 0) → (∀ a b : A, a * b = 0 → a = 0 ∨ b = 0) → term → x ≠ 0) := by
  obtain ⟨w, w1, -, -, w4⟩ := C21_tensordot al l r T U la ra hl hr hlen hla hra hal har heq
  refine ⟨w, w1, fun a b ha hb => ⟨_, w4 a b ha hb, fun hx => ?_, fun hz hm ⟨c, hc, h1, h2⟩ hx => ?_⟩⟩
  · obtain ⟨c, hc, h⟩ := sumIdx_ne hx
    exact ⟨c, hc, left_ne_zero_of_mul h, right_ne_zero_of_mul h⟩
  · rcases hm _ _ (sumIdx_terms hz hx hc) with h | h
    · exact h1 h
    · exact h2 h

/-! ## Over the integers -/

namespace Ex

def u128 : View ℤ := ⟨[1, 1], 0, [2], [1]⟩

def v128 : View ℤ := ⟨[1, -1], 0, [2], [1]⟩

end Ex

/-- C128: terms of different signs cancel, so the converse fails for integers. -/
theorem C128_integers (h : HashOrd) (al : Alloc ℤ) : ∃ r, einsum h al "i,i->" [Ex.u128, Ex.v128] = .ok (.ok r) ∧
    r.read [] = .ok 0 ∧ Contribution (fun _ => 2) [['i'], ['i']] [Ex.u128, Ex.v128] [] fun _ => 0 := by
  obtain ⟨r, r1, r2⟩ := C13_einsum h al "i,i->" [Ex.u128, Ex.v128] [['i'], ['i']] [] (fun _ => 2) [Ex.u128.elem, Ex.v128.elem]
    ⟨.inl ⟨by decide, ⟨by simp, by simp [Letter], by simp [Letter]⟩, by simp [OutputOk, Used]⟩, .cons rfl (.cons rfl .nil),
      .cons (elements_of rfl (by decide +kernel)) (.cons (elements_of rfl (by decide +kernel)) .nil)⟩ (by simp [NoEmptyDiagonal])
  refine ⟨r, r1, ?_, fun _ => 0, by simp, by simp [InRange],
    .cons ⟨1, rfl, by decide⟩ (.cons ⟨1, rfl, by decide⟩ .nil)⟩
  have e := r2.2.2 (fun _ => 0) (by simp [InRange])
  rw [List.map_nil] at e
  rw [e]
  decide +kernel

/-! ## Examples -/

namespace Ex

/-- Two sparse matrices. -/
def a128 : View ℕ := ⟨[0, 3, 0, 0], 0, [2, 2], [2, 1]⟩

def b128 : View ℕ := ⟨[5, 0, 0, 7], 0, [2, 2], [2, 1]⟩

theorem call128 : Call "ij,jk->ik" [a128, b128] [['i', 'j'], ['j', 'k']] ['i', 'k'] (fun _ => 2) [a128.elem, b128.elem] where
  denotes := .inl ⟨by decide, ⟨by simp, by simp [Letter], by simp [Letter]⟩, by simp [OutputOk, Used]⟩
  sized := .cons rfl (.cons rfl .nil)
  elements := .cons (elements_of rfl (by decide +kernel)) (.cons (elements_of rfl (by decide +kernel)) .nil)

theorem wf128 : ∀ v ∈ [a128, b128], v.Wf := by
  have := call128.elements
  simp only [List.forall₂_cons] at this
  simp [this.1.1, this.2.1.1]

end Ex

/-- In the first row only the second element of the product is not zero. -/
example (h : HashOrd) (al : Alloc ℕ) : ∃ r x, einsum h al "ij,jk->ik" [Ex.a128, Ex.b128] = .ok (.ok r) ∧
    r.read [0, 1] = .ok x ∧ x ≠ 0 := by
  obtain ⟨r, hr, -⟩ := einsum_ok Ex.call128 (by simp [NoEmptyDiagonal]) h al
  obtain ⟨x, h1, h2⟩ := C128_exact h al _ _ _ _ _ Ex.call128.denotes Ex.call128.sized Ex.wf128 r hr
    (fun c => if c = 'k' then 1 else 0) (by simp [InRange]) (by omega)
  exact ⟨r, x, hr, by simpa using h1, h2.2 ⟨fun c => if c = 'i' then 0 else 1, by simp, by simp [InRange],
    .cons ⟨3, rfl, by decide⟩ (.cons ⟨7, rfl, by decide⟩ .nil)⟩⟩

example (al : Alloc ℕ) :=
  C128_tensordot al Ex.a128 Ex.b128 _ _ [1] [0] (elements_of (t := Ex.a128.elem) rfl (by decide +kernel))
    (elements_of (t := Ex.b128.elem) rfl (by decide +kernel)) rfl (by decide) (by decide) (by decide) (by decide) rfl

end Einsum
