import Verif.SpecSum

/-!
# Specification: choosing the best assignment

Addition that chooses one of its arguments, truth values as a semiring, and the assignments of an output index.
-/

namespace Einsum.Spec

/-- The product of the elements at the assigned positions. -/
def Assignment.product {A : Type} [CommMonoid A] {dims : Char → Nat} {inputs : List (List Char)}
    (τ : Assignment dims inputs) (ts : List (List Nat → A)) : A :=
  ((ts.zip inputs).map fun x => x.1 (x.2.map τ.pos)).prod

/-- The elements at the assigned positions, one of each operand. -/
def Assignment.values {A : Type} {dims : Char → Nat} {inputs : List (List Char)} (τ : Assignment dims inputs)
    (ts : List (List Nat → A)) : List A :=
  (ts.zip inputs).map fun x => x.1 (x.2.map τ.pos)

/-- Addition chooses one of its arguments. -/
def Chooses (A : Type) [Add A] : Prop := ∀ a b : A, a + b = a ∨ a + b = b

/-- `x` is the best of the products of the assignments of the output index `idx`: adding any of them changes nothing,
and `x` is one of them; zero if there are none. -/
def Best {A : Type} [CommSemiring A] (dims : Char → Nat) (inputs : List (List Char)) (ts : List (List Nat → A))
    (out : List Char) (idx : List Nat) (x : A) : Prop :=
  (∀ τ : Assignment dims inputs, out.map τ.pos = idx → x + τ.product ts = x) ∧
  ((∃ τ : Assignment dims inputs, out.map τ.pos = idx) →
    ∃ τ : Assignment dims inputs, out.map τ.pos = idx ∧ x = τ.product ts) ∧
  ((¬ ∃ τ : Assignment dims inputs, out.map τ.pos = idx) → x = 0)

/-- Truth values: `+` is "or", `*` is "and". -/
structure Truth where
  holds : Bool
  deriving DecidableEq

instance : Zero Truth := ⟨⟨false⟩⟩
instance : One Truth := ⟨⟨true⟩⟩
instance : Add Truth := ⟨fun a b => ⟨a.holds || b.holds⟩⟩
instance : Mul Truth := ⟨fun a b => ⟨a.holds && b.holds⟩⟩

instance : CommSemiring Truth where
  add_assoc := by rintro ⟨a⟩ ⟨b⟩ ⟨c⟩; exact congrArg Truth.mk (Bool.or_assoc a b c)
  zero_add := by rintro ⟨a⟩; rfl
  add_zero := by rintro ⟨a⟩; exact congrArg Truth.mk (Bool.or_false a)
  add_comm := by rintro ⟨a⟩ ⟨b⟩; exact congrArg Truth.mk (Bool.or_comm a b)
  left_distrib := by rintro ⟨a⟩ ⟨b⟩ ⟨c⟩; exact congrArg Truth.mk (Bool.and_or_distrib_left a b c)
  right_distrib := by rintro ⟨a⟩ ⟨b⟩ ⟨c⟩; exact congrArg Truth.mk (Bool.and_or_distrib_right a b c)
  zero_mul := by rintro ⟨a⟩; rfl
  mul_zero := by rintro ⟨a⟩; exact congrArg Truth.mk (Bool.and_false a)
  mul_assoc := by rintro ⟨a⟩ ⟨b⟩ ⟨c⟩; exact congrArg Truth.mk (Bool.and_assoc a b c)
  one_mul := by rintro ⟨a⟩; rfl
  mul_one := by rintro ⟨a⟩; exact congrArg Truth.mk (Bool.and_true a)
  mul_comm := by rintro ⟨a⟩ ⟨b⟩; exact congrArg Truth.mk (Bool.and_comm a b)
  nsmul := nsmulRec
  npow := npowRec

end Einsum.Spec
