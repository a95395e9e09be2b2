import Verif.SpecArray
import Mathlib.Algebra.Order.Field.Basic
import Mathlib.Algebra.Order.Ring.Abs

/-!
# Specification, continued: expressions and rounding

For element types whose operations obey no laws.  Nothing here refers to the model except `View` and `Alloc`.
-/

namespace Einsum

/-- The array of the images of the elements, in the same layout. -/
def View.map {A B : Type} (f : A → B) (v : View A) : View B := ⟨v.buf.map f, v.off, v.shape, v.strides⟩

namespace Spec

/-- Expressions in `0`, `+`, `*` and fused multiply-add over `V`. -/
inductive Expr (V : Type) : Type
  | var (x : V) : Expr V
  | zero : Expr V
  | add (a b : Expr V) : Expr V
  | mul (a b : Expr V) : Expr V
  | mulAdd (a b c : Expr V) : Expr V

/-- The value of an expression when the variables have the values `f`. -/
def Expr.eval {V A : Type} [Zero A] [Add A] [Mul A] [MulAdd A] (f : V → A) : Expr V → A
  | .var x => f x
  | .zero => 0
  | .add a b => a.eval f + b.eval f
  | .mul a b => a.eval f * b.eval f
  | .mulAdd a b c => Einsum.mulAdd (a.eval f) (b.eval f) (c.eval f)

/-- `f` respects the operations that the crate uses on elements. -/
structure OpHom {A B : Type} [Zero A] [Add A] [Mul A] [MulAdd A] [Zero B] [Add B] [Mul B] [MulAdd B] (f : A → B) :
    Prop where
  zero : f 0 = 0
  add : ∀ x y, f (x + y) = f x + f y
  mul : ∀ x y, f (x * y) = f x * f y
  mulAdd : ∀ x y z, f (mulAdd x y z) = mulAdd (f x) (f y) (f z)

/-- `R` relates the zeros and is preserved by the operations that the crate uses on elements. -/
structure Preserved {A B : Type} [Zero A] [Add A] [Mul A] [MulAdd A] [Zero B] [Add B] [Mul B] [MulAdd B]
    (R : A → B → Prop) : Prop where
  zero : R 0 0
  add : ∀ x y x' y', R x x' → R y y' → R (x + y) (x' + y')
  mul : ∀ x y x' y', R x x' → R y y' → R (x * y) (x' * y')
  mulAdd : ∀ x y z x' y' z', R x x' → R y y' → R z z' → R (mulAdd x y z) (mulAdd x' y' z')

/-- An array library that chooses layouts and summation orders without looking at the elements. -/
structure UniformAlloc where
  alloc : (A : Type) → Alloc A
  make_map : ∀ {A B : Type} (f : A → B) (p : List Nat) (shape : List Nat) (data : List A),
    (alloc B).make p shape (data.map f) = ((alloc A).make p shape data).map f
  sumOrder_eq : ∀ (A B : Type) (p : List Nat) (n : Nat), (alloc B).sumOrder p n = (alloc A).sumOrder p n

/-- `r` holds, for each output index, an expression in the elements of the tensors `ts` that has the value of the
Einstein sum in every commutative semiring, whatever the values `f` of the elements. -/
def IsFormalEinsum {V : Type} (dims : Char → Nat) (inputs : List (List Char)) (ts : List (List Nat → V))
    (out : List Char) (r : View (Expr V)) : Prop :=
  r.Wf ∧ r.shape = out.map dims ∧ ∀ σ, InRange dims out σ → ∃ e : Expr V, r.read (out.map σ) = .ok e ∧
    ∀ (S : Type) [CommSemiring S] (f : V → S),
      e.eval f = einsum dims inputs (ts.map fun t idx => f (t idx)) out σ

/-- The number of terms of the sum for each output element. -/
def termCount (dims : Char → Nat) (inputs : List (List Char)) (out : List Char) : Nat :=
  ((summed inputs out).map dims).prod

/-- `F` is a type of numbers, with values in the ordered field `K`, on which addition, multiplication and fused
multiply-add are correct up to the relative error `u`, and adding a zero is exact.  (Floating-point numbers without
overflow and underflow, with or without fused multiply-add.) -/
structure Rounded {F K : Type} [Zero F] [Add F] [Mul F] [MulAdd F] [Field K] [LinearOrder K] (val : F → K) (u : K) :
    Prop where
  nonneg : 0 ≤ u
  zero : val 0 = 0
  add : ∀ x y, |val (x + y) - (val x + val y)| ≤ u * |val x + val y|
  mul : ∀ x y, |val (x * y) - val x * val y| ≤ u * |val x * val y|
  mulAdd : ∀ x y z, mulAdd x y z = x * y + z ∨
    (|val (mulAdd x y z) - (val x * val y + val z)| ≤ u * |val x * val y + val z| ∧
      (val x * val y = 0 → val (mulAdd x y z) = val z))
  zero_add : ∀ x y, val x = 0 → val (x + y) = val y
  add_zero : ∀ x y, val y = 0 → val (x + y) = val x

/-- `F` is a type of floating-point numbers with values in the ordered field `K`.  `good` are the finite ones, `u` is the
relative error of an operation, `e` the absolute error of products too small for the relative error, and `W` the
largest number.  Sums have no absolute error.  Fused multiply-add may round the product or not. -/
structure Floating {F K : Type} [Zero F] [Add F] [Mul F] [MulAdd F] [Field K] [LinearOrder K] (good : F → Prop)
    (val : F → K) (u e W : K) : Prop where
  nonneg : 0 ≤ u ∧ 0 ≤ e
  zero : good 0 ∧ val 0 = 0
  add : ∀ x y, good x → good y → |val x + val y| ≤ W →
    good (x + y) ∧ |val (x + y) - (val x + val y)| ≤ u * |val x + val y|
  mul : ∀ x y, good x → good y → |val x * val y| ≤ W →
    good (x * y) ∧ |val (x * y) - val x * val y| ≤ u * |val x * val y| + e
  mulAdd : ∀ x y z, good x → good y → good z → mulAdd x y z = x * y + z ∨ (|val x * val y + val z| ≤ W →
    good (mulAdd x y z) ∧
      |val (mulAdd x y z) - (val x * val y + val z)| ≤ u * |val x * val y + val z| + e)
  zero_add : ∀ x y, good x → good y → val x = 0 → good (x + y) ∧ val (x + y) = val y
  add_zero : ∀ x y, good x → good y → val y = 0 → good (x + y) ∧ val (x + y) = val x

/-- `F` represents integers: `val x` is the integer represented by a good `x`, and addition, multiplication and fused
multiply-add are exact as long as the exact sums and products are at most `B` in absolute value. -/
structure ExactWithin {F : Type} [Zero F] [Add F] [Mul F] [MulAdd F] (good : F → Prop) (val : F → ℤ) (B : ℕ) : Prop where
  zero : good 0 ∧ val 0 = 0
  add : ∀ x y, good x → good y → (val x + val y).natAbs ≤ B → good (x + y) ∧ val (x + y) = val x + val y
  mul : ∀ x y, good x → good y → (val x * val y).natAbs ≤ B → good (x * y) ∧ val (x * y) = val x * val y
  mulAdd : ∀ x y z, good x → good y → good z → (val x * val y).natAbs ≤ B → (val x * val y + val z).natAbs ≤ B →
    good (mulAdd x y z) ∧ val (mulAdd x y z) = val x * val y + val z

/-- The set `P` is closed under addition, multiplication and fused multiply-add, and under adding zero. -/
structure Closed {A : Type} [Zero A] [Add A] [Mul A] [MulAdd A] (P : A → Prop) : Prop where
  zero_zero : (0 : A) + 0 = 0
  zero_add : ∀ x, P x → P (0 + x)
  add_zero : ∀ x, P x → P (x + 0)
  add : ∀ x y, P x → P y → P (x + y)
  mul : ∀ x y, P x → P y → P (x * y)
  mulAdd : ∀ x y z, P x → P y → P z → P (mulAdd x y z)
  mulAdd_zero : ∀ x y, P x → P y → P (Einsum.mulAdd x y 0)

/-- The value `x` occurs as a factor in the Einstein sum for the output index given by `σ`. -/
def Occurs {V : Type} (dims : Char → Nat) (inputs : List (List Char)) (ts : List (List Nat → V)) (out : List Char)
    (σ : Char → Nat) (x : V) : Prop :=
  ∃ τ, InRange dims inputs.flatten τ ∧ (∀ c ∈ out, τ c = σ c) ∧ ∃ p ∈ inputs.zip ts, x = p.2 (p.1.map τ)

/-- No operation leaves the set `Q` once one of its arguments is in it. -/
structure Absorbing {A : Type} [Add A] [Mul A] [MulAdd A] (Q : A → Prop) : Prop where
  add : ∀ x y, Q x ∨ Q y → Q (x + y)
  mul : ∀ x y, Q x ∨ Q y → Q (x * y)
  mulAdd : ∀ x y z, Q x ∨ Q y ∨ Q z → Q (mulAdd x y z)

end Spec

end Einsum
