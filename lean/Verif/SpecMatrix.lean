import Mathlib.Data.Matrix.Mul
import Verif.SpecArray

/-!
# Specification, continued: arrays that hold matrices and vectors

`Matrix`, its product, trace and so on are Mathlib's.
-/

namespace Einsum.Spec

/-- The array without axes `v` holds `a`. -/
def IsScalar {A : Type} (v : View A) (a : A) : Prop := v.Wf ∧ v.shape = [] ∧ v.read [] = .ok a

/-- The array `v` with one axis holds the vector `x`. -/
def IsVector {A : Type} {n : Nat} (v : View A) (x : Fin n → A) : Prop :=
  v.Wf ∧ v.shape = [n] ∧ ∀ i : Fin n, v.read [i.val] = .ok (x i)

/-- The array `v` with two axes holds the matrix `a`. -/
def IsMatrix {A : Type} {m n : Nat} (v : View A) (a : Matrix (Fin m) (Fin n) A) : Prop :=
  v.Wf ∧ v.shape = [m, n] ∧ ∀ (i : Fin m) (j : Fin n), v.read [i.val, j.val] = .ok (a i j)

/-- The arrays hold matrices that can be multiplied one after the other; their product is the last argument. -/
inductive MatrixChain {A : Type} [CommSemiring A] : List (View A) → {m n : Nat} → Matrix (Fin m) (Fin n) A → Prop where
  | one {v : View A} {m n : Nat} {a : Matrix (Fin m) (Fin n) A} : IsMatrix v a → MatrixChain [v] a
  | cons {v : View A} {vs : List (View A)} {m k n : Nat} {a : Matrix (Fin m) (Fin k) A}
      {b : Matrix (Fin k) (Fin n) A} : IsMatrix v a → MatrixChain vs b → MatrixChain (v :: vs) (a * b)

/-- The pieces `ab`, `bc`, `cd`, ... of the string for a chain of matrices with the letters `a`, `b`, `c`, `d`, ... -/
def links : List Char → List (List Char)
  | a :: b :: l => [a, b] :: links (b :: l)
  | _ => []

end Einsum.Spec
