import Verif.SpecArray
import Mathlib.Algebra.Order.AbsoluteValue.Basic

/-!
# Specification: sums over all elements of an array
-/

namespace Einsum.Spec

/-- The sum over all indices of an array of that shape. -/
def overAll {K : Type} [AddCommMonoid K] : List Nat → (List Nat → K) → K
  | [], f => f []
  | n :: shape, f => ∑ v ∈ Finset.range n, overAll shape fun idx => f (v :: idx)

/-- The letter is in two operands (twice in one of them does not count). -/
def InTwo (inputs : List (List Char)) (c : Char) : Prop :=
  ∃ (i j : Nat) (p q : List Char), i < j ∧ inputs[i]? = some p ∧ inputs[j]? = some q ∧ c ∈ p ∧ c ∈ q

/-- The sum of the absolute values of the elements. -/
def absSum {A K : Type} [Semiring A] [CommRing K] [LinearOrder K] (abv : AbsoluteValue A K) (v : View A)
    (t : List Nat → A) : K := overAll v.shape fun idx => abv (t idx)

/-- The sum of the squares of the absolute values of the elements: the square of the Euclidean or Frobenius norm. -/
def squareSum {A K : Type} [Semiring A] [CommRing K] [LinearOrder K] (abv : AbsoluteValue A K) (v : View A)
    (t : List Nat → A) : K := overAll v.shape fun idx => abv (t idx) ^ 2

end Einsum.Spec
