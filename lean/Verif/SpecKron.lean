import Verif.SpecArray

/-!
# Specification: Kronecker products
-/

namespace Einsum.Spec

/-- The position in a Kronecker product of position `i` of the first array and `j` of the second, which has the shape `sh`. -/
def kronAt (sh i j : List Nat) : List Nat := List.zipWith (· + ·) (List.zipWith (· * ·) i sh) j

/-- `x` is the Kronecker product of `v` and `w`, arrays with the same number of axes: each element of `v` is replaced by a
copy of `w` multiplied by that element. -/
structure IsKron {A : Type} [Mul A] (v w x : View A) : Prop where
  wf : x.Wf
  rank : v.shape.length = w.shape.length
  shape : x.shape = List.zipWith (· * ·) v.shape w.shape
  read : ∀ i j, InB v.shape i → InB w.shape j →
    ∃ a b, v.read i = .ok a ∧ w.read j = .ok b ∧ x.read (kronAt w.shape i j) = .ok (a * b)

end Einsum.Spec
