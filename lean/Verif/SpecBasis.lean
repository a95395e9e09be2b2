import Verif.SpecArray

/-!
# Specification: matrices applied along an axis
-/

namespace Einsum.Spec

/-- `w` is `v` with the matrix `M` (`m` rows, `n` columns) applied along axis `k`, which has length `n` in `v` and `m` in `w`. -/
structure Along {A : Type} [AddCommMonoid A] [Mul A] (M : Nat → Nat → A) (m n k : Nat) (v w : View A) : Prop where
  wf : v.Wf ∧ w.Wf
  axis : v.shape[k]? = some n
  shape : w.shape = v.shape.set k m
  read : ∀ i, InB w.shape i → ∃ p, i[k]? = some p ∧ ∃ f : Nat → A, (∀ x < n, v.read (i.set k x) = .ok (f x)) ∧
    w.read i = .ok (∑ x ∈ Finset.range n, M p x * f x)

/-- The columns of two matrices with `m` rows and `n` columns are dual bases: the transpose of `P` times `Q` is the
identity. -/
def Dual {A : Type} [AddCommMonoid A] [Mul A] [One A] (P Q : Nat → Nat → A) (m n : Nat) : Prop :=
  ∀ x < n, ∀ y < n, ∑ z ∈ Finset.range m, P z x * Q z y = if x = y then 1 else 0

end Einsum.Spec
