import Verif.SpecArray
import Mathlib.Algebra.Order.Group.Unbundled.Abs
import Mathlib.Algebra.Ring.Defs

/-!
# Specification: data with relative errors
-/

namespace Einsum.Spec

/-- The elements `ts` of the operands differ from those in `xs` by relative errors of at most `es`, one bound for each
operand. -/
inductive Inexact {K : Type} [CommRing K] [LinearOrder K] (dims : Char → Nat) :
    List (List Char) → List K → List (List Nat → K) → List (List Nat → K) → Prop where
  | nil : Inexact dims [] [] [] []
  | cons {ix e t x inputs es ts xs} : 0 ≤ e → (∀ idx, InB (ix.map dims) idx → |t idx - x idx| ≤ e * |x idx|) →
      Inexact dims inputs es ts xs → Inexact dims (ix :: inputs) (e :: es) (t :: ts) (x :: xs)

/-- The elements of each operand multiplied by a factor of its own, `1 + e`. -/
def scaledBy {K : Type} [CommRing K] : List K → List (List Nat → K) → List (List Nat → K) :=
  List.zipWith fun e x idx => (1 + e) * x idx

end Einsum.Spec
