import Verif.SpecArray

/-!
# Specification: arrays reshaped in row-major order
-/

namespace Einsum.Spec

/-- The number of index tuples before this one, the last axis varying fastest. -/
def flatIndex : List Nat → List Nat → Nat
  | _ :: ds, i :: is => i * ds.prod + flatIndex ds is
  | _, _ => 0

/-- `w` has the elements of `v`, in the same row-major order, with the axes divided in another way. -/
structure Reshaped {A : Type} (v w : View A) : Prop where
  wf : v.Wf ∧ w.Wf
  size : v.shape.prod = w.shape.prod
  read : ∀ i j, InB v.shape i → InB w.shape j → flatIndex v.shape i = flatIndex w.shape j → v.read i = w.read j

/-- The letters of `labels` stand for words without common and without repeated letters. -/
structure Words (word : Char → List Char) (labels : List Char) : Prop where
  nodup : ∀ c ∈ labels, (word c).Nodup
  disjoint : ∀ c ∈ labels, ∀ c' ∈ labels, c ≠ c' → ∀ x ∈ word c, x ∉ word c'

/-- Each letter replaced by its word. -/
def spell (word : Char → List Char) (l : List Char) : List Char := l.flatMap word

end Einsum.Spec
