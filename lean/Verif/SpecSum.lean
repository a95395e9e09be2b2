import Mathlib.Algebra.Ring.Defs
import Mathlib.Data.Fintype.BigOperators
import Mathlib.Data.Fintype.Pi
import Mathlib.Data.Fintype.Sets
import Mathlib.Data.List.Basic

/-!
# Specification: the Einstein sum as one sum

The formula of textbooks, stated without the definitions of `Spec`.
-/

namespace Einsum.Spec

/-- The letters of the operands. -/
abbrev LetterOf (inputs : List (List Char)) : Type := {c : Char // c ∈ inputs.flatten}

/-- One position for each letter. -/
abbrev Assignment (dims : Char → Nat) (inputs : List (List Char)) : Type := (c : LetterOf inputs) → Fin (dims c)

/-- The position of a letter; `0` for characters that no operand has. -/
def Assignment.pos {dims : Char → Nat} {inputs : List (List Char)} (τ : Assignment dims inputs) (c : Char) : Nat :=
  if h : c ∈ inputs.flatten then τ ⟨c, h⟩ else 0

/-- The element at `idx`: the sum over all assignments that give the output letters the index `idx` of the products of
the elements at the assigned positions. -/
def textbook {A : Type} [CommSemiring A] (dims : Char → Nat) (inputs : List (List Char)) (ts : List (List Nat → A))
    (out : List Char) (idx : List Nat) : A :=
  ∑ τ : Assignment dims inputs, if out.map τ.pos = idx then ((ts.zip inputs).map fun x => x.1 (x.2.map τ.pos)).prod else 0

/-- The elements of an array with a one at `e` and zeros elsewhere. -/
def unit {A : Type} [Zero A] [One A] (e : List Nat) (idx : List Nat) : A := if idx = e then 1 else 0

end Einsum.Spec
