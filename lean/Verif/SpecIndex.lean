import Verif.SpecArray

/-!
# Specification: positions along the letters

Operands from which positions are taken, and operands with two neighbouring axes made one.
-/

namespace Einsum.Spec

open Function

/-- `w` is `v` with the positions `f c 0`, `f c 1`, ... taken along every axis labelled `c`, of which there are
`dims c`.  Of an array with a repeated letter only the diagonals matter. -/
def Selects {A : Type} (f : Char → Nat → Nat) (dims : Char → Nat) (ix : List Char) (v w : View A) : Prop :=
  w.Wf ∧ w.shape = ix.map dims ∧
    ∀ τ, InRange dims ix τ → w.read (ix.map τ) = v.read (ix.map fun c => f c (τ c))

/-- `w`, with axes labelled `ix'`, is `v` with its axes, labelled `ix`, in another order. -/
def Transposes {A : Type} (dims : Char → Nat) (ix : List Char) (v : View A) (ix' : List Char) (w : View A) : Prop :=
  ix'.Perm ix ∧ w.Wf ∧ w.shape = ix'.map dims ∧
    ∀ σ, InRange dims ix σ → w.read (ix'.map σ) = v.read (ix.map σ)

/-- `w`, with axes labelled `ix'` of lengths `dims'`, is `v`, with axes labelled `ix`, after the letters were renamed by `ρ` and
the axes permuted. -/
def Relabels {A : Type} (ρ : Char → Char) (dims' : Char → Nat) (ix : List Char) (v : View A) (ix' : List Char) (w : View A) :
    Prop :=
  ix'.Perm (ix.map ρ) ∧ w.Wf ∧ w.shape = ix'.map dims' ∧
    ∀ σ, InRange dims' ix' σ → w.read (ix'.map σ) = v.read (ix.map fun c => σ (ρ c))

/-- The labels `ix` with `xy` in place of every `z`. -/
def split (x y z : Char) (ix : List Char) : List Char := ix.flatMap fun c => if c = z then [x, y] else [c]

/-- The lengths of the axes once `x` and `y` are one letter `z`. -/
def mergedDims (x y z : Char) (dims : Char → Nat) : Char → Nat := update dims z (dims x * dims y)

/-- `w`, with axes labelled `ix`, is `v`, with axes labelled `split x y z ix`, with every two axes `xy` made one axis
`z`: position `i` of `x` and `j` of `y` is position `i * dims y + j` of `z`. -/
def Merges {A : Type} (x y z : Char) (dims : Char → Nat) (ix : List Char) (v w : View A) : Prop :=
  w.Wf ∧ w.shape = ix.map (mergedDims x y z dims) ∧
    ∀ τ, InRange dims (split x y z ix) τ →
      w.read (ix.map (update τ z (τ x * dims y + τ y))) = v.read ((split x y z ix).map τ)

end Einsum.Spec
