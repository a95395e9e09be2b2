import Verif.SpecArray

/-!
# Specification: networks of conditional distributions
-/

namespace Einsum.Spec

/-- The array with the labels `labels`, summed over the labels `own`, is one for all values of the other labels. -/
def Distribution {A : Type} [CommSemiring A] (d : Char → Nat) (labels own : List Char) (v : View A) : Prop :=
  ∃ t, Elements v t ∧ ∀ σ, (∀ c ∈ labels, c ∉ own → σ c < d c) → sumOver d own (fun τ => t (labels.map τ)) σ = 1

/-- Operands, each with its labels and its own label. The other labels of an operand are given or own labels of operands
before it. -/
inductive Network (given : List Char) : List (List Char × Char) → Prop where
  | nil : Network given []
  | snoc {N ix h} : Network given N → h ∉ given → h ∉ N.map Prod.snd → h ∈ ix →
      (∀ c ∈ ix, c = h ∨ c ∈ given ∨ c ∈ N.map Prod.snd) → Network given (N ++ [(ix, h)])

end Einsum.Spec
