import Verif.SpecArray

/-!
# Specification: strings with the same meaning
-/

namespace Einsum.Spec

/-- The second string's letters are those of the first, renamed: equal letters stay equal, different letters different. -/
def Renamed (inputs : List (List Char)) (out : List Char) (inputs' : List (List Char)) (out' : List Char) : Prop :=
  ∃ f : Char → Char, (∀ a b, Used inputs a → Used inputs b → f a = f b → a = b) ∧
    inputs' = inputs.map (fun ix => ix.map f) ∧ out' = out.map f

/-- Two calls both return, the same array; or both are rejected with the same message; or both panic. -/
def Agree {A : Type} (x y : M (Except String (View A))) : Prop :=
  (∃ r r', x = .ok (.ok r) ∧ y = .ok (.ok r') ∧ SameArray r r') ∨ (∃ e, x = .ok (.error e) ∧ y = .ok (.error e)) ∨
    ((∃ k, x = panic k) ∧ ∃ k, y = panic k)

end Einsum.Spec
