/-!
# Specification: replacing one element of a list
-/

namespace Einsum.Spec

/-- All ways to replace one element of the first list by the one of the second list in the same place. -/
def replacedOnce {α : Type} : List α → List α → List (List α)
  | x :: xs, y :: ys => (y :: xs) :: (replacedOnce xs ys).map (x :: ·)
  | _, _ => []

example : replacedOnce [1, 2, 3] [10, 20, 30] = [[10, 2, 3], [1, 20, 3], [1, 2, 30]] := rfl

end Einsum.Spec
