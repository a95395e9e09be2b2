import Verif.Model.Optimizers
import Verif.SpecArray
import Verif.SpecFlow

/-!
# Specification: contraction orders as programs
-/

namespace Einsum.Spec

/-- An array without its memory: the shape, and the element at each index. -/
structure Tensor (A : Type) where
  shape : List Nat
  elems : List Nat → A

/-- The array in memory is this one. -/
def Is {A : Type} (v : View A) (x : Tensor A) : Prop := v.shape = x.shape ∧ Elements v x.elems

/-- The array that a step names: an operand or the result of an earlier step. -/
def named {α : Type} (operands results : List α) : OperandNumber → Option α
  | .input i => operands[i]?
  | .intermediateResult i => results[i]?

/-- `z` is the Einstein sum of `x` and `y` with the labels and the lengths of the sized contraction. -/
inductive Product {A : Type} [CommSemiring A] (sc : SizedContraction) (x y z : Tensor A) : Prop where
  | mk (dims : Char → Nat) (L R : List Char) :
      sc.contraction.operandIndices = [L, R] → OutputOk [L, R] sc.contraction.outputIndices →
      (∀ c, c ∈ L ∨ c ∈ R → sc.outputSize c = some (dims c)) → x.shape = L.map dims → y.shape = R.map dims →
      NoEmptyDiagonal dims [L, R] → z.shape = sc.contraction.outputIndices.map dims →
      (∀ σ, InRange dims sc.contraction.outputIndices σ → z.elems (sc.contraction.outputIndices.map σ) =
        einsum dims [L, R] [x.elems, y.elems] sc.contraction.outputIndices σ) → Product sc x y z

/-- The steps, executed after those that gave `results`, end with the result `z`. -/
inductive Yields {A : Type} [CommSemiring A] (operands : List (Tensor A)) :
    List (Tensor A) → List PairStep → Tensor A → Prop where
  | done {results : List (Tensor A)} {z : Tensor A} : Yields operands (results ++ [z]) [] z
  | step {results : List (Tensor A)} {st : PairStep} {steps : List PairStep} {x y w z : Tensor A} :
      named operands results st.operandNums.lhs = some x → named operands results st.operandNums.rhs = some y →
      Product st.sizedContraction x y w → Yields operands (results ++ [w]) steps z → Yields operands results (st :: steps) z

/-- A pair contraction that can be compiled. -/
def PairOk (sc : SizedContraction) : Prop :=
  ∃ L R, sc.contraction.operandIndices = [L, R] ∧ OutputOk [L, R] sc.contraction.outputIndices ∧
    ∀ c, c ∈ L ∨ c ∈ R → sc.outputSize c ≠ none

/-- A contraction of one operand that can be compiled. -/
def SingleOk (sc : SizedContraction) : Prop :=
  ∃ ix, sc.contraction.operandIndices = [ix] ∧ sc.contraction.outputIndices.length ≤ ix.dedup.length ∧
    (ix.Nodup ∧ (∀ c ∈ sc.contraction.outputIndices, c ∈ ix) ∨
      ¬ ix.Nodup ∧ ∀ c, c ∈ ix ∨ c ∈ sc.contraction.outputIndices → sc.outputSize c ≠ none)

/-- The axes of the result of an operand with a repeated label: those of the output labels, and, if there are as many of
these as the operand has distinct labels, also those of the other labels of the operand. -/
def resultLabels (ix out : List Char) : List Char :=
  if out.length < ix.dedup.length then out else out ++ fresh out ix

/-- An output label that is repeated or not in the operand has length at most one; or an output label has length zero. -/
def LabelsFit (dims : Char → Nat) (ix out : List Char) : Prop :=
  (∀ c ∈ out, c ∉ ix ∨ 2 ≤ out.count c → dims c ≤ 1) ∨ ∃ c ∈ out, dims c = 0

/-- An operand that was given, or a result of the first `k` steps. -/
def Known (n k : Nat) : OperandNumber → Prop
  | .input i => i < n
  | .intermediateResult i => i < k

/-- The step that multiplies a matrix with `n` rows and columns by itself. -/
def squareStep (n : Nat) (x : OperandNumber) : PairStep :=
  ⟨⟨⟨[['i', 'j'], ['j', 'k']], ['i', 'k'], ['j']⟩, fun c => if c ∈ ['i', 'j', 'k'] then some n else none⟩, ⟨x, x⟩⟩

/-- The operand is squared, then the result of each step by the next one. -/
def squarings (n k : Nat) : List PairStep :=
  squareStep n (.input 0) :: (List.range k).map fun i => squareStep n (.intermediateResult i)

/-- A step for the labels `L` and `R` with the output `o` does not have all of these: a label in both operands and the output,
two contracted labels, a left operand that has to be simplified. -/
def SettledStep (L R o : List Char) : Prop :=
  (∀ c ∈ L, c ∈ R → c ∉ o) ∨ (∀ c ∈ L, ∀ d ∈ L, c ∈ R → d ∈ R → c ∉ o → d ∉ o → c = d) ∨
    (L.Nodup ∧ ∀ c ∈ L, c ∈ R ∨ c ∈ o)

/-- The operands of a step have distinct labels, each of which is in the other operand or in the output. -/
def Plain (st : PairStep) : Prop :=
  ∀ L R, st.sizedContraction.contraction.operandIndices = [L, R] → Reduced L R st.sizedContraction.contraction.outputIndices

/-- `SettledStep` for the labels that the step records. -/
def Steady (st : PairStep) : Prop :=
  ∀ L R, st.sizedContraction.contraction.operandIndices = [L, R] → SettledStep L R st.sizedContraction.contraction.outputIndices

/-- The steps, executed after those whose results have the shapes `results`, find arrays of the shapes that they record. -/
inductive Fitting (operands : List (List Nat)) : List (List Nat) → List PairStep → Prop where
  | done {results : List (List Nat)} : results ≠ [] → Fitting operands results []
  | step {results : List (List Nat)} {st : PairStep} {steps : List PairStep} (dims : Char → Nat) (L R : List Char) :
      st.sizedContraction.contraction.operandIndices = [L, R] →
      OutputOk [L, R] st.sizedContraction.contraction.outputIndices →
      (∀ c, c ∈ L ∨ c ∈ R → st.sizedContraction.outputSize c = some (dims c)) → NoEmptyDiagonal dims [L, R] →
      named operands results st.operandNums.lhs = some (L.map dims) →
      named operands results st.operandNums.rhs = some (R.map dims) →
      Fitting operands (results ++ [st.sizedContraction.contraction.outputIndices.map dims]) steps →
      Fitting operands results (st :: steps)

end Einsum.Spec
