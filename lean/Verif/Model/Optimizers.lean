import Verif.Model.Validation

/-!
# Model of `/repo/src/optimizers.rs`
-/

namespace Einsum

/-- `OperandNumber`, optimizers.rs 26-29. -/
inductive OperandNumber where
  | input (n : Nat)
  | intermediateResult (n : Nat)
  deriving DecidableEq, Repr

/-- `OperandNumPair`, optimizers.rs 34-37. -/
structure OperandNumPair where
  lhs : OperandNumber
  rhs : OperandNumber
  deriving DecidableEq, Repr

/-- `Pair`, optimizers.rs 43-49. -/
structure PairStep where
  sizedContraction : SizedContraction
  operandNums : OperandNumPair

/-- `ContractionOrder`, optimizers.rs 57-64. -/
inductive ContractionOrder where
  | singleton (sc : SizedContraction)
  | pairs (steps : List PairStep)

/-- `OptimizationMethod`, optimizers.rs 71-89. -/
inductive OptimizationMethod where
  | naive
  | reverse
  | greedy
  | optimal
  | branch
  deriving DecidableEq, Repr

/-- `get_remaining_indices`, optimizers.rs 92-101. -/
def getRemainingIndices (operandIndices : List (List Char)) (outputIndices : List Char) : List Char :=
  hset (operandIndices.flatten ++ outputIndices)

/-- `get_existing_indices`, optimizers.rs 104-110. -/
def getExistingIndices (lhs rhs : List Char) : List Char := hset (lhs ++ rhs)

/-- `generate_permuted_contraction`, optimizers.rs 113-132. -/
def generatePermutedContraction (h : HashOrd) (sc : SizedContraction) (tensorOrder : List Nat) :
    M SizedContraction := do
  assertThat (sc.contraction.operandIndices.length = tensorOrder.length)
  let newOperandIndices ← mapE (index sc.contraction.operandIndices) tensorOrder
  unwrapR (sc.subset h newOperandIndices sc.contraction.outputIndices)

/-- `generate_sized_contraction_pair`, optimizers.rs 135-147. -/
def generateSizedContractionPair (h : HashOrd) (lhs rhs out : List Char) (orig : SizedContraction) :
    M SizedContraction :=
  unwrapR (orig.subset h [lhs, rhs] out)

/-- The output labels of one step, optimizers.rs 237-251: the final output when no operand remains,
otherwise existing ∩ remaining, in hash iteration order. -/
def stepOutput (h : HashOrd) (lhs rhs : List Char) (later : List (List Char)) (out : List Char) :
    List Char :=
  match later with
  | [] => out
  | _ =>
    (h.iter [0] (getExistingIndices lhs rhs)).filter fun c => c ∈ getRemainingIndices later out

/-- The loop of `generate_path`, optimizers.rs 195-276.  `lhs` is `output_indices` at the loop head,
`idxOfLhs` the loop variable, the two lists the remaining operands (RHS first) and their
numbers in `tensor_order`; `tensor_order[0]` is `first`. -/
def generateSteps (h : HashOrd) (permuted : SizedContraction) (first : Nat) :
    (idxOfLhs : Nat) → (lhs : List Char) → (rest : List (List Char)) → (order : List Nat) →
    M (List PairStep)
  | idxOfLhs, lhs, rhs :: later, num :: nums => do
    let out := stepOutput (h.sub (2 * idxOfLhs)) lhs rhs later permuted.contraction.outputIndices
    let sc ← generateSizedContractionPair (h.sub (2 * idxOfLhs + 1)) lhs rhs out permuted
    let operandNums : OperandNumPair :=
      if idxOfLhs = 0 then ⟨.input first, .input num⟩
      else ⟨.intermediateResult (idxOfLhs - 1), .input num⟩
    let steps ← generateSteps h permuted first (idxOfLhs + 1) out later nums
    return ⟨sc, operandNums⟩ :: steps
  | _, _, _, _ => .ok []

/-- `generate_path`, optimizers.rs 152-281.  (The length of `operand_indices` equals that of
`tensor_order` by the assertion in `generate_permuted_contraction`.  With zero operands the
last arm of the Rust `match` indexes `operand_indices[0]` and panics.) -/
def generatePath (h : HashOrd) (sc : SizedContraction) (tensorOrder : List Nat) :
    M ContractionOrder := do
  let permuted ← generatePermutedContraction (h.sub 0) sc tensorOrder
  match permuted.contraction.operandIndices, tensorOrder with
  | [_], _ => return .singleton permuted
  | [lhs, rhs], t0 :: t1 :: _ => do
    let sc' ← generateSizedContractionPair (h.sub 1) lhs rhs permuted.contraction.outputIndices permuted
    return .pairs [⟨sc', ⟨.input t0, .input t1⟩⟩]
  | lhs :: rest, t0 :: ts => do
    let steps ← generateSteps (h.sub 2) permuted t0 0 lhs rest ts
    return .pairs steps
  | _, _ => panic .indexOutOfBounds

/-- `naive_order`, optimizers.rs 284-286. -/
def naiveOrder (sc : SizedContraction) : List Nat := List.range sc.contraction.operandIndices.length

/-- `reverse_order`, optimizers.rs 289-293. -/
def reverseOrder (sc : SizedContraction) : List Nat :=
  (List.range sc.contraction.operandIndices.length).reverse

/-- `generate_optimized_order`, optimizers.rs 298-308. -/
def generateOptimizedOrder (h : HashOrd) (sc : SizedContraction) (strategy : OptimizationMethod) :
    M ContractionOrder :=
  match strategy with
  | .naive => generatePath h sc (naiveOrder sc)
  | .reverse => generatePath h sc (reverseOrder sc)
  | _ => panic .explicit

end Einsum
