import Verif.Model.Lib

/-!
# Model of the derived `Serialize` and `Deserialize` implementations

All of them are `#[cfg_attr(feature = "serde", derive(...))]`. `write` is the JSON tree that serde_json makes of a value,
`read` what the derived `Deserialize` accepts from a JSON tree. Errors are `none`.
-/

namespace Einsum

/-- A JSON value. The entries of an object are kept in order, and a key may occur more than once. `num` is a number that
serde accepts as a `usize`; `other` is any other number (negative, fractional or too large) or a truth value, with its text. -/
inductive Json where
  | null
  | other (text : String)
  | num (n : Nat)
  | str (s : String)
  | arr (l : List Json)
  | obj (l : List (String × Json))

/-- All results, or none if one of them is missing. -/
def mapO {α β : Type} (f : α → Option β) : List α → Option (List β)
  | [] => some []
  | a :: l => do
    let b ← f a
    let bs ← mapO f l
    return b :: bs

/-! ## Types of the standard library -/

/-- A `usize` is read from a number in its range. -/
def readNat : Json → Option Nat
  | .num n => some n
  | _ => none

/-- A `char` is written as a string. -/
def writeChar (c : Char) : Json := .str (String.singleton c)

/-- A `char` is read from a string of exactly one character. -/
def readChar : Json → Option Char
  | .str s => match s.toList with
    | [c] => some c
    | _ => none
  | _ => none

def writeVec {α : Type} (f : α → Json) (l : List α) : Json := .arr (l.map f)

def readVec {α : Type} (f : Json → Option α) : Json → Option (List α)
  | .arr l => mapO f l
  | _ => none

def writeNats (l : List Nat) : Json := writeVec Json.num l
def readNats : Json → Option (List Nat) := readVec readNat
def writeChars (l : List Char) : Json := writeVec writeChar l
def readChars : Json → Option (List Char) := readVec readChar

/-- `None` is `null`, and `Some(x)` is written as `x`. -/
def writeOption {α : Type} (f : α → Json) : Option α → Json
  | none => .null
  | some a => f a

/-- A `HashMap<char, usize>` whose entries are visited in the given order. -/
def writeSizes (entries : List (Char × Nat)) : Json :=
  .obj (entries.map fun e => (String.singleton e.1, .num e.2))

/-- Reading a `HashMap<char, usize>`: each entry is inserted, replacing an earlier one with the same key. -/
def insertEntries : List (String × Json) → OutputSize → Option OutputSize
  | [], m => some m
  | (k, v) :: l, m => do
    let c ← readChar (.str k)
    let n ← readNat v
    insertEntries l (m.insert c n)

def readSizes : Json → Option OutputSize
  | .obj l => insertEntries l OutputSize.empty
  | _ => none

/-! ## What `derive` generates -/

/-- The value of a field: a missing or duplicate field is an error (no field read here is an `Option`). -/
def fieldOf (l : List (String × Json)) (name : String) : Option Json :=
  match l.filter fun e => e.1 = name with
  | [e] => some e.2
  | _ => none

/-- The values of the fields of a struct: from an object, in which unknown fields are ignored, or from an array with
exactly one item per field. -/
def structFields (names : List String) : Json → Option (List Json)
  | .obj l => mapO (fieldOf l) names
  | .arr l => if l.length = names.length then some l else none
  | _ => none

/-- The name and the content of an enum variant: the name alone, or an object with this one key. -/
def variant : Json → Option (String × Json)
  | .str s => some (s, .null)
  | .obj [(k, v)] => some (k, v)
  | _ => none

/-- A unit variant has no content. -/
def unitVariant {α : Type} (v : Json) (a : α) : Option α :=
  match v with
  | .null => some a
  | _ => none

/-- A struct without fields. -/
def writeUnit : Json := .obj []

def readUnit (j : Json) : Option Unit := do
  let _ ← structFields [] j
  return ()

/-! ## validation.rs -/

/-- `Contraction`, validation.rs 57-71. -/
def Contraction.write (c : Contraction) : Json :=
  .obj [("operand_indices", writeVec writeChars c.operandIndices), ("output_indices", writeChars c.outputIndices),
    ("summation_indices", writeChars c.summationIndices)]

def Contraction.read (j : Json) : Option Contraction := do
  match ← structFields ["operand_indices", "output_indices", "summation_indices"] j with
  | [a, b, c] => return ⟨← readVec readChars a, ← readChars b, ← readChars c⟩
  | _ => none

/-- `entries` lists the entries of the map, in some order. -/
def OutputSize.Entries (m : OutputSize) (entries : List (Char × Nat)) : Prop :=
  (entries.map Prod.fst).Nodup ∧ ∀ c n, (c, n) ∈ entries ↔ m c = some n

/-- `SizedContraction`, validation.rs 211-216: what may be written, depending on the iteration order of the map. -/
inductive SizedContraction.Writes (sc : SizedContraction) : Json → Prop
  | mk (entries : List (Char × Nat)) (h : sc.outputSize.Entries entries) :
    sc.Writes (.obj [("contraction", sc.contraction.write), ("output_size", writeSizes entries)])

def SizedContraction.read (j : Json) : Option SizedContraction := do
  match ← structFields ["contraction", "output_size"] j with
  | [a, b] => return ⟨← Contraction.read a, ← readSizes b⟩
  | _ => none

/-! ## optimizers.rs -/

/-- `OperandNumber`, optimizers.rs 24-29. -/
def OperandNumber.write : OperandNumber → Json
  | .input n => .obj [("Input", .num n)]
  | .intermediateResult n => .obj [("IntermediateResult", .num n)]

def OperandNumber.read (j : Json) : Option OperandNumber := do
  let (name, v) ← variant j
  if name = "Input" then return .input (← readNat v)
  else if name = "IntermediateResult" then return .intermediateResult (← readNat v)
  else none

/-- `OperandNumPair`, optimizers.rs 32-37. -/
def OperandNumPair.write (p : OperandNumPair) : Json := .obj [("lhs", p.lhs.write), ("rhs", p.rhs.write)]

def OperandNumPair.read (j : Json) : Option OperandNumPair := do
  match ← structFields ["lhs", "rhs"] j with
  | [a, b] => return ⟨← OperandNumber.read a, ← OperandNumber.read b⟩
  | _ => none

/-- `Pair`, optimizers.rs 41-49. -/
inductive PairStep.Writes (p : PairStep) : Json → Prop
  | mk (j : Json) (h : p.sizedContraction.Writes j) :
    p.Writes (.obj [("sized_contraction", j), ("operand_nums", p.operandNums.write)])

def PairStep.read (j : Json) : Option PairStep := do
  match ← structFields ["sized_contraction", "operand_nums"] j with
  | [a, b] => return ⟨← SizedContraction.read a, ← OperandNumPair.read b⟩
  | _ => none

/-- `ContractionOrder`, optimizers.rs 55-64. -/
inductive ContractionOrder.Writes : ContractionOrder → Json → Prop
  | singleton (sc : SizedContraction) (j : Json) (h : sc.Writes j) : Writes (.singleton sc) (.obj [("Singleton", j)])
  | pairs (steps : List PairStep) (js : List Json) (h : List.Forall₂ PairStep.Writes steps js) :
    Writes (.pairs steps) (.obj [("Pairs", .arr js)])

def ContractionOrder.read (j : Json) : Option ContractionOrder := do
  let (name, v) ← variant j
  if name = "Singleton" then return .singleton (← SizedContraction.read v)
  else if name = "Pairs" then return .pairs (← readVec PairStep.read v)
  else none

/-- `OptimizationMethod`, optimizers.rs 69-89. -/
def OptimizationMethod.write : OptimizationMethod → Json
  | .naive => .str "Naive"
  | .reverse => .str "Reverse"
  | .greedy => .str "Greedy"
  | .optimal => .str "Optimal"
  | .branch => .str "Branch"

def OptimizationMethod.read (j : Json) : Option OptimizationMethod := do
  let (name, v) ← variant j
  if name = "Naive" then unitVariant v .naive
  else if name = "Reverse" then unitVariant v .reverse
  else if name = "Greedy" then unitVariant v .greedy
  else if name = "Optimal" then unitVariant v .optimal
  else if name = "Branch" then unitVariant v .branch
  else none

/-! ## contractors/strategies.rs -/

/-- `SingletonMethod`, strategies.rs 30-39. -/
def SingletonMethod.write : SingletonMethod → Json
  | .identity => .str "Identity"
  | .permutation => .str "Permutation"
  | .summation => .str "Summation"
  | .diagonalization => .str "Diagonalization"
  | .permutationAndSummation => .str "PermutationAndSummation"
  | .diagonalizationAndSummation => .str "DiagonalizationAndSummation"

def SingletonMethod.read (j : Json) : Option SingletonMethod := do
  let (name, v) ← variant j
  if name = "Identity" then unitVariant v .identity
  else if name = "Permutation" then unitVariant v .permutation
  else if name = "Summation" then unitVariant v .summation
  else if name = "Diagonalization" then unitVariant v .diagonalization
  else if name = "PermutationAndSummation" then unitVariant v .permutationAndSummation
  else if name = "DiagonalizationAndSummation" then unitVariant v .diagonalizationAndSummation
  else none

/-- `SingletonSummary`, strategies.rs 41-47. -/
def SingletonSummary.write (s : SingletonSummary) : Json :=
  .obj [("num_summed_axes", .num s.numSummedAxes), ("num_diagonalized_axes", .num s.numDiagonalizedAxes),
    ("num_reordered_axes", .num s.numReorderedAxes)]

def SingletonSummary.read (j : Json) : Option SingletonSummary := do
  match ← structFields ["num_summed_axes", "num_diagonalized_axes", "num_reordered_axes"] j with
  | [a, b, c] => return ⟨← readNat a, ← readNat b, ← readNat c⟩
  | _ => none

/-- `PairMethod`, strategies.rs 95-108. -/
def PairMethod.write : PairMethod → Json
  | .hadamardProduct => .str "HadamardProduct"
  | .hadamardProductGeneral => .str "HadamardProductGeneral"
  | .tensordotFixedPosition => .str "TensordotFixedPosition"
  | .tensordotGeneral => .str "TensordotGeneral"
  | .scalarMatrixProduct => .str "ScalarMatrixProduct"
  | .scalarMatrixProductGeneral => .str "ScalarMatrixProductGeneral"
  | .matrixScalarProduct => .str "MatrixScalarProduct"
  | .matrixScalarProductGeneral => .str "MatrixScalarProductGeneral"
  | .broadcastProductGeneral => .str "BroadcastProductGeneral"
  | .stackedTensordotGeneral => .str "StackedTensordotGeneral"

def PairMethod.read (j : Json) : Option PairMethod := do
  let (name, v) ← variant j
  if name = "HadamardProduct" then unitVariant v .hadamardProduct
  else if name = "HadamardProductGeneral" then unitVariant v .hadamardProductGeneral
  else if name = "TensordotFixedPosition" then unitVariant v .tensordotFixedPosition
  else if name = "TensordotGeneral" then unitVariant v .tensordotGeneral
  else if name = "ScalarMatrixProduct" then unitVariant v .scalarMatrixProduct
  else if name = "ScalarMatrixProductGeneral" then unitVariant v .scalarMatrixProductGeneral
  else if name = "MatrixScalarProduct" then unitVariant v .matrixScalarProduct
  else if name = "MatrixScalarProductGeneral" then unitVariant v .matrixScalarProductGeneral
  else if name = "BroadcastProductGeneral" then unitVariant v .broadcastProductGeneral
  else if name = "StackedTensordotGeneral" then unitVariant v .stackedTensordotGeneral
  else none

/-- `PairSummary`, strategies.rs 110-117. -/
def PairSummary.write (s : PairSummary) : Json :=
  .obj [("num_stacked_axes", .num s.numStackedAxes), ("num_lhs_outer_axes", .num s.numLhsOuterAxes),
    ("num_rhs_outer_axes", .num s.numRhsOuterAxes), ("num_contracted_axes", .num s.numContractedAxes)]

def PairSummary.read (j : Json) : Option PairSummary := do
  match ← structFields ["num_stacked_axes", "num_lhs_outer_axes", "num_rhs_outer_axes", "num_contracted_axes"] j with
  | [a, b, c, d] => return ⟨← readNat a, ← readNat b, ← readNat c, ← readNat d⟩
  | _ => none

/-! ## contractors/singleton_contractors.rs (`Identity`, 35-37, is a struct without fields) -/

/-- `Permutation`, 68-72. -/
def Permutation.write (p : Permutation) : Json := .obj [("permutation", writeNats p.permutation)]

def Permutation.read (j : Json) : Option Permutation := do
  match ← structFields ["permutation"] j with
  | [a] => return ⟨← readNats a⟩
  | _ => none

/-- `Summation`, 130-135. -/
def Summation.write (s : Summation) : Json :=
  .obj [("orig_axis_list", writeNats s.origAxisList), ("adjusted_axis_list", writeNats s.adjustedAxisList)]

def Summation.read (j : Json) : Option Summation := do
  match ← structFields ["orig_axis_list", "adjusted_axis_list"] j with
  | [a, b] => return ⟨← readNats a, ← readNats b⟩
  | _ => none

/-- `Diagonalization`, 181-186. -/
def Diagonalization.write (d : Diagonalization) : Json :=
  .obj [("input_to_output_mapping", writeNats d.inputToOutputMapping), ("output_shape", writeNats d.outputShape)]

def Diagonalization.read (j : Json) : Option Diagonalization := do
  match ← structFields ["input_to_output_mapping", "output_shape"] j with
  | [a, b] => return ⟨← readNats a, ← readNats b⟩
  | _ => none

/-- `PermutationAndSummation`, 269-274. -/
def PermutationAndSummation.write (p : PermutationAndSummation) : Json :=
  .obj [("permutation", p.permutation.write), ("summation", p.summation.write)]

def PermutationAndSummation.read (j : Json) : Option PermutationAndSummation := do
  match ← structFields ["permutation", "summation"] j with
  | [a, b] => return ⟨← Permutation.read a, ← Summation.read b⟩
  | _ => none

/-- `DiagonalizationAndSummation`, 326-331. -/
def DiagonalizationAndSummation.write (d : DiagonalizationAndSummation) : Json :=
  .obj [("diagonalization", d.diagonalization.write), ("summation", d.summation.write)]

def DiagonalizationAndSummation.read (j : Json) : Option DiagonalizationAndSummation := do
  match ← structFields ["diagonalization", "summation"] j with
  | [a, b] => return ⟨← Diagonalization.read a, ← Summation.read b⟩
  | _ => none

/-! ## contractors/pair_contractors.rs (`HadamardProduct`, 405-407, `ScalarMatrixProduct`, 503-505, and
`MatrixScalarProduct`, 602-604, are structs without fields) -/

/-- `TensordotFixedPosition`, 94-111. -/
def TensordotFixedPosition.write (t : TensordotFixedPosition) : Json :=
  .obj [("len_uncontracted_lhs", .num t.lenUncontractedLhs), ("len_uncontracted_rhs", .num t.lenUncontractedRhs),
    ("len_contracted_axes", .num t.lenContractedAxes), ("output_shape", writeNats t.outputShape)]

def TensordotFixedPosition.read (j : Json) : Option TensordotFixedPosition := do
  match ← structFields ["len_uncontracted_lhs", "len_uncontracted_rhs", "len_contracted_axes", "output_shape"] j with
  | [a, b, c, d] => return ⟨← readNat a, ← readNat b, ← readNat c, ← readNats d⟩
  | _ => none

/-- `TensordotGeneral`, 238-245. -/
def TensordotGeneral.write (t : TensordotGeneral) : Json :=
  .obj [("lhs_permutation", t.lhsPermutation.write), ("rhs_permutation", t.rhsPermutation.write),
    ("tensordot_fixed_position", t.tensordotFixedPosition.write), ("output_permutation", t.outputPermutation.write)]

def TensordotGeneral.read (j : Json) : Option TensordotGeneral := do
  match ← structFields ["lhs_permutation", "rhs_permutation", "tensordot_fixed_position", "output_permutation"] j with
  | [a, b, c, d] =>
    return ⟨← Permutation.read a, ← Permutation.read b, ← TensordotFixedPosition.read c, ← Permutation.read d⟩
  | _ => none

/-- `HadamardProductGeneral`, 448-454. -/
def HadamardProductGeneral.write (p : HadamardProductGeneral) : Json :=
  .obj [("lhs_permutation", p.lhsPermutation.write), ("rhs_permutation", p.rhsPermutation.write),
    ("hadamard_product", writeUnit)]

def HadamardProductGeneral.read (j : Json) : Option HadamardProductGeneral := do
  match ← structFields ["lhs_permutation", "rhs_permutation", "hadamard_product"] j with
  | [a, b, c] => do
    let _ ← readUnit c
    return ⟨← Permutation.read a, ← Permutation.read b⟩
  | _ => none

/-- `ScalarMatrixProductGeneral`, 547-552. -/
def ScalarMatrixProductGeneral.write (p : ScalarMatrixProductGeneral) : Json :=
  .obj [("rhs_permutation", p.rhsPermutation.write), ("scalar_matrix_product", writeUnit)]

def ScalarMatrixProductGeneral.read (j : Json) : Option ScalarMatrixProductGeneral := do
  match ← structFields ["rhs_permutation", "scalar_matrix_product"] j with
  | [a, b] => do
    let _ ← readUnit b
    return ⟨← Permutation.read a⟩
  | _ => none

/-- `MatrixScalarProductGeneral`, 646-651. -/
def MatrixScalarProductGeneral.write (p : MatrixScalarProductGeneral) : Json :=
  .obj [("lhs_permutation", p.lhsPermutation.write), ("matrix_scalar_product", writeUnit)]

def MatrixScalarProductGeneral.read (j : Json) : Option MatrixScalarProductGeneral := do
  match ← structFields ["lhs_permutation", "matrix_scalar_product"] j with
  | [a, b] => do
    let _ ← readUnit b
    return ⟨← Permutation.read a⟩
  | _ => none

/-- `BroadcastProductGeneral`, 705-714. -/
def BroadcastProductGeneral.write (p : BroadcastProductGeneral) : Json :=
  .obj [("lhs_permutation", p.lhsPermutation.write), ("rhs_permutation", p.rhsPermutation.write),
    ("lhs_insertions", writeNats p.lhsInsertions), ("rhs_insertions", writeNats p.rhsInsertions),
    ("output_sizes", writeNats p.outputSizes), ("hadamard_product", writeUnit)]

def BroadcastProductGeneral.read (j : Json) : Option BroadcastProductGeneral := do
  match ← structFields ["lhs_permutation", "rhs_permutation", "lhs_insertions", "rhs_insertions", "output_sizes",
    "hadamard_product"] j with
  | [a, b, c, d, e, f] => do
    let _ ← readUnit f
    return ⟨← Permutation.read a, ← Permutation.read b, ← readNats c, ← readNats d, ← readNats e⟩
  | _ => none

/-- `StackedTensordotGeneral`, 811-822. -/
def StackedTensordotGeneral.write (p : StackedTensordotGeneral) : Json :=
  .obj [("lhs_permutation", p.lhsPermutation.write), ("rhs_permutation", p.rhsPermutation.write),
    ("lhs_output_shape", writeNats p.lhsOutputShape), ("rhs_output_shape", writeNats p.rhsOutputShape),
    ("intermediate_shape", writeNats p.intermediateShape),
    ("tensordot_fixed_position", p.tensordotFixedPosition.write), ("output_shape", writeNats p.outputShape),
    ("output_permutation", p.outputPermutation.write)]

def StackedTensordotGeneral.read (j : Json) : Option StackedTensordotGeneral := do
  match ← structFields ["lhs_permutation", "rhs_permutation", "lhs_output_shape", "rhs_output_shape",
    "intermediate_shape", "tensordot_fixed_position", "output_shape", "output_permutation"] j with
  | [a, b, c, d, e, f, g, i] =>
    return ⟨← Permutation.read a, ← Permutation.read b, ← readNats c, ← readNats d, ← readNats e,
      ← TensordotFixedPosition.read f, ← readNats g, ← Permutation.read i⟩
  | _ => none

/-! ## contractors/mod.rs (these derive `Serialize` only; the fields `op` are skipped) -/

/-- `SingletonContraction`, mod.rs 134-139. -/
def SingletonContraction.write (c : SingletonContraction) : Json := .obj [("method", c.method.write)]

/-- `SimplificationMethodAndOutput`, mod.rs 185-192. -/
def SimplificationMethodAndOutput.write (s : SimplificationMethodAndOutput) : Json :=
  .obj [("method", s.method.write), ("new_indices", writeChars s.newIndices), ("einsum_string", .str s.einsumString)]

/-- `PairContraction`, mod.rs 264-272. -/
def PairContraction.write (c : PairContraction) : Json :=
  .obj [("lhs_simplification", writeOption SimplificationMethodAndOutput.write c.lhsSimplification),
    ("rhs_simplification", writeOption SimplificationMethodAndOutput.write c.rhsSimplification),
    ("method", c.method.write), ("simplified_einsum_string", .str c.simplifiedEinsumString)]

/-- `EinsumPathSteps`, mod.rs 402-413. -/
def EinsumPathSteps.write : EinsumPathSteps → Json
  | .singletonContraction c => .obj [("SingletonContraction", c.write)]
  | .pairContractions steps => .obj [("PairContractions", writeVec PairContraction.write steps)]

/-- `EinsumPath`, mod.rs 421-428. -/
inductive EinsumPath.Writes (p : EinsumPath) : Json → Prop
  | mk (j : Json) (h : p.contractionOrder.Writes j) :
    p.Writes (.obj [("contraction_order", j), ("steps", p.steps.write)])

end Einsum
