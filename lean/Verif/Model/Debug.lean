import Verif.Model.Lib

/-!
# Model of the `Debug` implementations of paths

The hand-written `fmt` functions of `/repo/src/contractors/mod.rs` and, for the fields they print, what
`#[derive(Debug)]` and the standard library produce for `{:?}`. Characters that `char` and `str` escape (quotes,
backslashes, control and non-printing characters) are printed as they are here: a path compiled from an accepted
string contains none of them.
-/

namespace Einsum

/-- What `write!` does with the pieces of a format string and the formatted arguments between them. -/
def writePieces : List String → String
  | [] => ""
  | x :: l => x ++ writePieces l

/-- The items, separated by commas. -/
def commaSep : List String → String
  | [] => ""
  | [x] => x
  | x :: y :: l => x ++ ", " ++ commaSep (y :: l)

/-- `{:?}` of a `Vec`, from its formatted items. -/
def debugVec (items : List String) : String := "[" ++ commaSep items ++ "]"

/-- `#[derive(Debug)]` of a struct with named fields, at least one of them. -/
def debugStruct (name : String) (fields : List (String × String)) : String :=
  name ++ " { " ++ commaSep (fields.map fun f => f.1 ++ ": " ++ f.2) ++ " }"

/-- `{:?}` of an `Option`. -/
def debugOption {α : Type} (f : α → String) : Option α → String
  | none => "None"
  | some x => writePieces ["Some(", f x, ")"]

/-- `{:?}` of a `String` (nothing to be escaped). -/
def debugString (s : String) : String := "\"" ++ s ++ "\""

/-- `{:?}` of a `Vec<usize>`. -/
def debugNats (l : List Nat) : String := debugVec (l.map Nat.repr)

/-- `{:?}` of a `Vec<char>` (nothing to be escaped). -/
def debugChars (l : List Char) : String := debugVec (l.map fun c => "'" ++ String.singleton c ++ "'")

/-- `SingletonMethod`, strategies.rs 31-39. -/
def SingletonMethod.debug : SingletonMethod → String
  | .identity => "Identity"
  | .permutation => "Permutation"
  | .summation => "Summation"
  | .diagonalization => "Diagonalization"
  | .permutationAndSummation => "PermutationAndSummation"
  | .diagonalizationAndSummation => "DiagonalizationAndSummation"

/-- `PairMethod`, strategies.rs 96-108. -/
def PairMethod.debug : PairMethod → String
  | .hadamardProduct => "HadamardProduct"
  | .hadamardProductGeneral => "HadamardProductGeneral"
  | .tensordotFixedPosition => "TensordotFixedPosition"
  | .tensordotGeneral => "TensordotGeneral"
  | .scalarMatrixProduct => "ScalarMatrixProduct"
  | .scalarMatrixProductGeneral => "ScalarMatrixProductGeneral"
  | .matrixScalarProduct => "MatrixScalarProduct"
  | .matrixScalarProductGeneral => "MatrixScalarProductGeneral"
  | .broadcastProductGeneral => "BroadcastProductGeneral"
  | .stackedTensordotGeneral => "StackedTensordotGeneral"

/-- singleton_contractors.rs 69-72. -/
def Permutation.debug (p : Permutation) : String :=
  debugStruct "Permutation" [("permutation", debugNats p.permutation)]

/-- singleton_contractors.rs 131-135. -/
def Summation.debug (s : Summation) : String :=
  debugStruct "Summation" [("orig_axis_list", debugNats s.origAxisList),
    ("adjusted_axis_list", debugNats s.adjustedAxisList)]

/-- singleton_contractors.rs 182-186. -/
def Diagonalization.debug (d : Diagonalization) : String :=
  debugStruct "Diagonalization" [("input_to_output_mapping", debugNats d.inputToOutputMapping),
    ("output_shape", debugNats d.outputShape)]

/-- singleton_contractors.rs 270-274. -/
def PermutationAndSummation.debug (p : PermutationAndSummation) : String :=
  debugStruct "PermutationAndSummation" [("permutation", p.permutation.debug), ("summation", p.summation.debug)]

/-- singleton_contractors.rs 327-331. -/
def DiagonalizationAndSummation.debug (d : DiagonalizationAndSummation) : String :=
  debugStruct "DiagonalizationAndSummation" [("diagonalization", d.diagonalization.debug),
    ("summation", d.summation.debug)]

/-- `{:?}` of a `Box<dyn SingletonContractor<A>>`: that of the struct in it (a struct without fields, like
`Identity`, singleton_contractors.rs 36-37, prints its name). -/
def SingletonOp.debug : SingletonOp → String
  | .identity => "Identity"
  | .permutation p => p.debug
  | .summation s => s.debug
  | .diagonalization d => d.debug
  | .permutationAndSummation p => p.debug
  | .diagonalizationAndSummation d => d.debug

/-- pair_contractors.rs 95-111. -/
def TensordotFixedPosition.debug (t : TensordotFixedPosition) : String :=
  debugStruct "TensordotFixedPosition" [("len_uncontracted_lhs", t.lenUncontractedLhs.repr),
    ("len_uncontracted_rhs", t.lenUncontractedRhs.repr), ("len_contracted_axes", t.lenContractedAxes.repr),
    ("output_shape", debugNats t.outputShape)]

/-- pair_contractors.rs 239-245. -/
def TensordotGeneral.debug (t : TensordotGeneral) : String :=
  debugStruct "TensordotGeneral" [("lhs_permutation", t.lhsPermutation.debug),
    ("rhs_permutation", t.rhsPermutation.debug), ("tensordot_fixed_position", t.tensordotFixedPosition.debug),
    ("output_permutation", t.outputPermutation.debug)]

/-- pair_contractors.rs 449-454. -/
def HadamardProductGeneral.debug (p : HadamardProductGeneral) : String :=
  debugStruct "HadamardProductGeneral" [("lhs_permutation", p.lhsPermutation.debug),
    ("rhs_permutation", p.rhsPermutation.debug), ("hadamard_product", "HadamardProduct")]

/-- pair_contractors.rs 548-552. -/
def ScalarMatrixProductGeneral.debug (p : ScalarMatrixProductGeneral) : String :=
  debugStruct "ScalarMatrixProductGeneral" [("rhs_permutation", p.rhsPermutation.debug),
    ("scalar_matrix_product", "ScalarMatrixProduct")]

/-- pair_contractors.rs 647-651. -/
def MatrixScalarProductGeneral.debug (p : MatrixScalarProductGeneral) : String :=
  debugStruct "MatrixScalarProductGeneral" [("lhs_permutation", p.lhsPermutation.debug),
    ("matrix_scalar_product", "MatrixScalarProduct")]

/-- pair_contractors.rs 706-714. -/
def BroadcastProductGeneral.debug (p : BroadcastProductGeneral) : String :=
  debugStruct "BroadcastProductGeneral" [("lhs_permutation", p.lhsPermutation.debug),
    ("rhs_permutation", p.rhsPermutation.debug), ("lhs_insertions", debugNats p.lhsInsertions),
    ("rhs_insertions", debugNats p.rhsInsertions), ("output_sizes", debugNats p.outputSizes),
    ("hadamard_product", "HadamardProduct")]

/-- pair_contractors.rs 812-822. -/
def StackedTensordotGeneral.debug (p : StackedTensordotGeneral) : String :=
  debugStruct "StackedTensordotGeneral" [("lhs_permutation", p.lhsPermutation.debug),
    ("rhs_permutation", p.rhsPermutation.debug), ("lhs_output_shape", debugNats p.lhsOutputShape),
    ("rhs_output_shape", debugNats p.rhsOutputShape), ("intermediate_shape", debugNats p.intermediateShape),
    ("tensordot_fixed_position", p.tensordotFixedPosition.debug), ("output_shape", debugNats p.outputShape),
    ("output_permutation", p.outputPermutation.debug)]

/-- `{:?}` of a `Box<dyn PairContractor<A>>`: that of the struct in it. -/
def PairOp.debug : PairOp → String
  | .hadamardProduct => "HadamardProduct"
  | .hadamardProductGeneral p => p.debug
  | .tensordotFixedPosition p => p.debug
  | .tensordotGeneral p => p.debug
  | .scalarMatrixProduct => "ScalarMatrixProduct"
  | .scalarMatrixProductGeneral p => p.debug
  | .matrixScalarProduct => "MatrixScalarProduct"
  | .matrixScalarProductGeneral p => p.debug
  | .broadcastProductGeneral p => p.debug
  | .stackedTensordotGeneral p => p.debug

/-- `<SingletonContraction as Debug>::fmt`, mod.rs 174-182. -/
def SingletonContraction.debug (c : SingletonContraction) : String :=
  writePieces ["SingletonContraction { method: ", c.method.debug, ", op: ", c.op.debug, " }"]

/-- `<SimplificationMethodAndOutput as Debug>::fmt`, mod.rs 236-244. -/
def SimplificationMethodAndOutput.debug (s : SimplificationMethodAndOutput) : String :=
  writePieces ["SingletonContraction { method: ", s.method.debug, ", op: ", s.op.debug, ", new_indices: ",
    debugChars s.newIndices, ", einsum_string: ", debugString s.einsumString, " }"]

/-- `<PairContraction as Debug>::fmt`, mod.rs 381-398. -/
def PairContraction.debug (c : PairContraction) : String :=
  writePieces ["PairContraction { lhs_simplification: ",
    debugOption SimplificationMethodAndOutput.debug c.lhsSimplification, ", rhs_simplification: ",
    debugOption SimplificationMethodAndOutput.debug c.rhsSimplification, ", method: ", c.method.debug, ", op: ",
    c.op.debug, ", simplified_einsum_string: ", debugString c.simplifiedEinsumString]

/-- `<EinsumPath as Debug>::fmt`, mod.rs 494-501. -/
def EinsumPath.debug (p : EinsumPath) : String :=
  match p.steps with
  | .singletonContraction step => writePieces ["only_step: ", step.debug]
  | .pairContractions steps => writePieces ["steps: ", debugVec (steps.map PairContraction.debug)]

end Einsum
