import Verif.Model.Debug
import Verif.Model.Serde

/-!
# Model of `Debug` output, in both forms and with escapes

`Model/Debug` has the text of `{:?}` of a path if nothing has to be escaped. Here are the escapes, the form `{:#?}`, and
the types of `/repo/src/validation.rs` and `/repo/src/optimizers.rs`, all with `#[derive(Debug)]`. Which characters are
printed as they are is decided by the Unicode tables of the standard library: a parameter `plain`.
-/

namespace Einsum

/-- `{:?}` or `{:#?}`. -/
inductive Form where
  | line
  | pretty

/-! ## The standard library -/

/-- `char::escape_debug_ext`, where the quote `q` is escaped and the other one is not. -/
def escapeChar (plain : Char → Bool) (q c : Char) : String :=
  if c = '\x00' then "\\0"
  else if c = '\t' then "\\t"
  else if c = '\r' then "\\r"
  else if c = '\n' then "\\n"
  else if c = '\\' then "\\\\"
  else if c = q then "\\" ++ String.singleton q
  else if plain c then String.singleton c
  else "\\u{" ++ String.ofList (Nat.toDigits 16 c.toNat) ++ "}"

/-- `{:?}` of a `char`. -/
def quoteChar (plain : Char → Bool) (c : Char) : String := "'" ++ escapeChar plain '\'' c ++ "'"

/-- `{:?}` of a `String`. -/
def quoteString (plain : Char → Bool) (s : String) : String :=
  "\"" ++ writePieces (s.toList.map (escapeChar plain '"')) ++ "\""

/-- `PadAdapter`: four spaces at the beginning of each further line. -/
def padLines (s : String) : String :=
  String.ofList (s.toList.flatMap fun c => if c = '\n' then ['\n', ' ', ' ', ' ', ' '] else [c])

/-- An item in the form `{:#?}`: indented, and followed by a comma and the end of the line. -/
def prettyItem (item : String) : String := "    " ++ padLines item ++ ",\n"

/-- `DebugInner`, `DebugStruct`, `DebugTuple`, `DebugMap`: items between brackets, with blanks inside of them if
`blank` says so. -/
def debugItems (form : Form) (op blank cl : String) (items : List String) : String :=
  match form with
  | .line => op ++ blank ++ commaSep items ++ blank ++ cl
  | .pretty => op ++ (if items = [] then "" else "\n" ++ writePieces (items.map prettyItem)) ++ cl

/-- A `Vec`. -/
def showVec (form : Form) (items : List String) : String := debugItems form "[" "" "]" items

/-- A `HashMap` whose entries are visited in the given order. -/
def showMap (form : Form) (entries : List (String × String)) : String :=
  debugItems form "{" "" "}" (entries.map fun e => e.1 ++ ": " ++ e.2)

/-- A variant with one field. -/
def showTuple (form : Form) (name item : String) : String := debugItems form (name ++ "(") "" ")" [item]

/-- A struct with named fields, at least one of them. -/
def showStruct (form : Form) (name : String) (fields : List (String × String)) : String :=
  debugItems form (name ++ " {") " " "}" (fields.map fun f => f.1 ++ ": " ++ f.2)

/-! ## validation.rs -/

/-- A `Vec<char>`. -/
def showChars (form : Form) (plain : Char → Bool) (l : List Char) : String := showVec form (l.map (quoteChar plain))

/-- `Contraction`, validation.rs 58-71. -/
def Contraction.show (form : Form) (plain : Char → Bool) (c : Contraction) : String :=
  showStruct form "Contraction" [("operand_indices", showVec form (c.operandIndices.map (showChars form plain))),
    ("output_indices", showChars form plain c.outputIndices),
    ("summation_indices", showChars form plain c.summationIndices)]

/-- A `HashMap<char, usize>` whose entries are visited in the given order. -/
def showSizes (form : Form) (plain : Char → Bool) (entries : List (Char × Nat)) : String :=
  showMap form (entries.map fun e => (quoteChar plain e.1, e.2.repr))

/-- A sized contraction together with the order in which the entries of its map are visited. -/
structure Visited where
  contraction : Contraction
  entries : List (Char × Nat)

/-- `entries` are the entries of the map of the sized contraction. -/
def Visited.Of (x : Visited) (sc : SizedContraction) : Prop :=
  x.contraction = sc.contraction ∧ sc.outputSize.Entries x.entries

/-- `SizedContraction`, validation.rs 212-216. -/
def Visited.show (form : Form) (plain : Char → Bool) (x : Visited) : String :=
  showStruct form "SizedContraction" [("contraction", x.contraction.show form plain),
    ("output_size", showSizes form plain x.entries)]

/-- What may be printed of a sized contraction, depending on the iteration order of the map. -/
def SizedContraction.Prints (form : Form) (plain : Char → Bool) (sc : SizedContraction) (text : String) : Prop :=
  ∃ x : Visited, x.Of sc ∧ text = x.show form plain

/-! ## optimizers.rs -/

/-- `OperandNumber`, optimizers.rs 25-29. -/
def OperandNumber.show (form : Form) : OperandNumber → String
  | .input n => showTuple form "Input" n.repr
  | .intermediateResult n => showTuple form "IntermediateResult" n.repr

/-- `OperandNumPair`, optimizers.rs 33-37. -/
def OperandNumPair.show (form : Form) (p : OperandNumPair) : String :=
  showStruct form "OperandNumPair" [("lhs", p.lhs.show form), ("rhs", p.rhs.show form)]

/-- `Pair`, optimizers.rs 42-49, with the order in which its map is visited. -/
def showStep (form : Form) (plain : Char → Bool) (x : Visited × OperandNumPair) : String :=
  showStruct form "Pair" [("sized_contraction", x.1.show form plain), ("operand_nums", x.2.show form)]

/-- `ContractionOrder`, optimizers.rs 56-64: what may be printed. -/
inductive ContractionOrder.Prints (form : Form) (plain : Char → Bool) : ContractionOrder → String → Prop
  | singleton (sc : SizedContraction) (x : Visited) (hx : x.Of sc) :
    Prints form plain (.singleton sc) (showTuple form "Singleton" (x.show form plain))
  | pairs (steps : List PairStep) (xs : List (Visited × OperandNumPair))
    (hx : List.Forall₂ (fun st x => x.1.Of st.sizedContraction ∧ x.2 = st.operandNums) steps xs) :
    Prints form plain (.pairs steps) (showTuple form "Pairs" (showVec form (xs.map (showStep form plain))))

/-- `OptimizationMethod`, optimizers.rs 70-89. -/
def OptimizationMethod.show : OptimizationMethod → String
  | .naive => "Naive"
  | .reverse => "Reverse"
  | .greedy => "Greedy"
  | .optimal => "Optimal"
  | .branch => "Branch"

/-! ## contractors/strategies.rs -/

/-- `SingletonSummary`, strategies.rs 42-47. -/
def SingletonSummary.show (form : Form) (s : SingletonSummary) : String :=
  showStruct form "SingletonSummary" [("num_summed_axes", s.numSummedAxes.repr),
    ("num_diagonalized_axes", s.numDiagonalizedAxes.repr), ("num_reordered_axes", s.numReorderedAxes.repr)]

/-- `PairSummary`, strategies.rs 111-117. -/
def PairSummary.show (form : Form) (s : PairSummary) : String :=
  showStruct form "PairSummary" [("num_stacked_axes", s.numStackedAxes.repr),
    ("num_lhs_outer_axes", s.numLhsOuterAxes.repr), ("num_rhs_outer_axes", s.numRhsOuterAxes.repr),
    ("num_contracted_axes", s.numContractedAxes.repr)]

/-! ## contractors/mod.rs

The hand-written `fmt` functions pass `{:?}` on to the parts, so that they print the same for `{:#?}`. -/

/-- `<SimplificationMethodAndOutput as Debug>::fmt`, mod.rs 236-244. -/
def SimplificationMethodAndOutput.show (plain : Char → Bool) (s : SimplificationMethodAndOutput) : String :=
  writePieces ["SingletonContraction { method: ", s.method.debug, ", op: ", s.op.debug, ", new_indices: ",
    showChars .line plain s.newIndices, ", einsum_string: ", quoteString plain s.einsumString, " }"]

/-- `<PairContraction as Debug>::fmt`, mod.rs 381-398. -/
def PairContraction.show (plain : Char → Bool) (c : PairContraction) : String :=
  writePieces ["PairContraction { lhs_simplification: ",
    debugOption (SimplificationMethodAndOutput.show plain) c.lhsSimplification, ", rhs_simplification: ",
    debugOption (SimplificationMethodAndOutput.show plain) c.rhsSimplification, ", method: ", c.method.debug, ", op: ",
    c.op.debug, ", simplified_einsum_string: ", quoteString plain c.simplifiedEinsumString]

/-- `EinsumPathSteps`, mod.rs 403-414. -/
def EinsumPathSteps.show (form : Form) (plain : Char → Bool) : EinsumPathSteps → String
  | .singletonContraction step => showTuple form "SingletonContraction" step.debug
  | .pairContractions steps => showTuple form "PairContractions" (showVec form (steps.map (PairContraction.show plain)))

/-- `<EinsumPath as Debug>::fmt`, mod.rs 494-501. -/
def EinsumPath.show (plain : Char → Bool) (p : EinsumPath) : String :=
  match p.steps with
  | .singletonContraction step => writePieces ["only_step: ", step.debug]
  | .pairContractions steps => writePieces ["steps: ", showVec .line (steps.map (PairContraction.show plain))]

/-! ## The contractors on their own

Inside a path a contractor is printed with `{:?}` (`Model/Debug`), but all of them can be built and printed by a caller. -/

/-- A `Vec<usize>`. -/
def showNats (form : Form) (l : List Nat) : String := showVec form (l.map Nat.repr)

/-- singleton_contractors.rs 69-72. -/
def Permutation.show (form : Form) (p : Permutation) : String :=
  showStruct form "Permutation" [("permutation", showNats form p.permutation)]

/-- singleton_contractors.rs 131-135. -/
def Summation.show (form : Form) (s : Summation) : String :=
  showStruct form "Summation" [("orig_axis_list", showNats form s.origAxisList),
    ("adjusted_axis_list", showNats form s.adjustedAxisList)]

/-- singleton_contractors.rs 182-186. -/
def Diagonalization.show (form : Form) (d : Diagonalization) : String :=
  showStruct form "Diagonalization" [("input_to_output_mapping", showNats form d.inputToOutputMapping),
    ("output_shape", showNats form d.outputShape)]

/-- singleton_contractors.rs 270-274. -/
def PermutationAndSummation.show (form : Form) (p : PermutationAndSummation) : String :=
  showStruct form "PermutationAndSummation" [("permutation", p.permutation.show form),
    ("summation", p.summation.show form)]

/-- singleton_contractors.rs 327-331. -/
def DiagonalizationAndSummation.show (form : Form) (d : DiagonalizationAndSummation) : String :=
  showStruct form "DiagonalizationAndSummation" [("diagonalization", d.diagonalization.show form),
    ("summation", d.summation.show form)]

/-- `Box<dyn SingletonContractor<A>>`: the struct in it; `Identity`, singleton_contractors.rs 36-37, has no fields. -/
def SingletonOp.show (form : Form) : SingletonOp → String
  | .identity => "Identity"
  | .permutation p => p.show form
  | .summation s => s.show form
  | .diagonalization d => d.show form
  | .permutationAndSummation p => p.show form
  | .diagonalizationAndSummation d => d.show form

/-- pair_contractors.rs 95-111. -/
def TensordotFixedPosition.show (form : Form) (t : TensordotFixedPosition) : String :=
  showStruct form "TensordotFixedPosition" [("len_uncontracted_lhs", t.lenUncontractedLhs.repr),
    ("len_uncontracted_rhs", t.lenUncontractedRhs.repr), ("len_contracted_axes", t.lenContractedAxes.repr),
    ("output_shape", showNats form t.outputShape)]

/-- pair_contractors.rs 239-245. -/
def TensordotGeneral.show (form : Form) (t : TensordotGeneral) : String :=
  showStruct form "TensordotGeneral" [("lhs_permutation", t.lhsPermutation.show form),
    ("rhs_permutation", t.rhsPermutation.show form), ("tensordot_fixed_position", t.tensordotFixedPosition.show form),
    ("output_permutation", t.outputPermutation.show form)]

/-- pair_contractors.rs 449-454. -/
def HadamardProductGeneral.show (form : Form) (p : HadamardProductGeneral) : String :=
  showStruct form "HadamardProductGeneral" [("lhs_permutation", p.lhsPermutation.show form),
    ("rhs_permutation", p.rhsPermutation.show form), ("hadamard_product", "HadamardProduct")]

/-- pair_contractors.rs 548-552. -/
def ScalarMatrixProductGeneral.show (form : Form) (p : ScalarMatrixProductGeneral) : String :=
  showStruct form "ScalarMatrixProductGeneral" [("rhs_permutation", p.rhsPermutation.show form),
    ("scalar_matrix_product", "ScalarMatrixProduct")]

/-- pair_contractors.rs 647-651. -/
def MatrixScalarProductGeneral.show (form : Form) (p : MatrixScalarProductGeneral) : String :=
  showStruct form "MatrixScalarProductGeneral" [("lhs_permutation", p.lhsPermutation.show form),
    ("matrix_scalar_product", "MatrixScalarProduct")]

/-- pair_contractors.rs 706-714. -/
def BroadcastProductGeneral.show (form : Form) (p : BroadcastProductGeneral) : String :=
  showStruct form "BroadcastProductGeneral" [("lhs_permutation", p.lhsPermutation.show form),
    ("rhs_permutation", p.rhsPermutation.show form), ("lhs_insertions", showNats form p.lhsInsertions),
    ("rhs_insertions", showNats form p.rhsInsertions), ("output_sizes", showNats form p.outputSizes),
    ("hadamard_product", "HadamardProduct")]

/-- pair_contractors.rs 812-822. -/
def StackedTensordotGeneral.show (form : Form) (p : StackedTensordotGeneral) : String :=
  showStruct form "StackedTensordotGeneral" [("lhs_permutation", p.lhsPermutation.show form),
    ("rhs_permutation", p.rhsPermutation.show form), ("lhs_output_shape", showNats form p.lhsOutputShape),
    ("rhs_output_shape", showNats form p.rhsOutputShape), ("intermediate_shape", showNats form p.intermediateShape),
    ("tensordot_fixed_position", p.tensordotFixedPosition.show form), ("output_shape", showNats form p.outputShape),
    ("output_permutation", p.outputPermutation.show form)]

/-- `Box<dyn PairContractor<A>>`: the struct in it. -/
def PairOp.show (form : Form) : PairOp → String
  | .hadamardProduct => "HadamardProduct"
  | .hadamardProductGeneral p => p.show form
  | .tensordotFixedPosition p => p.show form
  | .tensordotGeneral p => p.show form
  | .scalarMatrixProduct => "ScalarMatrixProduct"
  | .scalarMatrixProductGeneral p => p.show form
  | .matrixScalarProduct => "MatrixScalarProduct"
  | .matrixScalarProductGeneral p => p.show form
  | .broadcastProductGeneral p => p.show form
  | .stackedTensordotGeneral p => p.show form

end Einsum
