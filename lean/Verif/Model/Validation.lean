import Verif.Model.Basic

/-!
# Model of `/repo/src/validation.rs`
-/

namespace Einsum

/-! ## Parsing (`parse_einsum_string`, validation.rs 395-421) -/

/-- The character class `[a-z]` of the regex, validation.rs 402-404. -/
def isLabel (c : Char) : Bool := 'a'.toNat ≤ c.toNat && c.toNat ≤ 'z'.toNat

/-- `EinsumParse`, validation.rs 37-41. -/
structure EinsumParse where
  operandIndices : List (List Char)
  outputIndices : Option (List Char)
  deriving DecidableEq, Repr

/-- The longest prefix of letters and the rest: `[a-z]*` matched greedily. -/
def spanLabels : List Char → List Char × List Char
  | [] => ([], [])
  | c :: cs => if isLabel c then let r := spanLabels cs; (c :: r.1, r.2) else ([], c :: cs)

theorem spanLabels_length (l : List Char) : (spanLabels l).2.length ≤ l.length := by
  induction l with
  | nil => simp [spanLabels]
  | cons c cs ih =>
    simp only [spanLabels]
    split
    · simp only [List.length_cons]; omega
    · simp

/-- `(?:,[a-z]+)*` matched greedily, validation.rs 403: the operands and the unmatched rest. -/
def moreOperands : List Char → List (List Char) × List Char
  | [] => ([], [])
  | c :: cs =>
    if c = ',' then
      match h : spanLabels cs with
      | ([], _) => ([], c :: cs)
      | (op, rest) =>
        have : rest.length < (c :: cs).length := by
          have := spanLabels_length cs
          rw [h] at this
          simp only [List.length_cons]; simp only at this; omega
        let r := moreOperands rest
        (op :: r.1, r.2)
    else ([], c :: cs)
termination_by l => l.length

/-- `(?:->([a-z]*))?$`, validation.rs 404-405: the captured output, if the whole rest matches.
`none` means no match. -/
def outputPart : List Char → Option (Option (List Char))
  | [] => some none
  | '-' :: '>' :: cs =>
    match spanLabels cs with
    | (out, []) => some (some out)
    | _ => none
  | _ => none

/-- `parse_einsum_string`, validation.rs 396-421: the regex
`^([a-z]+)((?:,[a-z]+)*)(?:->([a-z]*))?$` and the split of the captures at commas.
The regex engine is replaced by the deterministic greedy matcher above; `Verif/Props/C01` proves
that it accepts exactly the language of the regex. -/
def parseEinsumString (s : List Char) : Option EinsumParse :=
  match spanLabels s with
  | ([], _) => none
  | (first, rest) =>
    let (more, rest') := moreOperands rest
    match outputPart rest' with
    | none => none
    | some out => some ⟨first :: more, out⟩

/-! ## Contraction (validation.rs 43-155) -/

/-- `Contraction`, validation.rs 57-71. -/
structure Contraction where
  operandIndices : List (List Char)
  outputIndices : List Char
  summationIndices : List Char
  deriving DecidableEq, Repr

/-- `*map.entry(c).or_insert(0) += 1`, validation.rs 92, 121, 126 and strategies.rs 61; entries in
order of first insertion. -/
def bump : List (Char × Nat) → Char → List (Char × Nat)
  | [], c => [(c, 1)]
  | (k, n) :: m, c => if k = c then (k, n + 1) :: m else (k, n) :: bump m c

/-- The counting loops of validation.rs 90-93, 119-127 and strategies.rs 59-62.  Counts are `i32` in
Rust; here they are unbounded, `Verif/Model/Counters` has the bounded ones. -/
def charCounts (l : List Char) : List (Char × Nat) := l.foldl bump []

/-- `map.get(&c).is_some()`. -/
def hasKey (m : List (Char × Nat)) (c : Char) : Bool := m.any fun e => e.1 = c

/-- Error texts, validation.rs 131, 136. -/
def errDup : String := "Requested output has duplicate index"
def errUnknown : String := "Requested output contains an index not found in inputs"
def errInvalid : String := "Invalid string"

/-- The checking loop over the output entries, validation.rs 128-138. -/
def checkOutputs (inputs : List (Char × Nat)) : List (Char × Nat) → Except String Unit
  | [] => .ok ()
  | (c, n) :: rest =>
    if 1 < n then .error errDup
    else if hasKey inputs c then checkOutputs inputs rest
    else .error errUnknown

/-- `Contraction::from_indices`, validation.rs 115-154. -/
def Contraction.fromIndices (h : HashOrd) (operandIndices : List (List Char))
    (outputIndices : List Char) : Except String Contraction := do
  let inputCharCounts := charCounts operandIndices.flatten
  let distinctOutputIndices := charCounts outputIndices
  checkOutputs inputCharCounts (h.iter [0] distinctOutputIndices)
  let summationIndices := sortChars
    (((h.iter [1] inputCharCounts).map Prod.fst).filter fun c => !hasKey distinctOutputIndices c)
  return ⟨operandIndices, outputIndices, summationIndices⟩

/-- The implicit output list, validation.rs 88-102. -/
def implicitOutput (h : HashOrd) (operandIndices : List (List Char)) : List Char :=
  let inputIndices := charCounts operandIndices.flatten
  sortChars (((h.iter [2] inputIndices).filter fun e => e.2 = 1).map Prod.fst)

/-- `Contraction::from_parse`, validation.rs 85-111. -/
def Contraction.fromParse (h : HashOrd) (p : EinsumParse) : Except String Contraction :=
  let requested := match p.outputIndices with
    | some s => s
    | none => implicitOutput h p.operandIndices
  Contraction.fromIndices h p.operandIndices requested

/-- `Contraction::new`, validation.rs 75-78; also `validate`, validation.rs 424-426. -/
def validate (h : HashOrd) (s : String) : Except String Contraction :=
  match parseEinsumString s.toList with
  | none => .error errInvalid
  | some p => Contraction.fromParse h p

/-! ## Sizes (validation.rs 157-203) -/

/-- `OutputSize = HashMap<char, usize>`, validation.rs 159; only lookups matter, so a partial
function. -/
abbrev OutputSize := Char → Option Nat

def OutputSize.empty : OutputSize := fun _ => none

/-- `map.insert(c, n)`. -/
def OutputSize.insert (m : OutputSize) (c : Char) (n : Nat) : OutputSize :=
  fun x => if x = c then some n else m x

/-- `map[&c]`: panics when the key is missing. -/
def OutputSize.get (m : OutputSize) (c : Char) : M Nat :=
  match m c with
  | some n => .ok n
  | none => panic .indexOutOfBounds

def errCount : String :=
  "number of operands in contraction does not match number of operands supplied"
def errRank : String :=
  "number of indices in one or more operands does not match dimensions of operand"
def errSize : String := "repeated index with different size"

/-- The inner loop over the axes of one operand, validation.rs 193-198. -/
def sizeAxes (m : OutputSize) : List (Char × Nat) → Except String OutputSize
  | [] => .ok m
  | (c, n) :: rest =>
    match m c with
    | some n' => if n' ≠ n then .error errSize else sizeAxes m rest
    | none => sizeAxes (m.insert c n) rest

/-- The outer loop over the operands, validation.rs 183-199. -/
def sizeOperands (m : OutputSize) : List (List Char × List Nat) → Except String OutputSize
  | [] => .ok m
  | (indices, shape) :: rest =>
    if indices.length ≠ shape.length then .error errRank
    else do
      let m' ← sizeAxes m (indices.zip shape)
      sizeOperands m' rest

/-- `OutputSize::from_contraction_and_shapes`, validation.rs 170-202. -/
def OutputSize.fromContractionAndShapes (c : Contraction) (shapes : List (List Nat)) :
    Except String OutputSize :=
  if c.operandIndices.length ≠ shapes.length then .error errCount
  else sizeOperands .empty (c.operandIndices.zip shapes)

/-! ## SizedContraction (validation.rs 205-393) -/

/-- `SizedContraction`, validation.rs 211-216. -/
structure SizedContraction where
  contraction : Contraction
  outputSize : OutputSize

def errSubset : String := "Character found in new_operand_indices but not in self.output_size"

/-- `SizedContraction::subset`, validation.rs 234-267. -/
def SizedContraction.subset (h : HashOrd) (self : SizedContraction)
    (newOperandIndices : List (List Char)) (newOutputIndices : List Char) :
    Except String SizedContraction := do
  let allOperandIndices := hset newOperandIndices.flatten
  if (h.iter [3] allOperandIndices).any fun c => (self.outputSize c).isNone then
    .error errSubset
  else
    let newContraction ← Contraction.fromIndices (h.sub 4) newOperandIndices newOutputIndices
    let newOutputSize : OutputSize := fun k =>
      if k ∈ allOperandIndices then self.outputSize k else none
    return ⟨newContraction, newOutputSize⟩

/-- `SizedContraction::from_contraction_and_shapes`, validation.rs 269-279; also
`from_contraction_and_operands`, 294-301, with `shapes` the operands' shapes. -/
def SizedContraction.fromContractionAndShapes (c : Contraction) (shapes : List (List Nat)) :
    Except String SizedContraction := do
  let outputSize ← OutputSize.fromContractionAndShapes c shapes
  return ⟨c, outputSize⟩

/-- `SizedContraction::from_string_and_shapes`, validation.rs 316-322; also `new`, 337-344, and
`validate_and_size`, 437-442, with `shapes` the operands' shapes (428-434). -/
def SizedContraction.fromStringAndShapes (h : HashOrd) (s : String) (shapes : List (List Nat)) :
    Except String SizedContraction := do
  let contraction ← validate h s
  SizedContraction.fromContractionAndShapes contraction shapes

/-- The label lists of the operands after the first, each preceded by a comma,
validation.rs 381-386. -/
def commaOperands : List (List Char) → List Char
  | [] => []
  | op :: ops => ',' :: (op ++ commaOperands ops)

/-- `as_einsum_string`, validation.rs 375-392. -/
def SizedContraction.asEinsumString (self : SizedContraction) : M String := do
  assertThat (0 < self.contraction.operandIndices.length)
  let first ← index self.contraction.operandIndices 0
  return String.ofList (first ++ commaOperands self.contraction.operandIndices.tail ++
    ['-', '>'] ++ self.contraction.outputIndices)

end Einsum
