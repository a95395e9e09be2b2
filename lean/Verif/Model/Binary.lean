import Verif.Model.Serde

/-!
# Model of the derived `Serialize` and `Deserialize` implementations with positional formats

The same derived code as in `Model/Serde`, with a format that stores no names: the fields of a struct follow one
another, an enum is the index of its variant and the content, a vector or map its length and the items. `put` is what is
written (`none` if the format refuses the value), `get` reads from the front and leaves the rest.
-/

namespace Einsum

/-- Reading from the front of the input. -/
abbrev Rd (β : Type) := StateT (List β) Option

/-- What a format does with the primitive values: `usize`, `char`, the length of a sequence or map, the index of an enum
variant, whether an `Option` is `Some`, and `String`, which is only written. -/
structure Format (β : Type) where
  putNat : Nat → Option (List β)
  putChar : Char → Option (List β)
  putLen : Nat → Option (List β)
  putIndex : Nat → Option (List β)
  putTag : Bool → Option (List β)
  putStr : String → Option (List β)
  getNat : Rd β Nat
  getChar : Rd β Char
  getLen : Rd β Nat
  getIndex : Rd β Nat

variable {β : Type} (f : Format β)

/-! ## Types of the standard library -/

/-- One after the other. -/
def putAll : List (Option (List β)) → Option (List β)
  | [] => some []
  | x :: l => do
    let a ← x
    let b ← putAll l
    return a ++ b

/-- `n` items. -/
def getTimes {α : Type} (g : Rd β α) : Nat → Rd β (List α)
  | 0 => pure []
  | n + 1 => do
    let a ← g
    let l ← getTimes g n
    return a :: l

namespace Format

def putVec {α : Type} (put : α → Option (List β)) (l : List α) : Option (List β) :=
  putAll (f.putLen l.length :: l.map put)

def getVec {α : Type} (g : Rd β α) : Rd β (List α) := do
  let n ← f.getLen
  getTimes g n

def putNats (l : List Nat) : Option (List β) := f.putVec f.putNat l
def getNats : Rd β (List Nat) := f.getVec f.getNat
def putChars (l : List Char) : Option (List β) := f.putVec f.putChar l
def getChars : Rd β (List Char) := f.getVec f.getChar

def putOption {α : Type} (put : α → Option (List β)) : Option α → Option (List β)
  | none => f.putTag false
  | some a => putAll [f.putTag true, put a]

/-- A `HashMap<char, usize>` whose entries are visited in the given order. -/
def putSizes (entries : List (Char × Nat)) : Option (List β) :=
  f.putVec (fun e => putAll [f.putChar e.1, f.putNat e.2]) entries

/-- Each entry is inserted, replacing an earlier one with the same key. -/
def getEntries : Nat → OutputSize → Rd β OutputSize
  | 0, m => pure m
  | n + 1, m => do
    let c ← f.getChar
    let k ← f.getNat
    getEntries n (m.insert c k)

def getSizes : Rd β OutputSize := do
  let n ← f.getLen
  f.getEntries n OutputSize.empty

end Format

/-- An unknown variant index. -/
def refuse {α : Type} : Rd β α := fun _ => none

/-! ## validation.rs -/

/-- `Contraction`, validation.rs 57-71. -/
def Contraction.put (c : Contraction) : Option (List β) :=
  putAll [f.putVec f.putChars c.operandIndices, f.putChars c.outputIndices, f.putChars c.summationIndices]

def Contraction.get : Rd β Contraction := do
  let a ← f.getVec f.getChars
  let b ← f.getChars
  let c ← f.getChars
  return ⟨a, b, c⟩

/-- `SizedContraction`, validation.rs 211-216: what may be written, depending on the iteration order of the map. -/
def SizedContraction.Puts (sc : SizedContraction) (b : List β) : Prop :=
  ∃ entries, sc.outputSize.Entries entries ∧ putAll [sc.contraction.put f, f.putSizes entries] = some b

def SizedContraction.get : Rd β SizedContraction := do
  let a ← Contraction.get f
  let b ← f.getSizes
  return ⟨a, b⟩

/-! ## optimizers.rs -/

/-- `OperandNumber`, optimizers.rs 24-29. -/
def OperandNumber.put : OperandNumber → Option (List β)
  | .input n => putAll [f.putIndex 0, f.putNat n]
  | .intermediateResult n => putAll [f.putIndex 1, f.putNat n]

def OperandNumber.get : Rd β OperandNumber := do
  match ← f.getIndex with
  | 0 => return .input (← f.getNat)
  | 1 => return .intermediateResult (← f.getNat)
  | _ => refuse

/-- `OperandNumPair`, optimizers.rs 32-37. -/
def OperandNumPair.put (p : OperandNumPair) : Option (List β) := putAll [p.lhs.put f, p.rhs.put f]

def OperandNumPair.get : Rd β OperandNumPair := do
  let a ← OperandNumber.get f
  let b ← OperandNumber.get f
  return ⟨a, b⟩

/-- `Pair`, optimizers.rs 41-49. -/
def PairStep.Puts (p : PairStep) (b : List β) : Prop :=
  ∃ b₁, p.sizedContraction.Puts f b₁ ∧ putAll [some b₁, p.operandNums.put f] = some b

def PairStep.get : Rd β PairStep := do
  let a ← SizedContraction.get f
  let b ← OperandNumPair.get f
  return ⟨a, b⟩

/-- `ContractionOrder`, optimizers.rs 55-64. -/
def ContractionOrder.Puts : ContractionOrder → List β → Prop
  | .singleton sc, b => ∃ b₁, sc.Puts f b₁ ∧ putAll [f.putIndex 0, some b₁] = some b
  | .pairs steps, b => ∃ bs, List.Forall₂ (PairStep.Puts f) steps bs ∧
      putAll [f.putIndex 1, f.putVec some bs] = some b

def ContractionOrder.get : Rd β ContractionOrder := do
  match ← f.getIndex with
  | 0 => return .singleton (← SizedContraction.get f)
  | 1 => return .pairs (← f.getVec (PairStep.get f))
  | _ => refuse

/-- `OptimizationMethod`, optimizers.rs 69-89. -/
def OptimizationMethod.put : OptimizationMethod → Option (List β)
  | .naive => f.putIndex 0
  | .reverse => f.putIndex 1
  | .greedy => f.putIndex 2
  | .optimal => f.putIndex 3
  | .branch => f.putIndex 4

def OptimizationMethod.get : Rd β OptimizationMethod := do
  match ← f.getIndex with
  | 0 => return .naive
  | 1 => return .reverse
  | 2 => return .greedy
  | 3 => return .optimal
  | 4 => return .branch
  | _ => refuse

/-! ## contractors/strategies.rs -/

/-- `SingletonMethod`, strategies.rs 30-39. -/
def SingletonMethod.put : SingletonMethod → Option (List β)
  | .identity => f.putIndex 0
  | .permutation => f.putIndex 1
  | .summation => f.putIndex 2
  | .diagonalization => f.putIndex 3
  | .permutationAndSummation => f.putIndex 4
  | .diagonalizationAndSummation => f.putIndex 5

def SingletonMethod.get : Rd β SingletonMethod := do
  match ← f.getIndex with
  | 0 => return .identity
  | 1 => return .permutation
  | 2 => return .summation
  | 3 => return .diagonalization
  | 4 => return .permutationAndSummation
  | 5 => return .diagonalizationAndSummation
  | _ => refuse

/-- `SingletonSummary`, strategies.rs 41-47. -/
def SingletonSummary.put (s : SingletonSummary) : Option (List β) :=
  putAll [f.putNat s.numSummedAxes, f.putNat s.numDiagonalizedAxes, f.putNat s.numReorderedAxes]

def SingletonSummary.get : Rd β SingletonSummary := do
  let a ← f.getNat
  let b ← f.getNat
  let c ← f.getNat
  return ⟨a, b, c⟩

/-- `PairMethod`, strategies.rs 95-108. -/
def PairMethod.put : PairMethod → Option (List β)
  | .hadamardProduct => f.putIndex 0
  | .hadamardProductGeneral => f.putIndex 1
  | .tensordotFixedPosition => f.putIndex 2
  | .tensordotGeneral => f.putIndex 3
  | .scalarMatrixProduct => f.putIndex 4
  | .scalarMatrixProductGeneral => f.putIndex 5
  | .matrixScalarProduct => f.putIndex 6
  | .matrixScalarProductGeneral => f.putIndex 7
  | .broadcastProductGeneral => f.putIndex 8
  | .stackedTensordotGeneral => f.putIndex 9

def PairMethod.get : Rd β PairMethod := do
  match ← f.getIndex with
  | 0 => return .hadamardProduct
  | 1 => return .hadamardProductGeneral
  | 2 => return .tensordotFixedPosition
  | 3 => return .tensordotGeneral
  | 4 => return .scalarMatrixProduct
  | 5 => return .scalarMatrixProductGeneral
  | 6 => return .matrixScalarProduct
  | 7 => return .matrixScalarProductGeneral
  | 8 => return .broadcastProductGeneral
  | 9 => return .stackedTensordotGeneral
  | _ => refuse

/-- `PairSummary`, strategies.rs 110-117. -/
def PairSummary.put (s : PairSummary) : Option (List β) :=
  putAll [f.putNat s.numStackedAxes, f.putNat s.numLhsOuterAxes, f.putNat s.numRhsOuterAxes,
    f.putNat s.numContractedAxes]

def PairSummary.get : Rd β PairSummary := do
  let a ← f.getNat
  let b ← f.getNat
  let c ← f.getNat
  let d ← f.getNat
  return ⟨a, b, c, d⟩

/-! ## contractors/singleton_contractors.rs (`Identity`, 35-37, has no fields: nothing is written) -/

/-- `Permutation`, 68-72. -/
def Permutation.put (p : Permutation) : Option (List β) := putAll [f.putNats p.permutation]

def Permutation.get : Rd β Permutation := do
  let a ← f.getNats
  return ⟨a⟩

/-- `Summation`, 130-135. -/
def Summation.put (s : Summation) : Option (List β) := putAll [f.putNats s.origAxisList, f.putNats s.adjustedAxisList]

def Summation.get : Rd β Summation := do
  let a ← f.getNats
  let b ← f.getNats
  return ⟨a, b⟩

/-- `Diagonalization`, 181-186. -/
def Diagonalization.put (d : Diagonalization) : Option (List β) :=
  putAll [f.putNats d.inputToOutputMapping, f.putNats d.outputShape]

def Diagonalization.get : Rd β Diagonalization := do
  let a ← f.getNats
  let b ← f.getNats
  return ⟨a, b⟩

/-- `PermutationAndSummation`, 269-274. -/
def PermutationAndSummation.put (p : PermutationAndSummation) : Option (List β) :=
  putAll [p.permutation.put f, p.summation.put f]

def PermutationAndSummation.get : Rd β PermutationAndSummation := do
  let a ← Permutation.get f
  let b ← Summation.get f
  return ⟨a, b⟩

/-- `DiagonalizationAndSummation`, 326-331. -/
def DiagonalizationAndSummation.put (d : DiagonalizationAndSummation) : Option (List β) :=
  putAll [d.diagonalization.put f, d.summation.put f]

def DiagonalizationAndSummation.get : Rd β DiagonalizationAndSummation := do
  let a ← Diagonalization.get f
  let b ← Summation.get f
  return ⟨a, b⟩

/-! ## contractors/pair_contractors.rs (`HadamardProduct`, 405-407, `ScalarMatrixProduct`, 503-505, and
`MatrixScalarProduct`, 602-604, have no fields: nothing is written) -/

/-- `TensordotFixedPosition`, 94-111. -/
def TensordotFixedPosition.put (t : TensordotFixedPosition) : Option (List β) :=
  putAll [f.putNat t.lenUncontractedLhs, f.putNat t.lenUncontractedRhs, f.putNat t.lenContractedAxes,
    f.putNats t.outputShape]

def TensordotFixedPosition.get : Rd β TensordotFixedPosition := do
  let a ← f.getNat
  let b ← f.getNat
  let c ← f.getNat
  let d ← f.getNats
  return ⟨a, b, c, d⟩

/-- `TensordotGeneral`, 238-245. -/
def TensordotGeneral.put (t : TensordotGeneral) : Option (List β) :=
  putAll [t.lhsPermutation.put f, t.rhsPermutation.put f, t.tensordotFixedPosition.put f, t.outputPermutation.put f]

def TensordotGeneral.get : Rd β TensordotGeneral := do
  let a ← Permutation.get f
  let b ← Permutation.get f
  let c ← TensordotFixedPosition.get f
  let d ← Permutation.get f
  return ⟨a, b, c, d⟩

/-- `HadamardProductGeneral`, 448-454. -/
def HadamardProductGeneral.put (p : HadamardProductGeneral) : Option (List β) :=
  putAll [p.lhsPermutation.put f, p.rhsPermutation.put f]

def HadamardProductGeneral.get : Rd β HadamardProductGeneral := do
  let a ← Permutation.get f
  let b ← Permutation.get f
  return ⟨a, b⟩

/-- `ScalarMatrixProductGeneral`, 547-552. -/
def ScalarMatrixProductGeneral.put (p : ScalarMatrixProductGeneral) : Option (List β) := putAll [p.rhsPermutation.put f]

def ScalarMatrixProductGeneral.get : Rd β ScalarMatrixProductGeneral := do
  let a ← Permutation.get f
  return ⟨a⟩

/-- `MatrixScalarProductGeneral`, 646-651. -/
def MatrixScalarProductGeneral.put (p : MatrixScalarProductGeneral) : Option (List β) := putAll [p.lhsPermutation.put f]

def MatrixScalarProductGeneral.get : Rd β MatrixScalarProductGeneral := do
  let a ← Permutation.get f
  return ⟨a⟩

/-- `BroadcastProductGeneral`, 705-714. -/
def BroadcastProductGeneral.put (p : BroadcastProductGeneral) : Option (List β) :=
  putAll [p.lhsPermutation.put f, p.rhsPermutation.put f, f.putNats p.lhsInsertions, f.putNats p.rhsInsertions,
    f.putNats p.outputSizes]

def BroadcastProductGeneral.get : Rd β BroadcastProductGeneral := do
  let a ← Permutation.get f
  let b ← Permutation.get f
  let c ← f.getNats
  let d ← f.getNats
  let e ← f.getNats
  return ⟨a, b, c, d, e⟩

/-- `StackedTensordotGeneral`, 811-822. -/
def StackedTensordotGeneral.put (p : StackedTensordotGeneral) : Option (List β) :=
  putAll [p.lhsPermutation.put f, p.rhsPermutation.put f, f.putNats p.lhsOutputShape, f.putNats p.rhsOutputShape,
    f.putNats p.intermediateShape, p.tensordotFixedPosition.put f, f.putNats p.outputShape, p.outputPermutation.put f]

def StackedTensordotGeneral.get : Rd β StackedTensordotGeneral := do
  let a ← Permutation.get f
  let b ← Permutation.get f
  let c ← f.getNats
  let d ← f.getNats
  let e ← f.getNats
  let t ← TensordotFixedPosition.get f
  let g ← f.getNats
  let i ← Permutation.get f
  return ⟨a, b, c, d, e, t, g, i⟩

/-! ## contractors/mod.rs (these derive `Serialize` only; the fields `op` are skipped) -/

/-- `SingletonContraction`, mod.rs 134-139. -/
def SingletonContraction.put (c : SingletonContraction) : Option (List β) := putAll [c.method.put f]

/-- `SimplificationMethodAndOutput`, mod.rs 185-192. -/
def SimplificationMethodAndOutput.put (s : SimplificationMethodAndOutput) : Option (List β) :=
  putAll [s.method.put f, f.putChars s.newIndices, f.putStr s.einsumString]

/-- `PairContraction`, mod.rs 264-272. -/
def PairContraction.put (c : PairContraction) : Option (List β) :=
  putAll [f.putOption (SimplificationMethodAndOutput.put f) c.lhsSimplification,
    f.putOption (SimplificationMethodAndOutput.put f) c.rhsSimplification, c.method.put f,
    f.putStr c.simplifiedEinsumString]

/-- `EinsumPathSteps`, mod.rs 402-413. -/
def EinsumPathSteps.put : EinsumPathSteps → Option (List β)
  | .singletonContraction c => putAll [f.putIndex 0, c.put f]
  | .pairContractions steps => putAll [f.putIndex 1, f.putVec (PairContraction.put f) steps]

/-- `EinsumPath`, mod.rs 421-428. -/
def EinsumPath.Puts (p : EinsumPath) (b : List β) : Prop :=
  ∃ b₁, p.contractionOrder.Puts f b₁ ∧ putAll [some b₁, p.steps.put f] = some b

/-! ## bincode

`bincode::serialize` and `bincode::deserialize` (version 1): `usize` and lengths are eight bytes and variant indices
four, the lowest first; a `char` is its UTF-8 form; the tag of an `Option` is one byte. Bytes behind the value are ignored. -/

/-- `n` as `k` bytes, the lowest first. -/
def putLE : Nat → Nat → Option (List UInt8)
  | 0, n => if n = 0 then some [] else none
  | k + 1, n => do
    let l ← putLE k (n / 256)
    return UInt8.ofNat (n % 256) :: l

def getByte : Rd UInt8 UInt8
  | [] => none
  | b :: l => some (b, l)

def getLE : Nat → Rd UInt8 Nat
  | 0 => pure 0
  | k + 1 => do
    let b ← getByte
    let n ← getLE k
    return b.toNat + 256 * n

def getUtf8 : Rd UInt8 Char := fun s =>
  match s.toByteArray.utf8DecodeChar? 0 with
  | none => none
  | some c => some (c, s.drop c.utf8Size)

def bincode : Format UInt8 where
  putNat := putLE 8
  putChar c := some (String.utf8EncodeChar c)
  putLen := putLE 8
  putIndex := putLE 4
  putTag b := some [if b then 1 else 0]
  putStr s := putAll [putLE 8 s.toByteArray.size, some s.toByteArray.data.toList]
  getNat := getLE 8
  getChar := getUtf8
  getLen := getLE 8
  getIndex := getLE 4

end Einsum
