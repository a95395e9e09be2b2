import Verif.Model.Strategies

/-!
# Letter counts of bounded size

The counting loops of `/repo/src` (`*map.entry(c).or_insert(0) += 1`) count in `i32`, the default integer
type.  `Verif/Model/Validation` and `Verif/Model/Strategies` use unbounded numbers.  Here the functions that
count are repeated with the counter as a parameter.  A counter value is its bit pattern, a number below `2 * B`
with `B = 2^31` in Rust; patterns from `B` on are negative numbers.
-/

namespace Einsum

/-- The operations on counters used in `/repo/src`. -/
structure Counter where
  /-- `*n += 1` -/
  inc : Nat → M Nat
  /-- `n > 1` -/
  gt1 : Nat → Bool

/-- Signed comparison of a bit pattern with `1`. -/
def signedGt1 (B n : Nat) : Bool := decide (1 < n) && decide (n < B)

/-- Counters in a build with overflow checks. -/
def Counter.checked (B : Nat) : Counter :=
  ⟨fun n => if n + 1 < B then .ok (n + 1) else panic .addOverflow, signedGt1 B⟩

/-- Counters in a build without overflow checks. -/
def Counter.wrapping (B : Nat) : Counter := ⟨fun n => .ok ((n + 1) % (2 * B)), signedGt1 B⟩

/-- `*map.entry(c).or_insert(0) += 1`, validation.rs 92, 121, 126 and strategies.rs 61. -/
def bumpW (k : Counter) : List (Char × Nat) → Char → M (List (Char × Nat))
  | [], c => do
    let n ← k.inc 0
    return [(c, n)]
  | (d, n) :: m, c =>
    if d = c then do
      let n' ← k.inc n
      return (d, n') :: m
    else do
      let m' ← bumpW k m c
      return (d, n) :: m'

/-- The counting loops of validation.rs 90-93, 119-127 and strategies.rs 59-62. -/
def charCountsW (k : Counter) (l : List Char) : M (List (Char × Nat)) := l.foldlM (bumpW k) []

/-- The checking loop over the output entries, validation.rs 128-138. -/
def checkOutputsW (k : Counter) (inputs : List (Char × Nat)) : List (Char × Nat) → Except String Unit
  | [] => .ok ()
  | (c, n) :: rest =>
    if k.gt1 n then .error errDup
    else if hasKey inputs c then checkOutputsW k inputs rest
    else .error errUnknown

/-- `Contraction::from_indices`, validation.rs 115-154. -/
def Contraction.fromIndicesW (k : Counter) (h : HashOrd) (operandIndices : List (List Char))
    (outputIndices : List Char) : M (Except String Contraction) := do
  let inputCharCounts ← charCountsW k operandIndices.flatten
  let distinctOutputIndices ← charCountsW k outputIndices
  match checkOutputsW k inputCharCounts (h.iter [0] distinctOutputIndices) with
  | .error e => return .error e
  | .ok _ =>
    let summationIndices := sortChars
      (((h.iter [1] inputCharCounts).map Prod.fst).filter fun c => !hasKey distinctOutputIndices c)
    return .ok ⟨operandIndices, outputIndices, summationIndices⟩

/-- The implicit output list, validation.rs 88-102. -/
def implicitOutputW (k : Counter) (h : HashOrd) (operandIndices : List (List Char)) : M (List Char) := do
  let inputIndices ← charCountsW k operandIndices.flatten
  return sortChars (((h.iter [2] inputIndices).filter fun e => e.2 = 1).map Prod.fst)

/-- `Contraction::from_parse`, validation.rs 85-111. -/
def Contraction.fromParseW (k : Counter) (h : HashOrd) (p : EinsumParse) : M (Except String Contraction) := do
  let requested ← match p.outputIndices with
    | some s => .ok s
    | none => implicitOutputW k h p.operandIndices
  Contraction.fromIndicesW k h p.operandIndices requested

/-- `Contraction::new`, validation.rs 75-78; also `validate`, validation.rs 424-426. -/
def validateW (k : Counter) (h : HashOrd) (s : String) : M (Except String Contraction) :=
  match parseEinsumString s.toList with
  | none => .ok (.error errInvalid)
  | some p => Contraction.fromParseW k h p

/-- `SingletonSummary::from_indices`, strategies.rs 58-76. -/
def SingletonSummary.fromIndicesW (k : Counter) (input output : List Char) : M SingletonSummary := do
  let inputCounts ← charCountsW k input
  let numSummedAxes ← usub inputCounts.length output.length
  let numDiagonalizedAxes := (inputCounts.filter fun e => k.gt1 e.2).length
  let numReorderedAxes := ((output.zip input).filter fun p => p.1 ≠ p.2).length
  return ⟨numSummedAxes, numDiagonalizedAxes, numReorderedAxes⟩

end Einsum
