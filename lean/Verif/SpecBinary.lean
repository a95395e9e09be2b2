import Verif.Model.Binary

/-!
# What is expected of values stored one after the other
-/

namespace Einsum.Spec

variable {α β : Type}

/-- `g` reads `a` from `b`, whatever follows. -/
def Reads (g : Rd β α) (a : α) (b : List β) : Prop := ∀ r, g (b ++ r) = some (a, r)

/-- What `g` reads depends on nothing behind it. -/
def Local (g : Rd β α) : Prop := ∀ s a r, g s = some (a, r) → ∃ b, s = b ++ r ∧ Reads g a b

/-- A format that reads back the primitive values it writes. -/
structure Lawful (f : Format β) : Prop where
  nat : ∀ n b, f.putNat n = some b → Reads f.getNat n b
  char : ∀ c b, f.putChar c = some b → Reads f.getChar c b
  len : ∀ n b, f.putLen n = some b → Reads f.getLen n b
  index : ∀ n b, f.putIndex n = some b → Reads f.getIndex n b
  natLocal : Local f.getNat
  charLocal : Local f.getChar
  lenLocal : Local f.getLen
  indexLocal : Local f.getIndex

/-- Different values of a type are written such that no form is the beginning of another; `w` is what counts as the same
value. -/
def Distinct {κ : Type} (put : α → Option (List β)) (w : α → κ) : Prop :=
  ∀ a a' b b' r r', put a = some b → put a' = some b' → b ++ r = b' ++ r' → w a = w a' ∧ b = b'

/-- The value of the last entry with this key. -/
def lastEntry (e : List (Char × Nat)) (c : Char) : Option Nat := (e.reverse.find? fun x => x.1 = c).map Prod.snd

/-- A format that refuses nothing. -/
structure Total (f : Format β) : Prop where
  nat : ∀ n, ∃ b, f.putNat n = some b
  char : ∀ c, ∃ b, f.putChar c = some b
  len : ∀ n, ∃ b, f.putLen n = some b
  index : ∀ n, ∃ b, f.putIndex n = some b
  tag : ∀ t, ∃ b, f.putTag t = some b
  str : ∀ s, ∃ b, f.putStr s = some b

/-- Values of a type are written (`W a b`: `a` may be written as `b`) and read (`g`) reliably. -/
structure Stored (W : α → List β → Prop) (g : Rd β α) : Prop where
  /-- A value is read back, and what follows is left. -/
  back : ∀ a b, W a b → ∀ r, g (b ++ r) = some (a, r)
  /-- If the input ends too early, it is refused. -/
  cut : ∀ a b s, W a b → s <+: b → s ≠ b → g s = none
  /-- What is written of one value is not the beginning of what is written of another. -/
  apart : ∀ a b a' b', W a b → W a' b' → b <+: b' → a = a' ∧ b = b'
  /-- If something is read, the input begins with a part that is read alike whatever follows. -/
  front : ∀ s a r, g s = some (a, r) → ∃ b, s = b ++ r ∧ ∀ r', g (b ++ r') = some (a, r')

mutual

/-- A JSON value without its names: the fields of an object follow one another, an array begins with its length. -/
def positional (f : Format β) : Json → Option (List β)
  | .null => none
  | .other _ => none
  | .num n => f.putNat n
  | .str s => match s.toList with
    | [c] => f.putChar c
    | _ => none
  | .arr l => do
    let a ← f.putLen l.length
    let b ← positionalItems f l
    return a ++ b
  | .obj l => positionalFields f l

def positionalItems (f : Format β) : List Json → Option (List β)
  | [] => some []
  | j :: l => do
    let a ← positional f j
    let b ← positionalItems f l
    return a ++ b

def positionalFields (f : Format β) : List (String × Json) → Option (List β)
  | [] => some []
  | (_, j) :: l => do
    let a ← positional f j
    let b ← positionalFields f l
    return a ++ b

end

end Einsum.Spec
