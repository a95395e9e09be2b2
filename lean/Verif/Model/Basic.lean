import Mathlib.Algebra.BigOperators.Group.List.Basic

/-!
# Outcomes, hash-order oracle, small list helpers

Common vocabulary of the model of `/repo/src`.
-/

namespace Einsum

/-- Why a Rust thread panics.  The kinds only label the failing construct in `/repo/src`
(`assert!`/`assert_eq!`, `Option::unwrap`, `Result::unwrap`, slice or map indexing, unsigned
subtraction underflow, multiplication or addition overflow, `panic!()`, or a panic raised inside an ndarray method). -/
inductive PanicKind where
  | assertFailed
  | unwrapNone
  | unwrapErr
  | indexOutOfBounds
  | subUnderflow
  | mulOverflow
  | addOverflow
  | explicit
  | ndarray
  deriving DecidableEq, Repr

/-- Abnormal outcomes: a panic, or `ub`, a raw read outside the memory of an array (which Rust
would not detect; we prove it never happens). -/
inductive Fault where
  | panic (k : PanicKind)
  | ub
  deriving DecidableEq, Repr

/-- Computations of the model: a value, a panic or undefined behaviour. -/
abbrev M := Except Fault

/-- A panicking outcome. -/
def panic {α : Type} (k : PanicKind) : M α := .error (.panic k)

/-- `assert!(b)` / `assert_eq!`. -/
def assertThat (b : Bool) : M Unit := if b then .ok () else panic .assertFailed

/-- `opt.unwrap()`. -/
def unwrapO {α : Type} : Option α → M α
  | some a => .ok a
  | none => panic .unwrapNone

/-- `res.unwrap()` on a `Result<_, &'static str>`. -/
def unwrapR {α : Type} : Except String α → M α
  | .ok a => .ok a
  | .error _ => panic .unwrapErr

/-- `v[i]` on a slice or `Vec`. -/
def index {α : Type} (l : List α) (i : Nat) : M α :=
  match l[i]? with
  | some a => .ok a
  | none => panic .indexOutOfBounds

/-- `a - b` on `usize` (a panic in checked builds when it underflows). -/
def usub (a b : Nat) : M Nat := if b ≤ a then .ok (a - b) else panic .subUnderflow

/-- `l.iter().map(f).collect()` for a fallible `f`, left to right. -/
def mapE {α β : Type} (f : α → M β) : List α → M (List β)
  | [] => .ok []
  | a :: l => do
    let b ← f a
    let bs ← mapE f l
    return b :: bs

/-- `HashSet::insert`; a hash set is represented by the list of its elements in order of first
insertion, the iteration order being applied separately (`HashOrd`). -/
def setInsert {α : Type} [DecidableEq α] (s : List α) (a : α) : List α :=
  if a ∈ s then s else s ++ [a]

/-- `iter.collect::<HashSet<_>>()`. -/
def hset {α : Type} [DecidableEq α] (l : List α) : List α := l.foldl setInsert []

/-- The iteration order of the standard library's hash maps and sets, which is random per map.
`iter p l` is the order in which the entries `l` of the map created at program point `p` are
visited: some permutation of the entries, and a different one is allowed at each point. -/
structure HashOrd where
  iter : {α : Type} → List Nat → List α → List α
  perm : ∀ {α : Type} (p : List Nat) (l : List α), (iter p l).Perm l

/-- The oracle for the `k`-th sub-computation. -/
def HashOrd.sub (h : HashOrd) (k : Nat) : HashOrd where
  iter := fun p l => h.iter (k :: p) l
  perm := fun p l => h.perm (k :: p) l

/-- Iteration in insertion order: one possible behaviour. -/
def HashOrd.insertion : HashOrd := ⟨fun _ l => l, fun _ l => List.Perm.refl l⟩

/-- Iteration in reverse insertion order: another possible behaviour. -/
def HashOrd.reversed : HashOrd := ⟨fun _ l => l.reverse, fun _ l => List.reverse_perm l⟩

/-- `iter().position(|&x| x == c)`. -/
def position {α : Type} [DecidableEq α] (c : α) : List α → Option Nat
  | [] => none
  | x :: xs => if x = c then some 0 else (position c xs).map (· + 1)

/-- `sort()` on a `Vec<char>` (code point order). -/
def sortChars (l : List Char) : List Char := l.mergeSort (fun a b => decide (a ≤ b))

end Einsum
