import Verif.Model.Lib

/-!
# Model of `contract_and_assign_pair` (`/repo/src/contractors/mod.rs` 109-122)

A mutable view is a `View`; writing through it returns the view over the updated buffer.
-/

namespace Einsum

variable {A : Type}

/-- Raw write of the buffer at an address; outside the buffer it is undefined behaviour. -/
def writeAt (buf : List A) (a : Int) (x : A) : M (List A) :=
  if 0 ≤ a ∧ a.toNat < buf.length then .ok (buf.set a.toNat x) else .error .ub

/-- The writes of an elementwise assignment. -/
def writeAll : List (Int × A) → List A → M (List A)
  | [], buf => .ok buf
  | p :: ps, buf => do
    let buf' ← writeAt buf p.1 p.2
    writeAll ps buf'

/-- `out.assign(&src)` of ndarray (mod.rs 120): `src` is broadcast to the shape of `out` (panic if it cannot be)
and copied element by element. -/
def View.assign (out src : View A) : M (View A) :=
  match src.broadcast out.shape with
  | none => panic .ndarray
  | some src' => do
    let data ← src'.toVec
    let buf ← writeAll (((allIdx out.shape).map fun idx => out.off + dotI out.strides idx).zip data) out.buf
    return { out with buf := buf }

/-- `contract_and_assign_pair`, mod.rs 109-122, the default method of the trait, for each contractor. -/
def PairOp.contractAndAssign [Zero A] [Add A] [Mul A] [MulAdd A] (al : Alloc A) (l r out : View A) (op : PairOp) :
    M (View A) := do
  let result ← op.run al l r
  out.assign result

/-- `contract_and_assign_pair`, mod.rs 109-122, for `PairContraction`. -/
def PairContraction.contractAndAssign [Zero A] [Add A] [Mul A] [MulAdd A] (self : PairContraction) (al : Alloc A)
    (l r out : View A) : M (View A) := do
  let result ← self.run al l r
  out.assign result

/-- The loop over `intermediate_result.outer_iter_mut()`, pair_contractors.rs 988-996, with assignments to
subviews of the intermediate array. -/
def stackLoopAssign [Zero A] [Add A] [Mul A] [MulAdd A] (fixed : TensordotFixedPosition) (al : Alloc A) :
    (i n : Nat) → List (View A) → List (View A) → View A → M (View A)
  | _, 0, _, _, inter => .ok inter
  | i, n + 1, ls, rs, inter => do
    let subs ← inter.outerIter
    let sub ← unwrapO subs[i]?
    let l ← unwrapO ls.head?
    let r ← unwrapO rs.head?
    let sub' ← (PairOp.tensordotFixedPosition fixed).contractAndAssign (al.sub i) l r sub
    stackLoopAssign fixed al (i + 1) n ls.tail rs.tail { inter with buf := sub'.buf }

end Einsum
