import Verif.Model.Contractors

/-!
# Model of `/repo/src/lib.rs` and the operand-level wrappers of `/repo/src/validation.rs`
-/

namespace Einsum

variable {A : Type}

/-- `SizedContraction::contract_operands`, validation.rs 357-363; also `einsum_sc`, lib.rs 202-207. -/
def SizedContraction.contractOperands [Zero A] [Add A] [Mul A] [MulAdd A] (h : HashOrd) (al : Alloc A)
    (sc : SizedContraction) (operands : List (View A)) : M (View A) := do
  let path ← EinsumPath.new h sc
  path.contractOperands al operands

/-- `validate_and_size`, validation.rs 437-442 (`get_operand_shapes`, 429-434). -/
def validateAndSize (h : HashOrd) (s : String) (operands : List (View A)) :
    Except String SizedContraction :=
  SizedContraction.fromStringAndShapes h s (operands.map View.shape)

/-- `validate_and_optimize_order`, validation.rs 445-452. -/
def validateAndOptimizeOrder (h : HashOrd) (s : String) (operands : List (View A))
    (strategy : OptimizationMethod) : M (Except String ContractionOrder) :=
  match validateAndSize (h.sub 0) s operands with
  | .error e => .ok (.error e)
  | .ok sc => do
    let o ← generateOptimizedOrder (h.sub 1) sc strategy
    return .ok o

/-- `einsum_path`, lib.rs 210-218. -/
def einsumPath (h : HashOrd) (s : String) (operands : List (View A))
    (strategy : OptimizationMethod) : M (Except String EinsumPath) := do
  match ← validateAndOptimizeOrder (h.sub 0) s operands strategy with
  | .error e => return .error e
  | .ok order => do
    let p ← EinsumPath.fromPath (h.sub 1) order
    return .ok p

/-- `einsum`, lib.rs 221-227. -/
def einsum [Zero A] [Add A] [Mul A] [MulAdd A] (h : HashOrd) (al : Alloc A) (s : String)
    (operands : List (View A)) : M (Except String (View A)) :=
  match validateAndSize (h.sub 0) s operands with
  | .error e => .ok (.error e)
  | .ok sc => do
    let r ← sc.contractOperands (h.sub 1) al operands
    return .ok r

/-- `tensordot`, lib.rs 269-294. -/
def tensordot [Zero A] [Add A] [Mul A] [MulAdd A] (al : Alloc A) (lhs rhs : View A)
    (lhsAxes rhsAxes : List Nat) : M (View A) := do
  assertThat (lhsAxes.length = rhsAxes.length)
  let n ← usub (lhs.shape.length + rhs.shape.length) (2 * lhsAxes.length)
  let t ← TensordotGeneral.fromShapesAndAxisNumbers lhs.shape rhs.shape lhsAxes rhsAxes (List.range n)
  t.run al lhs rhs

end Einsum
