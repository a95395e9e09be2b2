import Verif.Model.Release
import Verif.Model.Strides

/-!
# The crate as built

Compilation as in `Model/Release`, execution with the strides of `Model/Strides`.  `Permutation`, `Summation` and the
contractors of pairs compute no strides of their own.
-/

namespace Einsum

variable {A : Type}

/-- The simplification of one operand inside `contract_pair`, mod.rs 365-377. -/
def simplifyOperandS [Zero A] [Add A] (ar : StrideArith) (al : Alloc A) (s : Option SimplificationMethodAndOutput)
    (t : View A) : M (View A) :=
  match s with
  | some s => s.op.runS ar al t
  | none => .ok t

/-- `PairContraction::contract_pair`, mod.rs 354-379. -/
def PairContraction.runS [Zero A] [Add A] [Mul A] [MulAdd A] (ar : StrideArith) (self : PairContraction) (al : Alloc A)
    (l r : View A) : M (View A) := do
  let l' ← simplifyOperandS ar (al.sub 0) self.lhsSimplification l
  let r' ← simplifyOperandS ar (al.sub 1) self.rhsSimplification r
  self.op.run (al.sub 2) l' r'

/-- The loop of `contract_operands`, mod.rs 474-486. -/
def runStepsS [Zero A] [Add A] [Mul A] [MulAdd A] (ar : StrideArith) (al : Alloc A) (operands : List (View A)) :
    List (PairContraction × PairStep) → List (View A) → M (List (View A))
  | [], inter => .ok inter
  | (step, orderStep) :: rest, inter => do
    let lhs ← fetch operands inter orderStep.operandNums.lhs
    let rhs ← fetch operands inter orderStep.operandNums.rhs
    let r ← step.runS ar (al.sub 0) lhs rhs
    runStepsS ar (al.sub 1) operands rest (inter ++ [r])

/-- `EinsumPath::contract_operands`, mod.rs 462-491. -/
def EinsumPath.contractOperandsS [Zero A] [Add A] [Mul A] [MulAdd A] (ar : StrideArith) (self : EinsumPath)
    (al : Alloc A) (operands : List (View A)) : M (View A) :=
  match self.steps, self.contractionOrder with
  | .singletonContraction c, .singleton _ => do
    let t ← index operands 0
    c.op.runS ar al t
  | .pairContractions steps, .pairs orderSteps => do
    let inter ← runStepsS ar al operands (steps.zip orderSteps) []
    unwrapO inter.getLast?
  | _, _ => panic .explicit

/-- `einsum`, lib.rs 221-227. -/
def einsumS [Zero A] [Add A] [Mul A] [MulAdd A] (b : Build) (ar : StrideArith) (h : HashOrd) (al : Alloc A) (s : String)
    (operands : List (View A)) : M (Except String (View A)) := do
  match ← validateAndSizeC b.counter (h.sub 0) s operands with
  | .error e => return .error e
  | .ok sc => do
    let order ← generateOptimizedOrderC b.counter ((h.sub 1).sub 0) sc .naive
    let path ← EinsumPath.fromPathB b ((h.sub 1).sub 1) order
    let r ← path.contractOperandsS ar al operands
    return .ok r

end Einsum
