import Verif.Proofs.Call
import Verif.Proofs.Layouts

/-!
# Concrete calls, used to show that the hypotheses of the theorems can be met
-/

namespace Einsum.Ex

open Spec

/-- The elements of a concrete array, as a function of the index. -/
def elems (v : View Int) (idx : List Nat) : Int :=
  match v.read idx with
  | .ok x => x
  | .error _ => 0

/-- A 2 by 3 matrix in row-major order. -/
def m23 : View Int := ⟨[1, 2, 3, 4, 5, 6], 0, [2, 3], [3, 1]⟩

/-- A 3 by 2 matrix stored backwards (negative strides). -/
def m32 : View Int := ⟨[1, 2, 3, 4, 5, 6], 5, [3, 2], [-2, -1]⟩

/-- The same matrix as `m32`, stored column-major. -/
def m32' : View Int := ⟨[6, 4, 2, 5, 3, 1], 0, [3, 2], [1, 3]⟩

/-- A 3 by 3 by 2 array: a broadcast view (zero stride on the first axis). -/
def m332 : View Int := ⟨[1, 2, 3, 4, 5, 6], 0, [3, 3, 2], [0, 2, 1]⟩

/-- A 3 by 0 array, as freshly created. -/
def m30 : View Int := ⟨[], 0, [3, 0], [0, 0]⟩

/-- A 0 by 0 array, as freshly created. -/
def m00 : View Int := ⟨[], 0, [0, 0], [0, 0]⟩

theorem e23 : Elements m23 (elems m23) := elements_of rfl (by decide)
theorem e32 : Elements m32 (elems m32) := elements_of rfl (by decide)
theorem e32' : Elements m32' (elems m32') := elements_of rfl (by decide)
theorem e332 : Elements m332 (elems m332) := elements_of rfl (by decide)
theorem e30 : Elements m30 (elems m30) := elements_of rfl (by decide)
theorem e00 : Elements m00 (elems m00) := elements_of rfl (by decide)

theorem same32 : SameArray m32 m32' :=
  ⟨e32.1, e32'.1, rfl, fun idx hi => (by decide : ∀ idx ∈ allIdx [3, 2], m32.read idx = m32'.read idx)
    idx (mem_allIdx.2 hi)⟩

/-- Lengths: `i ↦ 2`, `j ↦ 3`, `k ↦ 2`. -/
def dims (c : Char) : Nat := if c = 'j' then 3 else 2

theorem denotes_matmul : Denotes "ij,jk->ik" [['i', 'j'], ['j', 'k']] ['i', 'k'] :=
  .inl ⟨by decide, ⟨by simp, by simp [Letter], by simp [Letter]⟩, by simp [OutputOk, Used]⟩

/-- The matrix product of `m23` and the backwards-stored `m32`. -/
theorem call_matmul : Call "ij,jk->ik" [m23, m32] [['i', 'j'], ['j', 'k']] ['i', 'k'] dims
    [elems m23, elems m32] :=
  ⟨denotes_matmul, .cons (by decide) (.cons (by decide) .nil), .cons e23 (.cons e32 .nil)⟩

theorem ned_matmul : NoEmptyDiagonal dims [['i', 'j'], ['j', 'k']] := by
  simp [NoEmptyDiagonal]

theorem denotes_three : Denotes "ij,jjk,kj->ij" [['i', 'j'], ['j', 'j', 'k'], ['k', 'j']] ['i', 'j'] :=
  .inl ⟨by decide, ⟨by simp, by simp [Letter], by simp [Letter]⟩, by simp [OutputOk, Used]⟩

/-- Three operands, one with a repeated letter and a zero stride; stack, contracted and outer letters. -/
theorem call_three : Call "ij,jjk,kj->ij" [m23, m332, m23] [['i', 'j'], ['j', 'j', 'k'], ['k', 'j']]
    ['i', 'j'] dims [elems m23, elems m332, elems m23] :=
  ⟨denotes_three, .cons (by decide) (.cons (by decide) (.cons (by decide) .nil)),
    .cons e23 (.cons e332 (.cons e23 .nil))⟩

theorem ned_three : NoEmptyDiagonal dims [['i', 'j'], ['j', 'j', 'k'], ['k', 'j']] := by
  simp [NoEmptyDiagonal, dims]

theorem denotes_trace : Denotes "jjk->k" [['j', 'j', 'k']] ['k'] :=
  .inl ⟨by decide, ⟨by simp, by simp [Letter], by simp [Letter]⟩, by simp [OutputOk, Used]⟩

/-- One operand, with a repeated letter that is summed. -/
theorem call_trace : Call "jjk->k" [m332] [['j', 'j', 'k']] ['k'] dims [elems m332] :=
  ⟨denotes_trace, .cons (by decide) .nil, .cons e332 .nil⟩

theorem ned_trace : NoEmptyDiagonal dims [['j', 'j', 'k']] := by simp [NoEmptyDiagonal, dims]

/-- Lengths: `j ↦ 3`, everything else `0`. -/
def dims0 (c : Char) : Nat := if c = 'j' then 3 else 0

theorem denotes_rowsum : Denotes "ji->j" [['j', 'i']] ['j'] :=
  .inl ⟨by decide, ⟨by simp, by simp [Letter], by simp [Letter]⟩, by simp [OutputOk, Used]⟩

/-- Summing over an empty axis. -/
theorem call_rowsum : Call "ji->j" [m30] [['j', 'i']] ['j'] dims0 [elems m30] :=
  ⟨denotes_rowsum, .cons (by decide) .nil, .cons e30 .nil⟩

theorem ned_rowsum : NoEmptyDiagonal dims0 [['j', 'i']] := by simp [NoEmptyDiagonal]

theorem denotes_empty : Denotes "ji,ii->j" [['j', 'i'], ['i', 'i']] ['j'] :=
  .inl ⟨by decide, ⟨by simp, by simp [Letter], by simp [Letter]⟩, by simp [OutputOk, Used]⟩

/-- A repeated letter of length zero. -/
theorem call_empty : Call "ji,ii->j" [m30, m00] [['j', 'i'], ['i', 'i']] ['j'] dims0
    [elems m30, elems m00] :=
  ⟨denotes_empty, .cons (by decide) (.cons (by decide) .nil), .cons e30 (.cons e00 .nil)⟩

theorem fed_empty : EmptyDiagonal dims0 [['j', 'i'], ['i', 'i']] ['j'] [m30, m00] :=
  ⟨1, ['i', 'i'], m00, rfl, rfl, by simp, ⟨'i', by simp, rfl⟩, by simp [m00, UnitRow]⟩

/-- An empty block cut out of a larger array: its strides are positive. -/
def m003 : View Int := ⟨[1, 2, 3, 4, 5, 6], 2, [0, 0, 3], [6, 3, 1]⟩

theorem e003 : Elements m003 (elems m003) :=
  elements_of (t := elems m003) (by decide) (by decide)

theorem denotes_block : Denotes "iij->j" [['i', 'i', 'j']] ['j'] :=
  .inl ⟨by decide, ⟨by simp, by simp [Letter], by simp [Letter]⟩, by simp [OutputOk, Used]⟩

theorem call_block : Call "iij->j" [m003] [['i', 'i', 'j']] ['j'] dims0 [elems m003] :=
  ⟨denotes_block, .cons (by decide) .nil, .cons e003 .nil⟩

theorem fed_block : EmptyDiagonal dims0 [['i', 'i', 'j']] ['j'] [m003] :=
  ⟨0, ['i', 'i', 'j'], m003, rfl, rfl, by simp, ⟨'i', by simp, rfl⟩, by simp [m003, UnitRow]⟩

/-- Lengths: `a ↦ 1`, everything else `0`. -/
def dims10 (c : Char) : Nat := if c = 'a' then 1 else 0

/-- An empty slice of a larger array with positive strides and no axis longer than one. -/
def m110 : View Int := ⟨[1, 2, 3, 4, 5, 6], 2, [1, 1, 0], [6, 3, 1]⟩

theorem e110 : Elements m110 (elems m110) :=
  elements_of (t := elems m110) (by decide) (by decide)

theorem unit_m110 : UnitRow m110 :=
  ⟨by decide, by decide, 2, rfl, rfl, fun j hj => by
    match j with
    | 0 => decide
    | 1 => decide
    | 2 => exact absurd rfl hj
    | j + 3 => simp [m110]⟩

theorem call_unit : Call "aab->" [m110] [['a', 'a', 'b']] [] dims10 [elems m110] :=
  ⟨.inl ⟨by decide, ⟨by simp, by simp [Letter], by simp [Letter]⟩, by simp [OutputOk, Used]⟩,
    .cons (by decide) .nil, .cons e110 .nil⟩

theorem nfed_unit : ¬ EmptyDiagonal dims10 [['a', 'a', 'b']] [] [m110] := by
  rintro ⟨k, ix, v, h1, h2, -, -, h5⟩
  cases k with
  | succ k => simp at h1
  | zero =>
    simp only [List.getElem?_cons_zero, Option.some.injEq] at h1 h2
    subst h1; subst h2
    rcases h5 unit_m110 'a' (by simp) with h | ⟨j, jx, h1, h2, -⟩
    · simp at h
    · cases j with
      | zero => exact h1 rfl
      | succ j => simp at h2

theorem call_unit' : Call "aab->ab" [m110] [['a', 'a', 'b']] ['a', 'b'] dims10 [elems m110] :=
  ⟨.inl ⟨by decide, ⟨by simp, by simp [Letter], by simp [Letter]⟩, by simp [OutputOk, Used]⟩,
    .cons (by decide) .nil, .cons e110 .nil⟩

theorem fed_unit : EmptyDiagonal dims10 [['a', 'a', 'b']] ['a', 'b'] [m110] :=
  ⟨0, ['a', 'a', 'b'], m110, rfl, rfl, by simp, ⟨'b', by simp, rfl⟩, fun _ c hc => .inl (by simpa using hc)⟩

end Einsum.Ex
