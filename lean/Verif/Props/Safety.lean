import Verif.Proofs.Safe
import Verif.Props.Tensordot
import Verif.Props.Order

/-!
# Property C41: no undefined behaviour

`View.read` reports undefined behaviour when the address computed from offset, strides and index is outside
the buffer, so "panics or returns a valid array" excludes every out-of-bounds access of every step.
-/

namespace Einsum

open Spec

variable {A : Type}

/-- C41: any path, executed on any list of valid arrays (any number, any shapes, any layouts), panics or returns
a valid array. -/
theorem C41_path [Zero A] [Add A] [Mul A] [MulAdd A] (p : EinsumPath) (al : Alloc A) (operands : List (View A))
    (hw : ∀ v ∈ operands, v.Wf) :
    (∃ k, p.contractOperands al operands = panic k) ∨ ∃ r, p.contractOperands al operands = .ok r ∧ r.Wf :=
  p.contractOperands_safe hw al

/-- C41: the same for each contractor of one operand, whatever its fields are. -/
theorem C41_singleton [Zero A] [Add A] (op : SingletonOp) (al : Alloc A) (v : View A) (hv : v.Wf) :
    (∃ k, op.run al v = panic k) ∨ ∃ r, op.run al v = .ok r ∧ r.Wf :=
  op.run_safe hv al

/-- C41: the same for each contractor of two operands, whatever its fields are. -/
theorem C41_pair [Zero A] [Add A] [Mul A] [MulAdd A] (op : PairOp) (al : Alloc A) (l r : View A) (hl : l.Wf) (hr : r.Wf) :
    (∃ k, op.run al l r = panic k) ∨ ∃ w, op.run al l r = .ok w ∧ w.Wf :=
  op.run_safe hl hr al

/-- C41: `view_singleton` of the diagonal contractors, which is public and takes any array: panics or returns a
view that stays inside the memory block it was built from. -/
theorem C41_diagonal_view (d : Diagonalization) (v : View A) :
    (∃ k, d.view v = panic k) ∨ ∃ r, d.view v = .ok r ∧ r.Wf :=
  d.view_safe

/-- C41: the memory block of a contiguous array that the diagonal view is built from lies inside the array's
buffer and has exactly as many elements as the array. -/
theorem C41_slice (v : View A) (hv : v.Wf) (d : List A) (hd : v.asSliceMemoryOrder = some d) :
    d.length = v.shape.prod ∧ (0 < v.shape.prod → 0 ≤ memStart v.off v.shape v.strides ∧
      memStart v.off v.shape v.strides + (v.shape.prod : Int) ≤ (v.buf.length : Int)) :=
  hv.slice hd

/-- C41: `einsum` on any string and any list of valid arrays panics, returns an error text, or returns a valid
array.  No law of arithmetic is assumed of the elements. -/
theorem C41_einsum [Zero A] [Add A] [Mul A] [MulAdd A] (h : HashOrd) (al : Alloc A) (s : String) (operands : List (View A))
    (hw : ∀ v ∈ operands, v.Wf) :
    (∃ k, einsum h al s operands = panic k) ∨ (∃ e, einsum h al s operands = .ok (.error e)) ∨
      ∃ r, einsum h al s operands = .ok (.ok r) ∧ r.Wf := by
  unfold einsum
  split
  · rename_i e _
    exact .inr (.inl ⟨e, rfl⟩)
  · rename_i sc hsc
    obtain ⟨o, p, ho, hp, -⟩ := C11_compiles (h.sub 0) ((h.sub 1).sub 0) ((h.sub 1).sub 1) s _ sc hsc .naive
      (.inl rfl)
    have e : sc.contractOperands (h.sub 1) al operands = p.contractOperands al operands := by
      simp only [SizedContraction.contractOperands, EinsumPath.new, ho, hp, bind_ok]
    rw [e]
    rcases p.contractOperands_safe hw al with ⟨k, hk⟩ | ⟨r, hr, hr'⟩
    · exact .inl ⟨k, by rw [hk]; rfl⟩
    · exact .inr (.inr ⟨r, by rw [hr]; rfl, hr'⟩)

theorem safe_mapE_index (s axes : List Nat) : Safe (mapE (index s) axes) fun _ => True := by
  by_cases h : ∀ a ∈ axes, a < s.length
  · exact .inr ⟨_, mapE_index h, trivial⟩
  · exact .inl (mapE_index_panic h)

theorem safe_lhsLoop (n k : Nat) (l : List Nat) (axis : Nat) (acc : Nat × Nat × List Nat) :
    Safe (lhsLoop n k axis l acc) fun _ => True := by
  induction l generalizing axis acc with
  | nil => exact .ok trivial
  | cons d ds ih =>
    obtain ⟨u, c, out⟩ := acc
    rw [lhsLoop]
    refine Safe.bind (Q := fun _ => True) ?_ fun cut _ => ?_
    · unfold usub
      split
      · exact .ok trivial
      · exact .panic
    · split
      · exact ih _ _
      · exact ih _ _

/-- C41: `tensordot` on any two valid arrays and any axis lists. -/
theorem C41_tensordot [Zero A] [Add A] [Mul A] [MulAdd A] (al : Alloc A) (l r : View A) (la ra : List Nat)
    (hl : l.Wf) (hr : r.Wf) :
    (∃ k, tensordot al l r la ra = panic k) ∨ ∃ w, tensordot al l r la ra = .ok w ∧ w.Wf := by
  change Safe _ View.Wf
  unfold tensordot
  refine Safe.bind (safe_assertThat _) fun _ _ => Safe.bind (Q := fun _ => True) ?_ fun n _ =>
    Safe.bind (Q := fun _ => True) ?_ fun t _ => (PairOp.tensordotGeneral t).run_safe hl hr al
  · unfold usub
    split
    · exact .ok trivial
    · exact .panic
  · exact Safe.bind (safe_assertThat _) fun _ _ => Safe.bind (safe_assertThat _) fun _ _ =>
      Safe.bind (safe_assertThat _) fun _ _ => Safe.bind (safe_mapE_index _ _) fun _ _ =>
      Safe.bind (safe_mapE_index _ _) fun _ _ =>
      Safe.bind (Safe.bind (safe_lhsLoop _ _ _ _ _) fun _ _ =>
        Safe.bind (safe_assertThat _) fun _ _ => .ok trivial) fun _ (_ : True) => .ok trivial

example := C41_einsum HashOrd.reversed (Alloc.colMajor Int) "ij,jjk,kj->ij" [Ex.m23, Ex.m332, Ex.m23]
  (by simp [Ex.e23.1, Ex.e332.1])

example := C41_tensordot (Alloc.rowMajor Int) Ex.m32 Ex.m332 [0, 0] [5, 7] Ex.e32.1 Ex.e332.1

example := C41_path (A := Int) ⟨.pairs [], .pairContractions []⟩ (Alloc.rowMajor Int) [Ex.m32, Ex.m332]
  (by simp [Ex.e32.1, Ex.e332.1])

example := C41_singleton (.diagonalization ⟨[0, 0, 7], [100, 100]⟩) (Alloc.rowMajor Int) Ex.m332 Ex.e332.1

example := C41_pair (.tensordotFixedPosition ⟨3, 4, 2, [6, 2]⟩) (Alloc.rowMajor Int) Ex.m32 Ex.m332 Ex.e32.1
  Ex.e332.1

/-- A backwards-stored array has a memory block (starting at address 0, though its offset is 5). -/
theorem Ex.slice32 : Ex.m32.asSliceMemoryOrder = some [1, 2, 3, 4, 5, 6] := by
  have : isContiguous Ex.m32.shape Ex.m32.strides = true := by
    simp [isContiguous, Ex.m32, defaultStrides, sufProds, contigLoop, strideOrder, List.range_succ,
      List.mergeSort, List.MergeSort.Internal.splitInTwo]
  rw [View.asSliceMemoryOrder, if_pos this]
  decide

example := C41_slice Ex.m32 Ex.e32.1 [1, 2, 3, 4, 5, 6] Ex.slice32

end Einsum
