import Verif.SpecArray
import Verif.Proofs.Views2

/-!
# Concrete allocators and arrays, used to show that hypotheses can be met
-/

namespace Einsum

open Spec

variable {A : Type}

theorem mapE_nil_of {v : View A} {s : List Nat} (h : s.prod = 0) (hs : v.shape = s) :
    v.toVec = .ok [] := by
  have : allIdx s = [] := List.eq_nil_of_length_eq_zero (by rw [allIdx_length, h])
  simp [View.toVec, hs, this]

/-- An array function of logical content is a correct allocator if it has the right elements. -/
theorem alloc_of {v : View A} {shape : List Nat} {data : List A} (hd : data.length = shape.prod)
    (hs : v.shape = shape) (hl : v.strides.length = shape.length)
    (h : ∀ idx, InB shape idx → ∀ x, data[ravel shape idx]? = some x → v.read idx = .ok x) :
    v.Wf ∧ v.toVec = .ok data := by
  have hx : ∀ idx, InB shape idx → ∃ x, data[ravel shape idx]? = some x := fun idx hi =>
    ⟨_, List.getElem?_eq_getElem (hd ▸ ravel_lt hi)⟩
  refine ⟨⟨hl.trans (by rw [hs]), fun idx hi => ?_⟩, ?_⟩
  · obtain ⟨x, hx⟩ := hx idx (hs ▸ hi)
    exact ⟨x, h idx (hs ▸ hi) x hx⟩
  · rcases data with _ | ⟨d, ds⟩
    · exact mapE_nil_of (by simpa using hd.symm) hs
    · have hh : Holds v shape (fun idx => (d :: ds).getD (ravel shape idx) d) := by
        refine ⟨hs, hl, fun idx hi => ?_⟩
        obtain ⟨x, hx⟩ := hx idx hi
        rw [h idx hi x hx, List.getD_eq_getElem?_getD, hx]; rfl
      rw [hh.toVec]
      congr 1
      apply List.ext_getElem?
      intro n
      by_cases hn : n < shape.prod
      · have hn' : n < (d :: ds).length := by omega
        rw [List.getElem?_map, allIdx_getElem? hn, Option.map_some, ravel_unravel hn,
          List.getD_eq_getElem?_getD, List.getElem?_eq_getElem hn']
        rfl
      · rw [List.getElem?_eq_none (by rw [List.length_map, allIdx_length]; omega),
          List.getElem?_eq_none (by omega)]

/-- Row-major storage. -/
def rowMajor (shape : List Nat) (data : List A) : View A := ⟨data, 0, shape, defaultStrides shape⟩

/-- Column-major storage of the same logical content. -/
def colMajor (shape : List Nat) (data : List A) : View A :=
  ⟨(allIdx shape.reverse).filterMap fun i => data[ravel shape i.reverse]?, 0, shape,
    (defaultStrides shape.reverse).reverse⟩

theorem rowMajor_ok {shape : List Nat} {data : List A} (hd : data.length = shape.prod) :
    (rowMajor shape data).Wf ∧ (rowMajor shape data).toVec = .ok data := by
  refine alloc_of hd rfl (defaultStrides_length _) fun idx hi x hx => ?_
  have : InB (rowMajor shape data).shape idx := hi
  rw [View.read, if_pos this]
  simp only [rowMajor, dotI_default hi, zero_add]
  exact readAt_nat hx

theorem colMajor_ok {shape : List Nat} {data : List A} (hd : data.length = shape.prod) :
    (colMajor shape data).Wf ∧ (colMajor shape data).toVec = .ok data := by
  refine alloc_of hd rfl (by simp [colMajor, defaultStrides_length]) fun idx hi x hx => ?_
  have : InB (colMajor shape data).shape idx := hi
  have hr : InB shape.reverse idx.reverse := InB_reverse.2 hi
  have hdot : dotI (defaultStrides shape.reverse).reverse idx =
      (ravel shape.reverse idx.reverse : Int) := by
    rw [← dotI_default hr, ← dotI_reverse (by simp [defaultStrides_length, hi.length_eq]),
      List.reverse_reverse]
  rw [View.read, if_pos this]
  simp only [colMajor, hdot, zero_add]
  apply readAt_nat
  have hf : ((allIdx shape.reverse).filterMap fun i => data[ravel shape i.reverse]?) =
      (allIdx shape.reverse).map fun i => data.getD (ravel shape i.reverse) x := by
    rw [← List.filterMap_eq_map]
    apply List.filterMap_congr
    intro i hi'
    have hi' : InB shape i.reverse := by
      have := InB_reverse.2 (mem_allIdx.1 hi'); rwa [List.reverse_reverse] at this
    have := ravel_lt hi'
    simp only [Function.comp]
    rw [List.getElem?_eq_getElem (by omega), List.getD_eq_getElem?_getD,
      List.getElem?_eq_getElem (by omega)]
    rfl
  rw [hf, map_allIdx_getElem? (ravel_lt hr), unravel_ravel hr, List.reverse_reverse,
    List.getD_eq_getElem?_getD, hx]
  rfl

/-- Adding the last element first, with no initial zero. -/
def SumTree.backward : Nat → SumTree
  | 0 => .zero
  | n + 1 => .add (.leaf n) (SumTree.backward n)

theorem SumTree.backward_leaves (n : Nat) : (SumTree.backward n).leaves = (List.range n).reverse := by
  induction n with
  | zero => rfl
  | succ n ih => rw [backward, leaves, ih, leaves, List.range_succ, List.reverse_append]; rfl

/-- One fused multiply-add after the other, the last product first. -/
def SumTree.chain : Nat → SumTree
  | 0 => .zero
  | n + 1 => .fused n (SumTree.chain n)

theorem SumTree.chain_leaves (n : Nat) : (SumTree.chain n).leaves = (List.range n).reverse := by
  induction n with
  | zero => rfl
  | succ n ih => rw [chain, leaves, ih, List.range_succ, List.reverse_append]; rfl

/-- Everything allocated row-major. -/
def Alloc.rowMajor (A : Type) : Alloc A where
  make := fun _ => Einsum.rowMajor
  wf := fun _ _ _ h => (rowMajor_ok h).1
  shape_eq := fun _ _ _ _ => rfl
  toVec_eq := fun _ _ _ h => (rowMajor_ok h).2
  sumOrder := fun _ => SumTree.sequential
  sumOrder_perm := fun _ n => by rw [SumTree.sequential_leaves]

/-- Everything allocated column-major, sums taken in reverse. -/
def Alloc.colMajor (A : Type) : Alloc A where
  make := fun _ => Einsum.colMajor
  wf := fun _ _ _ h => (colMajor_ok h).1
  shape_eq := fun _ _ _ _ => rfl
  toVec_eq := fun _ _ _ h => (colMajor_ok h).2
  sumOrder := fun _ => SumTree.backward
  sumOrder_perm := fun _ n => by rw [SumTree.backward_leaves]; exact List.reverse_perm _

/-- Everything allocated row-major, matrix products computed by fused multiply-add. -/
def Alloc.fused (A : Type) : Alloc A where
  make := fun _ => Einsum.rowMajor
  wf := fun _ _ _ h => (rowMajor_ok h).1
  shape_eq := fun _ _ _ _ => rfl
  toVec_eq := fun _ _ _ h => (rowMajor_ok h).2
  sumOrder := fun _ => SumTree.chain
  sumOrder_perm := fun _ n => by rw [SumTree.chain_leaves]; exact List.reverse_perm _

/-- The elements of a concrete array. -/
theorem elements_of {v : View A} {t : List Nat → A} (hl : v.strides.length = v.shape.length)
    (h : ∀ idx ∈ allIdx v.shape, v.read idx = .ok (t idx)) : Elements v t :=
  ⟨⟨hl, fun idx hi => ⟨_, h idx (mem_allIdx.2 hi)⟩⟩, fun idx hi => h idx (mem_allIdx.2 hi)⟩

end Einsum
