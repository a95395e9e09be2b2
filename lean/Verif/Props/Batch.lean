import Mathlib.LinearAlgebra.Matrix.Kronecker
import Verif.Props.Linear

/-!
# Property C66, continued: bilinear forms, the Frobenius product, stacks of matrices, Kronecker products
-/

namespace Einsum

open Spec Function

variable {A : Type} [CommSemiring A]

/-- The array `v` with three axes holds the matrices `a b`, one after the other. -/
def Spec.IsStack {p m n : Nat} (v : View A) (a : Fin p → Matrix (Fin m) (Fin n) A) : Prop :=
  v.Wf ∧ v.shape = [p, m, n] ∧ ∀ (b : Fin p) (i : Fin m) (j : Fin n), v.read [b.val, i.val, j.val] = .ok (a b i j)

theorem Spec.IsStack.elem {p m n : Nat} {v : View A} {a : Fin p → Matrix (Fin m) (Fin n) A} (h : IsStack v a)
    (b : Fin p) (i : Fin m) (j : Fin n) : v.elem [b.val, i.val, j.val] = a b i j := by simp [View.elem, h.2.2 b i j]

/-- C66: a bilinear form. -/
theorem C66_bilinear (h : HashOrd) (al : Alloc A) {m n : Nat} (u w v : View A) (x : Fin m → A)
    (a : Matrix (Fin m) (Fin n) A) (y : Fin n → A) (hu : IsVector u x) (hw : IsMatrix w a) (hv : IsVector v y) :
    ∃ r, einsum h al "i,ij,j->" [u, w, v] = .ok (.ok r) ∧ IsScalar r (x ⬝ᵥ a.mulVec y) := by
  have hd : Denotes "i,ij,j->" [['i'], ['i', 'j'], ['j']] [] :=
    .inl ⟨by decide, ⟨by simp, by simp [Letter], by simp⟩, by simp [OutputOk]⟩
  obtain ⟨r, h1, h2, h3, h4⟩ := einsum_ok (operands := [u, w, v]) (ts := [u.elem, w.elem, v.elem])
    (dims := fun c => if c = 'i' then m else if c = 'j' then n else 0)
    ⟨hd, .cons (by simp [hu.2.1]) (.cons (by simp [hw.2.1]) (.cons (by simp [hv.2.1]) .nil)),
      .cons hu.1.elements (.cons hw.1.elements (.cons hv.1.elements .nil))⟩
    (by simp [NoEmptyDiagonal]) h al
  refine ⟨r, h1, h2, by simpa using h3, ?_⟩
  have e := h4 (fun _ => 0) (by simp [InRange])
  rw [Spec.einsum, show summed [['i'], ['i', 'j'], ['j']] [] = ['i', 'j'] by decide] at e
  have e' : r.read [] = .ok (∑ i ∈ Finset.range m, ∑ j ∈ Finset.range n, u.elem [i] * (w.elem [i, j] * v.elem [j])) := by
    simpa [sumOver, term, Function.update_apply, mul_assoc] using e
  rw [e', ← Fin.sum_univ_eq_sum_range (fun i => ∑ j ∈ Finset.range n, u.elem [i] * (w.elem [i, j] * v.elem [j]))]
  simp only [dotProduct, Matrix.mulVec, Finset.mul_sum]
  congr 1
  refine Finset.sum_congr rfl fun i _ => ?_
  rw [← Fin.sum_univ_eq_sum_range (fun j => u.elem [i.val] * (w.elem [i.val, j] * v.elem [j]))]
  simp only [hu.elem, hv.elem, hw.elem]

/-- C66: the Frobenius product of two matrices. -/
theorem C66_frobenius (h : HashOrd) (al : Alloc A) {m n : Nat} (u v : View A) (a b : Matrix (Fin m) (Fin n) A)
    (hu : IsMatrix u a) (hv : IsMatrix v b) :
    ∃ r, einsum h al "ij,ij->" [u, v] = .ok (.ok r) ∧ IsScalar r (a.transpose * b).trace := by
  have hd : Denotes "ij,ij->" [['i', 'j'], ['i', 'j']] [] :=
    .inl ⟨by decide, ⟨by simp, by simp [Letter], by simp⟩, by simp [OutputOk]⟩
  obtain ⟨r, h1, h2, h3, h4⟩ := einsum_ok (operands := [u, v]) (ts := [u.elem, v.elem])
    (dims := fun c => if c = 'i' then m else if c = 'j' then n else 0)
    ⟨hd, .cons (by simp [hu.2.1]) (.cons (by simp [hv.2.1]) .nil), .cons hu.1.elements (.cons hv.1.elements .nil)⟩
    (by simp [NoEmptyDiagonal]) h al
  refine ⟨r, h1, h2, by simpa using h3, ?_⟩
  have e := h4 (fun _ => 0) (by simp [InRange])
  rw [Spec.einsum, show summed [['i', 'j'], ['i', 'j']] [] = ['i', 'j'] by decide,
    sumOver_perm (List.Perm.swap 'j' 'i' [])] at e
  have e' : r.read [] = .ok (∑ j ∈ Finset.range n, ∑ i ∈ Finset.range m, u.elem [i, j] * v.elem [i, j]) := by
    simpa [sumOver, term, Function.update_apply] using e
  rw [e', ← Fin.sum_univ_eq_sum_range (fun j => ∑ i ∈ Finset.range m, u.elem [i, j] * v.elem [i, j])]
  simp only [Matrix.trace, Matrix.diag, Matrix.mul_apply, Matrix.transpose_apply]
  congr 1
  refine Finset.sum_congr rfl fun j _ => ?_
  rw [← Fin.sum_univ_eq_sum_range (fun i => u.elem [i, j.val] * v.elem [i, j.val])]
  simp only [hu.elem, hv.elem]

/-- C66: products of stacks of matrices. -/
theorem C66_batch (h : HashOrd) (al : Alloc A) {p m k n : Nat} (u v : View A) (a : Fin p → Matrix (Fin m) (Fin k) A)
    (b : Fin p → Matrix (Fin k) (Fin n) A) (hu : IsStack u a) (hv : IsStack v b) :
    ∃ r, einsum h al "bij,bjk->bik" [u, v] = .ok (.ok r) ∧ IsStack r fun q => a q * b q := by
  have hd : Denotes "bij,bjk->bik" [['b', 'i', 'j'], ['b', 'j', 'k']] ['b', 'i', 'k'] :=
    .inl ⟨by decide, ⟨by simp, by simp [Letter], by simp [Letter]⟩, by simp [OutputOk, Used]⟩
  obtain ⟨r, h1, h2, h3, h4⟩ := einsum_ok (operands := [u, v]) (ts := [u.elem, v.elem])
    (dims := fun c => if c = 'b' then p else if c = 'i' then m else if c = 'j' then k else n)
    ⟨hd, .cons (by simp [hu.2.1]) (.cons (by simp [hv.2.1]) .nil), .cons hu.1.elements (.cons hv.1.elements .nil)⟩
    (by simp [NoEmptyDiagonal]) h al
  refine ⟨r, h1, h2, by simpa using h3, fun q i l => ?_⟩
  have e := h4 (fun c => if c = 'b' then q else if c = 'i' then i else l) (by simp [InRange])
  rw [Spec.einsum, show summed [['b', 'i', 'j'], ['b', 'j', 'k']] ['b', 'i', 'k'] = ['j'] by decide] at e
  have e' : r.read [q.val, i.val, l.val] =
      .ok (∑ j ∈ Finset.range k, u.elem [q.val, i.val, j] * v.elem [q.val, j, l.val]) := by
    simpa [sumOver, term, Function.update_apply] using e
  rw [e', ← Fin.sum_univ_eq_sum_range (fun j => u.elem [q.val, i.val, j] * v.elem [q.val, j, l.val])]
  simp only [hu.elem, hv.elem]
  exact congrArg Except.ok (Matrix.mul_apply (M := a q) (N := b q)).symm

/-- C66: the Kronecker product, its row and column indices written as pairs. -/
theorem C66_kronecker (h : HashOrd) (al : Alloc A) {m n p q : Nat} (u v : View A) (a : Matrix (Fin m) (Fin n) A)
    (b : Matrix (Fin p) (Fin q) A) (hu : IsMatrix u a) (hv : IsMatrix v b) :
    ∃ r, einsum h al "ij,kl->ikjl" [u, v] = .ok (.ok r) ∧ r.Wf ∧ r.shape = [m, p, n, q] ∧
      ∀ (i : Fin m) (k : Fin p) (j : Fin n) (l : Fin q),
        r.read [i.val, k.val, j.val, l.val] = .ok (Matrix.kroneckerMap (· * ·) a b (i, k) (j, l)) := by
  have hd : Denotes "ij,kl->ikjl" [['i', 'j'], ['k', 'l']] ['i', 'k', 'j', 'l'] :=
    .inl ⟨by decide, ⟨by simp, by simp [Letter], by simp [Letter]⟩, by simp [OutputOk, Used]⟩
  obtain ⟨r, h1, h2, h3, h4⟩ := einsum_ok (operands := [u, v]) (ts := [u.elem, v.elem])
    (dims := fun c => if c = 'i' then m else if c = 'j' then n else if c = 'k' then p else q)
    ⟨hd, .cons (by simp [hu.2.1]) (.cons (by simp [hv.2.1]) .nil), .cons hu.1.elements (.cons hv.1.elements .nil)⟩
    (by simp [NoEmptyDiagonal]) h al
  refine ⟨r, h1, h2, by simpa using h3, fun i k j l => ?_⟩
  have e := h4 (fun c => if c = 'i' then i else if c = 'j' then j else if c = 'k' then k else l) (by simp [InRange])
  rw [Spec.einsum, show summed [['i', 'j'], ['k', 'l']] ['i', 'k', 'j', 'l'] = [] by decide] at e
  have e' : r.read [i.val, k.val, j.val, l.val] = .ok (u.elem [i.val, j.val] * v.elem [k.val, l.val]) := by
    simpa [sumOver, term] using e
  rw [e', hu.elem, hv.elem, Matrix.kroneckerMap_apply]

namespace Ex

def vec2 : View Int := ⟨[5, 8], 0, [2], [1]⟩
def x2 : Fin 2 → Int := ![5, 8]
theorem is2 : IsVector vec2 x2 := ⟨(elements_of (t := Ex.elems vec2) rfl (by decide)).1, rfl, by decide⟩

/-- Two 2 by 2 matrices, the second stored first. -/
def stack : View Int := ⟨[1, 2, 3, 4, 5, 6, 7, 8], 4, [2, 2, 2], [-4, 2, 1]⟩
def stacked : Fin 2 → Matrix (Fin 2) (Fin 2) Int := ![!![5, 6; 7, 8], !![1, 2; 3, 4]]
theorem isStack : IsStack stack stacked := ⟨(elements_of (t := Ex.elems stack) rfl (by decide)).1, rfl, by decide⟩

end Ex

example : ∃ r, einsum .insertion (Alloc.rowMajor Int) "i,ij,j->" [Ex.v3, Ex.m32, Ex.vec2] = .ok (.ok r) ∧
    IsScalar r (Ex.x3 ⬝ᵥ Ex.a32.mulVec Ex.x2) := C66_bilinear _ _ _ _ _ _ _ _ Ex.is3 Ex.is32 Ex.is2

example : ∃ r, einsum .insertion (Alloc.rowMajor Int) "ij,ij->" [Ex.m23, Ex.m23] = .ok (.ok r) ∧ IsScalar r 91 := by
  obtain ⟨r, h1, h2⟩ := C66_frobenius .insertion (Alloc.rowMajor Int) _ _ _ _ Ex.is23 Ex.is23
  rw [show (Ex.a23.transpose * Ex.a23).trace = 91 by decide] at h2
  exact ⟨r, h1, h2⟩

example : ∃ r, einsum .insertion (Alloc.rowMajor Int) "bij,bjk->bik" [Ex.stack, Ex.stack] = .ok (.ok r) ∧
    IsStack r fun q => Ex.stacked q * Ex.stacked q := C66_batch _ _ _ _ _ _ Ex.isStack Ex.isStack

example : ∃ r, einsum .insertion (Alloc.rowMajor Int) "ij,kl->ikjl" [Ex.m23, Ex.m32] = .ok (.ok r) ∧
    r.shape = [2, 3, 3, 2] ∧ r.read [1, 0, 2, 1] = .ok 30 := by
  obtain ⟨r, h1, -, h2, h3⟩ := C66_kronecker .insertion (Alloc.rowMajor Int) _ _ _ _ Ex.is23 Ex.is32
  exact ⟨r, h1, h2, h3 1 0 2 1⟩

end Einsum
