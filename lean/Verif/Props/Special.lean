import Verif.Props.Examples

/-!
# Property C40: documented special cases, for all shapes, elements and layouts
-/

namespace Einsum

open Spec

variable {A : Type} [CommSemiring A]

/-- C40: `ij->ij` copies the matrix. -/
theorem C40_copy (h : HashOrd) (al : Alloc A) (u : View A) (tu : List Nat → A)
    (di dj : Nat) (hu : Elements u tu) 
    (su : u.shape = [di, dj]) :
    ∃ r, einsum h al "ij->ij" [u] = .ok (.ok r) ∧ r.Wf ∧ r.shape = [di, dj] ∧
      ∀ i < di, ∀ j < dj, r.read [i, j] = .ok (tu [i, j]) := by
  have hd : Denotes "ij->ij" [['i', 'j']] ['i', 'j'] :=
    .inl ⟨by decide, ⟨by simp, by simp [Letter], by simp [Letter]⟩, by simp [OutputOk, Used]⟩
  obtain ⟨r, h1, h2, h3, h4⟩ := einsum_ok (operands := [u]) (ts := [tu])
    (dims := fun c => if c = 'i' then di else if c = 'j' then dj else 0)
    ⟨hd, .cons (by simp [su]) (.nil), .cons hu (.nil)⟩
    (by simp [NoEmptyDiagonal]) h al
  refine ⟨r, h1, h2, by simpa using h3, ?_⟩
  intro i hi j hj
  have e := h4 (fun c => if c = 'i' then i else if c = 'j' then j else 0) (by simp [InRange, hi, hj])
  rw [Spec.einsum, show summed [['i', 'j']] ['i', 'j'] = [] by decide] at e
  simpa [sumOver, term, Function.update_apply, mul_assoc] using e

/-- C40: `ij->ji` is the transpose. -/
theorem C40_transpose (h : HashOrd) (al : Alloc A) (u : View A) (tu : List Nat → A)
    (di dj : Nat) (hu : Elements u tu) 
    (su : u.shape = [di, dj]) :
    ∃ r, einsum h al "ij->ji" [u] = .ok (.ok r) ∧ r.Wf ∧ r.shape = [dj, di] ∧
      ∀ j < dj, ∀ i < di, r.read [j, i] = .ok (tu [i, j]) := by
  have hd : Denotes "ij->ji" [['i', 'j']] ['j', 'i'] :=
    .inl ⟨by decide, ⟨by simp, by simp [Letter], by simp [Letter]⟩, by simp [OutputOk, Used]⟩
  obtain ⟨r, h1, h2, h3, h4⟩ := einsum_ok (operands := [u]) (ts := [tu])
    (dims := fun c => if c = 'i' then di else if c = 'j' then dj else 0)
    ⟨hd, .cons (by simp [su]) (.nil), .cons hu (.nil)⟩
    (by simp [NoEmptyDiagonal]) h al
  refine ⟨r, h1, h2, by simpa using h3, ?_⟩
  intro j hj i hi
  have e := h4 (fun c => if c = 'j' then j else if c = 'i' then i else 0) (by simp [InRange, hj, hi])
  rw [Spec.einsum, show summed [['i', 'j']] ['j', 'i'] = [] by decide] at e
  simpa [sumOver, term, Function.update_apply, mul_assoc] using e

/-- C40: `ii` is the trace. -/
theorem C40_trace (h : HashOrd) (al : Alloc A) (u : View A) (tu : List Nat → A)
    (di : Nat) (hu : Elements u tu) (pos : 0 < di) 
    (su : u.shape = [di, di]) :
    ∃ r, einsum h al "ii" [u] = .ok (.ok r) ∧ r.Wf ∧ r.shape = [] ∧
      r.read [] = .ok (∑ i ∈ Finset.range di, tu [i, i]) := by
  have hd : Denotes "ii" [['i', 'i']] [] :=
    .inr ⟨by decide, ⟨by simp, by simp [Letter], by simp⟩, by decide, by
    intro c
    by_cases h : c = 'i'
    · subst h; decide
    · simp [Ne.symm h]⟩
  obtain ⟨r, h1, h2, h3, h4⟩ := einsum_ok (operands := [u]) (ts := [tu])
    (dims := fun c => if c = 'i' then di else 0)
    ⟨hd, .cons (by simp [su]) (.nil), .cons hu (.nil)⟩
    (by simp [NoEmptyDiagonal, pos.ne']) h al
  refine ⟨r, h1, h2, by simpa using h3, ?_⟩
  have e := h4 (fun c =>  0) (by simp [InRange])
  rw [Spec.einsum, show summed [['i', 'i']] [] = ['i'] by decide] at e
  simpa [sumOver, term, Function.update_apply, mul_assoc] using e

/-- C40: `ii->i` is the diagonal. -/
theorem C40_diagonal (h : HashOrd) (al : Alloc A) (u : View A) (tu : List Nat → A)
    (di : Nat) (hu : Elements u tu) (pos : 0 < di) 
    (su : u.shape = [di, di]) :
    ∃ r, einsum h al "ii->i" [u] = .ok (.ok r) ∧ r.Wf ∧ r.shape = [di] ∧
      ∀ i < di, r.read [i] = .ok (tu [i, i]) := by
  have hd : Denotes "ii->i" [['i', 'i']] ['i'] :=
    .inl ⟨by decide, ⟨by simp, by simp [Letter], by simp [Letter]⟩, by simp [OutputOk, Used]⟩
  obtain ⟨r, h1, h2, h3, h4⟩ := einsum_ok (operands := [u]) (ts := [tu])
    (dims := fun c => if c = 'i' then di else 0)
    ⟨hd, .cons (by simp [su]) (.nil), .cons hu (.nil)⟩
    (by simp [NoEmptyDiagonal, pos.ne']) h al
  refine ⟨r, h1, h2, by simpa using h3, ?_⟩
  intro i hi
  have e := h4 (fun c => if c = 'i' then i else 0) (by simp [InRange, hi])
  rw [Spec.einsum, show summed [['i', 'i']] ['i'] = [] by decide] at e
  simpa [sumOver, term, Function.update_apply, mul_assoc] using e

/-- C40: `ij->i` sums each row. -/
theorem C40_row_sums (h : HashOrd) (al : Alloc A) (u : View A) (tu : List Nat → A)
    (di dj : Nat) (hu : Elements u tu) 
    (su : u.shape = [di, dj]) :
    ∃ r, einsum h al "ij->i" [u] = .ok (.ok r) ∧ r.Wf ∧ r.shape = [di] ∧
      ∀ i < di, r.read [i] = .ok (∑ j ∈ Finset.range dj, tu [i, j]) := by
  have hd : Denotes "ij->i" [['i', 'j']] ['i'] :=
    .inl ⟨by decide, ⟨by simp, by simp [Letter], by simp [Letter]⟩, by simp [OutputOk, Used]⟩
  obtain ⟨r, h1, h2, h3, h4⟩ := einsum_ok (operands := [u]) (ts := [tu])
    (dims := fun c => if c = 'i' then di else if c = 'j' then dj else 0)
    ⟨hd, .cons (by simp [su]) (.nil), .cons hu (.nil)⟩
    (by simp [NoEmptyDiagonal]) h al
  refine ⟨r, h1, h2, by simpa using h3, ?_⟩
  intro i hi
  have e := h4 (fun c => if c = 'i' then i else 0) (by simp [InRange, hi])
  rw [Spec.einsum, show summed [['i', 'j']] ['i'] = ['j'] by decide] at e
  simpa [sumOver, term, Function.update_apply, mul_assoc] using e

/-- C40: `ij->` sums all elements. -/
theorem C40_total (h : HashOrd) (al : Alloc A) (u : View A) (tu : List Nat → A)
    (di dj : Nat) (hu : Elements u tu) 
    (su : u.shape = [di, dj]) :
    ∃ r, einsum h al "ij->" [u] = .ok (.ok r) ∧ r.Wf ∧ r.shape = [] ∧
      r.read [] = .ok (∑ i ∈ Finset.range di, ∑ j ∈ Finset.range dj, tu [i, j]) := by
  have hd : Denotes "ij->" [['i', 'j']] [] :=
    .inl ⟨by decide, ⟨by simp, by simp [Letter], by simp [Letter]⟩, by simp [OutputOk, Used]⟩
  obtain ⟨r, h1, h2, h3, h4⟩ := einsum_ok (operands := [u]) (ts := [tu])
    (dims := fun c => if c = 'i' then di else if c = 'j' then dj else 0)
    ⟨hd, .cons (by simp [su]) (.nil), .cons hu (.nil)⟩
    (by simp [NoEmptyDiagonal]) h al
  refine ⟨r, h1, h2, by simpa using h3, ?_⟩
  have e := h4 (fun c =>  0) (by simp [InRange])
  rw [Spec.einsum, show summed [['i', 'j']] [] = ['i', 'j'] by decide] at e
  simpa [sumOver, term, Function.update_apply, mul_assoc] using e

/-- C40: `ij,jk->ik` is the matrix product. -/
theorem C40_matrix_product (h : HashOrd) (al : Alloc A) (u v : View A) (tu tv : List Nat → A)
    (di dj dk : Nat) (hu : Elements u tu) (hv : Elements v tv) 
    (su : u.shape = [di, dj]) (sv : v.shape = [dj, dk]) :
    ∃ r, einsum h al "ij,jk->ik" [u, v] = .ok (.ok r) ∧ r.Wf ∧ r.shape = [di, dk] ∧
      ∀ i < di, ∀ k < dk, r.read [i, k] = .ok (∑ j ∈ Finset.range dj, tu [i, j] * tv [j, k]) := by
  have hd : Denotes "ij,jk->ik" [['i', 'j'], ['j', 'k']] ['i', 'k'] :=
    .inl ⟨by decide, ⟨by simp, by simp [Letter], by simp [Letter]⟩, by simp [OutputOk, Used]⟩
  obtain ⟨r, h1, h2, h3, h4⟩ := einsum_ok (operands := [u, v]) (ts := [tu, tv])
    (dims := fun c => if c = 'i' then di else if c = 'j' then dj else if c = 'k' then dk else 0)
    ⟨hd, .cons (by simp [su]) (.cons (by simp [sv]) (.nil)), .cons hu (.cons hv (.nil))⟩
    (by simp [NoEmptyDiagonal]) h al
  refine ⟨r, h1, h2, by simpa using h3, ?_⟩
  intro i hi k hk
  have e := h4 (fun c => if c = 'i' then i else if c = 'k' then k else 0) (by simp [InRange, hi, hk])
  rw [Spec.einsum, show summed [['i', 'j'], ['j', 'k']] ['i', 'k'] = ['j'] by decide] at e
  simpa [sumOver, term, Function.update_apply, mul_assoc] using e

/-- C40: `ij,j->i` is the product of a matrix and a vector. -/
theorem C40_matrix_vector (h : HashOrd) (al : Alloc A) (u v : View A) (tu tv : List Nat → A)
    (di dj : Nat) (hu : Elements u tu) (hv : Elements v tv) 
    (su : u.shape = [di, dj]) (sv : v.shape = [dj]) :
    ∃ r, einsum h al "ij,j->i" [u, v] = .ok (.ok r) ∧ r.Wf ∧ r.shape = [di] ∧
      ∀ i < di, r.read [i] = .ok (∑ j ∈ Finset.range dj, tu [i, j] * tv [j]) := by
  have hd : Denotes "ij,j->i" [['i', 'j'], ['j']] ['i'] :=
    .inl ⟨by decide, ⟨by simp, by simp [Letter], by simp [Letter]⟩, by simp [OutputOk, Used]⟩
  obtain ⟨r, h1, h2, h3, h4⟩ := einsum_ok (operands := [u, v]) (ts := [tu, tv])
    (dims := fun c => if c = 'i' then di else if c = 'j' then dj else 0)
    ⟨hd, .cons (by simp [su]) (.cons (by simp [sv]) (.nil)), .cons hu (.cons hv (.nil))⟩
    (by simp [NoEmptyDiagonal]) h al
  refine ⟨r, h1, h2, by simpa using h3, ?_⟩
  intro i hi
  have e := h4 (fun c => if c = 'i' then i else 0) (by simp [InRange, hi])
  rw [Spec.einsum, show summed [['i', 'j'], ['j']] ['i'] = ['j'] by decide] at e
  simpa [sumOver, term, Function.update_apply, mul_assoc] using e

/-- C40: `i,i->` is the dot product. -/
theorem C40_dot_product (h : HashOrd) (al : Alloc A) (u v : View A) (tu tv : List Nat → A)
    (di : Nat) (hu : Elements u tu) (hv : Elements v tv) 
    (su : u.shape = [di]) (sv : v.shape = [di]) :
    ∃ r, einsum h al "i,i->" [u, v] = .ok (.ok r) ∧ r.Wf ∧ r.shape = [] ∧
      r.read [] = .ok (∑ i ∈ Finset.range di, tu [i] * tv [i]) := by
  have hd : Denotes "i,i->" [['i'], ['i']] [] :=
    .inl ⟨by decide, ⟨by simp, by simp [Letter], by simp [Letter]⟩, by simp [OutputOk, Used]⟩
  obtain ⟨r, h1, h2, h3, h4⟩ := einsum_ok (operands := [u, v]) (ts := [tu, tv])
    (dims := fun c => if c = 'i' then di else 0)
    ⟨hd, .cons (by simp [su]) (.cons (by simp [sv]) (.nil)), .cons hu (.cons hv (.nil))⟩
    (by simp [NoEmptyDiagonal]) h al
  refine ⟨r, h1, h2, by simpa using h3, ?_⟩
  have e := h4 (fun c =>  0) (by simp [InRange])
  rw [Spec.einsum, show summed [['i'], ['i']] [] = ['i'] by decide] at e
  simpa [sumOver, term, Function.update_apply, mul_assoc] using e

/-- C40: `i,j->ij` is the outer product. -/
theorem C40_outer_product (h : HashOrd) (al : Alloc A) (u v : View A) (tu tv : List Nat → A)
    (di dj : Nat) (hu : Elements u tu) (hv : Elements v tv) 
    (su : u.shape = [di]) (sv : v.shape = [dj]) :
    ∃ r, einsum h al "i,j->ij" [u, v] = .ok (.ok r) ∧ r.Wf ∧ r.shape = [di, dj] ∧
      ∀ i < di, ∀ j < dj, r.read [i, j] = .ok (tu [i] * tv [j]) := by
  have hd : Denotes "i,j->ij" [['i'], ['j']] ['i', 'j'] :=
    .inl ⟨by decide, ⟨by simp, by simp [Letter], by simp [Letter]⟩, by simp [OutputOk, Used]⟩
  obtain ⟨r, h1, h2, h3, h4⟩ := einsum_ok (operands := [u, v]) (ts := [tu, tv])
    (dims := fun c => if c = 'i' then di else if c = 'j' then dj else 0)
    ⟨hd, .cons (by simp [su]) (.cons (by simp [sv]) (.nil)), .cons hu (.cons hv (.nil))⟩
    (by simp [NoEmptyDiagonal]) h al
  refine ⟨r, h1, h2, by simpa using h3, ?_⟩
  intro i hi j hj
  have e := h4 (fun c => if c = 'i' then i else if c = 'j' then j else 0) (by simp [InRange, hi, hj])
  rw [Spec.einsum, show summed [['i'], ['j']] ['i', 'j'] = [] by decide] at e
  simpa [sumOver, term, Function.update_apply, mul_assoc] using e

/-- C40: `ij,ij->ij` is the elementwise product. -/
theorem C40_elementwise_product (h : HashOrd) (al : Alloc A) (u v : View A) (tu tv : List Nat → A)
    (di dj : Nat) (hu : Elements u tu) (hv : Elements v tv) 
    (su : u.shape = [di, dj]) (sv : v.shape = [di, dj]) :
    ∃ r, einsum h al "ij,ij->ij" [u, v] = .ok (.ok r) ∧ r.Wf ∧ r.shape = [di, dj] ∧
      ∀ i < di, ∀ j < dj, r.read [i, j] = .ok (tu [i, j] * tv [i, j]) := by
  have hd : Denotes "ij,ij->ij" [['i', 'j'], ['i', 'j']] ['i', 'j'] :=
    .inl ⟨by decide, ⟨by simp, by simp [Letter], by simp [Letter]⟩, by simp [OutputOk, Used]⟩
  obtain ⟨r, h1, h2, h3, h4⟩ := einsum_ok (operands := [u, v]) (ts := [tu, tv])
    (dims := fun c => if c = 'i' then di else if c = 'j' then dj else 0)
    ⟨hd, .cons (by simp [su]) (.cons (by simp [sv]) (.nil)), .cons hu (.cons hv (.nil))⟩
    (by simp [NoEmptyDiagonal]) h al
  refine ⟨r, h1, h2, by simpa using h3, ?_⟩
  intro i hi j hj
  have e := h4 (fun c => if c = 'i' then i else if c = 'j' then j else 0) (by simp [InRange, hi, hj])
  rw [Spec.einsum, show summed [['i', 'j'], ['i', 'j']] ['i', 'j'] = [] by decide] at e
  simpa [sumOver, term, Function.update_apply, mul_assoc] using e

/-- C40: `nij,njk->nik` is the batch matrix product. -/
theorem C40_batch_product (h : HashOrd) (al : Alloc A) (u v : View A) (tu tv : List Nat → A)
    (dn di dj dk : Nat) (hu : Elements u tu) (hv : Elements v tv) 
    (su : u.shape = [dn, di, dj]) (sv : v.shape = [dn, dj, dk]) :
    ∃ r, einsum h al "nij,njk->nik" [u, v] = .ok (.ok r) ∧ r.Wf ∧ r.shape = [dn, di, dk] ∧
      ∀ n < dn, ∀ i < di, ∀ k < dk, r.read [n, i, k] = .ok (∑ j ∈ Finset.range dj, tu [n, i, j] * tv [n, j, k]) := by
  have hd : Denotes "nij,njk->nik" [['n', 'i', 'j'], ['n', 'j', 'k']] ['n', 'i', 'k'] :=
    .inl ⟨by decide, ⟨by simp, by simp [Letter], by simp [Letter]⟩, by simp [OutputOk, Used]⟩
  obtain ⟨r, h1, h2, h3, h4⟩ := einsum_ok (operands := [u, v]) (ts := [tu, tv])
    (dims := fun c => if c = 'n' then dn else if c = 'i' then di else if c = 'j' then dj else if c = 'k' then dk else 0)
    ⟨hd, .cons (by simp [su]) (.cons (by simp [sv]) (.nil)), .cons hu (.cons hv (.nil))⟩
    (by simp [NoEmptyDiagonal]) h al
  refine ⟨r, h1, h2, by simpa using h3, ?_⟩
  intro n hn i hi k hk
  have e := h4 (fun c => if c = 'n' then n else if c = 'i' then i else if c = 'k' then k else 0) (by simp [InRange, hn, hi, hk])
  rw [Spec.einsum, show summed [['n', 'i', 'j'], ['n', 'j', 'k']] ['n', 'i', 'k'] = ['j'] by decide] at e
  simpa [sumOver, term, Function.update_apply, mul_assoc] using e

/-- C40: `i,ij,j->` is the bilinear form. -/
theorem C40_bilinear (h : HashOrd) (al : Alloc A) (u v w : View A) (tu tv tw : List Nat → A)
    (di dj : Nat) (hu : Elements u tu) (hv : Elements v tv) (hw : Elements w tw) 
    (su : u.shape = [di]) (sv : v.shape = [di, dj]) (sw : w.shape = [dj]) :
    ∃ r, einsum h al "i,ij,j->" [u, v, w] = .ok (.ok r) ∧ r.Wf ∧ r.shape = [] ∧
      r.read [] = .ok (∑ i ∈ Finset.range di, ∑ j ∈ Finset.range dj, tu [i] * tv [i, j] * tw [j]) := by
  have hd : Denotes "i,ij,j->" [['i'], ['i', 'j'], ['j']] [] :=
    .inl ⟨by decide, ⟨by simp, by simp [Letter], by simp [Letter]⟩, by simp [OutputOk, Used]⟩
  obtain ⟨r, h1, h2, h3, h4⟩ := einsum_ok (operands := [u, v, w]) (ts := [tu, tv, tw])
    (dims := fun c => if c = 'i' then di else if c = 'j' then dj else 0)
    ⟨hd, .cons (by simp [su]) (.cons (by simp [sv]) (.cons (by simp [sw]) (.nil))), .cons hu (.cons hv (.cons hw (.nil)))⟩
    (by simp [NoEmptyDiagonal]) h al
  refine ⟨r, h1, h2, by simpa using h3, ?_⟩
  have e := h4 (fun c =>  0) (by simp [InRange])
  rw [Spec.einsum, show summed [['i'], ['i', 'j'], ['j']] [] = ['i', 'j'] by decide] at e
  simpa [sumOver, term, Function.update_apply, mul_assoc] using e

/-- C40: transposing twice gives the array back. -/
theorem C40_transpose_twice (h h' : HashOrd) (al al' : Alloc A) (u : View A) (di dj : Nat) (hu : u.Wf)
    (su : u.shape = [di, dj]) :
    ∃ r r', einsum h al "ij->ji" [u] = .ok (.ok r) ∧ einsum h' al' "ij->ji" [r] = .ok (.ok r') ∧
      SameArray r' u := by
  obtain ⟨r, h1, h2, h3, h4⟩ := C40_transpose h al u _ di dj hu.elements su
  obtain ⟨r', h5, h6, h7, h8⟩ := C40_transpose h' al' r _ dj di h2.elements h3
  refine ⟨r, r', h1, h5, h6, hu, by rw [h7, su], fun idx hi => ?_⟩
  rw [h7] at hi
  obtain ⟨σ, hσ, rfl⟩ := exists_assign (out := ['i', 'j']) (dims := fun c => if c = 'i' then di else dj)
    (by decide) (by simpa using hi)
  have hi' : σ 'i' < di := by simpa using hσ 'i' (by simp)
  have hj' : σ 'j' < dj := by simpa using hσ 'j' (by simp)
  have e := h4 (σ 'j') hj' (σ 'i') hi'
  have e' := h8 (σ 'i') hi' (σ 'j') hj'
  have eu := hu.elements.2 [σ 'i', σ 'j'] (by rw [su]; simpa using hi)
  simp only [List.map_cons, List.map_nil]
  rw [e', eu]
  simp [View.elem, e]

/-! Concrete arrays of the shapes required above. -/

namespace Ex

/-- A square matrix with a negative and a positive stride. -/
def m22 : View Int := ⟨[1, 2, 3, 4], 2, [2, 2], [-2, 1]⟩
def v2 : View Int := ⟨[1, 0, 2], 0, [2], [2]⟩
def v3 : View Int := ⟨[7], 0, [3], [0]⟩
def m223 : View Int := ⟨[1, 2, 3, 4, 5, 6, 7, 8, 9, 10, 11, 12], 0, [2, 2, 3], [6, 3, 1]⟩
def m232 : View Int := ⟨[1, 2, 3, 4, 5, 6, 7, 8, 9, 10, 11, 12], 0, [2, 3, 2], [6, 1, 3]⟩
theorem e22 : Elements m22 (elems m22) := elements_of rfl (by decide)
theorem e2 : Elements v2 (elems v2) := elements_of rfl (by decide)
theorem e3 : Elements v3 (elems v3) := elements_of rfl (by decide)
theorem e223 : Elements m223 (elems m223) := elements_of rfl (by decide)
theorem e232 : Elements m232 (elems m232) := elements_of rfl (by decide)

end Ex

section Examples

variable (h : HashOrd) (al : Alloc Int)

example := C40_copy h al Ex.m32 _ 3 2 Ex.e32 rfl
example := C40_transpose h al Ex.m32 _ 3 2 Ex.e32 rfl
example := C40_trace h al Ex.m22 _ 2 Ex.e22 (by decide) rfl
example := C40_diagonal h al Ex.m22 _ 2 Ex.e22 (by decide) rfl
example := C40_row_sums h al Ex.m32 _ 3 2 Ex.e32 rfl
example := C40_total h al Ex.m32 _ 3 2 Ex.e32 rfl
example := C40_matrix_product h al Ex.m23 Ex.m32 _ _ 2 3 2 Ex.e23 Ex.e32 rfl rfl
example := C40_matrix_vector h al Ex.m23 Ex.v3 _ _ 2 3 Ex.e23 Ex.e3 rfl rfl
example := C40_dot_product h al Ex.v3 Ex.v3 _ _ 3 Ex.e3 Ex.e3 rfl rfl
example := C40_outer_product h al Ex.v2 Ex.v3 _ _ 2 3 Ex.e2 Ex.e3 rfl rfl
example := C40_elementwise_product h al Ex.m32 Ex.m32' _ _ 3 2 Ex.e32 Ex.e32' rfl rfl
example := C40_batch_product h al Ex.m223 Ex.m232 _ _ 2 2 3 2 Ex.e223 Ex.e232 rfl rfl
example := C40_bilinear h al Ex.v2 Ex.m23 Ex.v3 _ _ _ 2 3 Ex.e2 Ex.e23 Ex.e3 rfl rfl rfl
example := C40_transpose_twice h h al al Ex.m32 3 2 Ex.e32.1 rfl

end Examples

end Einsum
