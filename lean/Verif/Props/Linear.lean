import Mathlib.LinearAlgebra.Matrix.Hadamard
import Mathlib.LinearAlgebra.Matrix.Notation
import Mathlib.LinearAlgebra.Matrix.Trace
import Verif.SpecMatrix
import Verif.Props.Special
import Verif.Props.Tensordot

/-!
# Property C66: einsum and linear algebra
-/

namespace Einsum

open Spec Function

variable {A : Type} [CommSemiring A]

theorem Spec.IsMatrix.elem {m n : Nat} {v : View A} {a : Matrix (Fin m) (Fin n) A} (h : IsMatrix v a)
    (i : Fin m) (j : Fin n) : v.elem [i.val, j.val] = a i j := by simp [View.elem, h.2.2 i j]

theorem Spec.IsVector.elem {n : Nat} {v : View A} {x : Fin n → A} (h : IsVector v x) (i : Fin n) :
    v.elem [i.val] = x i := by simp [View.elem, h.2.2 i]

/-! ## Single operations -/

/-- C66: the matrix product. -/
theorem C66_product (h : HashOrd) (al : Alloc A) {m k n : Nat} (u v : View A) (a : Matrix (Fin m) (Fin k) A)
    (b : Matrix (Fin k) (Fin n) A) (hu : IsMatrix u a) (hv : IsMatrix v b) :
    ∃ r, einsum h al "ij,jk->ik" [u, v] = .ok (.ok r) ∧ IsMatrix r (a * b) := by
  obtain ⟨r, h1, h2, h3, h4⟩ := C40_matrix_product h al u v _ _ m k n hu.1.elements hv.1.elements hu.2.1 hv.2.1
  refine ⟨r, h1, h2, h3, fun i j => ?_⟩
  rw [h4 i i.2 j j.2, Matrix.mul_apply, ← Fin.sum_univ_eq_sum_range]
  simp only [hu.elem, hv.elem]

/-- C66: a matrix times a column vector. -/
theorem C66_mulVec (h : HashOrd) (al : Alloc A) {m n : Nat} (u v : View A) (a : Matrix (Fin m) (Fin n) A)
    (x : Fin n → A) (hu : IsMatrix u a) (hv : IsVector v x) :
    ∃ r, einsum h al "ij,j->i" [u, v] = .ok (.ok r) ∧ IsVector r (a.mulVec x) := by
  obtain ⟨r, h1, h2, h3, h4⟩ := C40_matrix_vector h al u v _ _ m n hu.1.elements hv.1.elements hu.2.1 hv.2.1
  refine ⟨r, h1, h2, h3, fun i => ?_⟩
  rw [h4 i i.2, ← Fin.sum_univ_eq_sum_range (fun j => u.elem [i.val, j] * v.elem [j])]
  simp only [hu.elem, hv.elem]
  rfl

/-- C66: a row vector times a matrix. -/
theorem C66_vecMul (h : HashOrd) (al : Alloc A) {m n : Nat} (u v : View A) (x : Fin m → A)
    (a : Matrix (Fin m) (Fin n) A) (hu : IsVector u x) (hv : IsMatrix v a) :
    ∃ r, einsum h al "i,ij->j" [u, v] = .ok (.ok r) ∧ IsVector r (Matrix.vecMul x a) := by
  have hd : Denotes "i,ij->j" [['i'], ['i', 'j']] ['j'] :=
    .inl ⟨by decide, ⟨by simp, by simp [Letter], by simp [Letter]⟩, by simp [OutputOk, Used]⟩
  obtain ⟨r, h1, h2, h3, h4⟩ := einsum_ok (operands := [u, v]) (ts := [u.elem, v.elem])
    (dims := fun c => if c = 'i' then m else if c = 'j' then n else 0)
    ⟨hd, .cons (by simp [hu.2.1]) (.cons (by simp [hv.2.1]) .nil), .cons hu.1.elements (.cons hv.1.elements .nil)⟩
    (by simp [NoEmptyDiagonal]) h al
  refine ⟨r, h1, h2, by simpa using h3, fun j => ?_⟩
  have e := h4 (fun c => if c = 'j' then j else 0) (by simp [InRange])
  rw [Spec.einsum, show summed [['i'], ['i', 'j']] ['j'] = ['i'] by decide] at e
  have e' : r.read [j.val] = .ok (∑ i ∈ Finset.range m, u.elem [i] * v.elem [i, j.val]) := by
    simpa [sumOver, term, Function.update_apply, mul_assoc] using e
  rw [e', ← Fin.sum_univ_eq_sum_range (fun i => u.elem [i] * v.elem [i, j.val])]
  simp only [hu.elem, hv.elem]
  rfl

/-- C66: the dot product. -/
theorem C66_dot (h : HashOrd) (al : Alloc A) {n : Nat} (u v : View A) (x y : Fin n → A)
    (hu : IsVector u x) (hv : IsVector v y) :
    ∃ r, einsum h al "i,i->" [u, v] = .ok (.ok r) ∧ IsScalar r (x ⬝ᵥ y) := by
  obtain ⟨r, h1, h2, h3, h4⟩ := C40_dot_product h al u v _ _ n hu.1.elements hv.1.elements hu.2.1 hv.2.1
  refine ⟨r, h1, h2, h3, ?_⟩
  rw [h4, ← Fin.sum_univ_eq_sum_range (fun j => u.elem [j] * v.elem [j])]
  simp only [hu.elem, hv.elem]
  rfl

/-- C66: the outer product. -/
theorem C66_outer (h : HashOrd) (al : Alloc A) {m n : Nat} (u v : View A) (x : Fin m → A) (y : Fin n → A)
    (hu : IsVector u x) (hv : IsVector v y) :
    ∃ r, einsum h al "i,j->ij" [u, v] = .ok (.ok r) ∧ IsMatrix r (Matrix.vecMulVec x y) := by
  obtain ⟨r, h1, h2, h3, h4⟩ := C40_outer_product h al u v _ _ m n hu.1.elements hv.1.elements hu.2.1 hv.2.1
  refine ⟨r, h1, h2, h3, fun i j => ?_⟩
  rw [h4 i i.2 j j.2, hu.elem, hv.elem]
  rfl

/-- C66: the transpose. -/
theorem C66_transpose (h : HashOrd) (al : Alloc A) {m n : Nat} (u : View A) (a : Matrix (Fin m) (Fin n) A)
    (hu : IsMatrix u a) : ∃ r, einsum h al "ij->ji" [u] = .ok (.ok r) ∧ IsMatrix r a.transpose := by
  obtain ⟨r, h1, h2, h3, h4⟩ := C40_transpose h al u _ m n hu.1.elements hu.2.1
  refine ⟨r, h1, h2, h3, fun i j => ?_⟩
  rw [h4 i i.2 j j.2, hu.elem]
  rfl

/-- C66: the elementwise product. -/
theorem C66_hadamard (h : HashOrd) (al : Alloc A) {m n : Nat} (u v : View A) (a b : Matrix (Fin m) (Fin n) A)
    (hu : IsMatrix u a) (hv : IsMatrix v b) :
    ∃ r, einsum h al "ij,ij->ij" [u, v] = .ok (.ok r) ∧ IsMatrix r (a.hadamard b) := by
  obtain ⟨r, h1, h2, h3, h4⟩ := C40_elementwise_product h al u v _ _ m n hu.1.elements hv.1.elements hu.2.1 hv.2.1
  refine ⟨r, h1, h2, h3, fun i j => ?_⟩
  rw [h4 i i.2 j j.2, hu.elem, hv.elem]
  rfl

/-- C66: the diagonal of a square matrix (with at least one row, see C14). -/
theorem C66_diagonal (h : HashOrd) (al : Alloc A) {n : Nat} (u : View A) (a : Matrix (Fin n) (Fin n) A)
    (hu : IsMatrix u a) (hn : 0 < n) : ∃ r, einsum h al "ii->i" [u] = .ok (.ok r) ∧ IsVector r a.diag := by
  obtain ⟨r, h1, h2, h3, h4⟩ := C40_diagonal h al u _ n hu.1.elements hn hu.2.1
  refine ⟨r, h1, h2, h3, fun i => ?_⟩
  rw [h4 i i.2, hu.elem]
  rfl

/-- C66: the trace of a square matrix (with at least one row, see C14). -/
theorem C66_trace (h : HashOrd) (al : Alloc A) {n : Nat} (u : View A) (a : Matrix (Fin n) (Fin n) A)
    (hu : IsMatrix u a) (hn : 0 < n) : ∃ r, einsum h al "ii" [u] = .ok (.ok r) ∧ IsScalar r a.trace := by
  obtain ⟨r, h1, h2, h3, h4⟩ := C40_trace h al u _ n hu.1.elements hn hu.2.1
  refine ⟨r, h1, h2, h3, ?_⟩
  rw [h4, ← Fin.sum_univ_eq_sum_range (fun i => u.elem [i, i])]
  simp only [hu.elem]
  rfl

/-- C66: `tensordot` over the inner axes is the matrix product. -/
theorem C66_tensordot (al : Alloc A) {m k n : Nat} (u v : View A) (a : Matrix (Fin m) (Fin k) A)
    (b : Matrix (Fin k) (Fin n) A) (hu : IsMatrix u a) (hv : IsMatrix v b) :
    ∃ r, tensordot al u v [1] [0] = .ok r ∧ IsMatrix r (a * b) := by
  have hd : Denotes "ij,jk->ik" [['i', 'j'], ['j', 'k']] ['i', 'k'] :=
    .inl ⟨by decide, ⟨by simp, by simp [Letter], by simp [Letter]⟩, by simp [OutputOk, Used]⟩
  obtain ⟨w, r, h1, h2, h3⟩ := C21_einsum .insertion al al u v [1] [0] ['i', 'j'] ['j', 'k'] ['j'] ['i', 'k'] _
    (fun c => if c = 'i' then m else if c = 'j' then k else if c = 'k' then n else 0) hd
    (.cons (by simp [hu.2.1]) (.cons (by simp [hv.2.1]) .nil)) hu.1 hv.1 (by decide) (by decide)
    (by intro c; simp only [List.mem_cons, List.not_mem_nil, or_false]; constructor
        · rintro rfl; simp
        · rintro ⟨rfl | rfl, h | h⟩ <;> first | rfl | (revert h; decide))
    (by decide) (by decide) (by decide) (by decide)
  obtain ⟨r', h4, h5⟩ := C66_product .insertion al u v a b hu hv
  rw [h2] at h4
  cases h4
  refine ⟨w, h1, h3.1, h3.2.2.1.trans h5.2.1, fun i j => ?_⟩
  rw [h3.2.2.2 _ (by rw [h3.2.2.1, h5.2.1]; exact ⟨i.2, j.2, trivial⟩), h5.2.2 i j]

/-! ## Chains -/

theorem links_cons (a b : Char) (l : List Char) : links (a :: b :: l) = [a, b] :: links (b :: l) := rfl

omit [CommSemiring A] in
theorem sized_cons {dims : Char → Nat} {ix : List Char} {inputs : List (List Char)} {v : View A} {vs : List (View A)} :
    Sized dims (ix :: inputs) ((v :: vs).map View.shape) ↔
      v.shape = ix.map dims ∧ Sized dims inputs (vs.map View.shape) := by
  simp [Sized]

theorem mem_links : ∀ {L : List Char} {c : Char}, c ∈ (links L).flatten → c ∈ L
  | [], c, h => by simp [links] at h
  | [_], c, h => by simp [links] at h
  | a :: b :: l, c, h => by
    rw [links_cons, List.flatten_cons, List.mem_append] at h
    rcases h with h | h
    · simp only [List.mem_cons, List.not_mem_nil, or_false] at h
      rcases h with rfl | rfl <;> simp
    · exact List.mem_cons_of_mem _ (mem_links h)

theorem links_mem : ∀ {L : List Char} {c : Char}, 2 ≤ L.length → c ∈ L → c ∈ (links L).flatten
  | [], c, h, _ => by simp at h
  | [_], c, h, _ => by simp at h
  | [a, b], c, _, h => by simpa [links] using h
  | a :: b :: d :: l, c, _, h => by
    rw [links_cons, List.flatten_cons, List.mem_append]
    rcases List.mem_cons.1 h with rfl | h
    · exact .inl (by simp)
    · exact .inr (links_mem (by simp) h)

theorem links_nodup : ∀ {L : List Char}, L.IsChain (· ≠ ·) → ∀ ix ∈ links L, ix.Nodup
  | [], _, ix, h => by simp [links] at h
  | [_], _, ix, h => by simp [links] at h
  | a :: b :: l, hL, ix, h => by
    rw [links_cons, List.mem_cons] at h
    rw [List.isChain_cons_cons] at hL
    rcases h with rfl | h
    · simpa using hL.1
    · exact links_nodup hL.2 ix h

theorem links_length : ∀ L : List Char, (links L).length = L.length - 1
  | [] => rfl
  | [_] => rfl
  | a :: b :: l => by
    rw [links_cons, List.length_cons, links_length (b :: l)]
    simp

theorem links_two : ∀ {L : List Char}, ∀ ix ∈ links L, ix.length = 2
  | [], ix, h => by simp [links] at h
  | [_], ix, h => by simp [links] at h
  | a :: b :: l, ix, h => by
    rw [links_cons, List.mem_cons] at h
    rcases h with rfl | h
    · rfl
    · exact links_two ix h

omit [CommSemiring A] in
theorem sized_congr {dims dims' : Char → Nat} {inputs : List (List Char)} {shapes : List (List Nat)}
    (h : Sized dims inputs shapes) (he : ∀ c ∈ inputs.flatten, dims' c = dims c) : Sized dims' inputs shapes := by
  unfold Sized at h ⊢
  induction h with
  | nil => exact .nil
  | @cons ix sh inputs shapes h1 _ ih =>
    refine .cons ?_ (ih fun c hc => he c (by rw [List.flatten_cons]; exact List.mem_append_right _ hc))
    rw [h1]
    exact List.map_congr_left fun c hc => (he c (by rw [List.flatten_cons]; exact List.mem_append_left _ hc)).symm

theorem Spec.MatrixChain.wf {vs : List (View A)} {m n : Nat} {a : Matrix (Fin m) (Fin n) A} (hc : MatrixChain vs a) :
    ∀ v ∈ vs, v.Wf := by
  induction hc with
  | one h => simpa using h.1
  | cons h _ ih => simpa using ⟨h.1, ih⟩

theorem chain_value {vs : List (View A)} {m n : Nat} {a : Matrix (Fin m) (Fin n) A} (hc : MatrixChain vs a) :
    ∀ (x : Char) (mid : List Char) (z : Char) (dims : Char → Nat), mid.Nodup → x ∉ mid → z ∉ mid →
      Sized dims (links (x :: (mid ++ [z]))) (vs.map View.shape) →
      dims x = m ∧ dims z = n ∧ ∀ (σ : Char → Nat) (hx : σ x < m) (hz : σ z < n),
        sumOver dims mid (term (links (x :: (mid ++ [z]))) (vs.map View.elem)) σ = a ⟨σ x, hx⟩ ⟨σ z, hz⟩ := by
  induction hc with
  | @one v m n a h1 =>
    intro x mid z dims hm hx hz hs
    cases mid with
    | cons y mid =>
      exfalso
      have := hs.length_eq
      cases mid <;> simp [links] at this
    | nil =>
      rw [List.nil_append, links_cons, sized_cons, h1.2.1] at hs
      have h2 := hs.1
      simp only [List.map_cons, List.map_nil, List.cons.injEq, and_true] at h2
      refine ⟨h2.1.symm, h2.2.symm, fun σ hx hz => ?_⟩
      have := h1.elem ⟨σ x, hx⟩ ⟨σ z, hz⟩
      simpa [sumOver, term, links] using this
  | @cons v vs m k n a b h1 hc ih =>
    intro x mid z dims hm hx hz hs
    cases mid with
    | nil =>
      exfalso
      have := hs.length_eq
      cases hc <;> simp [links] at this
    | cons y mid =>
      rw [List.cons_append, links_cons, sized_cons, h1.2.1] at hs
      obtain ⟨h2, hs⟩ := hs
      simp only [List.map_cons, List.map_nil, List.cons.injEq, and_true] at h2
      simp only [List.mem_cons, not_or, List.nodup_cons] at hm hx hz
      obtain ⟨i1, i2, i3⟩ := ih y mid z dims hm.2 hm.1 hz.2 hs
      refine ⟨h2.1.symm, i2, fun σ hx' hz' => ?_⟩
      rw [sumOver_cons, ← h2.2, Matrix.mul_apply, ← Fin.sum_univ_eq_sum_range]
      refine Finset.sum_congr rfl fun j _ => ?_
      have e : term (links (x :: y :: (mid ++ [z]))) ((v :: vs).map View.elem) =
          fun σ => v.elem ([x, y].map σ) * term (links (y :: (mid ++ [z]))) (vs.map View.elem) σ := by
        funext σ
        rw [links_cons, List.map_cons, term_cons]
      rw [List.cons_append, e, sumOver_mul_left (dependsOn_map v.elem [x, y]) (by simp [hx.2, hm.1])]
      have := i3 (update σ y j.val) (by simp) (by rw [update_of_ne hz.1]; exact hz')
      rw [this]
      simp only [List.map_cons, List.map_nil, update_self, update_of_ne hx.1, update_of_ne hz.1, Fin.eta]
      rw [h1.elem ⟨σ x, hx'⟩ j]

theorem chain_dims {vs : List (View A)} {m n : Nat} {a : Matrix (Fin m) (Fin n) A} (hc : MatrixChain vs a) :
    ∀ (x : Char) (mid : List Char) (z : Char), mid.length + 1 = vs.length → mid.Nodup → x ∉ mid → z ∉ mid →
      (x = z → m = n) → ∃ dims, Sized dims (links (x :: (mid ++ [z]))) (vs.map View.shape) := by
  induction hc with
  | @one v m n a h1 =>
    intro x mid z hl hm hx hz he
    cases mid with
    | cons y mid => simp at hl
    | nil =>
      refine ⟨update (fun _ => m) z n, ?_⟩
      rw [List.nil_append, links_cons, sized_cons, h1.2.1]
      refine ⟨?_, .nil⟩
      by_cases hxz : x = z
      · subst hxz; simp [he rfl]
      · simp [update_of_ne hxz]
  | @cons v vs m k n a b h1 hc ih =>
    intro x mid z hl hm hx hz he
    cases mid with
    | nil => cases hc <;> simp at hl
    | cons y mid =>
      simp only [List.mem_cons, not_or, List.nodup_cons] at hm hx hz
      obtain ⟨dims, hs⟩ := ih y mid z (by simpa using hl) hm.2 hm.1 hz.2 fun e => (hz.1 e.symm).elim
      obtain ⟨d1, d2, -⟩ := chain_value hc y mid z dims hm.2 hm.1 hz.2 hs
      refine ⟨update dims x m, ?_⟩
      rw [List.cons_append, links_cons, sized_cons, h1.2.1]
      refine ⟨by simp [update_of_ne (Ne.symm hx.1), d1], ?_⟩
      refine sized_congr hs fun c hc' => ?_
      by_cases hcx : c = x
      · subst hcx
        have := mem_links hc'
        simp only [List.mem_cons, List.mem_append, List.not_mem_nil, or_false] at this
        have hcz : c = z := by tauto
        rw [update_self, he hcz, hcz, d2]
      · rw [update_of_ne hcx]

/-- C66: a chain of matrices, `ab,bc,..,yz->az`, gives their product. -/
theorem C66_chain (h : HashOrd) (al : Alloc A) (vs : List (View A)) {m n : Nat} (a : Matrix (Fin m) (Fin n) A)
    (hc : MatrixChain vs a) (x : Char) (mid : List Char) (z : Char) (hl : mid.length + 1 = vs.length)
    (hL : (x :: (mid ++ [z])).Nodup) (hlet : ∀ c ∈ x :: (mid ++ [z]), Letter c) (s : String)
    (hs : s.toList = render (links (x :: (mid ++ [z]))) (some [x, z])) :
    ∃ r, einsum h al s vs = .ok (.ok r) ∧ IsMatrix r a := by
  have h2 : 2 ≤ (x :: (mid ++ [z])).length := by simp
  have hxz : x ≠ z ∧ x ∉ mid ∧ z ∉ mid ∧ mid.Nodup := by
    simp only [List.nodup_cons, List.mem_append, List.mem_singleton, not_or, List.nodup_append] at hL
    exact ⟨hL.1.2, hL.1.1, fun hz => hL.2.2.2 z hz z rfl rfl, hL.2.1⟩
  obtain ⟨hne, hx, hz, hm⟩ := hxz
  obtain ⟨dims, hd⟩ := chain_dims hc x mid z hl hm hx hz fun e => (hne e).elim
  obtain ⟨d1, d2, hv⟩ := chain_value hc x mid z dims hm hx hz hd
  have hden : Denotes s (links (x :: (mid ++ [z]))) [x, z] := by
    refine .inl ⟨hs, ⟨?_, fun p hp => ⟨?_, fun c hcp => ?_⟩, ?_⟩, by simpa using hne, ?_⟩
    · intro e
      have := links_length (x :: (mid ++ [z]))
      rw [e] at this
      simp at this
    · intro e
      have := links_two p hp
      simp [e] at this
    · exact hlet c (mem_links (List.mem_flatten.2 ⟨p, hp, hcp⟩))
    · intro o ho c hco
      cases ho
      exact hlet c (by simp only [List.mem_cons, List.not_mem_nil, or_false] at hco; rcases hco with rfl | rfl <;> simp)
    · intro c hco
      exact used_iff.2 (links_mem h2 (by
        simp only [List.mem_cons, List.not_mem_nil, or_false] at hco; rcases hco with rfl | rfl <;> simp))
  obtain ⟨r, r1, r2, r3, r4⟩ := einsum_ok ⟨hden, hd, forall₂_elem hc.wf⟩
    (fun ix hi => .inl (links_nodup (List.Pairwise.isChain hL) ix hi)) h al
  refine ⟨r, r1, r2, by rw [r3]; simp [d1, d2], fun i j => ?_⟩
  have e := r4 (fun c => if c = x then i else j) (by simp [InRange, Ne.symm hne, d1, d2])
  rw [Spec.einsum, ← sumOver_summed (S := mid) hm (fun c => ?_), hv] at e
  · simpa [Ne.symm hne] using e
  · simp
  · simp [Ne.symm hne]
  · constructor
    · intro hcm
      exact ⟨links_mem h2 (by simp [hcm]), by simp; constructor <;> rintro rfl <;> contradiction⟩
    · rintro ⟨h3, h4⟩
      have := mem_links h3
      simp only [List.mem_cons, List.mem_append, List.not_mem_nil, or_false] at this h4
      tauto

/-- C66: a closed chain of matrices, `ab,bc,..,ya->`, gives the trace of their product.  (A single matrix must have at
least one row, see C14.) -/
theorem C66_chain_trace (h : HashOrd) (al : Alloc A) (vs : List (View A)) {n : Nat} (a : Matrix (Fin n) (Fin n) A)
    (hc : MatrixChain vs a) (x : Char) (mid : List Char) (hl : mid.length + 1 = vs.length)
    (hL : (x :: mid).Nodup) (hlet : ∀ c ∈ x :: mid, Letter c) (h0 : mid ≠ [] ∨ 0 < n) (s : String)
    (hs : s.toList = render (links (x :: (mid ++ [x]))) (some [])) :
    ∃ r, einsum h al s vs = .ok (.ok r) ∧ IsScalar r a.trace := by
  have h2 : 2 ≤ (x :: (mid ++ [x])).length := by simp
  have hx := (List.nodup_cons.1 hL).1
  have hm := (List.nodup_cons.1 hL).2
  obtain ⟨dims, hd⟩ := chain_dims hc x mid x hl hm hx hx fun _ => rfl
  obtain ⟨d1, -, hv⟩ := chain_value hc x mid x dims hm hx hx hd
  have hsub : ∀ c, c ∈ (links (x :: (mid ++ [x]))).flatten ↔ c ∈ x :: mid := fun c => by
    constructor
    · intro h3
      have := mem_links h3
      simp only [List.mem_cons, List.mem_append, List.not_mem_nil, or_false] at this ⊢
      tauto
    · intro h3
      exact links_mem h2 (by simp only [List.mem_cons, List.mem_append, List.not_mem_nil, or_false] at h3 ⊢; tauto)
  have hden : Denotes s (links (x :: (mid ++ [x]))) [] := by
    refine .inl ⟨hs, ⟨?_, fun p hp => ⟨?_, fun c hcp => ?_⟩, ?_⟩, by simp, by simp⟩
    · intro e
      have := links_length (x :: (mid ++ [x]))
      rw [e] at this
      simp at this
    · intro e
      have := links_two p hp
      simp [e] at this
    · exact hlet c ((hsub c).1 (List.mem_flatten.2 ⟨p, hp, hcp⟩))
    · intro o ho c hco
      cases ho
      simp at hco
  have hn : NoEmptyDiagonal dims (links (x :: (mid ++ [x]))) := by
    intro ix hi
    cases mid with
    | nil =>
      simp only [List.nil_append, links, List.mem_singleton] at hi
      subst hi
      refine .inr ?_
      have : 0 < n := h0.resolve_left fun h => h rfl
      simp only [List.mem_cons, List.not_mem_nil, or_false, or_self]
      rintro c rfl
      omega
    | cons y mid =>
      refine .inl (links_nodup ?_ ix hi)
      rw [List.cons_append, List.isChain_cons_cons]
      refine ⟨by rintro rfl; simp at hx, List.Pairwise.isChain ?_⟩
      rw [← List.cons_append]
      exact List.nodup_append.2 ⟨hm, by simp, fun a ha b hb => by
        rw [List.mem_singleton] at hb
        subst hb
        rintro rfl
        exact hx ha⟩
  obtain ⟨r, r1, r2, r3, r4⟩ := einsum_ok ⟨hden, hd, forall₂_elem hc.wf⟩ hn h al
  refine ⟨r, r1, r2, r3, ?_⟩
  have e := r4 (fun _ => 0) (by simp [InRange])
  rw [Spec.einsum, ← sumOver_summed (S := x :: mid) hL (fun c => by simp [hsub]), sumOver_cons, d1] at e
  rw [show r.read [] = _ from e, Matrix.trace, ← Fin.sum_univ_eq_sum_range]
  congr 1
  refine Finset.sum_congr rfl fun i _ => ?_
  rw [hv _ (by simp) (by simp)]
  simp

/-! ## Examples -/

namespace Ex

def a23 : Matrix (Fin 2) (Fin 3) Int := !![1, 2, 3; 4, 5, 6]
def a32 : Matrix (Fin 3) (Fin 2) Int := !![6, 5; 4, 3; 2, 1]
def x3 : Fin 3 → Int := ![7, 7, 7]
def a22 : Matrix (Fin 2) (Fin 2) Int := !![3, 4; 1, 2]

theorem is23 : IsMatrix m23 a23 := ⟨e23.1, rfl, by decide⟩
theorem is32 : IsMatrix m32 a32 := ⟨e32.1, rfl, by decide⟩
theorem is3 : IsVector v3 x3 := ⟨e3.1, rfl, by decide⟩
theorem is22 : IsMatrix m22 a22 := ⟨e22.1, rfl, by decide⟩

end Ex

example : ∃ r, einsum .reversed (Alloc.colMajor Int) "ij,jk->ik" [Ex.m23, Ex.m32] = .ok (.ok r) ∧
    IsMatrix r !![20, 14; 56, 41] := by
  obtain ⟨r, h1, h2⟩ := C66_product .reversed (Alloc.colMajor Int) _ _ _ _ Ex.is23 Ex.is32
  rw [show Ex.a23 * Ex.a32 = !![20, 14; 56, 41] by decide] at h2
  exact ⟨r, h1, h2⟩
example : ∃ r, tensordot (Alloc.rowMajor Int) Ex.m23 Ex.m32 [1] [0] = .ok r ∧ IsMatrix r (Ex.a23 * Ex.a32) :=
  C66_tensordot _ _ _ _ _ Ex.is23 Ex.is32
example : ∃ r, einsum .insertion (Alloc.rowMajor Int) "ij,j->i" [Ex.m23, Ex.v3] = .ok (.ok r) ∧
    IsVector r (Ex.a23.mulVec Ex.x3) := C66_mulVec _ _ _ _ _ _ Ex.is23 Ex.is3
example : ∃ r, einsum .insertion (Alloc.rowMajor Int) "i,ij->j" [Ex.v3, Ex.m32] = .ok (.ok r) ∧
    IsVector r (Matrix.vecMul Ex.x3 Ex.a32) := C66_vecMul _ _ _ _ _ _ Ex.is3 Ex.is32
example : ∃ r, einsum .insertion (Alloc.rowMajor Int) "i,i->" [Ex.v3, Ex.v3] = .ok (.ok r) ∧
    IsScalar r (Ex.x3 ⬝ᵥ Ex.x3) := C66_dot _ _ _ _ _ _ Ex.is3 Ex.is3
example : ∃ r, einsum .insertion (Alloc.rowMajor Int) "i,j->ij" [Ex.v3, Ex.v3] = .ok (.ok r) ∧
    IsMatrix r (Matrix.vecMulVec Ex.x3 Ex.x3) := C66_outer _ _ _ _ _ _ Ex.is3 Ex.is3
example : ∃ r, einsum .insertion (Alloc.rowMajor Int) "ij->ji" [Ex.m23] = .ok (.ok r) ∧
    IsMatrix r Ex.a23.transpose := C66_transpose _ _ _ _ Ex.is23
example : ∃ r, einsum .insertion (Alloc.rowMajor Int) "ij,ij->ij" [Ex.m23, Ex.m23] = .ok (.ok r) ∧
    IsMatrix r (Ex.a23.hadamard Ex.a23) := C66_hadamard _ _ _ _ _ _ Ex.is23 Ex.is23
example : ∃ r, einsum .insertion (Alloc.rowMajor Int) "ii->i" [Ex.m22] = .ok (.ok r) ∧ IsVector r Ex.a22.diag :=
  C66_diagonal _ _ _ _ Ex.is22 (by decide)
example : ∃ r, einsum .insertion (Alloc.rowMajor Int) "ii" [Ex.m22] = .ok (.ok r) ∧ IsScalar r Ex.a22.trace :=
  C66_trace _ _ _ _ Ex.is22 (by decide)

/-- A chain of four matrices. -/
example : ∃ r, einsum .reversed (Alloc.colMajor Int) "ij,jk,kl,lm->im" [Ex.m22, Ex.m23, Ex.m32, Ex.m22] = .ok (.ok r) ∧
    IsMatrix r (Ex.a22 * (Ex.a23 * (Ex.a32 * Ex.a22))) :=
  C66_chain _ _ _ _ (.cons Ex.is22 (.cons Ex.is23 (.cons Ex.is32 (.one Ex.is22)))) 'i' ['j', 'k', 'l'] 'm' rfl
    (by decide) (by simp [Letter]) _ (by decide)

/-- A closed chain of three matrices. -/
example : ∃ r, einsum .reversed (Alloc.colMajor Int) "ij,jk,ki->" [Ex.m22, Ex.m23, Ex.m32] = .ok (.ok r) ∧
    IsScalar r (Ex.a22 * (Ex.a23 * Ex.a32)).trace :=
  C66_chain_trace _ _ _ _ (.cons Ex.is22 (.cons Ex.is23 (.one Ex.is32))) 'i' ['j', 'k'] rfl
    (by decide) (by simp [Letter]) (.inl (by simp)) _ (by decide)

end Einsum
