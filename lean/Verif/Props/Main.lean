import Verif.Props.Examples

/-!
# Properties C13 - C18, C24 - C26: what einsum computes
-/

namespace Einsum

open Spec

variable {A : Type} [CommSemiring A]

/-! ## C13 -/

/-- C13: on every valid call in which no operand has both a repeated letter and a zero-length axis,
`einsum` returns the Einstein sum: for any number of operands, any layouts, any hash orders. -/
theorem C13_einsum (h : HashOrd) (al : Alloc A) (s : String) (operands : List (View A))
    (inputs : List (List Char)) (out : List Char) (dims : Char → Nat) (ts : List (List Nat → A))
    (hc : Call s operands inputs out dims ts) (hn : NoEmptyDiagonal dims inputs) :
    ∃ r, einsum h al s operands = .ok (.ok r) ∧ IsEinsum dims inputs ts out r :=
  einsum_ok hc hn h al

/-- C13: whatever the operands, a valid call panics or returns the Einstein sum; it never returns
`Err`, a wrong array, or reads outside its operands. -/
theorem C13_sound (h : HashOrd) (al : Alloc A) (s : String) (operands : List (View A))
    (inputs : List (List Char)) (out : List Char) (dims : Char → Nat) (ts : List (List Nat → A))
    (hc : Call s operands inputs out dims ts) :
    (∃ k, einsum h al s operands = panic k) ∨
      ∃ r, einsum h al s operands = .ok (.ok r) ∧ IsEinsum dims inputs ts out r := by
  rcases (einsum_outcome hc h al).2.2 with hp | ⟨x, h1, r, rfl, h2⟩
  · exact .inl hp
  · exact .inr ⟨r, h1, h2⟩

/-- What is returned by a valid call is the Einstein sum. -/
theorem isEinsum_of_returned {h : HashOrd} {al : Alloc A} {s : String} {operands : List (View A)}
    {inputs : List (List Char)} {out : List Char} {dims : Char → Nat} {ts : List (List Nat → A)} {r : View A}
    (hc : Call s operands inputs out dims ts) (hr : einsum h al s operands = .ok (.ok r)) :
    IsEinsum dims inputs ts out r := by
  rcases C13_sound h al s operands inputs out dims ts hc with ⟨k, hk⟩ | ⟨x, h1, h2⟩
  · rw [hr] at hk; simp [panic] at hk
  · rw [hr] at h1
    simp only [Except.ok.injEq] at h1
    exact h1 ▸ h2

/-- C13: and an invalid call (string not accepted, or shapes inconsistent) returns `Err`: the valid
calls are exactly those that do not. -/
theorem C13_err_iff {A : Type} [Zero A] [Add A] [Mul A] [MulAdd A] (h : HashOrd) (al : Alloc A) (s : String) (operands : List (View A)) :
    (∃ e, einsum h al s operands = .ok (.error e)) ↔
      ¬ ∃ inputs out dims, Denotes s inputs out ∧ Sized dims inputs (operands.map View.shape) := by
  constructor
  · rintro ⟨e, he⟩ ⟨inputs, out, dims, hd, hs⟩
    simp only [einsum, validateAndSize_ok (h.sub 0) hd hs] at he
    cases hr : (callSC inputs out dims).contractOperands (h.sub 1) al operands with
    | error f => rw [hr] at he; simp at he
    | ok r => rw [hr] at he; simp at he
  · intro hne
    cases hv : validateAndSize (h.sub 0) s operands with
    | error e => exact ⟨e, by simp only [einsum, hv]⟩
    | ok sc =>
      obtain ⟨inputs, out, dims, h1, h2, -⟩ := fromStringAndShapes_iff.1 hv
      exact absurd ⟨inputs, out, dims, h1, h2⟩ hne

example : ∃ r, einsum HashOrd.reversed (Alloc.colMajor Int) "ij,jk->ik" [Ex.m23, Ex.m32] = .ok (.ok r) ∧
    IsEinsum Ex.dims [['i', 'j'], ['j', 'k']] [Ex.elems Ex.m23, Ex.elems Ex.m32] ['i', 'k'] r := C13_einsum _ _ _ _ _ _ _ _ Ex.call_matmul Ex.ned_matmul
example : ∃ r, einsum HashOrd.insertion (Alloc.rowMajor Int) "ij,jjk,kj->ij" [Ex.m23, Ex.m332, Ex.m23] =
    .ok (.ok r) ∧ IsEinsum Ex.dims [['i', 'j'], ['j', 'j', 'k'], ['k', 'j']]
      [Ex.elems Ex.m23, Ex.elems Ex.m332, Ex.elems Ex.m23] ['i', 'j'] r :=
  C13_einsum _ _ _ _ _ _ _ _ Ex.call_three Ex.ned_three
/-- The specification is what one expects: an entry of a matrix product. -/
example (a b : List Nat → Int) : Spec.einsum Ex.dims [['i', 'j'], ['j', 'k']] [a, b] ['i', 'k']
    (fun _ => 0) = a [0, 0] * b [0, 0] + a [0, 1] * b [1, 0] + a [0, 2] * b [2, 0] := by
  have : summed [['i', 'j'], ['j', 'k']] ['i', 'k'] = ['j'] := by decide
  rw [Spec.einsum, this]
  simp [sumOver, Ex.dims, term, Finset.sum_range_succ]

/-! ## C14 -/

/-- C14: a valid call panics exactly if some operand has a repeated letter and a zero-length axis, with one exception:
an operand as in `UnitRow` that has a letter occurring neither in the output nor in another operand. -/
theorem C14_iff (h : HashOrd) (al : Alloc A) (s : String) (operands : List (View A))
    (inputs : List (List Char)) (out : List Char) (dims : Char → Nat) (ts : List (List Nat → A))
    (hc : Call s operands inputs out dims ts) :
    (∃ k, einsum h al s operands = panic k) ↔ EmptyDiagonal dims inputs out operands := by
  refine ⟨fun hk => ?_, (einsum_outcome hc h al).2.1⟩
  by_contra hne
  obtain ⟨k, hk⟩ := hk
  obtain ⟨x, hx, -⟩ := (einsum_outcome hc h al).1 hne
  rw [hx] at hk
  simp [panic] at hk

/-- C14: in every other case the Einstein sum is returned. -/
theorem C14_otherwise (h : HashOrd) (al : Alloc A) (s : String) (operands : List (View A))
    (inputs : List (List Char)) (out : List Char) (dims : Char → Nat) (ts : List (List Nat → A))
    (hc : Call s operands inputs out dims ts) :
    ¬ EmptyDiagonal dims inputs out operands ↔
      ∃ r, einsum h al s operands = .ok (.ok r) ∧ IsEinsum dims inputs ts out r := by
  constructor
  · intro hne
    obtain ⟨x, hx, r, rfl, hr⟩ := (einsum_outcome hc h al).1 hne
    exact ⟨r, hx, hr⟩
  · rintro ⟨r, hr, -⟩ hne
    obtain ⟨k, hk⟩ := (einsum_outcome hc h al).2.1 hne
    rw [hr] at hk
    simp [panic] at hk

/-- C14: for operands whose empty ones have a stride that is not positive (as every freshly created empty array) the
exception does not arise. -/
theorem C14_fresh (h : HashOrd) (al : Alloc A) (s : String) (operands : List (View A))
    (inputs : List (List Char)) (out : List Char) (dims : Char → Nat) (ts : List (List Nat → A))
    (hc : Call s operands inputs out dims ts)
    (hfresh : ∀ v ∈ operands, 0 ∈ v.shape → ∃ x ∈ v.strides, x ≤ 0) :
    (∃ k, einsum h al s operands = panic k) ↔ ∃ ix ∈ inputs, ¬ ix.Nodup ∧ ∃ c ∈ ix, dims c = 0 := by
  rw [C14_iff h al s operands inputs out dims ts hc]
  constructor
  · rintro ⟨k, ix, v, h1, -, h3, h4, -⟩
    exact ⟨ix, List.mem_of_getElem? h1, h3, h4⟩
  · rintro ⟨ix, hi, h1, c, hc', h2⟩
    obtain ⟨k, hk, rfl⟩ := List.mem_iff_getElem.1 hi
    have hl : inputs.length = operands.length := by simpa using hc.sized.length_eq
    have hk' : k < operands.length := by omega
    refine ⟨k, inputs[k], operands[k], List.getElem?_eq_getElem hk, List.getElem?_eq_getElem hk', h1,
      ⟨c, hc', h2⟩, fun hu => ?_⟩
    have := (List.forall₂_iff_get.1 hc.sized).2 k hk (by simpa using hk')
    simp only [List.get_eq_getElem, List.getElem_map] at this
    obtain ⟨x, hx, h0⟩ := hfresh _ (List.getElem_mem hk') (by
      rw [this]
      exact List.mem_map.2 ⟨c, hc', h2⟩)
    have := hu.1 x hx
    omega

example : ∃ k, einsum HashOrd.reversed (Alloc.colMajor Int) "ji,ii->j" [Ex.m30, Ex.m00] = panic k :=
  (C14_iff _ _ _ _ _ _ _ _ Ex.call_empty).2 Ex.fed_empty
example : ∃ k, einsum HashOrd.insertion (Alloc.rowMajor Int) "iij->j" [Ex.m003] = panic k :=
  (C14_iff _ _ _ _ _ _ _ _ Ex.call_block).2 Ex.fed_block
example : ∀ v ∈ [Ex.m30, Ex.m00], 0 ∈ v.shape → ∃ x ∈ v.strides, x ≤ 0 := by decide
/-- The exception: a one-by-one-by-nothing slice is summed without panic, and panics if all letters are kept. -/
example : ∃ r, einsum HashOrd.insertion (Alloc.rowMajor Int) "aab->" [Ex.m110] = .ok (.ok r) ∧
    IsEinsum Ex.dims10 [['a', 'a', 'b']] [Ex.elems Ex.m110] [] r :=
  (C14_otherwise _ _ _ _ _ _ _ _ Ex.call_unit).1 Ex.nfed_unit
example : ∃ k, einsum HashOrd.insertion (Alloc.rowMajor Int) "aab->ab" [Ex.m110] = panic k :=
  (C14_iff _ _ _ _ _ _ _ _ Ex.call_unit').2 Ex.fed_unit
/-- The value it should have returned is the zero vector. -/
example (σ : Char → Nat) : Spec.einsum Ex.dims0 [['j', 'i'], ['i', 'i']]
    [Ex.elems Ex.m30, Ex.elems Ex.m00] ['j'] σ = 0 :=
  sumOver_empty (c := 'i') (by decide) rfl _ _

/-! ## C15 -/

/-- C15: every array returned by `einsum` has one axis per output letter, in order, with its length. -/
theorem C15_shape (h : HashOrd) (al : Alloc A) (s : String) (operands : List (View A))
    (inputs : List (List Char)) (out : List Char) (dims : Char → Nat) (r : View A)
    (hd : Denotes s inputs out) (hs : Sized dims inputs (operands.map View.shape))
    (hw : ∀ v ∈ operands, v.Wf) (hr : einsum h al s operands = .ok (.ok r)) :
    r.shape = out.map dims ∧ (out = [] → r.shape = []) := by
  obtain ⟨ts, ht⟩ := exists_elements hw
  have key : r.shape = out.map dims := by
    rcases C13_sound h al s operands inputs out dims ts ⟨hd, hs, ht⟩ with ⟨k, hk⟩ | ⟨r', h1, h2⟩
    · rw [hr] at hk; simp [panic] at hk
    · rw [hr] at h1
      simp only [Except.ok.injEq] at h1
      rw [h1]; exact h2.2.1
  exact ⟨key, by rintro rfl; exact key⟩

example : ∃ r, einsum HashOrd.insertion (Alloc.rowMajor Int) "ij,jk->ik" [Ex.m23, Ex.m32] = .ok (.ok r) ∧
    r.shape = [2, 2] := by
  obtain ⟨r, h1, h2⟩ := C13_einsum HashOrd.insertion (Alloc.rowMajor Int) _ _ _ _ _ _ Ex.call_matmul
    Ex.ned_matmul
  exact ⟨r, h1, (C15_shape _ _ _ _ _ _ _ _ Ex.call_matmul.denotes Ex.call_matmul.sized
    (wf_of_elements Ex.call_matmul.elements) h1).1⟩

/-! ## C16 -/

/-- C16: the result does not depend on the layout of the operands, on the layout of temporaries, or
on the hash orders. -/
theorem C16_layout_and_order (h h' : HashOrd) (al al' : Alloc A) (s : String)
    (operands operands' : List (View A)) (inputs : List (List Char)) (out : List Char)
    (dims : Char → Nat) (hd : Denotes s inputs out)
    (hs : Sized dims inputs (operands.map View.shape)) (hn : NoEmptyDiagonal dims inputs)
    (hsame : List.Forall₂ SameArray operands operands') :
    ∃ r r', einsum h al s operands = .ok (.ok r) ∧ einsum h' al' s operands' = .ok (.ok r') ∧
      SameArray r r' := by
  have hw : ∀ v ∈ operands, v.Wf := by
    clear hs
    induction hsame with
    | nil => simp
    | cons h1 _ ih =>
      intro v hv
      rcases List.mem_cons.1 hv with rfl | hv
      · exact h1.1
      · exact ih v hv
  obtain ⟨ts, ht⟩ := exists_elements hw
  obtain ⟨ht', hs'⟩ := forall₂_same hsame ht
  obtain ⟨r, h1, h2⟩ := einsum_ok ⟨hd, hs, ht⟩ hn h al
  obtain ⟨r', h3, h4⟩ := einsum_ok ⟨hd, hs' ▸ hs, ht'⟩ hn h' al'
  exact ⟨r, r', h1, h3, h2.same hd.outputOk.1 h4⟩

example : ∃ r r', einsum HashOrd.insertion (Alloc.rowMajor Int) "ij,jk->ik" [Ex.m23, Ex.m32] =
      .ok (.ok r) ∧
    einsum HashOrd.reversed (Alloc.colMajor Int) "ij,jk->ik" [Ex.m23, Ex.m32'] = .ok (.ok r') ∧
      SameArray r r' :=
  C16_layout_and_order _ _ _ _ _ _ _ _ _ _ Ex.denotes_matmul Ex.call_matmul.sized Ex.ned_matmul
    (.cons ⟨Ex.e23.1, Ex.e23.1, rfl, fun _ _ => rfl⟩ (.cons Ex.same32 .nil))

/-- C16: also where a panic is possible (C14): whenever both calls return, they return the same array. -/
theorem C16_returned (h h' : HashOrd) (al al' : Alloc A) (s : String)
    (operands operands' : List (View A)) (inputs : List (List Char)) (out : List Char)
    (dims : Char → Nat) (hd : Denotes s inputs out)
    (hs : Sized dims inputs (operands.map View.shape))
    (hsame : List.Forall₂ SameArray operands operands') (r r' : View A)
    (hr : einsum h al s operands = .ok (.ok r)) (hr' : einsum h' al' s operands' = .ok (.ok r')) :
    SameArray r r' := by
  have hw : ∀ v ∈ operands, v.Wf := by
    clear hs hr hr'
    induction hsame with
    | nil => simp
    | cons h1 _ ih =>
      intro v hv
      rcases List.mem_cons.1 hv with rfl | hv
      · exact h1.1
      · exact ih v hv
  obtain ⟨ts, ht⟩ := exists_elements hw
  obtain ⟨ht', hs'⟩ := forall₂_same hsame ht
  rcases C13_sound h al s operands inputs out dims ts ⟨hd, hs, ht⟩ with ⟨k, hk⟩ | ⟨x, h1, h2⟩
  · rw [hr] at hk; simp [panic] at hk
  rcases C13_sound h' al' s operands' inputs out dims ts ⟨hd, hs' ▸ hs, ht'⟩ with ⟨k, hk⟩ | ⟨x', h3, h4⟩
  · rw [hr'] at hk; simp [panic] at hk
  rw [hr] at h1
  rw [hr'] at h3
  simp only [Except.ok.injEq] at h1 h3
  subst h1 h3
  exact h2.same hd.outputOk.1 h4

/-- A call in which one letter is repeated in an operand with an axis of length zero, and which returns. -/
example : ∃ r r', einsum HashOrd.insertion (Alloc.rowMajor Int) "aab->" [Ex.m110] = .ok (.ok r) ∧
    einsum HashOrd.reversed (Alloc.colMajor Int) "aab->" [Ex.m110] = .ok (.ok r') ∧ SameArray r r' := by
  obtain ⟨r, h1, -⟩ := (C14_otherwise HashOrd.insertion (Alloc.rowMajor Int) _ _ _ _ _ _ Ex.call_unit).1 Ex.nfed_unit
  obtain ⟨r', h2, -⟩ := (C14_otherwise HashOrd.reversed (Alloc.colMajor Int) _ _ _ _ _ _ Ex.call_unit).1 Ex.nfed_unit
  have hw := wf_of_elements Ex.call_unit.elements
  exact ⟨r, r', h1, h2, C16_returned _ _ _ _ _ _ _ _ _ _ Ex.call_unit.denotes Ex.call_unit.sized
    (.cons ⟨hw _ (by simp), hw _ (by simp), rfl, fun _ _ => rfl⟩ .nil) _ _ h1 h2⟩

/-! ## C17 -/

/-- C17: all entry points and both contraction orders return the same array. -/
theorem C17_entry_points (h₁ h₂ h₃ h₄ h₅ : HashOrd) (al₁ al₂ al₃ al₄ : Alloc A) (s : String)
    (operands : List (View A)) (inputs : List (List Char)) (out : List Char) (dims : Char → Nat)
    (hd : Denotes s inputs out) (hs : Sized dims inputs (operands.map View.shape))
    (hw : ∀ v ∈ operands, v.Wf) (hn : NoEmptyDiagonal dims inputs) :
    ∃ r sc r₁ p r₂ q r₃,
      einsum h₁ al₁ s operands = .ok (.ok r) ∧
      validateAndSize h₂ s operands = .ok sc ∧ sc.contractOperands h₃ al₂ operands = .ok r₁ ∧
      einsumPath h₄ s operands .naive = .ok (.ok p) ∧ p.contractOperands al₃ operands = .ok r₂ ∧
      einsumPath h₅ s operands .reverse = .ok (.ok q) ∧ q.contractOperands al₄ operands = .ok r₃ ∧
      SameArray r r₁ ∧ SameArray r r₂ ∧ SameArray r r₃ := by
  obtain ⟨ts, ht⟩ := exists_elements hw
  have hc : Call s operands inputs out dims ts := ⟨hd, hs, ht⟩
  have ho := hd.outputOk.1
  obtain ⟨r, a1, a2⟩ := einsum_ok hc hn h₁ al₁
  obtain ⟨r₁, b1, b2⟩ := (contractOperands_outcome hc h₃ al₂).1 (not_emptyDiagonal hn)
  obtain ⟨p, c1, c2⟩ := einsumPath_ok hd hs h₄ (.inl rfl)
  obtain ⟨r₂, c3, c4⟩ := (c2.outcome ho hs ht al₃).1 (not_emptyDiagonal hn)
  obtain ⟨q, d1, d2⟩ := einsumPath_ok hd hs h₅ (.inr rfl)
  obtain ⟨r₃, d3, d4⟩ := (d2.outcome ho hs ht al₄).1 (not_emptyDiagonal hn)
  exact ⟨r, _, r₁, p, r₂, q, r₃, a1, validateAndSize_ok h₂ hd hs, b1, c1, c3, d1, d3,
    a2.same ho b2, a2.same ho c4, a2.same ho d4⟩

example : ∃ r, einsum HashOrd.insertion (Alloc.rowMajor Int) "ij,jjk,kj->ij" [Ex.m23, Ex.m332, Ex.m23] =
    .ok (.ok r) := by
  obtain ⟨r, _, _, _, _, _, _, h1, -⟩ := C17_entry_points HashOrd.insertion HashOrd.reversed
    HashOrd.insertion HashOrd.reversed HashOrd.insertion (Alloc.rowMajor Int) (Alloc.colMajor Int)
    (Alloc.colMajor Int) (Alloc.rowMajor Int) _ _ _ _ _ Ex.denotes_three Ex.call_three.sized
    (wf_of_elements Ex.call_three.elements) Ex.ned_three
  exact ⟨r, h1⟩

/-- C17: for every valid call all entry points and both contraction orders panic in the same case (that of C14), and
otherwise all return the same array. -/
theorem C17_all_or_none (h₁ h₂ h₃ h₄ h₅ : HashOrd) (al₁ al₂ al₃ al₄ : Alloc A) (s : String)
    (operands : List (View A)) (inputs : List (List Char)) (out : List Char) (dims : Char → Nat)
    (hd : Denotes s inputs out) (hs : Sized dims inputs (operands.map View.shape))
    (hw : ∀ v ∈ operands, v.Wf) :
    ∃ sc p q, validateAndSize h₂ s operands = .ok sc ∧ einsumPath h₄ s operands .naive = .ok (.ok p) ∧
      einsumPath h₅ s operands .reverse = .ok (.ok q) ∧
      (EmptyDiagonal dims inputs out operands →
        (∃ k, einsum h₁ al₁ s operands = panic k) ∧ (∃ k, sc.contractOperands h₃ al₂ operands = panic k) ∧
        (∃ k, p.contractOperands al₃ operands = panic k) ∧ ∃ k, q.contractOperands al₄ operands = panic k) ∧
      (¬ EmptyDiagonal dims inputs out operands →
        ∃ r r₁ r₂ r₃, einsum h₁ al₁ s operands = .ok (.ok r) ∧ sc.contractOperands h₃ al₂ operands = .ok r₁ ∧
          p.contractOperands al₃ operands = .ok r₂ ∧ q.contractOperands al₄ operands = .ok r₃ ∧
          SameArray r r₁ ∧ SameArray r r₂ ∧ SameArray r r₃) := by
  obtain ⟨ts, ht⟩ := exists_elements hw
  have hc : Call s operands inputs out dims ts := ⟨hd, hs, ht⟩
  have ho := hd.outputOk.1
  obtain ⟨p, c1, c2⟩ := einsumPath_ok hd hs h₄ (.inl rfl)
  obtain ⟨q, d1, d2⟩ := einsumPath_ok hd hs h₅ (.inr rfl)
  refine ⟨_, p, q, validateAndSize_ok h₂ hd hs, c1, d1, fun he => ?_, fun he => ?_⟩
  · exact ⟨(einsum_outcome hc h₁ al₁).2.1 he, (contractOperands_outcome hc h₃ al₂).2.1 he,
      (c2.outcome ho hs ht al₃).2.1 he, (d2.outcome ho hs ht al₄).2.1 he⟩
  · obtain ⟨_, a1, r, rfl, a2⟩ := (einsum_outcome hc h₁ al₁).1 he
    obtain ⟨r₁, b1, b2⟩ := (contractOperands_outcome hc h₃ al₂).1 he
    obtain ⟨r₂, c3, c4⟩ := (c2.outcome ho hs ht al₃).1 he
    obtain ⟨r₃, d3, d4⟩ := (d2.outcome ho hs ht al₄).1 he
    exact ⟨r, r₁, r₂, r₃, a1, b1, c3, d3, a2.same ho b2, a2.same ho c4, a2.same ho d4⟩

example : ∃ q, einsumPath HashOrd.insertion "ji,ii->j" [Ex.m30, Ex.m00] .reverse = .ok (.ok q) ∧
    ∃ k, q.contractOperands (Alloc.rowMajor Int) [Ex.m30, Ex.m00] = panic k := by
  obtain ⟨_, _, q, -, -, h1, h2, -⟩ := C17_all_or_none HashOrd.insertion HashOrd.insertion HashOrd.insertion
    HashOrd.insertion HashOrd.insertion (Alloc.rowMajor Int) (Alloc.rowMajor Int) (Alloc.rowMajor Int)
    (Alloc.rowMajor Int) _ _ _ _ _ Ex.call_empty.denotes Ex.call_empty.sized (wf_of_elements Ex.call_empty.elements)
  exact ⟨q, h1, (h2 Ex.fed_empty).2.2.2⟩

/-! ## C18 -/

/-- C18: a path compiled once (from operands of any element type `B`) can be run on any list of
operands of the same shapes, any number of times; each run returns the Einstein sum of its operands. -/
theorem C18_reuse {B : Type} (h : HashOrd) (s : String) (operands₀ : List (View B))
    (inputs : List (List Char)) (out : List Char) (dims : Char → Nat) (m : OptimizationMethod)
    (hm : m = .naive ∨ m = .reverse) (hd : Denotes s inputs out)
    (hs : Sized dims inputs (operands₀.map View.shape)) (hn : NoEmptyDiagonal dims inputs) :
    ∃ p, einsumPath h s operands₀ m = .ok (.ok p) ∧
      ∀ runs : List (Alloc A × List (View A) × List (List Nat → A)),
        (∀ x ∈ runs, x.2.1.map View.shape = operands₀.map View.shape ∧
          List.Forall₂ Elements x.2.1 x.2.2) →
        ∃ rs, mapE (fun x => p.contractOperands x.1 x.2.1) runs = .ok rs ∧
          List.Forall₂ (fun x r => IsEinsum dims inputs x.2.2 out r) runs rs := by
  obtain ⟨p, p1, p2⟩ := einsumPath_ok hd hs h hm
  refine ⟨p, p1, fun runs hr => ?_⟩
  induction runs with
  | nil => exact ⟨[], rfl, .nil⟩
  | cons x runs ih =>
    obtain ⟨rs, h1, h2⟩ := ih fun y hy => hr y (by simp [hy])
    obtain ⟨e1, e2⟩ := hr x (by simp)
    obtain ⟨r, h3, h4⟩ := (p2.outcome hd.outputOk.1 (e1 ▸ hs) e2 x.1).1 (not_emptyDiagonal hn)
    exact ⟨r :: rs, by simp [mapE, h3, h1], .cons h4 h2⟩

example : ∃ p, einsumPath HashOrd.reversed "ij,jk->ik" [Ex.m23, Ex.m32] .reverse = .ok (.ok p) ∧
    ∃ rs, mapE (fun x => p.contractOperands x.1 x.2.1)
      [(Alloc.rowMajor Int, [Ex.m23, Ex.m32], [Ex.elems Ex.m23, Ex.elems Ex.m32]),
       (Alloc.colMajor Int, [Ex.m23, Ex.m32'], [Ex.elems Ex.m23, Ex.elems Ex.m32'])] = .ok rs := by
  obtain ⟨p, h1, h2⟩ := C18_reuse (A := Int) HashOrd.reversed "ij,jk->ik" [Ex.m23, Ex.m32] _ _ _ .reverse
    (.inr rfl) Ex.denotes_matmul Ex.call_matmul.sized Ex.ned_matmul
  obtain ⟨rs, h3, -⟩ := h2 [(Alloc.rowMajor Int, [Ex.m23, Ex.m32], [Ex.elems Ex.m23, Ex.elems Ex.m32]),
       (Alloc.colMajor Int, [Ex.m23, Ex.m32'], [Ex.elems Ex.m23, Ex.elems Ex.m32'])] (by
    intro x hx
    simp only [List.mem_cons, List.not_mem_nil, or_false] at hx
    rcases hx with rfl | rfl
    · exact ⟨rfl, .cons Ex.e23 (.cons Ex.e32 .nil)⟩
    · exact ⟨rfl, .cons Ex.e23 (.cons Ex.e32' .nil)⟩)
  exact ⟨p, h1, rs, h3⟩

/-- C18: also where a panic is possible: each run panics exactly if its operands are as in C14, and otherwise returns
the Einstein sum, whatever the other runs were. -/
theorem C18_each {B : Type} (h : HashOrd) (s : String) (operands₀ : List (View B))
    (inputs : List (List Char)) (out : List Char) (dims : Char → Nat) (m : OptimizationMethod)
    (hm : m = .naive ∨ m = .reverse) (hd : Denotes s inputs out)
    (hs : Sized dims inputs (operands₀.map View.shape)) :
    ∃ p, einsumPath h s operands₀ m = .ok (.ok p) ∧
      ∀ (al : Alloc A) (operands : List (View A)) (ts : List (List Nat → A)),
        operands.map View.shape = operands₀.map View.shape → List.Forall₂ Elements operands ts →
        (EmptyDiagonal dims inputs out operands → ∃ k, p.contractOperands al operands = panic k) ∧
        (¬ EmptyDiagonal dims inputs out operands →
          ∃ r, p.contractOperands al operands = .ok r ∧ IsEinsum dims inputs ts out r) := by
  obtain ⟨p, p1, p2⟩ := einsumPath_ok hd hs h hm
  refine ⟨p, p1, fun al operands ts h1 h2 => ?_⟩
  have := p2.outcome hd.outputOk.1 (h1 ▸ hs) h2 al
  exact ⟨this.2.1, this.1⟩

/-- Compiled from a unit-length slice with which it returns; run on another operand of that shape it panics. -/
example : ∃ p, einsumPath HashOrd.insertion "aab->" [Ex.m110] .naive = .ok (.ok p) ∧
    (∃ r, p.contractOperands (Alloc.rowMajor Int) [Ex.m110] = .ok r) ∧
    ∃ k, p.contractOperands (Alloc.rowMajor Int) [(⟨[], 0, [1, 1, 0], [0, 0, 0]⟩ : View Int)] = panic k := by
  obtain ⟨p, h1, h2⟩ := C18_each (A := Int) HashOrd.insertion "aab->" [Ex.m110] _ _ _ .naive (.inl rfl)
    Ex.call_unit.denotes Ex.call_unit.sized
  obtain ⟨r, h3, -⟩ := (h2 (Alloc.rowMajor Int) _ _ rfl Ex.call_unit.elements).2 Ex.nfed_unit
  refine ⟨p, h1, ⟨r, h3⟩, (h2 _ [⟨[], 0, [1, 1, 0], [0, 0, 0]⟩] [fun _ => 0] rfl (.cons (elements_of rfl (by decide)) .nil)).1
    ⟨0, _, _, rfl, rfl, by decide, ⟨'b', by decide, by decide⟩, fun hu => ?_⟩⟩
  exact absurd (hu.1 0 (by simp)) (by decide)

/-! ## C24, C25 -/

/-- C24: one operand: the selected strategy is constructed without panicking and its result is the
operand diagonalised, summed and permuted as the letters say. -/
theorem C24_singleton (h : HashOrd) (al : Alloc A) (s : String) (v : View A) (ix out : List Char)
    (dims : Char → Nat) (t : List Nat → A) (hc : Call s [v] [ix] out dims [t])
    (hn : NoEmptyDiagonal dims [ix]) :
    ∃ sc p r, validateAndSize h s [v] = .ok sc ∧ SingletonContraction.new sc = .ok p ∧
      p.run al v = .ok r ∧ r.Wf ∧ r.shape = out.map dims ∧
      ∀ σ, InRange dims out σ →
        r.read (out.map σ) = .ok (sumOver dims (summed [ix] out) (fun σ => t (ix.map σ)) σ) := by
  have ho := hc.denotes.outputOk
  have hv := callSC_valid (dims := dims) ho
  obtain ⟨p, p1, -, p3⟩ := singleton_ok (L := ix) hv rfl
  have he : Elements v t := by cases hc.elements; assumption
  have hsh : v.shape = ix.map dims := by cases hc.sized; assumption
  have hh := he.holds
  rw [hsh] at hh
  obtain ⟨r, r1, r2⟩ := (p3 A al v _ hh.rep he.1).1 (good_of (hn ix (by simp)))
  exact ⟨_, p, r, validateAndSize_ok h hc.denotes hc.sized, p1, r1, r2.wf ho.1, r2.shape, r2.get⟩

/-- C25: two operands: whichever simplifications and strategy are selected, construction does not
panic and the result is the two-operand Einstein sum. -/
theorem C25_pair (h h' : HashOrd) (al : Alloc A) (s : String) (v w : View A) (ix jx out : List Char)
    (dims : Char → Nat) (t u : List Nat → A) (hc : Call s [v, w] [ix, jx] out dims [t, u])
    (hn : NoEmptyDiagonal dims [ix, jx]) :
    ∃ sc p r, validateAndSize h s [v, w] = .ok sc ∧ PairContraction.new h' sc = .ok p ∧
      p.run al v w = .ok r ∧ r.Wf ∧ r.shape = out.map dims ∧
      ∀ σ, InRange dims out σ → r.read (out.map σ) =
        .ok (sumOver dims (summed [ix, jx] out) (fun σ => t (ix.map σ) * u (jx.map σ)) σ) := by
  have ho := hc.denotes.outputOk
  have hv := callSC_valid (dims := dims) ho
  obtain ⟨p, p1, p3⟩ := pair_ok (L := ix) (R := jx) hv rfl h'
  obtain ⟨he, he'⟩ : Elements v t ∧ Elements w u := by
    cases hc.elements with
    | cons a b => cases b with | cons b _ => exact ⟨a, b⟩
  obtain ⟨hsh, hsh'⟩ : v.shape = ix.map dims ∧ w.shape = jx.map dims := by
    cases hc.sized with
    | cons a b => cases b with | cons b _ => exact ⟨a, b⟩
  have hh := he.holds
  have hh' := he'.holds
  rw [hsh] at hh
  rw [hsh'] at hh'
  obtain ⟨r, r1, r2⟩ := (p3 A al v w _ _ hh.rep he.1 hh'.rep he'.1).1
    ⟨good_of (hn ix (by simp)), good_of (hn jx (by simp))⟩
  simp only [mulAs_comm] at r2
  exact ⟨_, p, r, validateAndSize_ok h hc.denotes hc.sized, p1, r1, r2.wf ho.1, r2.shape, r2.get⟩

example : ∃ sc p r, validateAndSize HashOrd.reversed "jjk->k" [Ex.m332] = .ok sc ∧
    SingletonContraction.new sc = .ok p ∧ p.run (Alloc.colMajor Int) Ex.m332 = .ok r ∧ r.Wf ∧
    r.shape = ['k'].map Ex.dims := by
  obtain ⟨sc, p, r, h1, h2, h3, h4, h5, -⟩ := C24_singleton HashOrd.reversed (Alloc.colMajor Int) _ _ _ _ _ _
    Ex.call_trace Ex.ned_trace
  exact ⟨sc, p, r, h1, h2, h3, h4, h5⟩
example : ∃ sc p r, validateAndSize HashOrd.reversed "ij,jk->ik" [Ex.m23, Ex.m32] = .ok sc ∧
    PairContraction.new HashOrd.reversed sc = .ok p ∧
    p.run (Alloc.colMajor Int) Ex.m23 Ex.m32 = .ok r ∧ r.Wf := by
  obtain ⟨sc, p, r, h1, h2, h3, h4, -⟩ := C25_pair HashOrd.reversed HashOrd.reversed (Alloc.colMajor Int)
    _ _ _ _ _ _ _ _ _ Ex.call_matmul Ex.ned_matmul
  exact ⟨sc, p, r, h1, h2, h3, h4⟩

/-! ## C26 -/

/-- C26: if a summed letter has length zero and the call returns, the result has the requested shape and is all zero. -/
theorem C26_returned (h : HashOrd) (al : Alloc A) (s : String) (operands : List (View A))
    (inputs : List (List Char)) (out : List Char) (dims : Char → Nat)
    (hd : Denotes s inputs out) (hs : Sized dims inputs (operands.map View.shape))
    (hw : ∀ v ∈ operands, v.Wf) (c : Char) (hu : Used inputs c) (hco : c ∉ out) (h0 : dims c = 0) (r : View A)
    (hr : einsum h al s operands = .ok (.ok r)) :
    r.shape = out.map dims ∧ ∀ idx, InB r.shape idx → r.read idx = .ok 0 := by
  obtain ⟨ts, ht⟩ := exists_elements hw
  have h2 := isEinsum_of_returned ⟨hd, hs, ht⟩ hr
  refine ⟨h2.2.1, fun idx hi => ?_⟩
  rw [h2.2.1] at hi
  obtain ⟨σ, h3, rfl⟩ := exists_assign hd.outputOk.1 hi
  rw [h2.2.2 σ h3, Spec.einsum, sumOver_empty (c := c) (mem_summed.2 ⟨used_iff.1 hu, hco⟩) h0]

example : ∃ r, einsum .reversed (Alloc.rowMajor Int) "aab->" [Ex.m110] = .ok (.ok r) ∧ r.read [] = .ok 0 := by
  obtain ⟨r, h1, -⟩ := (C14_otherwise .reversed (Alloc.rowMajor Int) _ _ _ _ _ _ Ex.call_unit).1 Ex.nfed_unit
  obtain ⟨h2, h3⟩ := C26_returned _ _ _ _ _ _ _ Ex.call_unit.denotes Ex.call_unit.sized
    (wf_of_elements Ex.call_unit.elements) 'b' (by simp [Used]) (by simp) rfl r h1
  exact ⟨r, h1, h3 [] (by rw [h2]; exact trivial)⟩

/-- C26: where no operand has both a repeated letter and an empty axis, the call returns. -/
theorem C26_empty_sum (h : HashOrd) (al : Alloc A) (s : String) (operands : List (View A))
    (inputs : List (List Char)) (out : List Char) (dims : Char → Nat)
    (hd : Denotes s inputs out) (hs : Sized dims inputs (operands.map View.shape))
    (hw : ∀ v ∈ operands, v.Wf) (hn : NoEmptyDiagonal dims inputs)
    (c : Char) (hu : Used inputs c) (hco : c ∉ out) (h0 : dims c = 0) :
    ∃ r, einsum h al s operands = .ok (.ok r) ∧ r.shape = out.map dims ∧
      ∀ idx, InB r.shape idx → r.read idx = .ok 0 := by
  obtain ⟨ts, ht⟩ := exists_elements hw
  obtain ⟨r, h1, -⟩ := einsum_ok ⟨hd, hs, ht⟩ hn h al
  exact ⟨r, h1, C26_returned h al s operands inputs out dims hd hs hw c hu hco h0 r h1⟩

example : ∃ r, einsum HashOrd.reversed (Alloc.rowMajor Int) "ji->j" [Ex.m30] = .ok (.ok r) ∧
    r.shape = [3] ∧ ∀ idx, InB r.shape idx → r.read idx = .ok 0 :=
  C26_empty_sum _ _ _ _ _ _ Ex.dims0 Ex.denotes_rowsum Ex.call_rowsum.sized
    (wf_of_elements Ex.call_rowsum.elements) Ex.ned_rowsum 'i' (by simp [Used]) (by decide) rfl

end Einsum
