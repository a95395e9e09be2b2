import Verif.Proofs.Capacity
import Verif.Props.Order

/-!
# Property C95: arrays that cannot be created
-/

namespace Einsum

open Spec

section
variable {A : Type} [Zero A] [Add A] [Mul A] [MulAdd A]

/-! ## Panic or no change -/

/-- C95: with limits, `einsum` panics or does exactly what it does without. -/
theorem C95_einsum (room : Room) (h : HashOrd) (al : Alloc A) (s : String) (operands : List (View A)) :
    einsumR room h al s operands = einsum h al s operands ∨ ∃ k, einsumR room h al s operands = panic k := by
  unfold einsumR einsum
  cases validateAndSize (h.sub 0) s operands with
  | error e => exact .inl rfl
  | ok sc =>
    have e : (sc.contractOperands (h.sub 1) al operands >>= fun r => pure (.ok r) : M (Except String (View A))) =
        EinsumPath.new (h.sub 1) sc >>= fun p => p.contractOperands al operands >>= fun r => pure (.ok r) := by
      unfold SizedContraction.contractOperands
      cases EinsumPath.new (h.sub 1) sc <;> rfl
    simp only
    rw [e]
    exact (Limited.refl _).bind fun p => (contractOperandsR_limited room p al operands).bind fun _ => .refl _

/-- C95: so does running any path, also one built by hand, on any arrays. -/
theorem C95_path (room : Room) (p : EinsumPath) (al : Alloc A) (operands : List (View A)) :
    p.contractOperandsR room al operands = p.contractOperands al operands ∨
      ∃ k, p.contractOperandsR room al operands = panic k := contractOperandsR_limited room p al operands

/-- C95: and so does `tensordot`. -/
theorem C95_tensordot (room : Room) (al : Alloc A) (l r : View A) (la ra : List Nat) :
    tensordotR room al l r la ra = tensordot al l r la ra ∨ ∃ k, tensordotR room al l r la ra = panic k :=
  (Limited.refl _).bind fun _ => (Limited.refl _).bind fun _ => (Limited.refl _).bind fun _ =>
    tensordotGeneralR_limited room _ al l r

/-! ## What is needed -/

/-- C95: if the path of an order of contraction returns, the result of every step could be allocated. -/
theorem C95_needs_order (room : Room) (h : HashOrd) (al : Alloc A) (steps : List PairStep) (inputs : List (List Char))
    (out : List Char) (dims : Char → Nat) (operands : List (View A)) (hc : Contracts dims out 0 (numbered inputs) steps)
    (hs : Sized dims inputs (operands.map View.shape)) (p : EinsumPath) (hp : EinsumPath.fromPath h (.pairs steps) = .ok p)
    (w : View A) (hw : p.contractOperandsR room al operands = .ok w) :
    ∀ st ∈ steps, room.alloc (st.sizedContraction.contraction.outputIndices.map dims) = true := by
  obtain ⟨cs, c1, c2⟩ := bind_eq_ok.1 hp
  cases c2
  obtain ⟨l, r1, -⟩ := bind_eq_ok.1 hw
  have hwd : Wired dims inputs (steps.map PairStep.norm) [] := wired_contracts hc [] rfl fun x hx => by
    obtain ⟨i, hi, rfl⟩ := List.mem_map.1 hx
    simp [labelsOf, List.getElem?_eq_getElem (List.mem_range.1 hi)]
  have := runStepsR_needs (steps.map PairStep.norm) h (by rw [compile_norm]; exact c1) [] hwd al operands [] l
    (shapeOf_of hs) .nil (by rw [runR_norm]; exact r1)
  intro st hst
  exact this st.norm (List.mem_map_of_mem hst)

/-- C95: if the operands of an order of contraction and the results of its steps have at most `N` elements (lengths of
zero counting as one) and all such arrays can be created, the path does what it does without limits. -/
theorem C95_live_order (room : Room) (N : Nat) (hroom : room.Upto N) (h : HashOrd) (al : Alloc A) (steps : List PairStep)
    (inputs : List (List Char)) (out : List Char) (dims : Char → Nat) (operands : List (View A))
    (hc : Contracts dims out 0 (numbered inputs) steps) (hs : Sized dims inputs (operands.map View.shape))
    (hfit : ∀ v ∈ operands, Fits N v.shape)
    (hst : ∀ st ∈ steps, Fits N (st.sizedContraction.contraction.outputIndices.map dims)) (p : EinsumPath)
    (hp : EinsumPath.fromPath h (.pairs steps) = .ok p) :
    p.contractOperandsR room al operands = p.contractOperands al operands := by
  obtain ⟨cs, c1, c2⟩ := bind_eq_ok.1 hp
  cases c2
  have hwd : Wired dims inputs (steps.map PairStep.norm) [] := wired_contracts hc [] rfl fun x hx => by
    obtain ⟨i, hi, rfl⟩ := List.mem_map.1 hx
    simp [labelsOf, List.getElem?_eq_getElem (List.mem_range.1 hi)]
  have := runStepsR_eq hroom (steps.map PairStep.norm) h (by rw [compile_norm]; exact c1) [] hwd al operands []
    (shapeOf_of hs) .nil (fits_inputs hs hfit) (by simp) fun st' h' => by
      obtain ⟨st, h1, rfl⟩ := List.mem_map.1 h'
      exact hst st h1
  rw [runR_norm, run_norm] at this
  simp only [EinsumPath.contractOperandsR, EinsumPath.contractOperands, this]

/-- C95: so if exactly the arrays with at most `N` elements can be created, a path that returns without limits returns
with them exactly if the result of every step has at most `N` elements. -/
theorem C95_exact_order (room : Room) (N : Nat) (hroom : room.Upto N) (hdown : ∀ s, room.alloc s = true → Fits N s)
    (h : HashOrd) (al : Alloc A) (steps : List PairStep) (inputs : List (List Char)) (out : List Char) (dims : Char → Nat)
    (operands : List (View A)) (hc : Contracts dims out 0 (numbered inputs) steps)
    (hs : Sized dims inputs (operands.map View.shape)) (hfit : ∀ v ∈ operands, Fits N v.shape) (p : EinsumPath)
    (hp : EinsumPath.fromPath h (.pairs steps) = .ok p) (w : View A) (hw : p.contractOperands al operands = .ok w) :
    p.contractOperandsR room al operands = .ok w ↔
      ∀ st ∈ steps, Fits N (st.sizedContraction.contraction.outputIndices.map dims) := by
  constructor
  · intro h1 st hst
    exact hdown _ (C95_needs_order room h al steps inputs out dims operands hc hs p hp w h1 st hst)
  · intro h1
    rw [C95_live_order room N hroom h al steps inputs out dims operands hc hs hfit h1 p hp, hw]

/-! ## `einsum` -/

theorem forall₂_left {α β : Type} {R : α → β → Prop} {l : List α} {m : List β} (h : List.Forall₂ R l m) :
    ∀ x ∈ l, ∃ y ∈ m, R x y := by
  induction h with
  | nil => simp
  | cons h _ ih =>
    intro x hx
    rcases List.mem_cons.1 hx with rfl | hx
    · exact ⟨_, by simp, h⟩
    · obtain ⟨y, h1, h2⟩ := ih x hx
      exact ⟨y, by simp [h1], h2⟩

theorem forall₂_right {α β : Type} {R : α → β → Prop} {l : List α} {m : List β} (h : List.Forall₂ R l m) :
    ∀ y ∈ m, ∃ x ∈ l, R x y := forall₂_left h.flip

/-- C95: if `einsum` returns an array, the result could be allocated, and so could after each step but the last an array
whose axes are the letters kept by then. -/
theorem C95_needs_einsum (room : Room) (h : HashOrd) (al : Alloc A) (s : String) (operands : List (View A))
    (inputs : List (List Char)) (out : List Char) (dims : Char → Nat) (hd : Denotes s inputs out)
    (hs : Sized dims inputs (operands.map View.shape)) (w : View A) (hw : einsumR room h al s operands = .ok (.ok w)) :
    room.alloc w.shape = true ∧
      ∀ k, k + 1 < inputs.length → ∃ ls : List Char, ls.Perm (keptLetters inputs out k) ∧ room.alloc (ls.map dims) = true := by
  have hsc := validateAndSize_ok (h.sub 0) hd hs
  have hscs : SizedContraction.fromStringAndShapes (h.sub 0) s (operands.map View.shape) = .ok (callSC inputs out dims) :=
    fromStringAndShapes_iff.2 ⟨inputs, out, dims, hd, hs, rfl⟩
  simp only [einsumR] at hw
  rw [hsc] at hw
  simp only at hw
  obtain ⟨p, p1, hw⟩ := bind_eq_ok.1 hw
  obtain ⟨w', w1, hw⟩ := bind_eq_ok.1 hw
  cases hw
  obtain ⟨o, o1, o2⟩ := bind_eq_ok.1 p1
  rcases Nat.lt_or_ge inputs.length 2 with h1 | h2
  · have h1 : inputs.length = 1 := by
      have := List.length_pos_of_ne_nil hd.inputs_ne.1
      omega
    rw [C10_singleton (h.sub 0) _ s _ _ hscs .naive (.inl rfl) h1] at o1
    cases o1
    obtain ⟨c, c1, c2⟩ := bind_eq_ok.1 o2
    cases c2
    obtain ⟨t, t1, t2⟩ := bind_eq_ok.1 w1
    exact ⟨singletonOpR_needs t2, fun k hk => by omega⟩
  · obtain ⟨steps, g1, g2⟩ := kept_generated (h := (h.sub 1).sub 0) hscs (.inl rfl) h2
    rw [o1] at g1
    cases g1
    obtain ⟨cs, c1, c2⟩ := bind_eq_ok.1 o2
    cases c2
    obtain ⟨l, r1, r2⟩ := bind_eq_ok.1 w1
    have hwd := wired_generated hscs (.inl rfl) o1 steps rfl
    refine ⟨?_, fun k hk => ?_⟩
    · have := runStepsR_alloc steps _ c1 [] hwd al operands [] l (shapeOf_of hs) .nil r1
      cases hg : l.getLast? with
      | none => rw [hg] at r2; cases r2
      | some x =>
        rw [hg] at r2
        cases r2
        simpa using this _ (List.mem_of_getLast? hg)
    · obtain ⟨st, q1, q2⟩ := forall₂_right g2 k (List.mem_range.2 (by omega))
      exact ⟨_, q2, runStepsR_needs steps _ c1 [] hwd al operands [] l (shapeOf_of hs) .nil r1 st q1⟩

/-- C95: if all arrays with at most `N` elements can be created, and the operands and the results of all steps are such,
`einsum` does what it does without limits.  With one operand there is no other condition. -/
theorem C95_live_einsum (room : Room) (N : Nat) (hroom : room.Upto N) (h : HashOrd) (al : Alloc A) (s : String)
    (operands : List (View A)) (inputs : List (List Char)) (out : List Char) (dims : Char → Nat)
    (hd : Denotes s inputs out) (hs : Sized dims inputs (operands.map View.shape)) (hfit : ∀ v ∈ operands, Fits N v.shape)
    (hk : ∀ k, k + 1 < inputs.length → Fits N ((keptLetters inputs out k).map dims)) :
    einsumR room h al s operands = einsum h al s operands := by
  have hsc := validateAndSize_ok (h.sub 0) hd hs
  have hscs : SizedContraction.fromStringAndShapes (h.sub 0) s (operands.map View.shape) = .ok (callSC inputs out dims) :=
    fromStringAndShapes_iff.2 ⟨inputs, out, dims, hd, hs, rfl⟩
  simp only [einsumR, einsum]
  rw [hsc]
  simp only [SizedContraction.contractOperands]
  suffices H : ∀ p, EinsumPath.new (h.sub 1) (callSC inputs out dims) = .ok p →
      p.contractOperandsR room al operands = p.contractOperands al operands by
    cases hp : EinsumPath.new (h.sub 1) (callSC inputs out dims) with
    | error e => rfl
    | ok p =>
      simp only [bind_ok]
      rw [H p hp]
  intro p p1
  obtain ⟨o, o1, o2⟩ := bind_eq_ok.1 p1
  rcases Nat.lt_or_ge inputs.length 2 with h1 | h2
  · have h1 : inputs.length = 1 := by
      have := List.length_pos_of_ne_nil hd.inputs_ne.1
      omega
    rw [C10_singleton (h.sub 0) _ s _ _ hscs .naive (.inl rfl) h1] at o1
    cases o1
    obtain ⟨c, c1, c2⟩ := bind_eq_ok.1 o2
    cases c2
    obtain ⟨ix, rfl⟩ := List.length_eq_one_iff.1 h1
    refine bind_congr_ok fun t ht => ?_
    obtain ⟨q1, -⟩ := singleton_sizes (callSC_valid hd.outputOk) rfl c1
    have e : t.shape = ix.map dims := by
      have := shapeOf_of hs
      cases this with
      | cons a b => cases b; cases ht; exact a
    have := fits_inputs hs hfit ix (by simp)
    exact singletonOpR_eq hroom (by rw [e]; exact q1 N this) al
  · obtain ⟨steps, g1, g2⟩ := kept_generated (h := (h.sub 1).sub 0) hscs (.inl rfl) h2
    rw [o1] at g1
    cases g1
    obtain ⟨cs, c1, c2⟩ := bind_eq_ok.1 o2
    cases c2
    have hwd := wired_generated hscs (.inl rfl) o1 steps rfl
    have := runStepsR_eq hroom steps _ c1 [] hwd al operands [] (shapeOf_of hs) .nil (fits_inputs hs hfit) (by simp)
      fun st hst => by
        obtain ⟨k, q1, q2⟩ := forall₂_left g2 st hst
        exact (hk k (by have := List.mem_range.1 q1; omega)).perm (q2.map dims)
    simp only [EinsumPath.contractOperandsR, EinsumPath.contractOperands, this]

/-- C95: if exactly the arrays with at most `N` elements (lengths of zero counting as one) can be created and the operands
are such, a call that returns an array without limits returns it exactly if the arrays of the letters kept after each step
are such, and panics otherwise. -/
theorem C95_exact (room : Room) (N : Nat) (hroom : room.Upto N) (hdown : ∀ s, room.alloc s = true → Fits N s)
    (h : HashOrd) (al : Alloc A) (s : String) (operands : List (View A)) (inputs : List (List Char)) (out : List Char)
    (dims : Char → Nat) (hd : Denotes s inputs out) (hs : Sized dims inputs (operands.map View.shape))
    (hfit : ∀ v ∈ operands, Fits N v.shape) (w : View A) (hw : einsum h al s operands = .ok (.ok w)) :
    ((∀ k, k + 1 < inputs.length → Fits N ((keptLetters inputs out k).map dims)) →
      einsumR room h al s operands = .ok (.ok w)) ∧
    ((∃ k, k + 1 < inputs.length ∧ ¬ Fits N ((keptLetters inputs out k).map dims)) →
      ∃ k, einsumR room h al s operands = panic k) := by
  refine ⟨fun hk => ?_, fun ⟨k, k1, k2⟩ => ?_⟩
  · rw [C95_live_einsum room N hroom h al s operands inputs out dims hd hs hfit hk, hw]
  · rcases C95_einsum room h al s operands with e | e
    · obtain ⟨ls, l1, l2⟩ := (C95_needs_einsum room h al s operands inputs out dims hd hs w (e.trans hw)).2 k k1
      exact absurd ((hdown _ l2).perm (l1.map dims).symm) k2
    · exact e

/-! ## `tensordot` -/

/-- C95: if `tensordot` returns an array, it could be allocated. -/
theorem C95_needs_tensordot (room : Room) (al : Alloc A) (l r : View A) (la ra : List Nat) (w : View A)
    (hw : tensordotR room al l r la ra = .ok w) : room.alloc w.shape = true := by
  obtain ⟨_, -, hw⟩ := bind_eq_ok.1 hw
  obtain ⟨_, -, hw⟩ := bind_eq_ok.1 hw
  obtain ⟨_, -, hw⟩ := bind_eq_ok.1 hw
  exact tensordotGeneralR_needs hw

/-- C95: if operands and result of `tensordot` have at most `N` elements and all such arrays can be created, `tensordot`
returns the result. -/
theorem C95_live_tensordot (room : Room) (N : Nat) (hroom : room.Upto N) (al : Alloc A) (l r : View A) (la ra : List Nat)
    (w : View A) (hl : Fits N l.shape) (hr : Fits N r.shape) (hw : tensordot al l r la ra = .ok w) (ho : Fits N w.shape) :
    tensordotR room al l r la ra = .ok w := by
  rw [← hw]
  obtain ⟨_, a1, hw⟩ := bind_eq_ok.1 hw
  obtain ⟨n, a2, hw⟩ := bind_eq_ok.1 hw
  obtain ⟨t, a3, hw⟩ := bind_eq_ok.1 hw
  refine bind_congr_ok fun _ _ => bind_congr_ok fun n' h1 => bind_congr_ok fun t' h2 => ?_
  rw [a2] at h1
  cases h1
  rw [a3] at h2
  cases h2
  obtain ⟨u, c, c', v, u1, u2, u3, u4⟩ := fromAxes_inv a3
  obtain ⟨x, y, x1, x2, x3⟩ := tensordot_shape hw
  have hx : Fits N (u ++ v) := by
    have : w.shape.Perm (u ++ v) := by
      rw [x3]
      refine (permutedAxes_shape_perm x2).trans ?_
      rw [x1, u4]
    exact ho.perm this.symm
  refine tensordotGeneralR_eq hroom ?_ al l r
  rw [u4]
  exact ⟨fits_matrix (hl.perm u1), by have := fits_matrix (hr.perm u2); rwa [u3] at this, fits_matrix hx, hx⟩

end

/-- C95: a call that returns an array returns the Einstein sum, whatever the limits. -/
theorem C95_sum {A : Type} [CommSemiring A] (room : Room) (h : HashOrd) (al : Alloc A) (s : String) (operands : List (View A))
    (inputs : List (List Char)) (out : List Char) (dims : Char → Nat) (ts : List (List Nat → A))
    (hc : Call s operands inputs out dims ts) (w : View A) (hw : einsumR room h al s operands = .ok (.ok w)) :
    IsEinsum dims inputs ts out w :=
  isEinsum_of_returned hc (Limited.ok (C95_einsum room h al s operands) hw)

/-- C95: the same for any order of contraction. -/
theorem C95_sum_order {A : Type} [CommSemiring A] (room : Room) (h : HashOrd) (al : Alloc A) (steps : List PairStep)
    (inputs : List (List Char)) (out : List Char) (dims : Char → Nat) (operands : List (View A)) (ts : List (List Nat → A))
    (hc : Contracts dims out 0 (numbered inputs) steps) (hs : Sized dims inputs (operands.map View.shape))
    (he : List.Forall₂ Elements operands ts) (p : EinsumPath) (hp : EinsumPath.fromPath h (.pairs steps) = .ok p)
    (w : View A) (hw : p.contractOperandsR room al operands = .ok w) : IsEinsum dims inputs ts out w := by
  obtain ⟨p', p1, p2⟩ := C72_sound h steps inputs out dims hc
  rw [hp] at p1
  cases p1
  have := Limited.ok (C95_path room p al operands) hw
  rcases p2 A al operands ts hs he with ⟨k, e⟩ | ⟨r, e, hr⟩
  · rw [this] at e; simp [panic] at e
  · rw [this] at e
    cases e
    exact hr

/-! ## The limits of ndarray -/

theorem nzProd_pos_eq {s : List Nat} (h : ∀ d ∈ s, 0 < d) : nzProd s = s.prod := by
  unfold nzProd
  rw [List.filter_eq_self.2 fun d hd => by have := h d hd; simp; omega]

theorem ndarray_upto (E B z : Nat) (hz : 0 < z) : (Room.ndarray E B z).Upto (min E (B / z)) := by
  intro s hs
  have h1 : nzProd s ≤ E := le_trans hs (min_le_left _ _)
  have h2 : nzProd s ≤ B / z := le_trans hs (min_le_right _ _)
  have h3 : s.prod * z ≤ B := (Nat.le_div_iff_mul_le hz).1 ((prod_le_nzProd s).trans h2)
  unfold nzProd at h1
  exact ⟨decide_eq_true h1, by simp only [Room.ndarray, Bool.and_eq_true, decide_eq_true_eq]; exact ⟨h1, h3⟩⟩

/-- C95: with the limits of ndarray (`E` elements and `B` bytes, elements of `z` bytes) and operands within them that are
not empty, a call that returns an array without limits returns it exactly if the array of the letters kept after
each step is within the limits, and panics otherwise. -/
theorem C95_ndarray {A : Type} [Zero A] [Add A] [Mul A] [MulAdd A] (E B z : Nat) (hz : 0 < z) (h : HashOrd) (al : Alloc A)
    (s : String) (operands : List (View A)) (inputs : List (List Char)) (out : List Char) (dims : Char → Nat)
    (hd : Denotes s inputs out) (hs : Sized dims inputs (operands.map View.shape))
    (hpos : ∀ c ∈ inputs.flatten, 0 < dims c) (hfit : ∀ v ∈ operands, v.shape.prod ≤ E ∧ v.shape.prod * z ≤ B)
    (w : View A) (hw : einsum h al s operands = .ok (.ok w)) :
    ((∀ k, k + 1 < inputs.length →
        ((keptLetters inputs out k).map dims).prod ≤ E ∧ ((keptLetters inputs out k).map dims).prod * z ≤ B) →
      einsumR (.ndarray E B z) h al s operands = .ok (.ok w)) ∧
    ((∃ k, k + 1 < inputs.length ∧
        (E < ((keptLetters inputs out k).map dims).prod ∨ B < ((keptLetters inputs out k).map dims).prod * z)) →
      ∃ k, einsumR (.ndarray E B z) h al s operands = panic k) := by
  have hkpos : ∀ k, ∀ d ∈ (keptLetters inputs out k).map dims, 0 < d := by
    intro k d h1
    obtain ⟨c, c1, rfl⟩ := List.mem_map.1 h1
    refine hpos c ?_
    have := (List.mem_filter.1 c1).1
    rw [List.mem_dedup] at this
    obtain ⟨l, l1, l2⟩ := List.mem_flatten.1 this
    exact List.mem_flatten.2 ⟨l, List.mem_of_mem_take l1, l2⟩
  have hopos : ∀ v ∈ operands, ∀ d ∈ v.shape, 0 < d := by
    intro v hv d h1
    obtain ⟨L, l1, l2⟩ := forall₂_right (shapeOf_of hs) v hv
    rw [show v.shape = L.map dims from l2] at h1
    obtain ⟨c, c1, rfl⟩ := List.mem_map.1 h1
    exact hpos c (List.mem_flatten.2 ⟨L, l1, c1⟩)
  have hto : ∀ s : List Nat, (∀ d ∈ s, 0 < d) → s.prod ≤ E ∧ s.prod * z ≤ B → Fits (min E (B / z)) s := by
    intro s h1 h2
    unfold Fits
    rw [nzProd_pos_eq h1]
    exact le_min h2.1 ((Nat.le_div_iff_mul_le hz).2 h2.2)
  refine ⟨fun hk => ?_, fun ⟨k, k1, k2⟩ => ?_⟩
  · rw [C95_live_einsum _ _ (ndarray_upto E B z hz) h al s operands inputs out dims hd hs
      (fun v hv => hto _ (hopos v hv) (hfit v hv)) fun k k1 => hto _ (hkpos k) (hk k k1), hw]
  · rcases C95_einsum (.ndarray E B z) h al s operands with e | e
    · obtain ⟨ls, l1, l2⟩ := (C95_needs_einsum _ h al s operands inputs out dims hd hs w (e.trans hw)).2 k k1
      simp only [Room.ndarray, Bool.and_eq_true, decide_eq_true_eq] at l2
      obtain ⟨a, b⟩ := l2
      have a : nzProd (ls.map dims) ≤ E := a
      rw [nzProd_pos_eq fun d hd => hkpos k d ((l1.map dims).mem_iff.1 hd)] at a
      rw [(l1.map dims).prod_eq] at a b
      omega
    · exact e

/-! ## An operand and a result that fit are not enough -/

/-- C95: four vectors, of lengths `m`, `n`, `m`, `n`, all sums being asked for.  If only arrays with at most `N` elements can be
created, `m` and `n` being within and `m * n` above, the call panics; with the vectors in the order `m`, `m`, `n`, `n` it returns
the sum. -/
theorem C95_order {A : Type} [CommSemiring A] (room : Room) (N : Nat) (hroom : room.Upto N)
    (hdown : ∀ s, room.alloc s = true → Fits N s) (h h' : HashOrd) (al al' : Alloc A) (m n : Nat) (hm : 0 < m) (hn : 0 < n)
    (hmN : m ≤ N) (hnN : n ≤ N) (hmn : N < m * n) (a b c d : View A) (ha : a.Wf ∧ a.shape = [m]) (hb : b.Wf ∧ b.shape = [n])
    (hc : c.Wf ∧ c.shape = [m]) (hd : d.Wf ∧ d.shape = [n]) :
    (∃ k, einsumR room h al "i,j,i,j->" [a, b, c, d] = panic k) ∧
    ∃ w w', einsum h al "i,j,i,j->" [a, b, c, d] = .ok (.ok w) ∧
      einsumR room h' al' "i,i,j,j->" [a, c, b, d] = .ok (.ok w') ∧ SameArray w w' := by
  have d1 : Denotes "i,j,i,j->" [['i'], ['j'], ['i'], ['j']] [] :=
    .inl ⟨by decide, ⟨by simp, by simp [Letter], by simp⟩, by simp [OutputOk]⟩
  have d2 : Denotes "i,i,j,j->" [['i'], ['i'], ['j'], ['j']] [] :=
    .inl ⟨by decide, ⟨by simp, by simp [Letter], by simp⟩, by simp [OutputOk]⟩
  have s1 : Sized (fun x => if x = 'i' then m else n) [['i'], ['j'], ['i'], ['j']] ([a, b, c, d].map View.shape) :=
    .cons (by simp [ha.2]) (.cons (by simp [hb.2]) (.cons (by simp [hc.2]) (.cons (by simp [hd.2]) .nil)))
  have s2 : Sized (fun x => if x = 'i' then m else n) [['i'], ['i'], ['j'], ['j']] ([a, c, b, d].map View.shape) :=
    .cons (by simp [ha.2]) (.cons (by simp [hc.2]) (.cons (by simp [hb.2]) (.cons (by simp [hd.2]) .nil)))
  have fit1 : Fits N [m] := by simp [Fits, nzProd, hm.ne', hmN]
  have fit2 : Fits N [n] := by simp [Fits, nzProd, hn.ne', hnN]
  have fit0 : Fits N [] := by simp only [Fits, nzProd]; simp; omega
  obtain ⟨w, w', w1, w2, w3⟩ := C27_operand_order h h' al al' "i,j,i,j->" "i,i,j,j->" [a, b, c, d] [a, c, b, d] _ _ _ _ d1 d2
    s1 (by simp [ha.1, hb.1, hc.1, hd.1]) (by simp [NoEmptyDiagonal]) rfl (.cons _ (.swap _ _ _))
  constructor
  · refine (C95_exact room N hroom hdown h al _ _ _ _ _ d1 s1 ?_ w w1).2 ⟨0, by simp, ?_⟩
    · intro v hv
      simp only [List.mem_cons, List.not_mem_nil, or_false] at hv
      rcases hv with rfl | rfl | rfl | rfl
      · rw [ha.2]; exact fit1
      · rw [hb.2]; exact fit2
      · rw [hc.2]; exact fit1
      · rw [hd.2]; exact fit2
    · have : keptLetters [['i'], ['j'], ['i'], ['j']] [] 0 = ['i', 'j'] := by decide
      rw [this]
      simp [Fits, nzProd, hm.ne', hn.ne']
      omega
  · refine ⟨w, w', w1, ?_, w3⟩
    · refine (C95_exact room N hroom hdown h' al' _ _ _ _ _ d2 s2 ?_ w' w2).1 ?_
      · intro v hv
        simp only [List.mem_cons, List.not_mem_nil, or_false] at hv
        rcases hv with rfl | rfl | rfl | rfl
        · rw [ha.2]; exact fit1
        · rw [hc.2]; exact fit1
        · rw [hb.2]; exact fit2
        · rw [hd.2]; exact fit2
      · intro k hk
        have k0 : keptLetters [['i'], ['i'], ['j'], ['j']] [] 0 = [] := by decide
        have k1 : keptLetters [['i'], ['i'], ['j'], ['j']] [] 1 = ['j'] := by decide
        have k2 : keptLetters [['i'], ['i'], ['j'], ['j']] [] 2 = [] := by decide
        simp only [List.length_cons, List.length_nil] at hk
        obtain rfl | rfl | rfl : k = 0 ∨ k = 1 ∨ k = 2 := by omega
        · rw [k0]; exact fit0
        · rw [k1]; exact fit2
        · rw [k2]; exact fit0

theorem einsumR_one {A : Type} [Zero A] [Add A] [Mul A] [MulAdd A] (room : Room) (h : HashOrd) (al : Alloc A) {s : String}
    {v : View A} {ix out : List Char} {dims : Char → Nat} (hd : Denotes s [ix] out) (hs : Sized dims [ix] [v.shape]) :
    einsumR room h al s [v] = (do
      let c ← SingletonContraction.new (callSC [ix] out dims)
      let r ← c.op.runR room al v
      return .ok r) := by
  have hsc := validateAndSize_ok (h.sub 0) (operands := [v]) hd hs
  have hscs : SizedContraction.fromStringAndShapes (h.sub 0) s [v.shape] = .ok (callSC [ix] out dims) :=
    fromStringAndShapes_iff.2 ⟨[ix], out, dims, hd, hs, rfl⟩
  simp only [einsumR]
  rw [hsc]
  simp only [EinsumPath.new]
  rw [C10_singleton (h.sub 0) _ s _ _ hscs .naive (.inl rfl) rfl]
  simp only [bind_ok, EinsumPath.fromPath]
  cases SingletonContraction.new (callSC [ix] out dims) <;> rfl

theorem sumAll_new (dims : Char → Nat) : ∃ m, SingletonContraction.new (callSC [['i', 'j']] [] dims) =
    .ok ⟨m, .summation ⟨[0, 1], [0, 0]⟩⟩ := ⟨_, by with_unfolding_all rfl⟩

/-- C95: the sum over all axes of an array with no elements.  With the limits of ndarray, the call panics if the array has the
shape `[0, m]` and `m` elements are too many bytes, although neither the array nor the result has them: `sum_axis`
of the first axis makes an array of `m` zeros.  If the axes are the other way round the call returns what it returns
without limits. -/
theorem C95_empty {A : Type} [Zero A] [Add A] [Mul A] [MulAdd A] (E B z m : Nat) (hE : 0 < E) (hz : z ≤ B) (hm : B < m * z)
    (h h' : HashOrd) (al al' : Alloc A) (v v' : View A) (hv : v.shape = [0, m]) (hv' : v'.shape = [m, 0]) :
    einsumR (.ndarray E B z) h al "ij->" [v] = panic .ndarray ∧
    einsumR (.ndarray E B z) h' al' "ij->" [v'] = einsum h' al' "ij->" [v'] := by
  have d1 : Denotes "ij->" [['i', 'j']] [] :=
    .inl ⟨by decide, ⟨by simp, by simp [Letter], by simp⟩, by simp [OutputOk]⟩
  constructor
  · have s1 : Sized (fun x => if x = 'i' then 0 else m) [['i', 'j']] [v.shape] := .cons (by simp [hv]) .nil
    rw [einsumR_one _ h al d1 s1]
    obtain ⟨k, hk⟩ := sumAll_new fun x => if x = 'i' then 0 else m
    rw [hk]
    have : (Room.ndarray E B z).alloc (v.shape.eraseIdx 0) = false := by
      rw [hv]
      simp [Room.ndarray]
      intro _; exact hm
    simp only [bind_ok, SingletonOp.runR, Summation.runR, View.sumAxisR]
    change (do let r ← (do let r ← (do grant _; _); _); _) = _
    rw [this]
    rfl
  · have s1 : Sized (fun x => if x = 'i' then m else 0) [['i', 'j']] [v'.shape] := .cons (by simp [hv']) .nil
    rw [← C95_live_einsum ⟨fun _ => true, fun _ => true⟩ (nzProd v'.shape) (fun _ _ => ⟨rfl, rfl⟩) h' al' _ [v'] _ _ _ d1 s1
      (by intro v hv; rw [List.mem_singleton.1 hv]; exact le_refl _) (by simp),
      einsumR_one _ h' al' d1 s1, einsumR_one _ h' al' d1 s1]
    obtain ⟨k, hk⟩ := sumAll_new fun x => if x = 'i' then m else 0
    rw [hk]
    have a0 : (Room.ndarray E B z).alloc [0] = true := by
      simp only [Room.ndarray, Bool.and_eq_true, decide_eq_true_eq]
      exact ⟨by simp; omega, by simp⟩
    have a1 : (Room.ndarray E B z).alloc [] = true := by
      simp only [Room.ndarray, Bool.and_eq_true, decide_eq_true_eq]
      exact ⟨by simp; omega, by simpa using hz⟩
    have e : SingletonOp.runR (.ndarray E B z) al' v' (.summation ⟨[0, 1], [0, 0]⟩) =
        SingletonOp.runR ⟨fun _ => true, fun _ => true⟩ al' v' (.summation ⟨[0, 1], [0, 0]⟩) := by
      have g : ∀ {room : Room} (al : Alloc A) {v : View A}, room.alloc (v.shape.eraseIdx 0) = true →
          v.sumAxisR room al 0 = v.sumAxis al 0 := fun al v h => grant_of h _
      simp only [SingletonOp.runR, Summation.runR, sumAxesR, List.tail_cons]
      refine bind_congr_ok fun x hx => ?_
      cases hx
      rw [g (al'.sub 0) (by rw [hv']; exact a0), g (al'.sub 0) rfl]
      refine bind_congr_ok fun r hr => ?_
      rw [g _ (by rw [sumAxis_shape hr, hv']; exact a1), g _ rfl]
    simp only [bind_ok, e]

/-! ## C75 for all allocators -/

section
variable {A : Type} [Zero A] [Add A] [Mul A] [MulAdd A]

omit [Zero A] [Add A] [Mul A] [MulAdd A] in
theorem shapes_of_shapeOf {dims : Char → Nat} {outs : List (List Char)} {vs : List (View A)}
    (h : List.Forall₂ (ShapeOf dims) outs vs) : vs.map View.shape = outs.map fun o => o.map dims := by
  induction h with
  | nil => rfl
  | cons h _ ih => rw [List.map_cons, List.map_cons, ih, show _ = _ from h]

/-- C75: also for allocators that treat arrays of different contents differently, and whatever the buffers and strides of the
operands. -/
theorem C75_any_tree (h : HashOrd) (al : Alloc A) (steps : List PairStep) (inputs : List (List Char)) (out : List Char)
    (dims : Char → Nat) (operands : List (View A)) (hc : Contracts dims out 0 (numbered inputs) steps)
    (hs : Sized dims inputs (operands.map View.shape)) (p : EinsumPath) (hp : EinsumPath.fromPath h (.pairs steps) = .ok p)
    (l : List (View A)) (hr : p.intermediates al operands = .ok l) :
    l.map View.shape = steps.map fun st => st.sizedContraction.contraction.outputIndices.map dims := by
  obtain ⟨cs, c1, c2⟩ := bind_eq_ok.1 hp
  cases c2
  simp only [EinsumPath.intermediates] at hr
  have hw : Wired dims inputs (steps.map PairStep.norm) [] := wired_contracts hc [] rfl fun x hx => by
    obtain ⟨i, hi, rfl⟩ := List.mem_map.1 hx
    simp [labelsOf, List.getElem?_eq_getElem (List.mem_range.1 hi)]
  rw [shapes_of_shapeOf (runSteps_shapes (steps.map PairStep.norm) h (by rw [compile_norm]; exact c1) [] hw al operands [] l
    (shapeOf_of hs) .nil (by rw [run_norm]; exact hr))]
  simp [PairStep.norm]

/-- C75: the same for the orders that the crate generates. -/
theorem C75_any_path (h₀ h h' : HashOrd) (al : Alloc A) (s : String) (operands : List (View A)) (inputs : List (List Char))
    (out : List Char) (dims : Char → Nat) (hd : Denotes s inputs out) (hs : Sized dims inputs (operands.map View.shape))
    (h2 : 2 ≤ inputs.length) (m : OptimizationMethod) (hm : m = .naive ∨ m = .reverse) (sc : SizedContraction)
    (hsc : SizedContraction.fromStringAndShapes h₀ s (operands.map View.shape) = .ok sc) (o : ContractionOrder)
    (ho : generateOptimizedOrder h sc m = .ok o) (p : EinsumPath) (hp : EinsumPath.fromPath h' o = .ok p)
    (l : List (View A)) (hr : p.intermediates al operands = .ok l) :
    List.Forall₂ (fun v k => ∃ ls : List Char, ls.Perm (keptLetters (inOrder m inputs) out k) ∧ v.shape = ls.map dims)
      l (List.range (inputs.length - 1)) ∧
    (l.map fun v => v.shape.prod) =
      (List.range (inputs.length - 1)).map fun k => ((keptLetters (inOrder m inputs) out k).map dims).prod := by
  obtain rfl : sc = callSC inputs out dims := by
    have : SizedContraction.fromStringAndShapes h₀ s (operands.map View.shape) = .ok (callSC inputs out dims) :=
      fromStringAndShapes_iff.2 ⟨inputs, out, dims, hd, hs, rfl⟩
    rw [hsc] at this
    exact Except.ok.inj this
  obtain ⟨steps, o1, o2⟩ := kept_generated (h := h) hsc hm h2
  rw [ho] at o1
  cases o1
  obtain ⟨cs, c1, c2⟩ := bind_eq_ok.1 hp
  cases c2
  simp only [EinsumPath.intermediates] at hr
  have hl := shapes_of_shapeOf (runSteps_shapes steps h' c1 [] (wired_generated hsc hm ho steps rfl) al operands [] l
    (shapeOf_of hs) .nil hr)
  simp only [List.nil_append, List.map_map] at hl
  refine ⟨?_, prod_of_shapes o2 hl⟩
  clear hr hp c1 ho
  generalize List.range (inputs.length - 1) = ks at o2
  induction o2 generalizing l with
  | nil => simp at hl; simp [hl]
  | cons h _ ih =>
    cases l with
    | nil => simp at hl
    | cons v l =>
      simp only [List.map_cons, List.cons.injEq] at hl
      exact .cons ⟨_, h, hl.1⟩ (ih l hl.2)

end

/-! ## Examples -/

/-- At most six elements of eight bytes. -/
def Ex.room6 : Room := .ndarray 100 48 8

/-- At most `N` elements. -/
def Ex.roomUpto (N : Nat) : Room := ⟨fun s => decide (nzProd s ≤ N), fun s => decide (nzProd s ≤ N)⟩

theorem Ex.roomUpto_upto (N : Nat) : (Ex.roomUpto N).Upto N := fun _ h => ⟨decide_eq_true h, decide_eq_true h⟩

theorem Ex.roomUpto_down (N : Nat) : ∀ s, (Ex.roomUpto N).alloc s = true → Fits N s := fun _ h => of_decide_eq_true h

/-- A room in which nothing can be allocated: the call panics and returns no other array. -/
example : ∃ k, einsumR ⟨fun _ => true, fun _ => false⟩ HashOrd.reversed (Alloc.colMajor Int) "ij,jk->ik" [Ex.m23, Ex.m32] =
    panic k := by
  rcases C95_einsum ⟨fun _ => true, fun _ => false⟩ HashOrd.reversed (Alloc.colMajor Int) "ij,jk->ik" [Ex.m23, Ex.m32] with h | h
  · obtain ⟨r, h1, -⟩ := C13_einsum HashOrd.reversed (Alloc.colMajor Int) _ _ _ _ _ _ Ex.call_matmul Ex.ned_matmul
    have := (C95_needs_einsum _ _ _ _ _ _ _ _ Ex.denotes_matmul Ex.call_matmul.sized r (h.trans h1)).1
    cases this
  · exact h

/-- The product of two matrices whose lengths are within the limits. -/
example : ∃ r, einsumR Ex.room6 HashOrd.reversed (Alloc.colMajor Int) "ij,jk->ik" [Ex.m23, Ex.m32] = .ok (.ok r) ∧
    IsEinsum Ex.dims [['i', 'j'], ['j', 'k']] [Ex.elems Ex.m23, Ex.elems Ex.m32] ['i', 'k'] r := by
  obtain ⟨r, h1, -⟩ := C13_einsum HashOrd.reversed (Alloc.colMajor Int) _ _ _ _ _ _ Ex.call_matmul Ex.ned_matmul
  have h2 := (C95_ndarray 100 48 8 (by decide) HashOrd.reversed (Alloc.colMajor Int) "ij,jk->ik" _ _ _ Ex.dims Ex.denotes_matmul
    Ex.call_matmul.sized (by decide) (by decide) r h1).1 (by
      intro k hk
      obtain rfl : k = 0 := by simp at hk; omega
      decide)
  exact ⟨r, h2, C95_sum Ex.room6 _ _ _ _ _ _ _ _ Ex.call_matmul r h2⟩

/-- Three matrices listed as first, third, second: the first step makes an array of 36 elements. -/
example : ∃ k, einsumR Ex.room6 HashOrd.reversed (Alloc.colMajor Int) "ij,kl,jk->il" [Ex.m23, Ex.m23, Ex.m32] = panic k := by
  obtain ⟨r, h1, -⟩ := C13_einsum HashOrd.reversed (Alloc.colMajor Int) "ij,kl,jk->il" _ _ _ _ _
    ⟨Ex.denotes_scattered, Ex.sized_scattered, forall₂_elem Ex.wf_scattered⟩ fun x _ => .inr fun c _ => by
      unfold Ex.treeDims; split <;> omega
  exact (C95_ndarray 100 48 8 (by decide) HashOrd.reversed (Alloc.colMajor Int) "ij,kl,jk->il" _ _ _ _ Ex.denotes_scattered
    Ex.sized_scattered (by decide) (by decide) r h1).2 ⟨0, by decide, by decide⟩

/-- The balanced tree holds an array of 12 elements: a limit of 12 is enough, one of 11 is not. -/
example : ∃ p r, EinsumPath.fromPath HashOrd.reversed (.pairs Ex.balanced) = .ok p ∧
    p.contractOperandsR (Ex.roomUpto 12) (Alloc.colMajor Int) [Ex.m23, Ex.m32, Ex.m23, Ex.m32] = .ok r ∧
    IsEinsum Ex.treeDims Ex.treeInputs ([Ex.m23, Ex.m32, Ex.m23, Ex.m32].map View.elem) ['i', 'm'] r ∧
    p.contractOperandsR (Ex.roomUpto 11) (Alloc.colMajor Int) [Ex.m23, Ex.m32, Ex.m23, Ex.m32] ≠ .ok r := by
  obtain ⟨p, r, h1, h2, -⟩ := C72_order HashOrd.reversed (Alloc.colMajor Int) _ _ _ _ _ _ Ex.contracts_tree Ex.sized_tree
    (forall₂_elem Ex.wf_tree) Ex.ned_tree
  have h3 := (C95_exact_order _ 12 (Ex.roomUpto_upto 12) (Ex.roomUpto_down 12) HashOrd.reversed (Alloc.colMajor Int) _ _ _ _ _
    Ex.contracts_tree Ex.sized_tree (by unfold Fits; decide) p h1 r h2).2 (by unfold Fits; decide)
  refine ⟨p, r, h1, h3, C95_sum_order _ _ _ _ _ _ _ _ _ Ex.contracts_tree Ex.sized_tree (forall₂_elem Ex.wf_tree) p h1 r h3,
    fun h4 => ?_⟩
  have := (C95_exact_order _ 11 (Ex.roomUpto_upto 11) (Ex.roomUpto_down 11) HashOrd.reversed (Alloc.colMajor Int) _ _ _ _ _
    Ex.contracts_tree Ex.sized_tree (by unfold Fits; decide) p h1 r h2).1 h4
  revert this
  unfold Fits
  decide

/-- The result of the scalar product of two matrices has one element. -/
example : ∃ w, tensordotR (Ex.roomUpto 6) (Alloc.rowMajor Int) Ex.m23 Ex.m23 [0, 1] [0, 1] = .ok w := by
  obtain ⟨w, h1, -⟩ := C23_products_only (Alloc.rowMajor Int) Ex.m23 Ex.m23 _ _ [0, 1] [0, 1] Ex.e23 Ex.e23 (by decide)
  have hs : w.shape = [] := by
    have := h1
    revert this
    exact fun h => (by
      have e : (tensordot (Alloc.rowMajor Int) Ex.m23 Ex.m23 [0, 1] [0, 1]).toOption.map View.shape = some [] := by decide +kernel
      rw [h] at e
      exact Option.some.inj e)
  exact ⟨w, C95_live_tensordot _ 6 (Ex.roomUpto_upto 6) _ _ _ _ _ w (by unfold Fits; decide) (by unfold Fits; decide) h1
    (by rw [hs]; unfold Fits; decide)⟩

/-- The outer product of the matrices has 36 elements. -/
example : ∃ k, tensordotR (Ex.roomUpto 35) (Alloc.rowMajor Int) Ex.m23 Ex.m23 [] [] = panic k := by
  rcases C95_tensordot (Ex.roomUpto 35) (Alloc.rowMajor Int) Ex.m23 Ex.m23 [] [] with h | h
  · have e : (tensordot (Alloc.rowMajor Int) Ex.m23 Ex.m23 [] []).toOption.map View.shape = some [2, 3, 2, 3] := by
      decide +kernel
    cases hw : tensordot (Alloc.rowMajor Int) Ex.m23 Ex.m23 [] [] with
    | error x => rw [hw] at e; cases e
    | ok w =>
      rw [hw] at e
      have e : w.shape = [2, 3, 2, 3] := Option.some.inj e
      have := C95_needs_tensordot _ _ _ _ _ _ w (h.trans hw)
      rw [e] at this
      exact absurd (Ex.roomUpto_down 35 _ this) (by unfold Fits; decide)
  · exact h

/-- Every other element of three, and one element three times. -/
def Ex.cap2 : View Int := ⟨[1, 0, 2], 0, [2], [2]⟩
def Ex.cap3 : View Int := ⟨[7], 0, [3], [0]⟩

theorem Ex.wf_cap2 : Ex.cap2.Wf := (elements_of (t := Ex.elems Ex.cap2) rfl (by decide)).1
theorem Ex.wf_cap3 : Ex.cap3.Wf := (elements_of (t := Ex.elems Ex.cap3) rfl (by decide)).1

example : (∃ k, einsumR (Ex.roomUpto 5) HashOrd.insertion (Alloc.rowMajor Int) "i,j,i,j->" [Ex.cap2, Ex.cap3, Ex.cap2, Ex.cap3] =
      panic k) ∧
    ∃ w w', einsum HashOrd.insertion (Alloc.rowMajor Int) "i,j,i,j->" [Ex.cap2, Ex.cap3, Ex.cap2, Ex.cap3] = .ok (.ok w) ∧
      einsumR (Ex.roomUpto 5) HashOrd.reversed (Alloc.colMajor Int) "i,i,j,j->" [Ex.cap2, Ex.cap2, Ex.cap3, Ex.cap3] = .ok (.ok w') ∧
      SameArray w w' :=
  C95_order _ 5 (Ex.roomUpto_upto 5) (Ex.roomUpto_down 5) _ _ _ _ 2 3 (by decide) (by decide) (by decide) (by decide) (by decide)
    _ _ _ _ ⟨Ex.wf_cap2, rfl⟩ ⟨Ex.wf_cap3, rfl⟩ ⟨Ex.wf_cap2, rfl⟩ ⟨Ex.wf_cap3, rfl⟩

/-- Elements of eight bytes, as with `f64`. -/
example : einsumR (.ndarray (2 ^ 63 - 1) (2 ^ 63 - 1) 8) HashOrd.insertion (Alloc.rowMajor Int) "ij->"
      [⟨[], 0, [0, 2 ^ 61], [0, 0]⟩] = panic .ndarray ∧
    einsumR (.ndarray (2 ^ 63 - 1) (2 ^ 63 - 1) 8) HashOrd.insertion (Alloc.rowMajor Int) "ij->"
      [⟨[], 0, [2 ^ 61, 0], [0, 0]⟩] = einsum HashOrd.insertion (Alloc.rowMajor Int) "ij->" [⟨[], 0, [2 ^ 61, 0], [0, 0]⟩] :=
  C95_empty _ _ _ (2 ^ 61) (by decide) (by decide) (by decide) _ _ _ _ _ _ rfl rfl

end Einsum
