import Verif.Props.Tensordot
import Verif.Props.Rounding
import Verif.Proofs.Shrink

/-!
# Outcomes and shapes for element types without laws: C14, C15, C17, C22

Which calls return, and with which shape, does not depend on any law of the element type.
-/

namespace Einsum

open Spec

variable {A B : Type}

theorem emptyDiagonal_map (f : A → B) {dims : Char → Nat} {inputs : List (List Char)} {out : List Char}
    {operands : List (View A)} :
    EmptyDiagonal dims inputs out (operands.map (View.map f)) ↔ EmptyDiagonal dims inputs out operands := by
  constructor
  · rintro ⟨k, ix, v, h1, h2, h3, h4, h5⟩
    rw [List.getElem?_map, Option.map_eq_some_iff] at h2
    obtain ⟨w, hw, rfl⟩ := h2
    exact ⟨k, ix, w, h1, hw, h3, h4, fun hu => h5 hu⟩
  · rintro ⟨k, ix, v, h1, h2, h3, h4, h5⟩
    exact ⟨k, ix, v.map f, h1, by rw [List.getElem?_map, h2]; rfl, h3, h4, fun hu => h5 hu⟩

/-- What holds with all elements forgotten. -/
theorem outcome_forget {good bad : Prop} {m : M (View A)} {m' : M (View PUnit.{1})} {sh : List Nat}
    (hm : m' = m.map (View.map fun _ => PUnit.unit))
    (ho : Outcome good bad m' fun w => w.Wf ∧ w.shape = sh) :
    Outcome good bad m fun w => w.Wf ∧ w.shape = sh := by
  subst hm
  refine ⟨fun hg => ?_, fun hb => ?_, ?_⟩
  · obtain ⟨w, h1, h2, h3⟩ := ho.1 hg
    cases hr : m with
    | error e => rw [hr] at h1; cases h1
    | ok r =>
      rw [hr] at h1
      cases h1
      exact ⟨r, rfl, (view_wf_map _).1 h2, h3⟩
  · obtain ⟨k, h1⟩ := ho.2.1 hb
    cases hr : m with
    | error e => rw [hr] at h1; cases h1; exact ⟨k, rfl⟩
    | ok r => rw [hr] at h1; cases h1
  · rcases ho.2.2 with ⟨k, h1⟩ | ⟨w, h1, h2, h3⟩
    · cases hr : m with
      | error e => rw [hr] at h1; cases h1; exact .inl ⟨k, rfl⟩
      | ok r => rw [hr] at h1; cases h1
    · cases hr : m with
      | error e => rw [hr] at h1; cases h1
      | ok r =>
        rw [hr] at h1
        cases h1
        exact .inr ⟨r, rfl, (view_wf_map _).1 h2, h3⟩

theorem Spec.IsEinsum.wf_shape [CommSemiring B] {dims : Char → Nat} {inputs : List (List Char)}
    {ts : List (List Nat → B)} {out : List Char} {r : View B} (h : IsEinsum dims inputs ts out r) :
    r.Wf ∧ r.shape = out.map dims := ⟨h.1, h.2.1⟩

variable [Zero A] [Add A] [Mul A] [MulAdd A]

/-- C14 for element types without laws: a valid call panics exactly in the case of C14, and otherwise returns a well
formed array of the shape the output labels prescribe. -/
theorem C14_lawless (h : HashOrd) (al : UniformAlloc) (s : String) (operands : List (View A))
    (inputs : List (List Char)) (out : List Char) (dims : Char → Nat) (ts : List (List Nat → A))
    (hc : Call s operands inputs out dims ts) :
    ((∃ k, einsum h (al.alloc A) s operands = panic k) ↔ EmptyDiagonal dims inputs out operands) ∧
    (¬ EmptyDiagonal dims inputs out operands →
      ∃ r, einsum h (al.alloc A) s operands = .ok (.ok r) ∧ r.Wf ∧ r.shape = out.map dims) := by
  have hm := C52_natural (fun _ : A => PUnit.unit.{1}) unit_opHom h al s operands
  have hc' := hc.map fun _ : A => PUnit.unit.{1}
  have h14 := C14_iff h (al.alloc PUnit.{1}) s _ inputs out dims _ hc'
  have h14' := C14_otherwise h (al.alloc PUnit.{1}) s _ inputs out dims _ hc'
  rw [hm, emptyDiagonal_map] at h14 h14'
  cases hr : einsum h (al.alloc A) s operands with
  | error e =>
    rw [hr] at h14 h14'
    refine ⟨⟨?_, fun he => ?_⟩, fun hne => ?_⟩
    · rintro ⟨k, hk⟩
      cases hk
      exact h14.1 ⟨k, rfl⟩
    · obtain ⟨k, hk⟩ := h14.2 he
      cases hk
      exact ⟨k, rfl⟩
    obtain ⟨w, h1, -⟩ := h14'.1 hne
    cases h1
  | ok x =>
    rw [hr] at h14 h14'
    refine ⟨⟨?_, fun he => ?_⟩, fun hne => ?_⟩
    · rintro ⟨k, hk⟩; cases hk
    · obtain ⟨k, hk⟩ := h14.2 he; cases hk
    · obtain ⟨w, h1, h2⟩ := h14'.1 hne
      cases x with
      | error e => cases h1
      | ok r =>
        cases h1
        exact ⟨r, rfl, (view_wf_map _).1 h2.1, h2.2.1⟩

/-- C15 for element types without laws. -/
theorem C15_lawless (h : HashOrd) (al : UniformAlloc) (s : String) (operands : List (View A))
    (inputs : List (List Char)) (out : List Char) (dims : Char → Nat) (r : View A)
    (hd : Denotes s inputs out) (hs : Sized dims inputs (operands.map View.shape))
    (hw : ∀ v ∈ operands, v.Wf) (hr : einsum h (al.alloc A) s operands = .ok (.ok r)) :
    r.Wf ∧ r.shape = out.map dims := by
  obtain ⟨ts, ht⟩ := exists_elements hw
  obtain ⟨h1, h2⟩ := C14_lawless h al s operands inputs out dims ts ⟨hd, hs, ht⟩
  by_cases he : EmptyDiagonal dims inputs out operands
  · obtain ⟨k, hk⟩ := h1.2 he
    rw [hr] at hk
    cases hk
  · obtain ⟨r', h3, h4⟩ := h2 he
    rw [hr] at h3
    cases h3
    exact h4

/-- C17 for element types without laws: compiled paths, in either order, panic exactly in the case of C14, and otherwise
return a well formed array of the prescribed shape. -/
theorem C17_lawless (h : HashOrd) (al : UniformAlloc) (s : String) (operands : List (View A))
    (inputs : List (List Char)) (out : List Char) (dims : Char → Nat) (ts : List (List Nat → A))
    (m : OptimizationMethod) (hm : m = .naive ∨ m = .reverse) (hc : Call s operands inputs out dims ts) :
    ∃ p, einsumPath h s operands m = .ok (.ok p) ∧
      (EmptyDiagonal dims inputs out operands → ∃ k, p.contractOperands (al.alloc A) operands = panic k) ∧
      (¬ EmptyDiagonal dims inputs out operands →
        ∃ r, p.contractOperands (al.alloc A) operands = .ok r ∧ r.Wf ∧ r.shape = out.map dims) := by
  obtain ⟨p, p1, p2⟩ := einsumPath_ok hc.denotes hc.sized h hm
  have hc' := hc.map fun _ : A => PUnit.unit.{1}
  have ho := outcome_forget (p.contractOperands_map unit_opHom (al.compat fun _ : A => PUnit.unit.{1}) operands)
    ((p2.outcome hc.denotes.outputOk.1 hc'.sized hc'.elements (al.alloc PUnit.{1})).imp
      (fun x => x) (fun x => x) fun w hw => hw.wf_shape)
  rw [emptyDiagonal_map] at ho
  exact ⟨p, p1, ho.2.1, ho.1⟩

/-- C22 for element types without laws: `tensordot` returns exactly for the accepted arguments. -/
theorem C22_lawless (al : UniformAlloc) (l r : View A) (la ra : List Nat) (hl : l.Wf) (hr : r.Wf) :
    (TensordotArgs l.shape r.shape la ra → ∃ w, tensordot (al.alloc A) l r la ra = .ok w ∧ w.Wf) ∧
    (¬ TensordotArgs l.shape r.shape la ra → ∃ k, tensordot (al.alloc A) l r la ra = panic k) := by
  have hm := tensordot_map (A := A) unit_opHom (al.compat fun _ : A => PUnit.unit.{1}) l r la ra
  have h22 := C22_args (al.alloc PUnit.{1}) (l.map fun _ => PUnit.unit) (r.map fun _ => PUnit.unit) la ra
    ((view_wf_map _).2 hl) ((view_wf_map _).2 hr)
  rw [hm] at h22
  refine ⟨fun h => ?_, fun h => ?_⟩
  · obtain ⟨w, h1, h2⟩ := h22.1 h
    cases ht : tensordot (al.alloc A) l r la ra with
    | error e => rw [ht] at h1; cases h1
    | ok w =>
      rw [ht] at h1
      cases h1
      exact ⟨w, rfl, (view_wf_map _).1 h2⟩
  · obtain ⟨k, hk⟩ := h22.2 h
    cases ht : tensordot (al.alloc A) l r la ra with
    | error e => rw [ht] at hk; cases hk; exact ⟨k, rfl⟩
    | ok w => rw [ht] at hk; cases hk

/-- Addition and multiplication that are neither associative nor commutative, and a zero that is not neutral. -/
structure Ex.Odd where
  val : Int

instance : Zero Ex.Odd := ⟨⟨5⟩⟩
instance : Add Ex.Odd := ⟨fun a b => ⟨a.val - 2 * b.val⟩⟩
instance : Mul Ex.Odd := ⟨fun a b => ⟨a.val * a.val - b.val⟩⟩
instance : MulAdd Ex.Odd := ⟨fun a b c => ⟨a.val + 7 * b.val - c.val⟩⟩

example : ∃ r, einsum HashOrd.reversed (Alloc.fused Ex.Odd) "ij,jk->ik" ([Ex.m23, Ex.m32].map (View.map Ex.Odd.mk)) =
    .ok (.ok r) ∧ r.shape = [2, 2] := by
  obtain ⟨r, h1, -, h2⟩ := (C14_lawless HashOrd.reversed UniformAlloc.fused _ _ _ _ _ _ (Ex.call_matmul.map Ex.Odd.mk)).2
    (not_emptyDiagonal Ex.ned_matmul)
  exact ⟨r, h1, h2⟩

example : ∃ k, einsum HashOrd.reversed (Alloc.rowMajor Ex.Odd) "ji,ii->j" ([Ex.m30, Ex.m00].map (View.map Ex.Odd.mk)) =
    panic k :=
  (C14_lawless HashOrd.reversed UniformAlloc.rowMajor _ _ _ _ _ _ (Ex.call_empty.map Ex.Odd.mk)).1.2
    ((emptyDiagonal_map _).2 Ex.fed_empty)

example : ∃ r, einsum HashOrd.reversed (Alloc.fused Ex.Odd) "ij,jk->ik" ([Ex.m23, Ex.m32].map (View.map Ex.Odd.mk)) =
    .ok (.ok r) ∧ r.Wf := by
  obtain ⟨r, h1, -, -⟩ := (C14_lawless HashOrd.reversed UniformAlloc.fused _ _ _ _ _ _ (Ex.call_matmul.map Ex.Odd.mk)).2
    (not_emptyDiagonal Ex.ned_matmul)
  exact ⟨r, h1, (C15_lawless _ _ _ _ _ _ _ _ (Ex.call_matmul.map Ex.Odd.mk).denotes (Ex.call_matmul.map Ex.Odd.mk).sized
    (wf_of_elements (Ex.call_matmul.map Ex.Odd.mk).elements) h1).1⟩

example : ∃ p, einsumPath HashOrd.insertion "ij,jjk,kj->ij" ([Ex.m23, Ex.m332, Ex.m23].map (View.map Ex.Odd.mk)) .reverse =
    .ok (.ok p) ∧ ∃ r, p.contractOperands (Alloc.colMajor Ex.Odd)
      ([Ex.m23, Ex.m332, Ex.m23].map (View.map Ex.Odd.mk)) = .ok r ∧ r.shape = [2, 3] := by
  obtain ⟨p, h1, -, h2⟩ := C17_lawless HashOrd.insertion UniformAlloc.colMajor _ _ _ _ _ _ .reverse (.inr rfl)
    (Ex.call_three.map Ex.Odd.mk)
  obtain ⟨r, h3, -, h4⟩ := h2 (not_emptyDiagonal Ex.ned_three)
  exact ⟨p, h1, r, h3, h4⟩

example : ∃ w, tensordot (Alloc.fused Ex.Odd) (Ex.m23.map Ex.Odd.mk) (Ex.m32.map Ex.Odd.mk) [1] [0] = .ok w := by
  obtain ⟨w, h1, -⟩ := (C22_lawless UniformAlloc.fused (Ex.m23.map Ex.Odd.mk) (Ex.m32.map Ex.Odd.mk) [1] [0]
    ((view_wf_map _).2 Ex.e23.1) ((view_wf_map _).2 Ex.e32.1)).1 (by decide)
  exact ⟨w, h1⟩

end Einsum
