import Verif.Proofs.Parse
import Mathlib.Data.List.Flatten

/-! # Contraction::from_indices, validate, sizing, subset -/

namespace Einsum

open Spec

theorem used_iff {inputs : List (List Char)} {c : Char} : Used inputs c ↔ c ∈ inputs.flatten := by
  simp [Used, List.mem_flatten]

/-- The letters that must be summed, ascending. -/
def summationOf (inputs : List (List Char)) (out : List Char) : List Char :=
  sortChars ((hset inputs.flatten).filter fun c => c ∉ out)

theorem mem_summationOf {inputs : List (List Char)} {out : List Char} {c : Char} :
    c ∈ summationOf inputs out ↔ c ∈ inputs.flatten ∧ c ∉ out := by
  rw [summationOf, (sortChars_perm _).mem_iff]; simp

theorem summationOf_sorted (inputs : List (List Char)) (out : List Char) :
    (summationOf inputs out).Pairwise (· < ·) :=
  sortChars_strict ((nodup_hset _).filter _)

theorem summationOf_nodup (inputs : List (List Char)) (out : List Char) :
    (summationOf inputs out).Nodup := (summationOf_sorted inputs out).imp ne_of_lt

theorem checkOutputs_ok {inp : List (Char × Nat)} {l : List (Char × Nat)} :
    checkOutputs inp l = .ok () ↔ ∀ e ∈ l, e.2 ≤ 1 ∧ hasKey inp e.1 = true := by
  induction l with
  | nil => simp [checkOutputs]
  | cons e l ih =>
    obtain ⟨c, n⟩ := e
    simp only [checkOutputs, List.forall_mem_cons]
    split
    · simp; omega
    · split
      · rename_i h1 h2; rw [ih]; simp [h2]; omega
      · rename_i h1 h2; simp [h2]

theorem checkOutputs_cases (inp : List (Char × Nat)) (l : List (Char × Nat)) :
    (checkOutputs inp l = .ok ()) ∨
    (checkOutputs inp l = .error errDup ∧ ∃ e ∈ l, 1 < e.2) ∨
    (checkOutputs inp l = .error errUnknown ∧ ∃ e ∈ l, hasKey inp e.1 = false) := by
  induction l with
  | nil => exact .inl rfl
  | cons e l ih =>
    obtain ⟨c, n⟩ := e
    simp only [checkOutputs]
    split
    · rename_i h; exact .inr (.inl ⟨rfl, _, List.mem_cons_self, h⟩)
    · split
      · rcases ih with h | ⟨h, e, he, h'⟩ | ⟨h, e, he, h'⟩
        · exact .inl h
        · exact .inr (.inl ⟨h, e, by simp [he], h'⟩)
        · exact .inr (.inr ⟨h, e, by simp [he], h'⟩)
      · rename_i h; exact .inr (.inr ⟨rfl, _, List.mem_cons_self, by simpa using h⟩)

theorem outputOk_iff {inputs : List (List Char)} {out : List Char} :
    OutputOk inputs out ↔
      ∀ e ∈ charCounts out, e.2 ≤ 1 ∧ hasKey (charCounts inputs.flatten) e.1 = true := by
  constructor
  · rintro ⟨h1, h2⟩ ⟨c, n⟩ he
    obtain ⟨hc, rfl⟩ := mem_charCounts.1 he
    refine ⟨List.nodup_iff_count_le_one.1 h1 c, ?_⟩
    rw [hasKey_charCounts]; simpa using used_iff.1 (h2 c hc)
  · intro h
    refine ⟨?_, ?_⟩
    · rw [List.nodup_iff_count_le_one]
      intro c
      by_cases hc : c ∈ out
      · exact (h (c, out.count c) (mem_charCounts.2 ⟨hc, rfl⟩)).1
      · rw [List.count_eq_zero.2 hc]; omega
    · intro c hc
      have := (h (c, out.count c) (mem_charCounts.2 ⟨hc, rfl⟩)).2
      rw [hasKey_charCounts] at this
      exact used_iff.2 (by simpa using this)

theorem summation_eq (h : HashOrd) (p : List Nat) (inputs : List (List Char)) (out : List Char) :
    sortChars (((h.iter p (charCounts inputs.flatten)).map Prod.fst).filter
      fun c => !hasKey (charCounts out) c) = summationOf inputs out := by
  have hp : ((h.iter p (charCounts inputs.flatten)).map Prod.fst).Perm (hset inputs.flatten) := by
    rw [← charCounts_keys]; exact (h.perm p _).map _
  apply eq_of_sorted_of_mem
  · exact sortChars_strict ((hp.nodup_iff.2 (nodup_hset _)).filter _)
  · exact summationOf_sorted _ _
  · intro a
    rw [(sortChars_perm _).mem_iff, mem_summationOf]
    simp [List.mem_filter, hp.mem_iff, hasKey_charCounts]

/-- `from_indices` accepts exactly the admissible outputs. -/
theorem fromIndices_ok {h : HashOrd} {inputs : List (List Char)} {out : List Char}
    (ho : OutputOk inputs out) :
    Contraction.fromIndices h inputs out = .ok ⟨inputs, out, summationOf inputs out⟩ := by
  have h1 : checkOutputs (charCounts inputs.flatten) (h.iter [0] (charCounts out)) = .ok () := by
    rw [checkOutputs_ok]
    intro e he
    exact outputOk_iff.1 ho e ((h.perm _ _).mem_iff.1 he)
  simp only [Contraction.fromIndices, h1, summation_eq]
  rfl

theorem fromIndices_bad {h : HashOrd} {inputs : List (List Char)} {out : List Char}
    (ho : ¬ OutputOk inputs out) :
    (Contraction.fromIndices h inputs out = .error errDup ∧ ¬ out.Nodup) ∨
    (Contraction.fromIndices h inputs out = .error errUnknown ∧ ∃ c ∈ out, ¬ Used inputs c) := by
  have key := checkOutputs_cases (charCounts inputs.flatten) (h.iter [0] (charCounts out))
  rcases key with h1 | ⟨h1, e, he, h2⟩ | ⟨h1, e, he, h2⟩
  · exfalso; apply ho
    rw [outputOk_iff]
    intro e he
    exact checkOutputs_ok.1 h1 e ((h.perm _ _).mem_iff.2 he)
  · left
    refine ⟨by simp only [Contraction.fromIndices, h1]; rfl, ?_⟩
    obtain ⟨c, n⟩ := e
    obtain ⟨_, rfl⟩ := mem_charCounts.1 ((h.perm _ _).mem_iff.1 he)
    intro hn
    have := List.nodup_iff_count_le_one.1 hn c
    simp only at h2; omega
  · right
    refine ⟨by simp only [Contraction.fromIndices, h1]; rfl, ?_⟩
    obtain ⟨c, n⟩ := e
    obtain ⟨hc, rfl⟩ := mem_charCounts.1 ((h.perm _ _).mem_iff.1 he)
    rw [hasKey_charCounts] at h2
    exact ⟨c, hc, fun hu => by simp [used_iff.1 hu] at h2⟩

theorem fromIndices_iff {h : HashOrd} {inputs : List (List Char)} {out : List Char} {c : Contraction} :
    Contraction.fromIndices h inputs out = .ok c ↔
      OutputOk inputs out ∧ c = ⟨inputs, out, summationOf inputs out⟩ := by
  by_cases ho : OutputOk inputs out
  · rw [fromIndices_ok ho]; simp [ho, eq_comm]
  · rcases fromIndices_bad (h := h) ho with ⟨h1, _⟩ | ⟨h1, _⟩ <;> simp [h1, ho]

/-! ## Implicit outputs -/

theorem implicitOutput_spec (h : HashOrd) (inputs : List (List Char)) :
    ImplicitOutput inputs (implicitOutput h inputs) := by
  have hp := h.perm [2] (charCounts inputs.flatten)
  have hn : (((h.iter [2] (charCounts inputs.flatten)).filter fun e => e.2 = 1).map Prod.fst).Nodup := by
    apply List.Nodup.sublist (List.Sublist.map _ List.filter_sublist)
    rw [(hp.map Prod.fst).nodup_iff, charCounts_keys]; exact nodup_hset _
  refine ⟨sortChars_strict hn, ?_⟩
  intro c
  rw [implicitOutput]
  simp only [(sortChars_perm _).mem_iff, List.mem_map, List.mem_filter]
  constructor
  · rintro ⟨⟨c', n⟩, ⟨he, hn⟩, rfl⟩
    obtain ⟨_, rfl⟩ := mem_charCounts.1 (hp.mem_iff.1 he)
    simpa using hn
  · intro hc
    refine ⟨(c, 1), ⟨hp.mem_iff.2 (mem_charCounts.2 ⟨?_, hc.symm⟩), by simp⟩, rfl⟩
    exact List.count_pos_iff.1 (by omega)

theorem implicitOutput_unique {inputs : List (List Char)} {o o' : List Char}
    (h : ImplicitOutput inputs o) (h' : ImplicitOutput inputs o') : o = o' :=
  eq_of_sorted_of_mem h.1 h'.1 fun a => by rw [h.2, h'.2]

theorem Spec.ImplicitOutput.outputOk {inputs : List (List Char)} {o : List Char}
    (h : ImplicitOutput inputs o) : OutputOk inputs o := by
  refine ⟨h.1.imp ne_of_lt, fun c hc => used_iff.2 ?_⟩
  exact List.count_pos_iff.1 (by have := (h.2 c).1 hc; omega)

/-! ## validate -/

theorem validate_explicit {h : HashOrd} {s : String} {inputs : List (List Char)} {out : List Char}
    (hs : s.toList = render inputs (some out)) (hw : WellFormed inputs (some out)) :
    validate h s = Contraction.fromIndices h inputs out := by
  simp [validate, parse_iff.2 ⟨hs, hw⟩, Contraction.fromParse]

theorem validate_implicit {h : HashOrd} {s : String} {inputs : List (List Char)}
    (hs : s.toList = render inputs none) (hw : WellFormed inputs none) :
    validate h s = Contraction.fromIndices h inputs (implicitOutput h inputs) := by
  simp [validate, parse_iff.2 ⟨hs, hw⟩, Contraction.fromParse]

/-- `validate` succeeds exactly on the strings that denote a contraction. -/
theorem validate_iff {h : HashOrd} {s : String} {c : Contraction} :
    validate h s = .ok c ↔ Denotes s c.operandIndices c.outputIndices ∧
      c.summationIndices = summationOf c.operandIndices c.outputIndices := by
  constructor
  · intro hv
    cases hp : parseEinsumString s.toList with
    | none => simp [validate, hp] at hv
    | some p =>
      obtain ⟨inputs, o⟩ := p
      obtain ⟨hs, hw⟩ := parse_iff.1 hp
      cases o with
      | some out =>
        rw [validate_explicit hs hw, fromIndices_iff] at hv
        obtain ⟨ho, rfl⟩ := hv
        exact ⟨.inl ⟨hs, hw, ho⟩, rfl⟩
      | none =>
        rw [validate_implicit hs hw, fromIndices_iff] at hv
        obtain ⟨ho, rfl⟩ := hv
        exact ⟨.inr ⟨hs, hw, implicitOutput_spec h inputs⟩, rfl⟩
  · rintro ⟨hd, hsum⟩
    obtain ⟨inputs, out, sm⟩ := c
    simp only at hd hsum
    subst hsum
    rcases hd with ⟨hs, hw, ho⟩ | ⟨hs, hw, ho⟩
    · rw [validate_explicit hs hw, fromIndices_ok ho]
    · rw [validate_implicit hs hw, implicitOutput_unique (implicitOutput_spec h inputs) ho,
        fromIndices_ok ho.outputOk]

theorem Spec.Denotes.outputOk {s : String} {inputs : List (List Char)} {out : List Char}
    (h : Denotes s inputs out) : OutputOk inputs out := by
  rcases h with ⟨_, _, h⟩ | ⟨_, _, h⟩
  · exact h
  · exact h.outputOk

theorem Spec.Denotes.validate {s : String} {inputs : List (List Char)} {out : List Char}
    (hd : Denotes s inputs out) (h : HashOrd) :
    validate h s = .ok ⟨inputs, out, summationOf inputs out⟩ := validate_iff.2 ⟨hd, rfl⟩

theorem Spec.Denotes.inputs_ne {s : String} {inputs : List (List Char)} {out : List Char}
    (h : Denotes s inputs out) : inputs ≠ [] ∧ ∀ p ∈ inputs, p ≠ [] ∧ ∀ c ∈ p, Letter c := by
  rcases h with ⟨_, h, _⟩ | ⟨_, h, _⟩ <;> exact ⟨h.1, h.2.1⟩

theorem Spec.Denotes.unique {s : String} {i i' : List (List Char)} {o o' : List Char}
    (h : Denotes s i o) (h' : Denotes s i' o') : i = i' ∧ o = o' := by
  have h1 := h.validate HashOrd.insertion
  rw [h'.validate HashOrd.insertion] at h1
  simp at h1
  exact ⟨h1.1.symm, h1.2.1.symm⟩

/-! ## Sizing -/

/-- The sizes recorded so far agree with `dims`. -/
def SizesAre (m : OutputSize) (labels : List Char) (dims : Char → Nat) : Prop :=
  ∀ c, m c = if c ∈ labels then some (dims c) else none

theorem SizesAre.append_congr {m : OutputSize} {l l' : List Char} {dims : Char → Nat}
    (h : SizesAre m l dims) (hl : ∀ c, c ∈ l ↔ c ∈ l') : SizesAre m l' dims := by
  intro c; rw [h c]; simp [hl]

theorem sizeAxes_ok {dims : Char → Nat} {m : OutputSize} {done ix : List Char}
    (hm : SizesAre m done dims) :
    ∃ m', sizeAxes m (ix.zip (ix.map dims)) = .ok m' ∧ SizesAre m' (done ++ ix) dims := by
  induction ix generalizing m done with
  | nil => exact ⟨m, rfl, by simpa using hm⟩
  | cons c ix ih =>
    simp only [List.map_cons, List.zip_cons_cons, sizeAxes, hm c]
    by_cases hc : c ∈ done
    · simp only [hc, if_true]
      obtain ⟨m', h1, h2⟩ := ih hm
      refine ⟨m', by simpa using h1, h2.append_congr ?_⟩
      intro d; simp; constructor
      · rintro (h | h) <;> simp [h]
      · rintro (h | rfl | h) <;> simp [*]
    · simp only [hc, if_false]
      obtain ⟨m', h1, h2⟩ := ih (m := m.insert c (dims c)) (done := done ++ [c]) (by
        intro d
        by_cases hd : d = c
        · simp [OutputSize.insert, hd]
        · simp [OutputSize.insert, hd, hm d])
      exact ⟨m', h1, h2.append_congr (by intro d; simp)⟩

theorem sizeOperands_ok {dims : Char → Nat} {m : OutputSize} {done : List Char}
    {inputs : List (List Char)} {shapes : List (List Nat)}
    (hm : SizesAre m done dims) (hs : Sized dims inputs shapes) :
    ∃ m', sizeOperands m (inputs.zip shapes) = .ok m' ∧ SizesAre m' (done ++ inputs.flatten) dims := by
  induction hs generalizing m done with
  | nil => exact ⟨m, rfl, by simpa using hm⟩
  | @cons ix sh inputs shapes h1 _ ih =>
    subst h1
    obtain ⟨m1, h2, h3⟩ := sizeAxes_ok (ix := ix) hm
    obtain ⟨m2, h4, h5⟩ := ih h3
    refine ⟨m2, ?_, by simpa using h5⟩
    simp [sizeOperands, h2]
    exact h4

theorem sizeAxes_error {m : OutputSize} {l : List (Char × Nat)} {e : String}
    (h : sizeAxes m l = .error e) : e = errSize := by
  induction l generalizing m with
  | nil => simp [sizeAxes] at h
  | cons p l ih =>
    obtain ⟨c, n⟩ := p
    simp only [sizeAxes] at h
    split at h
    · split at h
      · simp at h; exact h.symm
      · exact ih h
    · exact ih h

theorem sizeAxes_sound {m m' : OutputSize} {l : List (Char × Nat)} (h : sizeAxes m l = .ok m') :
    (∀ c n, m c = some n → m' c = some n) ∧ (∀ p ∈ l, m' p.1 = some p.2) ∧
      (∀ c, m' c ≠ none → m c ≠ none ∨ c ∈ l.map Prod.fst) := by
  induction l generalizing m with
  | nil => simp [sizeAxes] at h; subst h; simp
  | cons p l ih =>
    obtain ⟨c, n⟩ := p
    simp only [sizeAxes] at h
    split at h
    · rename_i n' hn'
      split at h
      · simp at h
      · rename_i hnn; simp at hnn; subst hnn
        obtain ⟨h1, h2, h3⟩ := ih h
        refine ⟨h1, ?_, ?_⟩
        · intro p hp
          rcases List.mem_cons.1 hp with rfl | hp
          · exact h1 _ _ hn'
          · exact h2 p hp
        · intro d hd
          rcases h3 d hd with h | h
          · exact .inl h
          · right; simp only [List.map_cons, List.mem_cons]; exact .inr h
    · rename_i hn
      obtain ⟨h1, h2, h3⟩ := ih h
      refine ⟨?_, ?_, ?_⟩
      · intro d k hd
        apply h1
        simp only [OutputSize.insert]
        split
        · rename_i hdc; subst hdc; rw [hn] at hd; simp at hd
        · exact hd
      · intro p hp
        rcases List.mem_cons.1 hp with rfl | hp
        · exact h1 _ _ (by simp [OutputSize.insert])
        · exact h2 p hp
      · intro d hd
        rcases h3 d hd with h | h
        · simp only [OutputSize.insert] at h
          split at h
          · rename_i hdc; right; simp [hdc]
          · exact .inl h
        · right; simp only [List.map_cons, List.mem_cons]; exact .inr h

theorem sizeOperands_sound {m m' : OutputSize} {inputs : List (List Char)} {shapes : List (List Nat)}
    (hl : inputs.length = shapes.length) (h : sizeOperands m (inputs.zip shapes) = .ok m') :
    (∀ c n, m c = some n → m' c = some n) ∧
      List.Forall₂ (fun ix sh => sh.map some = ix.map m') inputs shapes ∧
      (∀ c, m' c ≠ none → m c ≠ none ∨ c ∈ inputs.flatten) := by
  induction inputs generalizing m shapes with
  | nil => cases shapes <;> simp_all [sizeOperands]
  | cons ix inputs ih =>
    cases shapes with
    | nil => simp at hl
    | cons sh shapes =>
      simp only [List.zip_cons_cons, sizeOperands] at h
      split at h
      · simp at h
      · rename_i hlen
        simp at hlen
        cases h1 : sizeAxes m (ix.zip sh) with
        | error e => rw [h1] at h; cases h
        | ok m1 =>
          rw [h1] at h
          obtain ⟨a1, a2, a3⟩ := sizeAxes_sound h1
          obtain ⟨b1, b2, b3⟩ := ih (by simpa using hl) h
          refine ⟨fun c n hc => b1 _ _ (a1 _ _ hc), .cons ?_ b2, ?_⟩
          · apply List.ext_getElem (by simp [hlen])
            intro i hi1 hi2
            simp at hi1 hi2
            have := a2 (ix[i], sh[i]) (by
              rw [List.mem_iff_getElem]
              exact ⟨i, by simp; omega, by simp⟩)
            simp [b1 _ _ this]
          · intro c hc
            rcases b3 c hc with h | h
            · rcases a3 c h with h | h
              · exact .inl h
              · right
                obtain ⟨p, hp, rfl⟩ := List.mem_map.1 h
                have := (List.of_mem_zip (a := p.1) (b := p.2) hp).1
                simp [this]
            · right; simp only [List.flatten_cons, List.mem_append]; exact .inr h

/-- Sizing succeeds exactly when some assignment of lengths fits all operands, and then returns it. -/
theorem sizing_iff {c : Contraction} {shapes : List (List Nat)} {m : OutputSize} :
    OutputSize.fromContractionAndShapes c shapes = .ok m ↔
      ∃ dims, Sized dims c.operandIndices shapes ∧ SizesAre m c.operandIndices.flatten dims := by
  unfold OutputSize.fromContractionAndShapes
  constructor
  · intro h
    split at h
    · simp at h
    · rename_i hl
      simp at hl
      obtain ⟨-, h2, h3⟩ := sizeOperands_sound hl h
      refine ⟨fun c => (m c).getD 0, ?_, ?_⟩
      · unfold Sized
        refine h2.imp ?_
        intro ix sh hs
        have := congrArg (List.map (fun o : Option Nat => o.getD 0)) hs
        simpa [Function.comp_def] using this
      · intro d
        by_cases hd : d ∈ c.operandIndices.flatten
        · simp only [hd, if_true]
          have : m d ≠ none := by
            obtain ⟨ix, hix, hdix⟩ := List.mem_flatten.1 hd
            obtain ⟨i, hi, rfl⟩ := List.mem_iff_getElem.1 hix
            have hi' : i < shapes.length := by omega
            have h4 := (List.forall₂_iff_get.1 h2).2 i hi hi'
            simp only [List.get_eq_getElem] at h4
            have h5 : m d ∈ (c.operandIndices[i]).map m := List.mem_map_of_mem hdix
            rw [← h4] at h5
            obtain ⟨n, _, hn⟩ := List.mem_map.1 h5
            rw [← hn]; simp
          cases hm : m d with
          | none => exact absurd hm this
          | some n => simp
        · simp only [hd, if_false]
          by_contra hne
          rcases h3 d hne with h | h
          · exact h rfl
          · exact hd h
  · rintro ⟨dims, hs, hm⟩
    have hl : c.operandIndices.length = shapes.length := hs.length_eq
    obtain ⟨m', h1, h2⟩ := sizeOperands_ok (m := OutputSize.empty) (done := []) (dims := dims)
      (by intro c; simp [OutputSize.empty]) hs
    simp only [hl, ne_eq, not_true_eq_false, if_false]
    rw [h1]
    congr 1
    funext d
    rw [h2 d, hm d]; simp

/-! ## subset -/

theorem subset_iff {h : HashOrd} {sc sc' : SizedContraction} {ops : List (List Char)} {out : List Char} :
    sc.subset h ops out = .ok sc' ↔
      (∀ c ∈ ops.flatten, sc.outputSize c ≠ none) ∧ OutputOk ops out ∧
      sc' = ⟨⟨ops, out, summationOf ops out⟩,
        fun k => if k ∈ ops.flatten then sc.outputSize k else none⟩ := by
  unfold SizedContraction.subset
  simp only [Bind.bind, Except.bind]
  have hany : ((h.iter [3] (hset ops.flatten)).any fun c => (sc.outputSize c).isNone) = true ↔
      ¬ ∀ c ∈ ops.flatten, sc.outputSize c ≠ none := by
    simp only [List.any_eq_true, Option.isNone_iff_eq_none]
    constructor
    · rintro ⟨c, hc, hn⟩ hall
      exact hall c (mem_hset.1 ((h.perm _ _).mem_iff.1 hc)) hn
    · intro hall
      simp only [not_forall, ne_eq, not_not] at hall
      obtain ⟨c, hc, hn⟩ := hall
      exact ⟨c, (h.perm _ _).mem_iff.2 (mem_hset.2 hc), hn⟩
  split
  · rename_i ha
    have := hany.1 ha
    constructor
    · intro h; simp at h
    · rintro ⟨h, -⟩; exact absurd h this
  · rename_i ha
    have hall : ∀ c ∈ ops.flatten, sc.outputSize c ≠ none := by
      by_contra hh; exact ha (hany.2 hh)
    by_cases ho : OutputOk ops out
    · rw [fromIndices_ok ho]
      simp only [pure, Except.pure, Except.ok.injEq]
      constructor
      · intro heq; refine ⟨hall, ho, ?_⟩; rw [← heq]; simp
      · rintro ⟨-, -, rfl⟩; simp
    · rcases fromIndices_bad (h := h.sub 4) ho with ⟨h1, _⟩ | ⟨h1, _⟩ <;> simp [h1, ho]

theorem subset_ok {h : HashOrd} {sc : SizedContraction} {ops : List (List Char)} {out : List Char}
    (hs : ∀ c ∈ ops.flatten, sc.outputSize c ≠ none) (ho : OutputOk ops out) :
    sc.subset h ops out = .ok ⟨⟨ops, out, summationOf ops out⟩,
        fun k => if k ∈ ops.flatten then sc.outputSize k else none⟩ :=
  subset_iff.2 ⟨hs, ho, rfl⟩

end Einsum
