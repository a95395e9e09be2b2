import Verif.Props.Main

/-!
# The message of a rejected call (C97)
-/

namespace Einsum

open Spec

/-! ## Specification -/

/-- The messages that the operand labels and an explicit output list can be rejected with. -/
inductive Spec.OutputMessage (inputs : List (List Char)) (out : List Char) : String → Prop
  | duplicate : ¬ out.Nodup → OutputMessage inputs out "Requested output has duplicate index"
  | unknown (c : Char) : out.count c = 1 → ¬ Used inputs c →
      OutputMessage inputs out "Requested output contains an index not found in inputs"

/-- The messages that a string and a list of shapes can be rejected with. -/
inductive Spec.Message (s : String) (shapes : List (List Nat)) : String → Prop
  | grammar : (¬ ∃ ps o, s.toList = render ps o ∧ WellFormed ps o) → Message s shapes "Invalid string"
  | output (inputs : List (List Char)) (out : List Char) (e : String) : s.toList = render inputs (some out) →
      WellFormed inputs (some out) → OutputMessage inputs out e → Message s shapes e
  | number (inputs : List (List Char)) (out : List Char) : Denotes s inputs out → inputs.length ≠ shapes.length →
      Message s shapes "number of operands in contraction does not match number of operands supplied"
  | rank (inputs : List (List Char)) (out : List Char) (k : Nat) (ix : List Char) (sh : List Nat) : Denotes s inputs out →
      inputs.length = shapes.length → (∃ dims, Sized dims (inputs.take k) (shapes.take k)) →
      inputs[k]? = some ix → shapes[k]? = some sh → ix.length ≠ sh.length →
      Message s shapes "number of indices in one or more operands does not match dimensions of operand"
  | size (inputs : List (List Char)) (out : List Char) (k : Nat) (ix : List Char) (sh : List Nat) : Denotes s inputs out →
      inputs.length = shapes.length → (∃ dims, Sized dims (inputs.take k) (shapes.take k)) →
      inputs[k]? = some ix → shapes[k]? = some sh → ix.length = sh.length →
      (¬ ∃ dims, Sized dims (inputs.take (k + 1)) (shapes.take (k + 1))) →
      Message s shapes "repeated index with different size"

/-! ## Hash orders -/

/-- A hash order whose `k`-th part is `h`. -/
def HashOrd.above (h : HashOrd) : HashOrd := ⟨fun p l => h.iter p.tail l, fun p l => h.perm p.tail l⟩

theorem above_sub (h : HashOrd) (k : Nat) : h.above.sub k = h := rfl

/-! ## Validation -/

theorem fromIndices_error {h : HashOrd} {inputs : List (List Char)} {out : List Char} {e : String} :
    Contraction.fromIndices h inputs out = .error e ↔
      checkOutputs (charCounts inputs.flatten) (h.iter [0] (charCounts out)) = .error e := by
  cases hc : checkOutputs (charCounts inputs.flatten) (h.iter [0] (charCounts out)) with
  | ok u => simp [Contraction.fromIndices, hc, bind, Except.bind, pure, Except.pure]
  | error e' => simp [Contraction.fromIndices, hc, bind, Except.bind]

theorem checkOutputs_error {counts : List (Char × Nat)} {e : String} : ∀ {l : List (Char × Nat)},
    checkOutputs counts l = .error e → (e = errDup ∧ ∃ x ∈ l, 1 < x.2) ∨
      e = errUnknown ∧ ∃ x ∈ l, x.2 ≤ 1 ∧ hasKey counts x.1 = false
  | [], h => by simp [checkOutputs] at h
  | (c, n) :: l, h => by
    simp only [checkOutputs] at h
    split at h
    · rename_i hn
      cases h
      exact .inl ⟨rfl, _, List.mem_cons_self, hn⟩
    · rename_i hn
      split at h
      · rcases checkOutputs_error h with ⟨rfl, x, hx, h1⟩ | ⟨rfl, x, hx, h1⟩
        · exact .inl ⟨rfl, x, by simp [hx], h1⟩
        · exact .inr ⟨rfl, x, by simp [hx], h1⟩
      · rename_i hk
        cases h
        exact .inr ⟨rfl, _, List.mem_cons_self, by simpa using hn, by simpa using hk⟩

theorem output_message_iff {inputs : List (List Char)} {out : List Char} {e : String} :
    (∃ h, Contraction.fromIndices h inputs out = .error e) ↔ OutputMessage inputs out e := by
  constructor
  · rintro ⟨h, hh⟩
    rcases checkOutputs_error (fromIndices_error.1 hh) with ⟨rfl, ⟨c, n⟩, hx, hn⟩ | ⟨rfl, ⟨c, n⟩, hx, hn, hk⟩
    · obtain ⟨hc, rfl⟩ := mem_charCounts.1 ((h.perm _ _).mem_iff.1 hx)
      refine .duplicate fun hnd => ?_
      have := List.nodup_iff_count_le_one.1 hnd c
      simp only at hn
      omega
    · obtain ⟨hc, rfl⟩ := mem_charCounts.1 ((h.perm _ _).mem_iff.1 hx)
      rw [hasKey_charCounts] at hk
      have := List.count_pos_iff.2 hc
      simp only at hn
      refine .unknown c (by omega) fun hu => ?_
      simp [used_iff.1 hu] at hk
  · rintro (hn | ⟨c, hc, hu⟩)
    · rw [List.nodup_iff_count_le_one] at hn
      simp only [not_forall, not_le] at hn
      obtain ⟨c, hc⟩ := hn
      have hm : (c, out.count c) ∈ charCounts out := mem_charCounts.2 ⟨List.count_pos_iff.1 (by omega), rfl⟩
      obtain ⟨k, t, hk⟩ := exists_rotate_head hm
      refine ⟨HashOrd.rotated k, fromIndices_error.2 ?_⟩
      simp only [HashOrd.rotated, hk, checkOutputs]
      rw [if_pos hc]; rfl
    · have hm : (c, out.count c) ∈ charCounts out := mem_charCounts.2 ⟨List.count_pos_iff.1 (by omega), rfl⟩
      obtain ⟨k, t, hk⟩ := exists_rotate_head hm
      refine ⟨HashOrd.rotated k, fromIndices_error.2 ?_⟩
      simp only [HashOrd.rotated, hk, checkOutputs]
      rw [if_neg (by omega), if_neg]
      · rfl
      · rw [hasKey_charCounts]; simpa using fun h => hu (used_iff.2 h)

theorem Spec.OutputMessage.bad {inputs : List (List Char)} {out : List Char} {e : String} (h : OutputMessage inputs out e) :
    ¬ OutputOk inputs out := by
  rintro ⟨h1, h2⟩
  rcases h with hn | ⟨c, hc, hu⟩
  · exact hn h1
  · exact hu (h2 c (List.count_pos_iff.1 (by omega)))

theorem first_misfit {inputs : List (List Char)} {shapes : List (List Nat)} (hl : inputs.length = shapes.length)
    (h : ¬ ∃ dims, Sized dims inputs shapes) : ∃ k ix sh, inputs[k]? = some ix ∧ shapes[k]? = some sh ∧
      (∃ dims, Sized dims (inputs.take k) (shapes.take k)) ∧
      ¬ ∃ dims, Sized dims (inputs.take (k + 1)) (shapes.take (k + 1)) := by
  classical
  have hex : ∃ k, ¬ ∃ dims, Sized dims (inputs.take k) (shapes.take k) :=
    ⟨inputs.length, by rw [List.take_length, hl, List.take_length]; exact h⟩
  obtain ⟨n, hn⟩ : ∃ n, Nat.find hex = n + 1 := Nat.exists_eq_succ_of_ne_zero fun h0 => by
    have := Nat.find_spec hex
    rw [h0] at this
    exact this ⟨fun _ => 0, by simp [Sized]⟩
  have h1 := Nat.find_spec hex
  rw [hn] at h1
  have h2 : ∃ dims, Sized dims (inputs.take n) (shapes.take n) := not_not.1 (Nat.find_min hex (by omega))
  have hk : n < inputs.length := by
    by_contra hge
    rw [List.take_of_length_le (by omega), List.take_of_length_le (by omega)] at h1 h2
    exact h1 h2
  exact ⟨n, _, _, List.getElem?_eq_getElem hk, List.getElem?_eq_getElem (hl ▸ hk), h2, h1⟩

/-- A possible message is returned under every hash order, or the explicit output is wrong. -/
theorem Spec.Message.always {s : String} {shapes : List (List Nat)} {e : String} (h : Message s shapes e) :
    (∀ k, SizedContraction.fromStringAndShapes k s shapes = .error e) ∨
      ∃ inputs out, s.toList = render inputs (some out) ∧ WellFormed inputs (some out) ∧ OutputMessage inputs out e := by
  cases h with
  | grammar h =>
    refine .inl fun k => ?_
    rw [SizedContraction.fromStringAndShapes, (C01_invalid_iff k s).2 h]
    rfl
  | output inputs out _ h1 h2 h3 => exact .inr ⟨inputs, out, h1, h2, h3⟩
  | number inputs out hd hl => exact .inl fun k => (C06_errors k s inputs out hd shapes).1 hl
  | rank inputs out n ix sh hd hl hg hi hs hr =>
    refine .inl fun k => ?_
    rw [(C06_errors k s inputs out hd shapes).2 hl n ix sh hi hs hg ?_, if_pos hr]
    rintro ⟨dims, hd⟩
    have := (List.forall₂_iff_get.1 hd).2 n (by
      have := (List.getElem?_eq_some_iff.1 hi).1
      simp; omega) (by
      have := (List.getElem?_eq_some_iff.1 hs).1
      simp; omega)
    simp only [List.get_eq_getElem, List.getElem_take, (List.getElem?_eq_some_iff.1 hi).2,
      (List.getElem?_eq_some_iff.1 hs).2] at this
    exact hr (by rw [this, List.length_map])
  | size inputs out n ix sh hd hl hg hi hs hr hb =>
    refine .inl fun k => ?_
    rw [(C06_errors k s inputs out hd shapes).2 hl n ix sh hi hs hg hb, if_neg (by simpa using hr)]

/-- C97: the messages of `validate_and_size` and of `SizedContraction::new`. -/
theorem C97_sizing (s : String) (shapes : List (List Nat)) (e : String) :
    (∃ h, SizedContraction.fromStringAndShapes h s shapes = .error e) ↔ Message s shapes e := by
  constructor
  · rintro ⟨h, hh⟩
    by_cases hp : ∃ ps o, s.toList = render ps o ∧ WellFormed ps o
    · cases hv : validate h s with
      | error e' =>
        have : e' = e := by
          rw [SizedContraction.fromStringAndShapes, hv] at hh
          exact Except.error.inj hh
        subst this
        obtain ⟨ps, o, h1, h2⟩ := hp
        cases o with
        | some out => exact .output ps out _ h1 h2 (output_message_iff.1 ⟨h, by rw [← hv, validate_explicit h1 h2]⟩)
        | none =>
          obtain ⟨c, hc, -⟩ := C03_implicit h s ps h1 h2
          rw [hc] at hv
          cases hv
      | ok c =>
        have hd := (validate_iff.1 hv).1
        by_cases hl : c.operandIndices.length = shapes.length
        · have hb : ¬ ∃ dims, Sized dims c.operandIndices shapes := fun hs => by
            obtain ⟨sc, hsc⟩ := (C06_sizing_iff h s _ _ hd shapes).2 hs
            rw [hh] at hsc
            cases hsc
          obtain ⟨k, ix, sh, k1, k2, k3, k4⟩ := first_misfit hl hb
          have := (C06_errors h s _ _ hd shapes).2 hl k ix sh k1 k2 k3 k4
          rw [hh] at this
          have := Except.error.inj this
          subst this
          split
          · rename_i hr
            exact .rank _ _ k ix sh hd hl k3 k1 k2 hr
          · rename_i hr
            exact .size _ _ k ix sh hd hl k3 k1 k2 (not_not.1 hr) k4
        · have := (C06_errors h s _ _ hd shapes).1 hl
          rw [hh] at this
          have := Except.error.inj this
          subst this
          exact .number _ _ hd hl
    · have := (C01_invalid_iff h s).2 hp
      rw [SizedContraction.fromStringAndShapes, this] at hh
      have := Except.error.inj hh
      subst this
      exact .grammar hp
  · intro h
    rcases h.always with ha | ⟨inputs, out, h1, h2, h3⟩
    · exact ⟨HashOrd.insertion, ha _⟩
    · obtain ⟨k, hk⟩ := output_message_iff.2 h3
      refine ⟨k, ?_⟩
      rw [SizedContraction.fromStringAndShapes, validate_explicit h1 h2, hk]
      rfl

/-- C97: there is one possible message, except for an explicit output with a repeated letter and one in no operand. -/
theorem C97_unique (s : String) (shapes : List (List Nat)) (e e' : String) (h : Message s shapes e) (h' : Message s shapes e') :
    e = e' ∨ ∃ inputs out, s.toList = render inputs (some out) ∧ WellFormed inputs (some out) ∧
      OutputMessage inputs out e ∧ OutputMessage inputs out e' := by
  rcases h.always with ha | ⟨inputs, out, h1, h2, h3⟩
  · obtain ⟨k, hk⟩ := (C97_sizing s shapes e').2 h'
    rw [ha k] at hk
    exact .inl (Except.error.inj hk)
  · rcases h'.always with ha | ⟨inputs', out', h1', h2', h3'⟩
    · obtain ⟨k, hk⟩ := (C97_sizing s shapes e).2 h
      rw [ha k] at hk
      exact .inl (Except.error.inj hk).symm
    · obtain ⟨rfl, e⟩ := C01_unambiguous _ _ _ _ (h1.symm.trans h1') h2 h2'
      cases e
      exact .inr ⟨_, _, h1, h2, h3, h3'⟩

/-- C97: a call is rejected under a hash order exactly if there is a possible message. -/
theorem C97_rejected (h : HashOrd) (s : String) (shapes : List (List Nat)) :
    (∃ e, SizedContraction.fromStringAndShapes h s shapes = .error e) ↔ ∃ e, Message s shapes e := by
  constructor
  · rintro ⟨e, he⟩
    exact ⟨e, (C97_sizing s shapes e).1 ⟨h, he⟩⟩
  · rintro ⟨e, he⟩
    obtain ⟨k, hk⟩ := (C97_sizing s shapes e).2 he
    cases hs : SizedContraction.fromStringAndShapes h s shapes with
    | error e' => exact ⟨e', rfl⟩
    | ok sc =>
      obtain ⟨inputs, out, dims, hd, hz, -⟩ := fromStringAndShapes_iff.1 hs
      obtain ⟨sc', hsc⟩ := (C06_sizing_iff k s _ _ hd shapes).2 ⟨dims, hz⟩
      rw [hk] at hsc
      cases hsc

/-- C97: every entry point returns exactly the possible messages. -/
theorem C97_entry {A : Type} [Zero A] [Add A] [Mul A] [MulAdd A] (s : String) (operands : List (View A)) (al : Alloc A)
    (m : OptimizationMethod) (e : String) :
    ((∃ h, einsum h al s operands = .ok (.error e)) ↔ Message s (operands.map View.shape) e) ∧
    ((∃ h, einsumPath h s operands m = .ok (.error e)) ↔ Message s (operands.map View.shape) e) ∧
    ((∃ h, validateAndOptimizeOrder h s operands m = .ok (.error e)) ↔ Message s (operands.map View.shape) e) ∧
    ((∃ h, validateAndSize h s operands = .error e) ↔ Message s (operands.map View.shape) e) := by
  have h4 : (∃ h, validateAndSize h s operands = .error e) ↔ Message s (operands.map View.shape) e := C97_sizing s _ e
  have h3 : ∀ h, validateAndOptimizeOrder h s operands m = .ok (.error e) ↔ validateAndSize (h.sub 0) s operands = .error e := by
    intro h
    unfold validateAndOptimizeOrder
    cases validateAndSize (h.sub 0) s operands with
    | error e' => simp
    | ok sc => cases hg : generateOptimizedOrder (h.sub 1) sc m <;> simp [hg, bind, Except.bind, pure, Except.pure]
  have h2 : ∀ h, einsumPath h s operands m = .ok (.error e) ↔
      validateAndOptimizeOrder (h.sub 0) s operands m = .ok (.error e) := by
    intro h
    unfold einsumPath
    cases validateAndOptimizeOrder (h.sub 0) s operands m with
    | error f => simp [bind, Except.bind]
    | ok r =>
      cases r with
      | error e' => simp [bind, Except.bind, pure, Except.pure]
      | ok o =>
        cases hg : EinsumPath.fromPath (h.sub 1) o <;> simp [hg, bind, Except.bind, pure, Except.pure]
  have h1 : ∀ h, einsum h al s operands = .ok (.error e) ↔ validateAndSize (h.sub 0) s operands = .error e := by
    intro h
    unfold einsum
    cases validateAndSize (h.sub 0) s operands with
    | error e' => simp
    | ok sc => cases hg : sc.contractOperands (h.sub 1) al operands <;> simp [hg, bind, Except.bind, pure, Except.pure]
  refine ⟨?_, ?_, ?_, h4⟩
  · rw [← h4]
    exact ⟨fun ⟨h, x⟩ => ⟨_, (h1 h).1 x⟩, fun ⟨h, x⟩ => ⟨h.above, (h1 _).2 x⟩⟩
  · rw [← h4]
    exact ⟨fun ⟨h, x⟩ => ⟨_, (h3 _).1 ((h2 h).1 x)⟩, fun ⟨h, x⟩ => ⟨h.above.above, (h2 _).2 ((h3 _).2 x)⟩⟩
  · rw [← h4]
    exact ⟨fun ⟨h, x⟩ => ⟨_, (h3 _).1 x⟩, fun ⟨h, x⟩ => ⟨h.above, (h3 _).2 x⟩⟩

/-- C97: the messages of `subset`. -/
theorem C97_subset (sc : SizedContraction) (ops : List (List Char)) (out : List Char) (e : String) :
    (∃ h, sc.subset h ops out = .error e) ↔
      (e = "Character found in new_operand_indices but not in self.output_size" ∧ ∃ c, Used ops c ∧ sc.outputSize c = none) ∨
      ((∀ c, Used ops c → sc.outputSize c ≠ none) ∧ OutputMessage ops out e) := by
  have hany : ∀ h : HashOrd, ((h.iter [3] (hset ops.flatten)).any fun c => (sc.outputSize c).isNone) = true ↔
      ∃ c, Used ops c ∧ sc.outputSize c = none := by
    intro h
    simp only [List.any_eq_true, (h.perm _ _).mem_iff, mem_hset, used_iff, Option.isNone_iff_eq_none]
  by_cases hb : ∃ c, Used ops c ∧ sc.outputSize c = none
  · have hs : ∀ h, sc.subset h ops out = .error errSubset := fun h => by
      unfold SizedContraction.subset
      simp only [(hany h).2 hb, if_true]
    constructor
    · rintro ⟨h, hh⟩
      rw [hs h] at hh
      exact .inl ⟨(Except.error.inj hh).symm, hb⟩
    · rintro (⟨rfl, -⟩ | ⟨hall, -⟩)
      · exact ⟨HashOrd.insertion, hs _⟩
      · obtain ⟨c, h1, h2⟩ := hb
        exact absurd h2 (hall c h1)
  · have hs : ∀ h, sc.subset h ops out = .error e ↔ Contraction.fromIndices (h.sub 4) ops out = .error e := fun h => by
      unfold SizedContraction.subset
      have : ((h.iter [3] (hset ops.flatten)).any fun c => (sc.outputSize c).isNone) = false := by
        rw [← Bool.not_eq_true, hany h]
        exact hb
      simp only [this]
      cases hg : Contraction.fromIndices (h.sub 4) ops out <;> simp [bind, Except.bind, pure, Except.pure]
    have hall : ∀ c, Used ops c → sc.outputSize c ≠ none := fun c h1 h2 => hb ⟨c, h1, h2⟩
    constructor
    · rintro ⟨h, hh⟩
      exact .inr ⟨hall, output_message_iff.1 ⟨_, (hs h).1 hh⟩⟩
    · rintro (⟨-, hc⟩ | ⟨-, hm⟩)
      · exact absurd hc hb
      · obtain ⟨h, hh⟩ := output_message_iff.2 hm
        exact ⟨h.above, (hs _).2 hh⟩

namespace Ex
theorem message_number : Message "ab,bc->ac" [[2, 3]]
    "number of operands in contraction does not match number of operands supplied" := .number _ _ denotes_abbc (by decide)

theorem message_rank : Message "ab,bc->ac" [[2, 3], [4]]
    "number of indices in one or more operands does not match dimensions of operand" :=
  .rank _ _ 1 _ _ denotes_abbc rfl ⟨fun c => if c = 'a' then 2 else 3, .cons (by decide) .nil⟩ rfl rfl (by decide)

theorem message_size : Message "ab,bc->ac" [[2, 3], [4, 5]] "repeated index with different size" := by
  refine .size _ _ 1 _ _ denotes_abbc rfl ⟨fun c => if c = 'a' then 2 else 3, .cons (by decide) .nil⟩ rfl rfl rfl ?_
  rintro ⟨dims, hs⟩
  simp [Sized] at hs
  omega

theorem message_output (shapes : List (List Nat)) :
    Message "ab->xxy" shapes "Requested output has duplicate index" ∧
      Message "ab->xxy" shapes "Requested output contains an index not found in inputs" := by
  have hw : WellFormed [['a', 'b']] (some ['x', 'x', 'y']) := by
    refine ⟨by simp, ?_, ?_⟩ <;> simp [Letter]
  exact ⟨.output [['a', 'b']] ['x', 'x', 'y'] _ (by decide) hw (.duplicate (by decide)),
    .output [['a', 'b']] ['x', 'x', 'y'] _ (by decide) hw (.unknown 'y' (by decide) (by simp [Used]))⟩
end Ex

/-- Both messages about the output of one call. -/
example (al : Alloc Int) : (∃ h, einsum h al "ab->xxy" [Ex.m23] = .ok (.error "Requested output has duplicate index")) ∧
    ∃ h, einsum h al "ab->xxy" [Ex.m23] = .ok (.error "Requested output contains an index not found in inputs") :=
  ⟨(C97_entry _ _ al .naive _).1.2 (Ex.message_output _).1, (C97_entry _ _ al .naive _).1.2 (Ex.message_output _).2⟩

example (e : String) (he : Message "ab,bc->ac" [[2, 3]] e) : e =
    "number of operands in contraction does not match number of operands supplied" := by
  rcases C97_unique _ _ _ _ he Ex.message_number with e | ⟨inputs, out, -, -, -, h⟩
  · exact e
  · generalize hm : "number of operands in contraction does not match number of operands supplied" = m at h
    rcases h with - | - <;> exact absurd hm (by decide)

/-- An invalid call with an unsupported strategy is rejected; it does not panic. -/
example : ∃ h, einsumPath h "ab,bc->ac" [Ex.m23] .greedy =
    .ok (.error "number of operands in contraction does not match number of operands supplied") :=
  (C97_entry _ _ (Alloc.rowMajor Int) _ _).2.1.2 Ex.message_number

example (h : HashOrd) : ∃ e, SizedContraction.fromStringAndShapes h "ab,bc->ac" [[2, 3], [4]] = .error e :=
  (C97_rejected _ _ _).2 ⟨_, Ex.message_rank⟩

example : ∃ h, SizedContraction.fromStringAndShapes h "ab,bc->ac" [[2, 3], [4, 5]] =
    .error "repeated index with different size" := (C97_sizing _ _ _).2 Ex.message_size

/-- A letter without a size comes first. -/
example (sc : SizedContraction) (hx : sc.outputSize 'x' = none) : ∃ h, sc.subset h [['x']] ['y', 'y'] =
    .error "Character found in new_operand_indices but not in self.output_size" :=
  (C97_subset _ _ _ _).2 (.inl ⟨rfl, 'x', by simp [Used], hx⟩)

end Einsum
