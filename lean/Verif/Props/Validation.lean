import Verif.Proofs.Validate

/-!
# Properties C01 - C09: parsing, validation, sizing, printing, subset
-/

namespace Einsum

open Spec

/-! ## C01 -/

/-- C01: `validate` reports "Invalid string" exactly on the strings outside the grammar. -/
theorem C01_invalid_iff (h : HashOrd) (s : String) :
    validate h s = .error "Invalid string" ↔ ¬ ∃ ps o, s.toList = render ps o ∧ WellFormed ps o := by
  change validate h s = .error errInvalid ↔ _
  rw [← parse_none_iff]
  constructor
  · intro hv
    cases hp : parseEinsumString s.toList with
    | none => rfl
    | some p =>
      have : ∃ out, Contraction.fromIndices h p.operandIndices out = .error errInvalid := by
        simp only [validate, hp, Contraction.fromParse] at hv
        exact ⟨_, hv⟩
      obtain ⟨out, hv⟩ := this
      by_cases ho : OutputOk p.operandIndices out
      · rw [fromIndices_ok ho] at hv; simp at hv
      · rcases fromIndices_bad (h := h) ho with ⟨h1, _⟩ | ⟨h1, _⟩ <;> rw [h1] at hv <;>
          exact absurd hv (by simp [errDup, errUnknown, errInvalid])
  · intro hp; simp [validate, hp]

/-- C01: the pieces found by the parser are exactly the comma-separated pieces of the string. -/
theorem C01_pieces (h : HashOrd) (s : String) (ps : List (List Char)) (o : Option (List Char))
    (hs : s.toList = render ps o) (hw : WellFormed ps o) :
    parseEinsumString s.toList = some ⟨ps, o⟩ ∧
      ∀ c, validate h s = .ok c → c.operandIndices = ps := by
  refine ⟨parse_iff.2 ⟨hs, hw⟩, fun c hc => ?_⟩
  cases o with
  | some out =>
    rw [validate_explicit hs hw, fromIndices_iff] at hc
    rw [hc.2]
  | none =>
    rw [validate_implicit hs hw, fromIndices_iff] at hc
    rw [hc.2]

/-- C01: the same, against the regular expression written in the source. -/
theorem C01_regex (h : HashOrd) (s : String) :
    validate h s = .error "Invalid string" ↔ ¬ Re.einsum.Lang s.toList := by
  rw [C01_invalid_iff, lang_einsum]

/-- Each string has at most one reading. -/
theorem C01_unambiguous (ps ps' : List (List Char)) (o o' : Option (List Char))
    (h : render ps o = render ps' o') (hw : WellFormed ps o) (hw' : WellFormed ps' o') :
    ps = ps' ∧ o = o' := render_inj h hw hw'

theorem wf_abbc : WellFormed [['a', 'b'], ['b', 'c']] (some ['a', 'c']) := by
  refine ⟨by simp, ?_, ?_⟩ <;> simp [Letter]

example : "ab,bc->ac".toList = render [['a', 'b'], ['b', 'c']] (some ['a', 'c']) := by decide
example : WellFormed [['a', 'b'], ['b', 'c']] (some ['a', 'c']) := wf_abbc
example : ¬ Re.einsum.Lang "ab,,c".toList := by
  rw [← C01_regex HashOrd.insertion]
  have : parseEinsumString "ab,,c".toList = none := by
    simp [parseEinsumString, spanLabels, isLabel, moreOperands, outputPart]
  simp only [validate, this, errInvalid]

/-! ## C02 -/

/-- C02: an explicit output is accepted iff it has no repetition and only used letters; it and the
pieces are returned verbatim. -/
theorem C02_accepted_iff (h : HashOrd) (s : String) (inputs : List (List Char)) (out : List Char)
    (hs : s.toList = render inputs (some out)) (hw : WellFormed inputs (some out)) :
    ((∃ c, validate h s = .ok c) ↔ out.Nodup ∧ ∀ c ∈ out, Used inputs c) ∧
    ∀ c, validate h s = .ok c → c.operandIndices = inputs ∧ c.outputIndices = out := by
  rw [validate_explicit hs hw]
  refine ⟨⟨?_, ?_⟩, ?_⟩
  · rintro ⟨c, hc⟩; exact (fromIndices_iff.1 hc).1
  · intro ho; exact ⟨_, fromIndices_ok ho⟩
  · intro c hc
    rw [(fromIndices_iff.1 hc).2]; exact ⟨rfl, rfl⟩

/-- C02: each error message is truthful, and there is no other error. -/
theorem C02_errors (h : HashOrd) (s : String) (inputs : List (List Char)) (out : List Char) (e : String)
    (hs : s.toList = render inputs (some out)) (hw : WellFormed inputs (some out))
    (he : validate h s = .error e) :
    (e = "Requested output has duplicate index" ∧ ¬ out.Nodup) ∨
    (e = "Requested output contains an index not found in inputs" ∧ ∃ c ∈ out, ¬ Used inputs c) := by
  rw [validate_explicit hs hw] at he
  by_cases ho : OutputOk inputs out
  · rw [fromIndices_ok ho] at he; simp at he
  · rcases fromIndices_bad (h := h) ho with ⟨h1, h2⟩ | ⟨h1, h2⟩
    · left; rw [h1] at he; simp at he; exact ⟨he.symm, h2⟩
    · right; rw [h1] at he; simp at he; exact ⟨he.symm, h2⟩

example : ∃ c, validate HashOrd.reversed "ab,bc->ac" = .ok c :=
  ((C02_accepted_iff _ "ab,bc->ac" [['a', 'b'], ['b', 'c']] ['a', 'c'] (by decide) wf_abbc).1).2
    (by simp [Used])

/-! ## C03 -/

/-- C03: without `->` validation succeeds and the output is the ascending list of the letters used
once in total. -/
theorem C03_implicit (h : HashOrd) (s : String) (inputs : List (List Char))
    (hs : s.toList = render inputs none) (hw : WellFormed inputs none) :
    ∃ c, validate h s = .ok c ∧ c.operandIndices = inputs ∧
      c.outputIndices.Pairwise (· < ·) ∧
      ∀ x, x ∈ c.outputIndices ↔ inputs.flatten.count x = 1 := by
  have hi := implicitOutput_spec h inputs
  exact ⟨_, by rw [validate_implicit hs hw, fromIndices_ok hi.outputOk], rfl, hi.1, hi.2⟩

example : "cb,ba".toList = render [['c', 'b'], ['b', 'a']] none ∧
    WellFormed [['c', 'b'], ['b', 'a']] none := by
  refine ⟨by decide, by simp, ?_, by simp⟩
  simp [Letter]

/-! ## C04 -/

/-- C04: the summation letters are ascending and are exactly the used letters not in the output. -/
theorem C04_summation (h : HashOrd) (s : String) (c : Contraction) (hv : validate h s = .ok c) :
    c.summationIndices.Pairwise (· < ·) ∧
    (∀ x, x ∈ c.summationIndices ↔ Used c.operandIndices x ∧ x ∉ c.outputIndices) ∧
    (∀ x, Used c.operandIndices x ↔
      (x ∈ c.outputIndices ∧ x ∉ c.summationIndices) ∨
      (x ∈ c.summationIndices ∧ x ∉ c.outputIndices)) := by
  obtain ⟨hd, hs⟩ := validate_iff.1 hv
  have ho := hd.outputOk
  rw [hs]
  refine ⟨summationOf_sorted _ _, ?_, ?_⟩
  · intro x; rw [mem_summationOf, used_iff]
  · intro x
    rw [mem_summationOf, used_iff]
    constructor
    · intro hx
      by_cases hxo : x ∈ c.outputIndices
      · exact .inl ⟨hxo, fun h => h.2 hxo⟩
      · exact .inr ⟨⟨hx, hxo⟩, hxo⟩
    · rintro (⟨hx, -⟩ | ⟨hx, -⟩)
      · exact used_iff.1 (ho.2 x hx)
      · exact hx.1

example : ∃ c, validate HashOrd.insertion "ab,bc->ac" = .ok c ∧ 'b' ∈ c.summationIndices := by
  have := validate_iff (h := HashOrd.insertion) (s := "ab,bc->ac")
    (c := ⟨[['a', 'b'], ['b', 'c']], ['a', 'c'], summationOf [['a', 'b'], ['b', 'c']] ['a', 'c']⟩)
  refine ⟨_, this.2 ⟨.inl ⟨by decide, wf_abbc, by simp [OutputOk, Used]⟩, rfl⟩, ?_⟩
  simp [mem_summationOf]

/-! ## C05 -/

/-- C05: success and its value do not depend on the iteration order of the hash maps. -/
theorem C05_success_independent (h h' : HashOrd) (s : String) (c : Contraction) :
    validate h s = .ok c ↔ validate h' s = .ok c := by
  rw [validate_iff, validate_iff]

/-- C05: the "Invalid string" error does not depend on it either. -/
theorem C05_invalid_independent (h h' : HashOrd) (s : String) :
    validate h s = .error "Invalid string" ↔ validate h' s = .error "Invalid string" := by
  rw [C01_invalid_iff, C01_invalid_iff]

/-- Iteration starting at the `k`-th entry and wrapping around. -/
def HashOrd.rotated (k : Nat) : HashOrd := ⟨fun _ l => l.rotate k, fun _ l => List.rotate_perm l k⟩

theorem exists_rotate_head {α : Type} {l : List α} {a : α} (h : a ∈ l) :
    ∃ k t, l.rotate k = a :: t := by
  obtain ⟨i, hi, rfl⟩ := List.mem_iff_getElem.1 h
  refine ⟨i, l.drop (i + 1) ++ l.take i, ?_⟩
  rw [List.rotate_eq_drop_append_take hi.le, List.drop_eq_getElem_cons hi, List.cons_append]

/-- C05: over all iteration orders, the duplicate message can be returned iff some output letter is
repeated, and the unknown-letter message iff some output letter that is not repeated is not used by
any operand.  So the message is order-dependent exactly when both occur. -/
theorem C05_messages (s : String) (inputs : List (List Char)) (out : List Char)
    (hs : s.toList = render inputs (some out)) (hw : WellFormed inputs (some out)) :
    ((∃ h, validate h s = .error "Requested output has duplicate index") ↔ ¬ out.Nodup) ∧
    ((∃ h, validate h s = .error "Requested output contains an index not found in inputs") ↔
      ∃ c, out.count c = 1 ∧ ¬ Used inputs c) := by
  have hcheck : ∀ (h : HashOrd) e, checkOutputs (charCounts inputs.flatten)
      (h.iter [0] (charCounts out)) = .error e → Contraction.fromIndices h inputs out = .error e := by
    intro h e he; simp only [Contraction.fromIndices, he]; rfl
  have hcheck' : ∀ (h : HashOrd) e, Contraction.fromIndices h inputs out = .error e →
      checkOutputs (charCounts inputs.flatten) (h.iter [0] (charCounts out)) = .error e := by
    intro h e he
    cases hc : checkOutputs (charCounts inputs.flatten) (h.iter [0] (charCounts out)) with
    | ok u => simp only [Contraction.fromIndices, hc] at he; cases he
    | error e' => simp only [Contraction.fromIndices, hc] at he; cases he; rfl
  refine ⟨⟨?_, ?_⟩, ⟨?_, ?_⟩⟩
  · rintro ⟨h, hh⟩
    rcases C02_errors h s inputs out _ hs hw hh with ⟨_, h2⟩ | ⟨h1, _⟩
    · exact h2
    · exact absurd h1 (by decide)
  · intro hn
    rw [List.nodup_iff_count_le_one] at hn
    simp only [not_forall, not_le] at hn
    obtain ⟨c, hc⟩ := hn
    have hm : (c, out.count c) ∈ charCounts out :=
      mem_charCounts.2 ⟨List.count_pos_iff.1 (by omega), rfl⟩
    obtain ⟨k, t, hk⟩ := exists_rotate_head hm
    refine ⟨HashOrd.rotated k, ?_⟩
    rw [validate_explicit hs hw]
    apply hcheck
    simp only [HashOrd.rotated, hk, checkOutputs]
    rw [if_pos hc]; rfl
  · rintro ⟨h, hh⟩
    rw [validate_explicit hs hw] at hh
    have h1 := hcheck' h _ hh
    have key : ∀ l, checkOutputs (charCounts inputs.flatten) l = .error errUnknown →
        ∃ e ∈ l, e.2 ≤ 1 ∧ hasKey (charCounts inputs.flatten) e.1 = false := by
      intro l
      induction l with
      | nil => intro h; simp [checkOutputs] at h
      | cons e l ih =>
        obtain ⟨c, n⟩ := e
        intro hl
        simp only [checkOutputs] at hl
        split at hl
        · simp [errDup, errUnknown] at hl
        · split at hl
          · obtain ⟨e, he, h⟩ := ih hl; exact ⟨e, by simp [he], h⟩
          · rename_i hx hy; exact ⟨_, List.mem_cons_self, by simpa using hx, by simpa using hy⟩
    obtain ⟨⟨c, n⟩, he, hn, hk⟩ := key _ h1
    obtain ⟨hc, rfl⟩ := mem_charCounts.1 ((h.perm _ _).mem_iff.1 he)
    rw [hasKey_charCounts] at hk
    have := List.count_pos_iff.2 hc
    refine ⟨c, by simp only at hn; omega, fun hu => ?_⟩
    simp [used_iff.1 hu] at hk
  · rintro ⟨c, hc, hu⟩
    have hm : (c, out.count c) ∈ charCounts out :=
      mem_charCounts.2 ⟨List.count_pos_iff.1 (by omega), rfl⟩
    obtain ⟨k, t, hk⟩ := exists_rotate_head hm
    refine ⟨HashOrd.rotated k, ?_⟩
    rw [validate_explicit hs hw]
    apply hcheck
    simp only [HashOrd.rotated, hk, checkOutputs]
    rw [if_neg (by omega), if_neg]
    · rfl
    · rw [hasKey_charCounts]; simpa using fun h => hu (used_iff.2 h)

/-- The string "ab->xxy" meets the hypotheses, and both messages are possible for it. -/
example : (∃ h, validate h "ab->xxy" = .error "Requested output has duplicate index") ∧
    (∃ h, validate h "ab->xxy" =
      .error "Requested output contains an index not found in inputs") := by
  have hw : WellFormed [['a', 'b']] (some ['x', 'x', 'y']) := by
    refine ⟨by simp, ?_, ?_⟩ <;> simp [Letter]
  have := C05_messages "ab->xxy" [['a', 'b']] ['x', 'x', 'y'] (by decide) hw
  exact ⟨this.1.2 (by simp), this.2.2 ⟨'y', by simp [Used]⟩⟩

/-! ## C06, C07 -/

/-- Entry `i` of entry `k`: the letter, or the length, of axis `i` of operand `k`. -/
def at2 {α : Type} (l : List (List α)) (k i : Nat) : Option α := l[k]?.bind fun r => r[i]?

/-- C06: an accepted string is sized successfully iff some assignment of lengths to letters fits
every axis of every operand (which includes equal counts and ranks). -/
theorem C06_sizing_iff (h : HashOrd) (s : String) (inputs : List (List Char)) (out : List Char)
    (hd : Denotes s inputs out) (shapes : List (List Nat)) :
    (∃ sc, SizedContraction.fromStringAndShapes h s shapes = .ok sc) ↔
      ∃ dims, Sized dims inputs shapes := by
  simp only [SizedContraction.fromStringAndShapes, hd.validate h, Bind.bind, Except.bind,
    SizedContraction.fromContractionAndShapes]
  constructor
  · rintro ⟨sc, hsc⟩
    cases hm : OutputSize.fromContractionAndShapes ⟨inputs, out, summationOf inputs out⟩ shapes with
    | error e => rw [hm] at hsc; simp at hsc
    | ok m =>
      obtain ⟨dims, h1, _⟩ := sizing_iff.1 hm
      exact ⟨dims, h1⟩
  · rintro ⟨dims, hs⟩
    have := sizing_iff (c := ⟨inputs, out, summationOf inputs out⟩) (shapes := shapes)
      (m := fun c => if c ∈ inputs.flatten then some (dims c) else none)
    rw [this.2 ⟨dims, hs, fun c => rfl⟩]
    exact ⟨_, rfl⟩

/-- The same, spelled out: counts agree, ranks agree, and equal letters have equal lengths. -/
theorem C06_sized_iff_consistent (inputs : List (List Char)) (shapes : List (List Nat)) :
    (∃ dims, Sized dims inputs shapes) ↔
      inputs.length = shapes.length ∧
      (∀ k (hk : k < inputs.length) (hk' : k < shapes.length), inputs[k].length = shapes[k].length) ∧
      (∀ k k' i i' c n n', at2 inputs k i = some c → at2 inputs k' i' = some c →
        at2 shapes k i = some n → at2 shapes k' i' = some n' → n = n') := by
  constructor
  · rintro ⟨dims, hs⟩
    have hl := hs.length_eq
    have hget := (List.forall₂_iff_get.1 hs).2
    refine ⟨hl, ?_, ?_⟩
    · intro k hk hk'
      have := hget k hk hk'
      simp only [List.get_eq_getElem] at this
      rw [this]; simp
    · have key : ∀ k i c n, at2 inputs k i = some c → at2 shapes k i = some n →
          n = dims c := by
        intro k i c n h1 h2
        obtain ⟨ix, hix, h1⟩ := Option.bind_eq_some_iff.1 h1
        obtain ⟨sh, hsh, h2⟩ := Option.bind_eq_some_iff.1 h2
        obtain ⟨hk, rfl⟩ := List.getElem?_eq_some_iff.1 hix
        obtain ⟨hk', rfl⟩ := List.getElem?_eq_some_iff.1 hsh
        have := hget k hk hk'
        simp only [List.get_eq_getElem] at this
        rw [this, List.getElem?_map, h1] at h2
        simpa using h2.symm
      intro k k' i i' c n n' h1 h2 h3 h4
      rw [key k i c n h1 h3, key k' i' c n' h2 h4]
  · rintro ⟨hl, hr, hc⟩
    -- pick the length of some axis carrying the letter
    classical
    refine ⟨fun c => if h : ∃ n k i, at2 inputs k i = some c ∧
      at2 shapes k i = some n then h.choose else 0, ?_⟩
    rw [Sized, List.forall₂_iff_get]
    refine ⟨hl, fun k hk hk' => ?_⟩
    simp only [List.get_eq_getElem]
    apply List.ext_getElem
    · simp [hr k hk hk']
    · intro i hi1 hi2
      simp only [List.getElem_map]
      have hi3 : i < inputs[k].length := by rw [hr k hk hk']; exact hi1
      have e1 : at2 inputs k i = some inputs[k][i] := by
        simp [at2, hk, hi3]
      have e2 : at2 shapes k i = some shapes[k][i] := by
        simp [at2, hk', hi1]
      have hex : ∃ n k' i', at2 inputs k' i' = some inputs[k][i] ∧
        at2 shapes k' i' = some n := ⟨_, k, i, e1, e2⟩
      rw [dif_pos hex]
      obtain ⟨k', i', h1, h2⟩ := hex.choose_spec
      exact hc _ _ _ _ _ _ _ e1 h1 e2 h2

/-- The first `k` operands are processed without error when they are consistent. -/
theorem sizeOperands_prefix {inputs : List (List Char)} {shapes : List (List Nat)} {dims : Char → Nat}
    (hs : Sized dims inputs shapes) {m : OutputSize} {done : List Char} (hm : SizesAre m done dims)
    (rest : List (List Char × List Nat)) :
    ∃ m', SizesAre m' (done ++ inputs.flatten) dims ∧
      sizeOperands m (inputs.zip shapes ++ rest) = sizeOperands m' rest := by
  induction hs generalizing m done with
  | nil => exact ⟨m, by simpa using hm, rfl⟩
  | @cons ix sh inputs shapes h1 _ ih =>
    subst h1
    obtain ⟨m1, h2, h3⟩ := sizeAxes_ok (ix := ix) hm
    obtain ⟨m2, h4, h5⟩ := ih h3
    refine ⟨m2, by simpa using h4, ?_⟩
    simp [sizeOperands, h2]
    exact h5

/-- C06: which error is reported.  A wrong number of operands is reported first; otherwise, at the
first operand `k` that cannot be fitted together with the previous ones, a wrong rank is reported
if its rank is wrong and a size clash otherwise. -/
theorem C06_errors (h : HashOrd) (s : String) (inputs : List (List Char)) (out : List Char)
    (hd : Denotes s inputs out) (shapes : List (List Nat)) :
    (inputs.length ≠ shapes.length → SizedContraction.fromStringAndShapes h s shapes = .error
      "number of operands in contraction does not match number of operands supplied") ∧
    (inputs.length = shapes.length → ∀ k ix sh, inputs[k]? = some ix → shapes[k]? = some sh →
      (∃ dims, Sized dims (inputs.take k) (shapes.take k)) →
      (¬ ∃ dims, Sized dims (inputs.take (k + 1)) (shapes.take (k + 1))) →
      SizedContraction.fromStringAndShapes h s shapes = .error
        (if ix.length ≠ sh.length then
          "number of indices in one or more operands does not match dimensions of operand"
        else "repeated index with different size")) := by
  simp only [SizedContraction.fromStringAndShapes, hd.validate h, Bind.bind, Except.bind,
    SizedContraction.fromContractionAndShapes, OutputSize.fromContractionAndShapes]
  refine ⟨?_, ?_⟩
  · intro hne; simp [hne, errCount]
  · intro hl k ix sh hix hsh hgood hbad
    obtain ⟨hk, rfl⟩ := List.getElem?_eq_some_iff.1 hix
    obtain ⟨hk', rfl⟩ := List.getElem?_eq_some_iff.1 hsh
    obtain ⟨dims, hs⟩ := hgood
    simp only [hl, ne_eq, not_true_eq_false, if_false]
    have hsplit : inputs.zip shapes = (inputs.take k).zip (shapes.take k) ++
        ((inputs[k], shapes[k]) :: (inputs.drop (k + 1)).zip (shapes.drop (k + 1))) := by
      conv_lhs => rw [← List.take_append_drop k inputs, ← List.take_append_drop k shapes]
      rw [List.zip_append (by simp [hl]), List.drop_eq_getElem_cons hk, List.drop_eq_getElem_cons hk',
        List.zip_cons_cons]
    obtain ⟨m', hm', heq⟩ := sizeOperands_prefix hs (m := OutputSize.empty) (done := [])
      (by intro c; simp [OutputSize.empty]) ((inputs[k], shapes[k]) ::
        (inputs.drop (k + 1)).zip (shapes.drop (k + 1)))
    rw [hsplit, heq]
    by_cases hlen : inputs[k].length = shapes[k].length
    · have herr : ∃ e, sizeAxes m' (inputs[k].zip shapes[k]) = .error e := by
        cases hax : sizeAxes m' (inputs[k].zip shapes[k]) with
        | error e => exact ⟨e, rfl⟩
        | ok m'' =>
          exfalso; apply hbad
          obtain ⟨a1, a2, _⟩ := sizeAxes_sound hax
          refine ⟨fun c => (m'' c).getD 0, ?_⟩
          rw [Sized, List.forall₂_iff_get]
          refine ⟨by simp [hl], fun j hj hj' => ?_⟩
          simp only [List.length_take] at hj hj'
          simp only [List.get_eq_getElem, List.getElem_take]
          by_cases hjk : j < k
          · have h1 := (List.forall₂_iff_get.1 hs).2 j (by simp; omega) (by simp; omega)
            simp only [List.get_eq_getElem, List.getElem_take] at h1
            rw [h1]
            apply List.map_congr_left
            intro c hc
            have : m' c = some (dims c) := by
              rw [hm' c, if_pos]
              simp only [List.nil_append, List.mem_flatten]
              exact ⟨inputs[j], by rw [List.mem_take_iff_getElem]; exact ⟨j, by omega, rfl⟩, hc⟩
            rw [a1 _ _ this]; rfl
          · have hjk' : j = k := by omega
            subst hjk'
            apply List.ext_getElem
            · simp [hlen]
            · intro i hi1 hi2
              have := a2 (inputs[j][i]'(by omega), shapes[j][i]) (by
                rw [List.mem_iff_getElem]
                exact ⟨i, by simp; omega, by simp⟩)
              simp only [List.getElem_map]
              simp only at this
              rw [this]; rfl
      obtain ⟨e, he⟩ := herr
      have := sizeAxes_error he
      subst this
      simp [sizeOperands, hlen, he, Bind.bind, Except.bind, errSize]
    · simp [sizeOperands, hlen, errRank]

theorem denotes_abbc : Denotes "ab,bc->ac" [['a', 'b'], ['b', 'c']] ['a', 'c'] :=
  .inl ⟨by decide, wf_abbc, by simp [OutputOk, Used]⟩

example : ∃ dims, Sized dims [['a', 'b'], ['b', 'c']] [[2, 3], [3, 0]] :=
  ⟨fun c => if c = 'a' then 2 else if c = 'b' then 3 else 0, .cons (by decide) (.cons (by decide) .nil)⟩

example : SizedContraction.fromStringAndShapes HashOrd.insertion "ab,bc->ac" [[2, 3], [4, 5]] =
    .error "repeated index with different size" := by
  refine (C06_errors _ _ _ _ denotes_abbc [[2, 3], [4, 5]]).2 rfl 1 _ _ rfl rfl
    ⟨fun c => if c = 'a' then 2 else 3, .cons (by decide) .nil⟩ ?_
  rintro ⟨dims, hs⟩
  simp [Sized] at hs
  omega

/-- C07: after sizing, `output_size` maps each used letter to the length of every axis carrying it,
and has no other key. -/
theorem C07_output_size (h : HashOrd) (s : String) (shapes : List (List Nat)) (sc : SizedContraction)
    (hsc : SizedContraction.fromStringAndShapes h s shapes = .ok sc) :
    (∀ c, sc.outputSize c ≠ none ↔ Used sc.contraction.operandIndices c) ∧
    (∀ k i c, at2 sc.contraction.operandIndices k i = some c →
      sc.outputSize c = at2 shapes k i ∧ at2 shapes k i ≠ none) := by
  simp only [SizedContraction.fromStringAndShapes, Bind.bind, Except.bind,
    SizedContraction.fromContractionAndShapes] at hsc
  cases hv : validate h s with
  | error e => rw [hv] at hsc; simp at hsc
  | ok c =>
    rw [hv] at hsc
    simp only at hsc
    cases hm : OutputSize.fromContractionAndShapes c shapes with
    | error e => rw [hm] at hsc; simp at hsc
    | ok m =>
      rw [hm] at hsc
      simp only [pure, Except.pure, Except.ok.injEq] at hsc
      subst hsc
      obtain ⟨dims, hs, hm'⟩ := sizing_iff.1 hm
      simp only
      refine ⟨?_, ?_⟩
      · intro x; rw [hm' x, used_iff]; simp
      · intro k i x hx
        obtain ⟨ix, hix, hxi⟩ := Option.bind_eq_some_iff.1 hx
        obtain ⟨hk, rfl⟩ := List.getElem?_eq_some_iff.1 hix
        have hk' : k < shapes.length := by rw [← hs.length_eq]; exact hk
        have h1 := (List.forall₂_iff_get.1 hs).2 k hk hk'
        simp only [List.get_eq_getElem] at h1
        have h2 : at2 shapes k i = some (dims x) := by
          simp [at2, hk', h1, hxi]
        rw [h2, hm' x, if_pos]
        · exact ⟨rfl, by simp⟩
        · exact List.mem_flatten.2 ⟨_, List.getElem_mem hk, List.mem_of_getElem? hxi⟩

example : ∃ sc, SizedContraction.fromStringAndShapes HashOrd.insertion "ab,bc->ac" [[2, 3], [3, 4]] =
    .ok sc :=
  (C06_sizing_iff _ _ _ _ denotes_abbc _).2
    ⟨fun c => if c = 'a' then 2 else if c = 'b' then 3 else 4,
      .cons (by decide) (.cons (by decide) .nil)⟩

/-! ## C08 -/

theorem commaOperands_eq (ps : List (List Char)) : commaOperands ps = commaJoin ps := by
  induction ps with
  | nil => rfl
  | cons p ps ih => simp [commaOperands, commaJoin, ih]

/-- What a successfully sized contraction looks like. -/
theorem fromStringAndShapes_iff {h : HashOrd} {s : String} {shapes : List (List Nat)}
    {sc : SizedContraction} :
    SizedContraction.fromStringAndShapes h s shapes = .ok sc ↔
      ∃ inputs out dims, Denotes s inputs out ∧ Sized dims inputs shapes ∧
        sc = ⟨⟨inputs, out, summationOf inputs out⟩,
          fun c => if c ∈ inputs.flatten then some (dims c) else none⟩ := by
  simp only [SizedContraction.fromStringAndShapes, Bind.bind, Except.bind,
    SizedContraction.fromContractionAndShapes]
  constructor
  · intro hsc
    cases hv : validate h s with
    | error e => rw [hv] at hsc; simp at hsc
    | ok c =>
      rw [hv] at hsc
      simp only at hsc
      cases hm : OutputSize.fromContractionAndShapes c shapes with
      | error e => rw [hm] at hsc; simp at hsc
      | ok m =>
        rw [hm] at hsc
        simp only [pure, Except.pure, Except.ok.injEq] at hsc
        subst hsc
        obtain ⟨dims, hs, hm'⟩ := sizing_iff.1 hm
        obtain ⟨hd, hsum⟩ := validate_iff.1 hv
        obtain ⟨inputs, out, sm⟩ := c
        simp only at hs hm' hd hsum
        subst hsum
        exact ⟨inputs, out, dims, hd, hs, by rw [show m = _ from funext hm']⟩
  · rintro ⟨inputs, out, dims, hd, hs, rfl⟩
    rw [hd.validate h]
    simp only
    rw [sizing_iff.2 ⟨dims, hs, fun c => rfl⟩]
    rfl

/-- The printed form of a validated contraction denotes it. -/
theorem asEinsumString_denotes {s : String} {inputs : List (List Char)} {out : List Char}
    (hd : Denotes s inputs out) (sm : List Char) (m : OutputSize) :
    ∃ t, SizedContraction.asEinsumString ⟨⟨inputs, out, sm⟩, m⟩ = .ok t ∧ Denotes t inputs out := by
  obtain ⟨hne, hps⟩ := hd.inputs_ne
  have ho := hd.outputOk
  cases inputs with
  | nil => simp at hne
  | cons p ps =>
    refine ⟨_, rfl, .inl ⟨?_, ⟨by simp, hps, ?_⟩, ho⟩⟩
    · rw [render_cons, commaOperands_eq]
      simp [arrowPart]
    · intro o heq c hc
      simp at heq; subst heq
      obtain ⟨q, hq, hcq⟩ := ho.2 c hc
      exact (hps q hq).2 c hcq

/-- C08: printing a sized contraction and reading it back (and sizing it with the same shapes)
returns the same contraction, for any hash orders. -/
theorem C08_roundtrip (h h' : HashOrd) (s : String) (shapes : List (List Nat)) (sc : SizedContraction)
    (hsc : SizedContraction.fromStringAndShapes h s shapes = .ok sc) :
    ∃ t, sc.asEinsumString = .ok t ∧ validate h' t = .ok sc.contraction ∧
      SizedContraction.fromStringAndShapes h' t shapes = .ok sc := by
  obtain ⟨inputs, out, dims, hd, hs, rfl⟩ := fromStringAndShapes_iff.1 hsc
  obtain ⟨t, ht, hd'⟩ := asEinsumString_denotes hd (summationOf inputs out)
    (fun c => if c ∈ inputs.flatten then some (dims c) else none)
  exact ⟨t, ht, hd'.validate h', fromStringAndShapes_iff.2 ⟨inputs, out, dims, hd', hs, rfl⟩⟩

example : ∃ sc, SizedContraction.fromStringAndShapes HashOrd.insertion "ab,bc" [[2, 3], [3, 4]] =
    .ok sc := by
  have hw : WellFormed [['a', 'b'], ['b', 'c']] none := ⟨wf_abbc.1, wf_abbc.2.1, by simp⟩
  have hd : Denotes "ab,bc" [['a', 'b'], ['b', 'c']]
      (implicitOutput HashOrd.insertion [['a', 'b'], ['b', 'c']]) :=
    .inr ⟨by decide, hw, implicitOutput_spec _ _⟩
  exact (C06_sizing_iff _ _ _ _ hd _).2
    ⟨fun c => if c = 'a' then 2 else if c = 'b' then 3 else 4,
      .cons (by decide) (.cons (by decide) .nil)⟩

/-! ## C09 -/

/-- C09: when `subset` succeeds. -/
theorem C09_subset_iff (h : HashOrd) (sc : SizedContraction) (ops : List (List Char)) (out : List Char) :
    (∃ sc', sc.subset h ops out = .ok sc') ↔
      (∀ c, Used ops c → sc.outputSize c ≠ none) ∧ out.Nodup ∧ ∀ c ∈ out, Used ops c := by
  constructor
  · rintro ⟨sc', hs⟩
    obtain ⟨h1, h2, _⟩ := subset_iff.1 hs
    exact ⟨fun c hc => h1 c (used_iff.1 hc), h2⟩
  · rintro ⟨h1, h2⟩
    exact ⟨_, subset_ok (fun c hc => h1 c (used_iff.2 hc)) h2⟩

/-- C09: what `subset` returns. -/
theorem C09_subset_result (h : HashOrd) (sc sc' : SizedContraction) (ops : List (List Char))
    (out : List Char) (hs : sc.subset h ops out = .ok sc') :
    sc'.contraction.operandIndices = ops ∧ sc'.contraction.outputIndices = out ∧
    sc'.contraction.summationIndices.Pairwise (· < ·) ∧
    (∀ c, c ∈ sc'.contraction.summationIndices ↔ Used ops c ∧ c ∉ out) ∧
    (∀ c, Used ops c → sc'.outputSize c = sc.outputSize c) ∧
    (∀ c, ¬ Used ops c → sc'.outputSize c = none) := by
  obtain ⟨_, _, rfl⟩ := subset_iff.1 hs
  refine ⟨rfl, rfl, summationOf_sorted _ _, ?_, ?_, ?_⟩
  · intro c; rw [used_iff]; exact mem_summationOf
  · intro c hc; simp only [if_pos (used_iff.1 hc)]
  · intro c hc; simp only; rw [if_neg fun h => hc (used_iff.2 h)]

example (sc : SizedContraction) (hsz : ∀ c, sc.outputSize c ≠ none) :
    ∃ sc', sc.subset HashOrd.reversed [['i', 'i', 'j']] ['j'] = .ok sc' :=
  (C09_subset_iff _ sc _ _).2 ⟨fun c _ => hsz c, by simp, by simp [Used]⟩

end Einsum
