import Verif.Model.Counters
import Verif.Props.Validation

/-!
# Letter counts of bounded size: C65
-/

namespace Einsum

open Spec

/-! ## The counting loop -/

theorem lookupCount_charCounts (l : List Char) (c : Char) : lookupCount (charCounts l) c = l.count c := by
  have := lookupCount_foldl l [] c
  simpa [charCounts, lookupCount] using this

theorem bumpW_checked (B : Nat) (m : List (Char × Nat)) (c : Char) :
    bumpW (.checked B) m c =
      if lookupCount m c + 1 < B then .ok (bump m c) else panic .addOverflow := by
  induction m with
  | nil =>
    by_cases h : 1 < B <;> simp [bumpW, Counter.checked, lookupCount, bump, h]
  | cons e m ih =>
    obtain ⟨d, n⟩ := e
    by_cases hd : d = c
    · subst hd
      by_cases h : n + 1 < B <;> simp [bumpW, Counter.checked, lookupCount, bump, h]
    · have hl : lookupCount ((d, n) :: m) c = lookupCount m c := by simp [lookupCount, hd]
      simp only [bumpW, hd, if_false, ih, hl, bump]
      split <;> rfl

theorem charCounts_append (l : List Char) (c : Char) : charCounts (l ++ [c]) = bump (charCounts l) c := by
  simp [charCounts]

theorem charCountsW_append (k : Counter) (l : List Char) (c : Char) :
    charCountsW k (l ++ [c]) = (charCountsW k l >>= fun m => bumpW k m c) := by
  simp only [charCountsW, List.foldlM_append, List.foldlM_cons, List.foldlM_nil]
  cases l.foldlM (bumpW k) [] with
  | error e => rfl
  | ok m => simp only [bind_ok]; cases bumpW k m c <;> rfl

/-- With overflow checks the loop counts correctly or panics. -/
theorem charCountsW_checked {B : Nat} (hB : 2 ≤ B) (l : List Char) :
    ((∀ c, l.count c < B) ∧ charCountsW (.checked B) l = .ok (charCounts l)) ∨
    ((∃ c, B ≤ l.count c) ∧ charCountsW (.checked B) l = panic .addOverflow) := by
  induction l using List.reverseRecOn with
  | nil => exact .inl ⟨by intro c; simp; omega, rfl⟩
  | append_singleton l c ih =>
    rcases ih with ⟨h1, h2⟩ | ⟨⟨d, h1⟩, h2⟩
    · rw [charCountsW_append, h2, bind_ok, bumpW_checked, lookupCount_charCounts]
      by_cases h : l.count c + 1 < B
      · left
        rw [if_pos h, charCounts_append]
        refine ⟨fun d => ?_, rfl⟩
        rw [List.count_append]
        by_cases hd : c = d
        · subst hd; simpa using h
        · have := h1 d; simpa [List.count_singleton, hd] using this
      · right
        rw [if_neg h]
        exact ⟨⟨c, by rw [List.count_append]; simp; omega⟩, rfl⟩
    · right
      rw [charCountsW_append, h2, bind_panic]
      exact ⟨⟨d, by rw [List.count_append]; omega⟩, rfl⟩

/-- The entries with their counts reduced. -/
def reduced (B : Nat) (m : List (Char × Nat)) : List (Char × Nat) := m.map fun e => (e.1, e.2 % (2 * B))

theorem bumpW_wrapping (B : Nat) (m : List (Char × Nat)) (c : Char) :
    bumpW (.wrapping B) (reduced B m) c = .ok (reduced B (bump m c)) := by
  induction m with
  | nil => simp [reduced, bumpW, bump, Counter.wrapping, bind_ok]
  | cons e m ih =>
    obtain ⟨d, n⟩ := e
    simp only [reduced, List.map_cons, bumpW, bump] at ih ⊢
    by_cases hd : d = c
    · simp [hd, Counter.wrapping, bind_ok]
    · simp only [hd, if_false, ih, bind_ok]; rfl

/-- Without overflow checks the loop counts modulo `2 B`. -/
theorem charCountsW_wrapping (B : Nat) (l : List Char) :
    charCountsW (.wrapping B) l = .ok (reduced B (charCounts l)) := by
  induction l using List.reverseRecOn with
  | nil => rfl
  | append_singleton l c ih => rw [charCountsW_append, ih, bind_ok, bumpW_wrapping, charCounts_append]

theorem reduced_eq {B : Nat} {l : List Char} (h : ∀ c, l.count c < B) :
    reduced B (charCounts l) = charCounts l := by
  unfold reduced
  conv_rhs => rw [← List.map_id (charCounts l)]
  apply List.map_congr_left
  rintro ⟨c, n⟩ he
  obtain ⟨_, rfl⟩ := mem_charCounts.1 he
  have := h c
  simp [Nat.mod_eq_of_lt (show l.count c < 2 * B by omega)]

/-- A counter of the crate: with or without overflow checks. -/
def IsCounter (B : Nat) (k : Counter) : Prop := k = .checked B ∨ k = .wrapping B

theorem IsCounter.counts {B : Nat} {k : Counter} (hB : 2 ≤ B) (hk : IsCounter B k) {l : List Char}
    (h : ∀ c, l.count c < B) : charCountsW k l = .ok (charCounts l) := by
  rcases hk with rfl | rfl
  · rcases charCountsW_checked hB l with ⟨_, h'⟩ | ⟨⟨c, h'⟩, _⟩
    · exact h'
    · have := h c; omega
  · rw [charCountsW_wrapping, reduced_eq h]

theorem IsCounter.gt1 {B : Nat} {k : Counter} (hk : IsCounter B k) : k.gt1 = signedGt1 B := by
  rcases hk with rfl | rfl <;> rfl

theorem checkOutputsW_eq {B : Nat} {k : Counter} (hk : IsCounter B k) (inp l : List (Char × Nat))
    (h : ∀ e ∈ l, e.2 < B) : checkOutputsW k inp l = checkOutputs inp l := by
  induction l with
  | nil => rfl
  | cons e l ih =>
    obtain ⟨c, n⟩ := e
    have hn : n < B := h _ List.mem_cons_self
    simp only [checkOutputsW, checkOutputs, hk.gt1, signedGt1, hn, decide_true, Bool.and_true,
      decide_eq_true_eq, ih fun e he => h e (List.mem_cons_of_mem _ he)]

theorem lt_of_mem_charCounts {B : Nat} {l : List Char} (h : ∀ c, l.count c < B) :
    ∀ e ∈ charCounts l, e.2 < B := by
  rintro ⟨c, n⟩ he
  obtain ⟨_, rfl⟩ := mem_charCounts.1 he
  exact h c

/-! ## Short strings -/

theorem fromIndicesW_eq {B : Nat} {k : Counter} (hB : 2 ≤ B) (hk : IsCounter B k) (h : HashOrd)
    {inputs : List (List Char)} {out : List Char} (hi : ∀ c, inputs.flatten.count c < B)
    (ho : ∀ c, out.count c < B) :
    Contraction.fromIndicesW k h inputs out = .ok (Contraction.fromIndices h inputs out) := by
  simp only [Contraction.fromIndicesW, Contraction.fromIndices, hk.counts hB hi, hk.counts hB ho, bind_ok]
  rw [checkOutputsW_eq hk _ _ fun e he => lt_of_mem_charCounts ho e ((h.perm _ _).mem_iff.1 he)]
  cases checkOutputs (charCounts inputs.flatten) (h.iter [0] (charCounts out)) <;> rfl

theorem implicitOutputW_eq {B : Nat} {k : Counter} (hB : 2 ≤ B) (hk : IsCounter B k) (h : HashOrd)
    {inputs : List (List Char)} (hi : ∀ c, inputs.flatten.count c < B) :
    implicitOutputW k h inputs = .ok (implicitOutput h inputs) := by
  simp only [implicitOutputW, hk.counts hB hi, bind_ok]; rfl

theorem Spec.ImplicitOutput.count_lt {B : Nat} (hB : 2 ≤ B) {inputs : List (List Char)} {o : List Char}
    (h : ImplicitOutput inputs o) (c : Char) : o.count c < B := by
  have := List.nodup_iff_count_le_one.1 h.outputOk.1 c
  omega

/-- C65: when no letter occurs `B` times (`2^31` in Rust), bounded counters make no difference. -/
theorem C65_validate {B : Nat} (hB : 2 ≤ B) {k : Counter} (hk : IsCounter B k) (h : HashOrd) (s : String)
    (inputs : List (List Char)) (o : Option (List Char)) (hs : s.toList = render inputs o)
    (hw : WellFormed inputs o) (hi : ∀ c, inputs.flatten.count c < B)
    (ho : ∀ out ∈ o, ∀ c, out.count c < B) :
    validateW k h s = .ok (validate h s) := by
  simp only [validateW, validate, parse_iff.2 ⟨hs, hw⟩, Contraction.fromParseW, Contraction.fromParse]
  cases o with
  | some out => exact fromIndicesW_eq hB hk h hi (ho out rfl)
  | none =>
    simp only [implicitOutputW_eq hB hk h hi, bind_ok]
    exact fromIndicesW_eq hB hk h hi fun c =>
      Spec.ImplicitOutput.count_lt hB (implicitOutput_spec h inputs) c

/-- C65: strings without a reading are refused with the same error. -/
theorem C65_invalid (k : Counter) (h : HashOrd) (s : String)
    (hs : ¬ ∃ ps o, s.toList = render ps o ∧ WellFormed ps o) :
    validateW k h s = .ok (.error "Invalid string") := by
  simp only [validateW, parse_none_iff.2 hs]; rfl

theorem length_flatten_le (ps : List (List Char)) : ps.flatten.length ≤ ([','].intercalate ps).length := by
  induction ps with
  | nil => simp
  | cons p ps ih =>
    cases ps with
    | nil => simp
    | cons q ps => rw [List.intercalate_cons_cons]; simp only [List.flatten_cons, List.length_append] at ih ⊢; omega

theorem count_flatten_le_render (ps : List (List Char)) (o : Option (List Char)) (c : Char) :
    ps.flatten.count c ≤ (render ps o).length ∧ ∀ out ∈ o, out.count c ≤ (render ps o).length := by
  have h1 := length_flatten_le ps
  have h2 := List.count_le_length (a := c) (l := ps.flatten)
  refine ⟨by simp only [render, List.length_append]; omega, ?_⟩
  intro out ho
  simp only [Option.mem_def] at ho
  subst ho
  have := List.count_le_length (a := c) (l := out)
  simp only [render, List.length_append, List.length_cons]; omega

/-- C65: all strings shorter than `B` are covered. -/
theorem C65_short {B : Nat} (hB : 2 ≤ B) {k : Counter} (hk : IsCounter B k) (h : HashOrd) (s : String)
    (hs : s.length < B) : validateW k h s = .ok (validate h s) := by
  by_cases hp : ∃ ps o, s.toList = render ps o ∧ WellFormed ps o
  · obtain ⟨ps, o, h1, h2⟩ := hp
    have hl : (render ps o).length < B := by rw [← h1, String.length_toList]; exact hs
    exact C65_validate hB hk h s ps o h1 h2
      (fun c => lt_of_le_of_lt (count_flatten_le_render ps o c).1 hl)
      (fun out ho c => lt_of_le_of_lt ((count_flatten_le_render ps o c).2 out ho) hl)
  · rw [C65_invalid k h s hp, (C01_invalid_iff h s).2 hp]

/-- C65: the choice of the strategy for one operand. -/
theorem C65_singleton {B : Nat} (hB : 2 ≤ B) {k : Counter} (hk : IsCounter B k) (input output : List Char)
    (hi : ∀ c, input.count c < B) :
    SingletonSummary.fromIndicesW k input output = SingletonSummary.fromIndices input output := by
  simp only [SingletonSummary.fromIndicesW, SingletonSummary.fromIndices, hk.counts hB hi, bind_ok, hk.gt1]
  have : (charCounts input).filter (fun e => signedGt1 B e.2) =
      (charCounts input).filter (fun e => 1 < e.2) := by
    apply List.filter_congr
    intro e he
    simp [signedGt1, lt_of_mem_charCounts hi e he]
  rw [this]

/-! ## Builds with overflow checks -/

/-- C65: with overflow checks, validation panics exactly when a letter occurs `B` times. -/
theorem C65_checked {B : Nat} (hB : 2 ≤ B) (h : HashOrd) (s : String)
    (inputs : List (List Char)) (o : Option (List Char)) (hs : s.toList = render inputs o)
    (hw : WellFormed inputs o) :
    (validateW (.checked B) h s = panic .addOverflow ↔
      (∃ c, B ≤ inputs.flatten.count c) ∨ ∃ out ∈ o, ∃ c, B ≤ out.count c) ∧
    (validateW (.checked B) h s = panic .addOverflow ∨ validateW (.checked B) h s = .ok (validate h s)) := by
  by_cases hc : (∀ c, inputs.flatten.count c < B) ∧ ∀ out ∈ o, ∀ c, out.count c < B
  · have he := C65_validate hB (.inl rfl) h s inputs o hs hw hc.1 hc.2
    refine ⟨?_, .inr he⟩
    rw [he]
    constructor
    · intro h'; simp [panic] at h'
    · rintro (⟨c, h'⟩ | ⟨out, h1, c, h'⟩)
      · have := hc.1 c; omega
      · have := hc.2 out h1 c; omega
  · have hpanic : validateW (.checked B) h s = panic .addOverflow := by
      simp only [validateW, parse_iff.2 ⟨hs, hw⟩, Contraction.fromParseW]
      rcases charCountsW_checked hB inputs.flatten with ⟨h1, h2⟩ | ⟨_, h2⟩
      · have hc' : ¬ ∀ out ∈ o, ∀ c, out.count c < B := fun h' => hc ⟨h1, h'⟩
        cases o with
        | none => exact absurd (by simp) hc'
        | some out =>
          simp only [bind_ok, Contraction.fromIndicesW, h2]
          rcases charCountsW_checked hB out with ⟨h3, _⟩ | ⟨_, h4⟩
          · exact absurd (by simpa using h3) hc'
          · rw [h4]; rfl
      · cases o with
        | some out => simp only [bind_ok, Contraction.fromIndicesW, h2]; rfl
        | none => simp only [implicitOutputW, h2]; rfl
    refine ⟨⟨fun _ => ?_, fun _ => hpanic⟩, .inl hpanic⟩
    by_contra hn
    apply hc
    constructor
    · intro c; by_contra h'; exact hn (.inl ⟨c, by omega⟩)
    · intro out h1 c; by_contra h'; exact hn (.inr ⟨out, h1, c, by omega⟩)

/-! ## Builds without -/

theorem hasKey_reduced (B : Nat) (m : List (Char × Nat)) (c : Char) :
    hasKey (reduced B m) c = hasKey m c := by
  simp [hasKey, reduced, List.any_map, Function.comp_def]

theorem reduced_keys (B : Nat) (m : List (Char × Nat)) : (reduced B m).map Prod.fst = m.map Prod.fst := by
  simp [reduced, Function.comp_def]

theorem checkOutputsW_ok {k : Counter} {inp l : List (Char × Nat)} :
    checkOutputsW k inp l = .ok () ↔ ∀ e ∈ l, k.gt1 e.2 = false ∧ hasKey inp e.1 = true := by
  induction l with
  | nil => simp [checkOutputsW]
  | cons e l ih =>
    obtain ⟨c, n⟩ := e
    simp only [checkOutputsW, List.forall_mem_cons]
    split
    · rename_i h1; simp [h1]
    · split
      · rename_i h1 h2; rw [ih]; simp [h1, h2]
      · rename_i h1 h2; simp [h2]

/-- Whether a wrapped count passes for at most one. -/
def PassesForOne (B n : Nat) : Prop := n % (2 * B) ≤ 1 ∨ B ≤ n % (2 * B)

theorem fromIndicesW_wrapping {B : Nat} (h : HashOrd) (inputs : List (List Char)) (out : List Char) :
    ∃ r, Contraction.fromIndicesW (.wrapping B) h inputs out = .ok r ∧
      ((∃ c, r = .ok c) ↔ ∀ c ∈ out, Used inputs c ∧ PassesForOne B (out.count c)) ∧
      ∀ c, r = .ok c → c = ⟨inputs, out, summationOf inputs out⟩ := by
  simp only [Contraction.fromIndicesW, charCountsW_wrapping, bind_ok]
  have hok : checkOutputsW (.wrapping B) (reduced B (charCounts inputs.flatten))
      (h.iter [0] (reduced B (charCounts out))) = .ok () ↔
      ∀ c ∈ out, Used inputs c ∧ PassesForOne B (out.count c) := by
    rw [checkOutputsW_ok]
    constructor
    · intro h' c hc
      have hm : (c, out.count c % (2 * B)) ∈ h.iter [0] (reduced B (charCounts out)) := by
        rw [(h.perm _ _).mem_iff, reduced, List.mem_map]
        exact ⟨(c, out.count c), mem_charCounts.2 ⟨hc, rfl⟩, rfl⟩
      obtain ⟨h1, h2⟩ := h' _ hm
      rw [hasKey_reduced, hasKey_charCounts] at h2
      refine ⟨used_iff.2 (by simpa using h2), ?_⟩
      simp only [Counter.wrapping, signedGt1, Bool.and_eq_false_iff, decide_eq_false_iff_not] at h1
      unfold PassesForOne; omega
    · intro h' e he
      rw [(h.perm _ _).mem_iff, reduced, List.mem_map] at he
      obtain ⟨⟨c, n⟩, he, rfl⟩ := he
      obtain ⟨hc, rfl⟩ := mem_charCounts.1 he
      obtain ⟨h1, h2⟩ := h' c hc
      refine ⟨?_, ?_⟩
      · simp only [Counter.wrapping, signedGt1, Bool.and_eq_false_iff, decide_eq_false_iff_not]
        unfold PassesForOne at h2; omega
      · rw [hasKey_reduced, hasKey_charCounts]; simpa using used_iff.1 h1
  have hsum : sortChars (((h.iter [1] (reduced B (charCounts inputs.flatten))).map Prod.fst).filter
      fun c => !hasKey (reduced B (charCounts out)) c) = summationOf inputs out := by
    have hp : ((h.iter [1] (reduced B (charCounts inputs.flatten))).map Prod.fst).Perm
        (hset inputs.flatten) := by
      rw [← charCounts_keys, ← reduced_keys B (charCounts _)]; exact (h.perm _ _).map _
    apply eq_of_sorted_of_mem
    · exact sortChars_strict ((hp.nodup_iff.2 (nodup_hset _)).filter _)
    · exact summationOf_sorted _ _
    · intro a
      rw [(sortChars_perm _).mem_iff, mem_summationOf]
      simp [List.mem_filter, hp.mem_iff, hasKey_reduced, hasKey_charCounts]
  rw [← hok]
  cases hr : checkOutputsW (.wrapping B) (reduced B (charCounts inputs.flatten))
      (h.iter [0] (reduced B (charCounts out))) with
  | error e =>
    refine ⟨.error e, rfl, ?_, ?_⟩ <;> simp
  | ok u =>
    refine ⟨.ok ⟨inputs, out, summationOf inputs out⟩, ?_, ?_, ?_⟩
    · rw [hsum]; rfl
    · simp
    · intro c hc; injection hc with hc; exact hc.symm

/-- C65: without overflow checks validation never panics, and accepts a written output exactly when its
letters are used and their counts pass for at most one. -/
theorem C65_wrapping (B : Nat) (h : HashOrd) (s : String) (inputs : List (List Char)) (out : List Char)
    (hs : s.toList = render inputs (some out)) (hw : WellFormed inputs (some out)) :
    ∃ r, validateW (.wrapping B) h s = .ok r ∧
      ((∃ c, r = .ok c) ↔ ∀ c ∈ out, Used inputs c ∧ PassesForOne B (out.count c)) ∧
      ∀ c, r = .ok c → c.operandIndices = inputs ∧ c.outputIndices = out := by
  obtain ⟨r, h1, h2, h3⟩ := fromIndicesW_wrapping (B := B) h inputs out
  refine ⟨r, ?_, h2, fun c hc => by rw [h3 c hc]; exact ⟨rfl, rfl⟩⟩
  simp only [validateW, parse_iff.2 ⟨hs, hw⟩, Contraction.fromParseW, bind_ok]
  exact h1

/-- C65: without overflow checks an omitted output consists of the letters whose count is one modulo `2 B`. -/
theorem C65_wrapping_implicit {B : Nat} (hB : 2 ≤ B) (h : HashOrd) (s : String) (inputs : List (List Char))
    (hs : s.toList = render inputs none) (hw : WellFormed inputs none) :
    ∃ c, validateW (.wrapping B) h s = .ok (.ok c) ∧ c.operandIndices = inputs ∧
      c.outputIndices.Pairwise (· < ·) ∧
      ∀ x, x ∈ c.outputIndices ↔ inputs.flatten.count x % (2 * B) = 1 := by
  have hp := h.perm [2] (reduced B (charCounts inputs.flatten))
  obtain ⟨o, ho⟩ : ∃ o, o = sortChars (((h.iter [2] (reduced B (charCounts inputs.flatten))).filter
    fun e => e.2 = 1).map Prod.fst) := ⟨_, rfl⟩
  have hn : (((h.iter [2] (reduced B (charCounts inputs.flatten))).filter
      fun e => e.2 = 1).map Prod.fst).Nodup := by
    apply List.Nodup.sublist (List.Sublist.map _ List.filter_sublist)
    rw [(hp.map Prod.fst).nodup_iff, reduced_keys, charCounts_keys]; exact nodup_hset _
  have hsort : o.Pairwise (· < ·) := by rw [ho]; exact sortChars_strict hn
  have hmem : ∀ x, x ∈ o ↔ inputs.flatten.count x % (2 * B) = 1 := by
    intro c
    rw [ho]
    simp only [(sortChars_perm _).mem_iff, List.mem_map, List.mem_filter]
    constructor
    · rintro ⟨⟨c', n⟩, ⟨he, hn⟩, rfl⟩
      rw [hp.mem_iff, reduced, List.mem_map] at he
      obtain ⟨⟨d, m⟩, he, hd⟩ := he
      obtain ⟨_, rfl⟩ := mem_charCounts.1 he
      simp only [Prod.mk.injEq] at hd
      obtain ⟨rfl, rfl⟩ := hd
      simpa using hn
    · intro hc
      refine ⟨(c, 1), ⟨?_, by simp⟩, rfl⟩
      rw [hp.mem_iff, reduced, List.mem_map]
      refine ⟨(c, inputs.flatten.count c), mem_charCounts.2 ⟨?_, rfl⟩, by simp [hc]⟩
      by_contra h'
      rw [List.count_eq_zero.2 h'] at hc
      simp at hc
  obtain ⟨r, h1, h2, h3⟩ := fromIndicesW_wrapping (B := B) h inputs o
  obtain ⟨c, rfl⟩ := h2.2 fun c hc => by
    refine ⟨used_iff.2 ?_, ?_⟩
    · have := (hmem c).1 hc
      by_contra h'
      rw [List.count_eq_zero.2 h'] at this
      simp at this
    · have := List.nodup_iff_count_le_one.1 (hsort.imp ne_of_lt) c
      left
      rw [Nat.mod_eq_of_lt (by omega)]; exact this
  have hc := h3 c rfl
  refine ⟨c, ?_, by rw [hc], by rw [hc]; exact hsort, by rw [hc]; exact hmem⟩
  simp only [validateW, parse_iff.2 ⟨hs, hw⟩, Contraction.fromParseW, implicitOutputW, charCountsW_wrapping,
    bind_ok]
  rw [← h1, ho]; rfl

/-! ## Strings on which the builds differ -/

theorem wf_repeat (n : Nat) : WellFormed [['i']] (some (List.replicate n 'i')) := by
  refine ⟨by simp, by simp [Letter], ?_⟩
  intro out ho c hc
  simp only [Option.some.injEq] at ho
  subst ho
  rw [(List.mem_replicate.1 hc).2]
  simp [Letter]

theorem accepts_repeat {n B : Nat} (h : HashOrd) (hn : 2 ≤ n) (hB : PassesForOne B n) :
    ∃ s : String, (∃ c, validateW (.wrapping B) h s = .ok (.ok c) ∧ ¬ c.outputIndices.Nodup) ∧
      validate h s = .error "Requested output has duplicate index" := by
  have hs : (String.ofList (render [['i']] (some (List.replicate n 'i')))).toList =
      render [['i']] (some (List.replicate n 'i')) := by simp
  have hnd : ¬ (List.replicate n 'i').Nodup := by
    rw [List.nodup_replicate]; omega
  refine ⟨String.ofList (render [['i']] (some (List.replicate n 'i'))), ?_, ?_⟩
  · obtain ⟨r, h1, h2, h3⟩ := C65_wrapping B h _ _ _ hs (wf_repeat n)
    obtain ⟨c, rfl⟩ := h2.2 fun c hc => by
      rw [(List.mem_replicate.1 hc).2]
      exact ⟨⟨['i'], by simp⟩, by simpa using hB⟩
    exact ⟨c, h1, by rw [(h3 c rfl).2]; exact hnd⟩
  · rcases he : validate h _ with e | c
    · rcases C02_errors h _ _ _ e hs (wf_repeat n) he with ⟨rfl, _⟩ | ⟨_, c, hc, hu⟩
      · rfl
      · rw [(List.mem_replicate.1 hc).2] at hu
        exact absurd ⟨['i'], by simp⟩ hu
    · exact absurd ((C02_accepted_iff h _ _ _ hs (wf_repeat n)).1.1 ⟨c, he⟩).1 hnd

/-- C65: a release build accepts an output with a repeated letter (`i->ii…i` with `2^31` letters), which the
crate's own rule refuses. -/
theorem C65_duplicate_accepted (h : HashOrd) :
    ∃ s : String, (∃ c, validateW (.wrapping (2 ^ 31)) h s = .ok (.ok c) ∧ ¬ c.outputIndices.Nodup) ∧
      validate h s = .error "Requested output has duplicate index" := by
  apply accepts_repeat (n := 2 ^ 31) h (by omega)
  right; omega

theorem implicit_repeat {n B : Nat} (hB : 2 ≤ B) (h : HashOrd) (hn : 2 ≤ n) (hm : n % (2 * B) = 1) :
    ∃ s : String, (∃ c, validateW (.wrapping B) h s = .ok (.ok c) ∧ 'i' ∈ c.outputIndices) ∧
      ∃ c, validate h s = .ok c ∧ c.outputIndices = [] := by
  have hw : WellFormed [List.replicate n 'i'] none := by
    refine ⟨by simp, ?_, by simp⟩
    intro p hp
    simp only [List.mem_singleton] at hp
    subst hp
    refine ⟨by simp; omega, fun c hc => ?_⟩
    rw [(List.mem_replicate.1 hc).2]; simp [Letter]
  have hs : (String.ofList (render [List.replicate n 'i'] none)).toList =
      render [List.replicate n 'i'] none := by simp
  have hcount : ([List.replicate n 'i'].flatten).count 'i' = n := by simp
  refine ⟨String.ofList (render [List.replicate n 'i'] none), ?_, ?_⟩
  · obtain ⟨c, h1, _, _, h2⟩ := C65_wrapping_implicit hB h _ _ hs hw
    exact ⟨c, h1, (h2 'i').2 (by rw [hcount]; exact hm)⟩
  · obtain ⟨c, h1, _, _, h2⟩ := C03_implicit h _ _ hs hw
    refine ⟨c, h1, ?_⟩
    rw [List.eq_nil_iff_forall_not_mem]
    intro x hx
    have hx' := (h2 x).1 hx
    by_cases hxi : x = 'i'
    · subst hxi; rw [hcount] at hx'; omega
    · have : ([List.replicate n 'i'].flatten).count x = 0 := by
        simp [List.count_replicate, Ne.symm hxi]
      omega

/-- C65: a release build keeps a letter that occurs `2^32 + 1` times in an omitted output; by the rule for
omitted outputs it is summed. -/
theorem C65_implicit_kept (h : HashOrd) :
    ∃ s : String, (∃ c, validateW (.wrapping (2 ^ 31)) h s = .ok (.ok c) ∧ 'i' ∈ c.outputIndices) ∧
      ∃ c, validate h s = .ok c ∧ c.outputIndices = [] := by
  apply implicit_repeat (n := 2 ^ 32 + 1) (by omega) h (by omega) (by omega)

/-! ## Examples: counters of three bits, `B = 4` -/

example : IsCounter (2 ^ 31) (.checked (2 ^ 31)) ∧ IsCounter (2 ^ 31) (.wrapping (2 ^ 31)) := ⟨.inl rfl, .inr rfl⟩

example : "ij,jk->ik".length < 2 ^ 31 := by decide

example : validateW (.checked 4) .insertion "iii->i" = .ok (validate .insertion "iii->i") ∧
    validateW (.checked 4) .insertion "iiii->i" = panic .addOverflow ∧
    validateW (.checked 4) .insertion "i->iiii" = panic .addOverflow := by decide +kernel

example : validateW (.wrapping 4) .insertion "i->iiii" = .ok (.ok ⟨[['i']], ['i', 'i', 'i', 'i'], []⟩) ∧
    validateW (.wrapping 4) .insertion "i->iii" = .ok (.error errDup) ∧
    validateW (.wrapping 4) .insertion "iiiiiiiii" = .ok (.ok ⟨[List.replicate 9 'i'], ['i'], []⟩) := by
  decide +kernel

example : SingletonSummary.fromIndicesW (.checked 4) ['i', 'i', 'j'] ['i'] = .ok ⟨1, 1, 0⟩ ∧
    SingletonSummary.fromIndicesW (.wrapping 4) ['i', 'i', 'i', 'i', 'j'] ['i'] = .ok ⟨1, 0, 0⟩ := by
  decide +kernel

end Einsum
