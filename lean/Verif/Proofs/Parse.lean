import Verif.Proofs.ListAux
import Verif.Spec

/-! # The parser recognises exactly the grammar -/

namespace Einsum

open Spec

theorem isLabel_iff {c : Char} : isLabel c = true ↔ Letter c := by
  simp only [isLabel, Letter, Bool.and_eq_true, decide_eq_true_eq]
  rfl

theorem spanLabels_append {l r : List Char} (hl : ∀ c ∈ l, Letter c)
    (hr : ∀ c ∈ r.head?, ¬ Letter c) : spanLabels (l ++ r) = (l, r) := by
  induction l with
  | nil =>
    cases r with
    | nil => rfl
    | cons c r =>
      have : ¬ isLabel c = true := fun h => hr c (by simp) (isLabel_iff.1 h)
      simp [spanLabels, this]
  | cons c l ih =>
    have h1 : isLabel c = true := isLabel_iff.2 (hl c (by simp))
    simp [spanLabels, h1, ih fun d hd => hl d (by simp [hd])]

theorem spanLabels_spec {s l r : List Char} (h : spanLabels s = (l, r)) :
    s = l ++ r ∧ (∀ c ∈ l, Letter c) ∧ ∀ c ∈ r.head?, ¬ Letter c := by
  induction s generalizing l r with
  | nil => simp [spanLabels] at h; simp [h]
  | cons c s ih =>
    simp only [spanLabels] at h
    split at h
    · rename_i hc
      simp only [Prod.mk.injEq] at h
      obtain ⟨rfl, rfl⟩ := h
      obtain ⟨h1, h2, h3⟩ := ih (l := (spanLabels s).1) (r := (spanLabels s).2) rfl
      refine ⟨by simpa using h1, ?_, h3⟩
      intro d hd
      rcases List.mem_cons.1 hd with rfl | hd
      · exact isLabel_iff.1 hc
      · exact h2 d hd
    · rename_i hc
      simp only [Prod.mk.injEq] at h
      obtain ⟨rfl, rfl⟩ := h
      refine ⟨rfl, by simp, ?_⟩
      intro d hd
      simp at hd; subst hd
      exact fun h => hc (isLabel_iff.2 h)

theorem not_letter_comma : ¬ Letter ',' := by unfold Letter; decide
theorem not_letter_dash : ¬ Letter '-' := by unfold Letter; decide

/-- The operands after the first, each preceded by a comma. -/
def commaJoin : List (List Char) → List Char
  | [] => []
  | p :: ps => ',' :: (p ++ commaJoin ps)

theorem intercalate_cons (p : List Char) (ps : List (List Char)) :
    [','].intercalate (p :: ps) = p ++ commaJoin ps := by
  induction ps generalizing p with
  | nil => simp [List.intercalate, commaJoin]
  | cons q ps ih =>
    have := ih q
    simp only [List.intercalate] at this ⊢
    rw [List.intersperse_cons_cons, List.flatten_cons, List.flatten_cons, this]
    simp [commaJoin]

theorem moreOperands_comma {cs op rest : List Char} (h : spanLabels cs = (op, rest)) (hop : op ≠ []) :
    moreOperands (',' :: cs) = (op :: (moreOperands rest).1, (moreOperands rest).2) := by
  rw [moreOperands]
  simp only [if_true]
  split
  · rename_i h'; rw [h] at h'; simp at h'; exact absurd h'.1 hop
  · rename_i op' rest' h' 
    rw [h] at h'; simp at h'; obtain ⟨rfl, rfl⟩ := h'; rfl

theorem moreOperands_append {ps : List (List Char)} {r : List Char}
    (hps : ∀ p ∈ ps, p ≠ [] ∧ ∀ c ∈ p, Letter c) (hr : ∀ c ∈ r.head?, ¬ Letter c ∧ c ≠ ',') :
    moreOperands (commaJoin ps ++ r) = (ps, r) := by
  induction ps with
  | nil =>
    cases r with
    | nil => simp [commaJoin, moreOperands]
    | cons c r =>
      have := (hr c (by simp)).2
      simp [commaJoin, moreOperands, this]
  | cons p ps ih =>
    have hp := hps p (by simp)
    have ih' := ih fun q hq => hps q (by simp [hq])
    have hspan : spanLabels (p ++ (commaJoin ps ++ r)) = (p, commaJoin ps ++ r) := by
      apply spanLabels_append hp.2
      cases ps with
      | nil => intro c hc; simp [commaJoin] at hc; exact (hr c hc).1
      | cons q ps => intro c hc; simp [commaJoin] at hc; subst hc; exact not_letter_comma
    rw [commaJoin, List.cons_append, List.append_assoc, moreOperands_comma hspan hp.1, ih']

theorem moreOperands_spec {s : List Char} {ps : List (List Char)} {r : List Char}
    (h : moreOperands s = (ps, r)) :
    s = commaJoin ps ++ r ∧ ∀ p ∈ ps, p ≠ [] ∧ ∀ c ∈ p, Letter c := by
  induction hn : s.length using Nat.strong_induction_on generalizing s ps r with
  | _ n ih =>
    cases s with
    | nil => simp [moreOperands] at h; simp [h, commaJoin]
    | cons c cs =>
      by_cases hc : c = ','
      · subst hc
        rcases hsp : spanLabels cs with ⟨op, rest⟩
        by_cases hop : op = []
        · subst hop
          rw [moreOperands] at h
          simp only [if_true] at h
          split at h
          · simp at h; obtain ⟨rfl, rfl⟩ := h; simp [commaJoin]
          · rename_i op' rest' h1 h2; rw [hsp] at h2; simp at h2; exact absurd h2.1 h1
        · rw [moreOperands_comma hsp hop] at h
          simp only [Prod.mk.injEq] at h
          obtain ⟨rfl, rfl⟩ := h
          obtain ⟨h1, h2, -⟩ := spanLabels_spec hsp
          have hlen : rest.length < n := by
            have := congrArg List.length h1
            simp at this hn; omega
          obtain ⟨h3, h4⟩ := ih rest.length hlen (s := rest) rfl rfl
          refine ⟨?_, ?_⟩
          · simp only [commaJoin, List.cons_append, List.append_assoc]
            rw [h1]; rw [← h3]
          · intro p hp
            rcases List.mem_cons.1 hp with rfl | hp
            · exact ⟨hop, h2⟩
            · exact h4 p hp
      · rw [moreOperands] at h
        simp [hc] at h
        obtain ⟨rfl, rfl⟩ := h; simp [commaJoin]

/-- The text after the operands. -/
def arrowPart : Option (List Char) → List Char
  | none => []
  | some o => '-' :: '>' :: o

theorem outputPart_spec {s : List Char} {o : Option (List Char)} :
    outputPart s = some o ↔ s = arrowPart o ∧ ∀ o', o = some o' → ∀ c ∈ o', Letter c := by
  constructor
  · intro h
    unfold outputPart at h
    split at h
    · simp at h; subst h; simp [arrowPart]
    · rename_i cs
      split at h
      · rename_i out hsp
        simp at h; subst h
        obtain ⟨h1, h2, -⟩ := spanLabels_spec hsp
        simp at h1; subst h1
        refine ⟨rfl, ?_⟩
        intro o' ho'; simp at ho'; subst ho'; exact h2
      · simp at h
    · simp at h
  · rintro ⟨rfl, h⟩
    cases o with
    | none => rfl
    | some o =>
      have := spanLabels_append (l := o) (r := []) (h o rfl) (by simp)
      simp only [List.append_nil] at this
      simp [arrowPart, outputPart, this]

theorem render_cons (p : List Char) (ps : List (List Char)) (o : Option (List Char)) :
    render (p :: ps) o = p ++ (commaJoin ps ++ arrowPart o) := by
  unfold render
  rw [intercalate_cons, List.append_assoc]
  cases o <;> rfl

/-- The parser returns exactly the decomposition of the grammar. -/
theorem parse_iff {s : List Char} {ps : List (List Char)} {o : Option (List Char)} :
    parseEinsumString s = some ⟨ps, o⟩ ↔ s = render ps o ∧ WellFormed ps o := by
  constructor
  · intro h
    unfold parseEinsumString at h
    split at h
    · simp at h
    · rename_i first rest hne hsp
      obtain ⟨h1, h2, -⟩ := spanLabels_spec hsp
      rcases hm : moreOperands rest with ⟨more, rest'⟩
      rw [hm] at h
      simp only at h
      obtain ⟨h3, h4⟩ := moreOperands_spec hm
      split at h
      · simp at h
      · rename_i out hout
        simp at h
        obtain ⟨rfl, rfl⟩ := h
        obtain ⟨h5, h6⟩ := outputPart_spec.1 hout
        refine ⟨?_, by simp, ?_, h6⟩
        · rw [render_cons, h1, h3, h5]
        · intro p hp
          rcases List.mem_cons.1 hp with rfl | hp
          · exact ⟨fun h => hne h, h2⟩
          · exact h4 p hp
  · rintro ⟨rfl, hne, hps, ho⟩
    cases ps with
    | nil => simp at hne
    | cons p ps =>
      have hp := hps p (by simp)
      have hhead : ∀ c ∈ (arrowPart o).head?, ¬ Letter c ∧ c ≠ ',' := by
        intro c hc
        cases o with
        | none => simp [arrowPart] at hc
        | some o => simp [arrowPart] at hc; subst hc; exact ⟨not_letter_dash, by decide⟩
      have h1 : spanLabels (render (p :: ps) o) = (p, commaJoin ps ++ arrowPart o) := by
        rw [render_cons]
        apply spanLabels_append hp.2
        cases ps with
        | nil => intro c hc; simp [commaJoin] at hc; exact (hhead c hc).1
        | cons q ps => intro c hc; simp [commaJoin] at hc; subst hc; exact not_letter_comma
      have h2 := moreOperands_append (ps := ps) (r := arrowPart o)
        (fun q hq => hps q (by simp [hq])) hhead
      have h3 := outputPart_spec.2 ⟨rfl, ho⟩
      unfold parseEinsumString
      rw [h1]
      split
      · rename_i h'; simp at h'; exact absurd h'.1 hp.1
      · rename_i first rest _ h'
        simp only [Prod.mk.injEq] at h'
        obtain ⟨rfl, rfl⟩ := h'
        simp [h2, h3]

/-- The grammar is unambiguous. -/
theorem render_inj {ps ps' : List (List Char)} {o o' : Option (List Char)}
    (h : render ps o = render ps' o') (hw : WellFormed ps o) (hw' : WellFormed ps' o') :
    ps = ps' ∧ o = o' := by
  have h1 := parse_iff.2 ⟨rfl, hw⟩
  have h2 := parse_iff.2 ⟨h, hw'⟩
  rw [h1] at h2
  simpa using h2

theorem parse_none_iff {s : List Char} :
    parseEinsumString s = none ↔ ¬ ∃ ps o, s = render ps o ∧ WellFormed ps o := by
  constructor
  · rintro h ⟨ps, o, h'⟩
    rw [parse_iff.2 h'] at h; simp at h
  · intro h
    cases hp : parseEinsumString s with
    | none => rfl
    | some p => exact absurd ⟨p.operandIndices, p.outputIndices, parse_iff.1 hp⟩ h

/-! ## Regular expression -/

theorem lang_az {s : List Char} : Re.az.Lang s ↔ ∃ c, s = [c] ∧ Letter c := by
  constructor
  · intro h
    cases h with
    | @char _ c h => exact ⟨c, rfl, by simpa [Letter] using h⟩
  · rintro ⟨c, rfl, h⟩
    exact .char (by simpa [Letter] using h)

theorem lang_lit {x : Char} {s : List Char} : (Re.lit x).Lang s ↔ s = [x] := by
  constructor
  · intro h
    cases h with
    | @char _ c h => simp at h; rw [h]
  · rintro rfl; exact .char (by simp)

theorem lang_cat {a b : Re} {s : List Char} :
    (Re.cat a b).Lang s ↔ ∃ u v, s = u ++ v ∧ a.Lang u ∧ b.Lang v := by
  constructor
  · intro h
    cases h with
    | cat h1 h2 => exact ⟨_, _, rfl, h1, h2⟩
  · rintro ⟨u, v, rfl, h1, h2⟩; exact .cat h1 h2

theorem lang_alt {a b : Re} {s : List Char} : (Re.alt a b).Lang s ↔ a.Lang s ∨ b.Lang s := by
  constructor
  · intro h
    cases h with
    | altL h => exact .inl h
    | altR h => exact .inr h
  · rintro (h | h)
    · exact .altL h
    · exact .altR h

theorem lang_eps {s : List Char} : Re.eps.Lang s ↔ s = [] := by
  constructor
  · intro h; cases h; rfl
  · rintro rfl; exact .eps

theorem lang_star {a : Re} {s : List Char} :
    (Re.star a).Lang s ↔ ∃ ps : List (List Char), s = ps.flatten ∧ ∀ p ∈ ps, a.Lang p := by
  constructor
  · intro h
    generalize hr : Re.star a = r at h
    induction h with
    | eps => simp at hr
    | char => simp at hr
    | cat => simp at hr
    | altL => simp at hr
    | altR => simp at hr
    | starNil => exact ⟨[], by simp⟩
    | @starCons b s t h1 _ _ ih =>
      obtain ⟨ps, rfl, h⟩ := ih hr
      simp at hr; subst hr
      refine ⟨s :: ps, by simp, ?_⟩
      intro p hp
      rcases List.mem_cons.1 hp with rfl | hp
      · exact h1
      · exact h p hp
  · rintro ⟨ps, rfl, h⟩
    induction ps with
    | nil => exact .starNil
    | cons p ps ih =>
      exact .starCons (h p (by simp)) (ih fun q hq => h q (by simp [hq]))

theorem lang_star_az {s : List Char} : (Re.star Re.az).Lang s ↔ ∀ c ∈ s, Letter c := by
  rw [lang_star]
  constructor
  · rintro ⟨ps, rfl, h⟩ c hc
    obtain ⟨p, hp, hcp⟩ := List.mem_flatten.1 hc
    obtain ⟨d, rfl, hd⟩ := lang_az.1 (h p hp)
    simp at hcp; subst hcp; exact hd
  · intro h
    refine ⟨s.map fun c => [c], ?_, ?_⟩
    · induction s with
      | nil => rfl
      | cons c s ih => simp; exact ih fun d hd => h d (by simp [hd])
    · intro p hp
      obtain ⟨c, hc, rfl⟩ := List.mem_map.1 hp
      exact lang_az.2 ⟨c, rfl, h c hc⟩

theorem lang_plus_az {s : List Char} : (Re.plus Re.az).Lang s ↔ s ≠ [] ∧ ∀ c ∈ s, Letter c := by
  rw [Re.plus, lang_cat]
  constructor
  · rintro ⟨u, v, rfl, hu, hv⟩
    obtain ⟨c, rfl, hc⟩ := lang_az.1 hu
    rw [lang_star_az] at hv
    refine ⟨by simp, ?_⟩
    intro d hd
    simp at hd
    rcases hd with rfl | hd
    · exact hc
    · exact hv d hd
  · rintro ⟨hne, h⟩
    cases s with
    | nil => simp at hne
    | cons c s =>
      exact ⟨[c], s, rfl, lang_az.2 ⟨c, rfl, h c (by simp)⟩,
        lang_star_az.2 fun d hd => h d (by simp [hd])⟩

theorem lang_more {s : List Char} :
    (Re.star (.cat (.lit ',') (.plus .az))).Lang s ↔
      ∃ ps, s = commaJoin ps ∧ ∀ p ∈ ps, p ≠ [] ∧ ∀ c ∈ p, Letter c := by
  rw [lang_star]
  constructor
  · rintro ⟨qs, rfl, h⟩
    induction qs with
    | nil => exact ⟨[], by simp [commaJoin]⟩
    | cons q qs ih =>
      obtain ⟨ps, h1, h2⟩ := ih fun p hp => h p (by simp [hp])
      obtain ⟨u, v, rfl, hu, hv⟩ := lang_cat.1 (h q (by simp))
      rw [lang_lit] at hu; subst hu
      rw [lang_plus_az] at hv
      refine ⟨v :: ps, ?_, ?_⟩
      · simp [commaJoin, h1]
      · intro p hp
        rcases List.mem_cons.1 hp with rfl | hp
        · exact hv
        · exact h2 p hp
  · rintro ⟨ps, rfl, h⟩
    refine ⟨ps.map fun p => ',' :: p, ?_, ?_⟩
    · clear h
      induction ps with
      | nil => rfl
      | cons p ps ih => simp [commaJoin, ih]
    · intro q hq
      obtain ⟨p, hp, rfl⟩ := List.mem_map.1 hq
      exact lang_cat.2 ⟨[','], p, rfl, lang_lit.2 rfl, lang_plus_az.2 (h p hp)⟩

theorem lang_arrow {s : List Char} :
    (Re.opt (.cat (.lit '-') (.cat (.lit '>') (.star .az)))).Lang s ↔
      ∃ o, s = arrowPart o ∧ ∀ o', o = some o' → ∀ c ∈ o', Letter c := by
  rw [Re.opt, lang_alt, lang_eps, lang_cat]
  constructor
  · rintro (⟨u, v, rfl, hu, hv⟩ | rfl)
    · obtain ⟨u', v', rfl, hu', hv'⟩ := lang_cat.1 hv
      rw [lang_lit] at hu hu'
      subst hu; subst hu'
      refine ⟨some v', rfl, ?_⟩
      intro o' ho'; simp at ho'; subst ho'
      exact lang_star_az.1 hv'
    · exact ⟨none, rfl, by simp⟩
  · rintro ⟨o, rfl, h⟩
    cases o with
    | none => exact .inr rfl
    | some o =>
      exact .inl ⟨['-'], '>' :: o, rfl, lang_lit.2 rfl,
        lang_cat.2 ⟨['>'], o, rfl, lang_lit.2 rfl, lang_star_az.2 (h o rfl)⟩⟩

/-- The regular expression in the source has exactly the language of the grammar. -/
theorem lang_einsum {s : List Char} :
    Re.einsum.Lang s ↔ ∃ ps o, s = render ps o ∧ WellFormed ps o := by
  rw [Re.einsum, lang_cat]
  constructor
  · rintro ⟨u, v, rfl, hu, hv⟩
    obtain ⟨v1, v2, rfl, h1, h2⟩ := lang_cat.1 hv
    obtain ⟨ps, rfl, hps⟩ := lang_more.1 h1
    obtain ⟨o, rfl, ho⟩ := lang_arrow.1 h2
    rw [lang_plus_az] at hu
    refine ⟨u :: ps, o, by rw [render_cons], by simp, ?_, ho⟩
    intro p hp
    rcases List.mem_cons.1 hp with rfl | hp
    · exact hu
    · exact hps p hp
  · rintro ⟨ps, o, rfl, hne, hps, ho⟩
    cases ps with
    | nil => simp at hne
    | cons p ps =>
      rw [render_cons]
      exact ⟨p, _, rfl, lang_plus_az.2 (hps p (by simp)), lang_cat.2 ⟨_, _, rfl,
        lang_more.2 ⟨ps, rfl, fun q hq => hps q (by simp [hq])⟩, lang_arrow.2 ⟨o, rfl, ho⟩⟩⟩

end Einsum
