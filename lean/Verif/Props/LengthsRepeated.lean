import Verif.Props.Lengths
import Verif.Props.MisfitEmpty
import Verif.Props.Labels
import Verif.Props.Inside

/-!
# C120: the lengths a path accepts for operands with repeated letters

C119 is about operands with distinct letters.  An operand with repeated letters is reduced to its diagonals before it is
contracted; which elements these are depends on the strides of the array, and C79 says when they exist.
-/

namespace Einsum

open Spec

/-- An array for an operand with the letters `L`, of which those in `kept` are not summed first, is taken as one with the lengths
`d`.  Diagonals have the compiled lengths, and have to fit into the array. -/
def Spec.TakenAs {A : Type} (dims : Char → Nat) (L kept : List Char) (v : View A) (d : Char → Nat) : Prop :=
  (L.Nodup ∧ v.shape = L.map d) ∨
    (¬ L.Nodup ∧ d = dims ∧ v.shape.length = L.length ∧
      ∃ st, Addressed v L kept st ∧ Accommodated dims L st v.shape.prod)

/-- An array for an operand with repeated letters into which the diagonals do not fit. -/
def Spec.Refused {A : Type} (dims : Char → Nat) (L kept : List Char) (v : View A) : Prop :=
  ¬ L.Nodup ∧ v.shape.length = L.length ∧ ¬ ∃ st, Addressed v L kept st ∧ Accommodated dims L st v.shape.prod

section
variable {A : Type} {dims : Char → Nat} {L R o : List Char}

theorem Addressed.congr {v : View A} {K K' : List Char} {st : List Nat} (h : Addressed v L K st)
    (hK : ∀ c ∈ L, (c ∈ K ↔ c ∈ K')) : Addressed v L K' st := by
  rcases h with ⟨⟨c, hc, hn⟩, h⟩ | ⟨h, e⟩
  · exact .inl ⟨⟨c, hc, fun g => hn ((hK c hc).2 g)⟩, h⟩
  · exact .inr ⟨h.imp (fun g c hc => (hK c hc).1 (g c hc)) id, e⟩

theorem TakenAs.congr {v : View A} {K K' : List Char} {d : Char → Nat} (h : TakenAs dims L K v d)
    (hK : ∀ c ∈ L, (c ∈ K ↔ c ∈ K')) : TakenAs dims L K' v d := by
  rcases h with h | ⟨h1, h2, h3, st, h4, h5⟩
  · exact .inl h
  · exact .inr ⟨h1, h2, h3, st, Addressed.congr h4 hK, h5⟩

theorem Refused.congr {v : View A} {K K' : List Char} (h : Refused dims L K v)
    (hK : ∀ c ∈ L, (c ∈ K ↔ c ∈ K')) : Refused dims L K' v := by
  obtain ⟨h1, h3, h4⟩ := h
  exact ⟨h1, h3, fun ⟨st, h5, h6⟩ => h4 ⟨st, Addressed.congr h5 fun c hc => (hK c hc).symm, h6⟩⟩

/-- The call that reduces one operand. -/
theorem operand_reduced [CommSemiring A] {N : List Char} (ho : OutputOk [L] N) (h : HashOrd) (al : Alloc A) {v : View A}
    (wv : v.Wf) :
    (∀ d, TakenAs dims L N v d →
      ∃ w, (callSC [L] N dims).contractOperands h al [v] = .ok w ∧ w.Wf ∧ w.shape = N.map d) ∧
    (Refused dims L N v → ∃ k, (callSC [L] N dims).contractOperands h al [v] = panic k) := by
  have hv := callSC_valid (dims := dims) ho
  obtain ⟨c, c1, -⟩ := singleton_ok hv rfl
  have hrun : (callSC [L] N dims).contractOperands h al [v] = c.op.run al v := by
    unfold SizedContraction.contractOperands
    rw [new_one _ ho, c1]
    rfl
  rw [hrun]
  constructor
  · rintro d (⟨h1, h2⟩ | ⟨h1, rfl, h3, st, h4, h5⟩)
    · obtain ⟨r, r1, r2⟩ := C107_distinct h al (callSC [L] N dims) ⟨_, .singletonContraction c⟩
        (by simp only [EinsumPath.fromPath, c1]; rfl) L rfl h1 ho.1 d v _ wv.elements h2
      exact ⟨r, r1, r2.1, r2.2.1⟩
    · obtain ⟨w, w1, w2, w3, -⟩ := (misfit_total hv rfl c1 h1 wv.elements h3 al).1 st h4 h5
      exact ⟨w, w1, w2, w3⟩
  · rintro ⟨h1, h3, h4⟩
    exact (misfit_total hv rfl c1 h1 wv.elements h3 al).2 h4

/-- Only the letters that are kept matter for the lengths. -/
theorem lengthsAfter_kept {S T O S' T' : Finset Char} (hS : ∀ x, x ∈ S' ↔ x ∈ S ∧ (x ∈ T ∨ x ∈ O))
    (hT : ∀ x, x ∈ T' ↔ x ∈ T ∧ (x ∈ S ∨ x ∈ O)) (d e : Char → Nat) :
    lengthsAfter dims S' T' O d e = lengthsAfter dims S T O d e := by
  have f1 : (S'.filter fun c => c ∈ T' ∨ c ∈ O) = S.filter fun c => c ∈ T ∨ c ∈ O := by
    ext x; simp only [Finset.mem_filter, hS, hT]; tauto
  have f2 : (T'.filter fun c => c ∈ S' ∨ c ∈ O) = T.filter fun c => c ∈ S ∨ c ∈ O := by
    ext x; simp only [Finset.mem_filter, hS, hT]; tauto
  have g1 : ((∀ c ∈ S', c ∈ T' ∨ c ∈ O → c ∈ T' ∧ c ∈ O) ∧ ∀ c ∈ T', c ∈ S' ∨ c ∈ O → c ∈ S' ∧ c ∈ O) ↔
      ((∀ c ∈ S, c ∈ T ∨ c ∈ O → c ∈ T ∧ c ∈ O) ∧ ∀ c ∈ T, c ∈ S ∨ c ∈ O → c ∈ S ∧ c ∈ O) := by
    simp only [← forall_and]
    refine forall_congr' fun x => ?_
    rw [hS, hT]
    tauto
  have g2 : (∀ c ∈ S', c ∉ T' ∧ c ∉ O) ↔ ∀ c ∈ S, c ∉ T ∧ c ∉ O :=
    forall_congr' fun x => by rw [hS, hT]; tauto
  have g3 : (∀ c ∈ T', c ∉ S' ∧ c ∉ O) ↔ ∀ c ∈ T, c ∉ S ∧ c ∉ O :=
    forall_congr' fun x => by rw [hS, hT]; tauto
  unfold lengthsAfter
  simp only [f1, f2, g1, g2, g3]

/-- One call. -/
theorem call_taken [CommSemiring A] (ho : OutputOk [L, R] o) (h : HashOrd) (al : Alloc A) {l r : View A} (wl : l.Wf) (wr : r.Wf) :
    (∀ d e, TakenAs dims L (R ++ o) l d → TakenAs dims R (L ++ o) r e →
      match lengthsAfter dims L.toFinset R.toFinset o.toFinset d e with
      | some f => ∃ w, (callSC [L, R] o dims).contractOperands h al [l, r] = .ok w ∧ w.Wf ∧ w.shape = o.map f
      | none => ∃ k, (callSC [L, R] o dims).contractOperands h al [l, r] = panic k) ∧
    (Refused dims L (R ++ o) l → ∃ k, (callSC [L, R] o dims).contractOperands h al [l, r] = panic k) ∧
    (∀ d, TakenAs dims L (R ++ o) l d → Refused dims R (L ++ o) r →
      ∃ k, (callSC [L, R] o dims).contractOperands h al [l, r] = panic k) := by
  have hv := callSC_valid (dims := dims) ho
  obtain ⟨c, q1, -⟩ := pair_parts hv rfl ((h.sub 1).sub 0)
  obtain ⟨L', R', c', a1, a2, a3, b1, b2, b3, ho', hc', -, -, -, -, run⟩ := C84_pair ho _ c q1
  have hrun : (callSC [L, R] o dims).contractOperands h al [l, r] = c.run (al.sub 0) l r := by
    unfold SizedContraction.contractOperands
    rw [new_two _ ho, q1]
    exact contract_two
  have hrun' : ∀ l r : View A, (callSC [L', R'] o dims).contractOperands h al [l, r] = c'.run (al.sub 0) l r := by
    intro l r
    unfold SizedContraction.contractOperands
    rw [new_two _ ho', hc']
    exact contract_two
  have oL : OutputOk [L] L' := ⟨a1, fun x hx => used_iff.2 (by simpa using ((a2 x).1 hx).1)⟩
  have oR : OutputOk [R] R' := ⟨b1, fun x hx => used_iff.2 (by simpa using ((b2 x).1 hx).1)⟩
  have kL : ∀ x ∈ L, (x ∈ R ++ o ↔ x ∈ L') := fun x hx => by simp [a2, hx]
  have kR : ∀ x ∈ R, (x ∈ L ++ o ↔ x ∈ R') := fun x hx => by simp [b2, hx]
  obtain ⟨l1, l2⟩ := operand_reduced (dims := dims) oL h ((al.sub 0).sub 0) wl
  obtain ⟨r1, r2⟩ := operand_reduced (dims := dims) oR h ((al.sub 0).sub 1) wr
  have left : ∀ d, TakenAs dims L (R ++ o) l d → ∃ l', (if NeedsSimplification L R o then
      (callSC [L] L' dims).contractOperands h ((al.sub 0).sub 0) [l] else .ok l) = .ok l' ∧ l'.Wf ∧ l'.shape = L'.map d := by
    intro d hd
    split_ifs with hN
    · exact l1 d (TakenAs.congr hd kL)
    · refine ⟨l, rfl, wl, ?_⟩
      rcases hd with hd | ⟨g, -⟩
      · rw [a3 hN]; exact hd.2
      · exact absurd (.inl g) hN
  have right : ∀ e, TakenAs dims R (L ++ o) r e → ∃ r', (if NeedsSimplification R L o then
      (callSC [R] R' dims).contractOperands h ((al.sub 0).sub 1) [r] else .ok r) = .ok r' ∧ r'.Wf ∧ r'.shape = R'.map e := by
    intro d hd
    split_ifs with hN
    · exact r1 d (TakenAs.congr hd kR)
    · refine ⟨r, rfl, wr, ?_⟩
      rcases hd with hd | ⟨g, -⟩
      · rw [b3 hN]; exact hd.2
      · exact absurd (.inl g) hN
  rw [hrun, run A h]
  refine ⟨fun d e hd he => ?_, fun hr => ?_, fun d hd hr => ?_⟩
  · obtain ⟨l', l3, l4, l5⟩ := left d hd
    obtain ⟨r', r3, r4, r5⟩ := right e he
    rw [l3, bind_ok, r3, bind_ok, ← hrun']
    have := call_lengths (dims := dims) ho' a1 b1 h al l4 r4 l5 r5
    rwa [lengthsAfter_kept (S := L.toFinset) (T := R.toFinset) (fun x => by simp [a2]) (fun x => by simp [b2])] at this
  · obtain ⟨k, hk⟩ := l2 (Refused.congr hr kL)
    rw [if_pos (.inl hr.1), hk]
    exact ⟨k, rfl⟩
  · obtain ⟨l', l3, -, -⟩ := left d hd
    obtain ⟨k, hk⟩ := r2 (Refused.congr hr kR)
    rw [l3, bind_ok, if_pos (.inl hr.1), hk]
    exact ⟨k, rfl⟩

/-- The letters of an operand that the path does not sum first: those in the output or another operand. -/
def Spec.keptOf (inputs : List (List Char)) (out : List Char) (i : Nat) : List Char := out ++ (inputs.eraseIdx i).flatten

theorem mem_keptOf {inputs : List (List Char)} {out : List Char} {i : Nat} {y : Char} :
    y ∈ keptOf inputs out i ↔ y ∈ out ∨ ∃ j, j ≠ i ∧ ∃ S, inputs[j]? = some S ∧ y ∈ S := by
  simp only [keptOf, List.mem_append, List.mem_flatten, List.mem_eraseIdx_iff_getElem?]
  refine or_congr_right ⟨?_, ?_⟩
  · rintro ⟨S, ⟨j, h1, h2⟩, h3⟩
    exact ⟨j, h1, S, h2, h3⟩
  · rintro ⟨j, h1, S, h2, h3⟩
    exact ⟨S, ⟨j, h1, h2⟩, h3⟩

/-- For the letters of the operands still to come, the intermediate result stands for the operands that have been taken in. -/
def Standing (inputs : List (List Char)) (out L : List Char) (calls : List TwoCall) : Prop :=
  ∀ c ∈ calls, ∀ R, inputs[c.operand]? = some R → ∀ y ∈ R, (y ∈ keptOf inputs out c.operand ↔
    y ∈ L ∨ y ∈ out ∨ ∃ e ∈ calls, e.operand ≠ c.operand ∧ ∃ S, inputs[e.operand]? = some S ∧ y ∈ S)

variable {inputs : List (List Char)} {out : List Char} {c : TwoCall} {cs : List TwoCall}

theorem Standing.head (h : Standing inputs out L (c :: cs)) (hn : ((c :: cs).map TwoCall.operand).Nodup)
    (hR : inputs[c.operand]? = some R)
    (hO : ∀ x, x ∈ o ↔ (x ∈ L ∨ x ∈ R) ∧ (x ∈ out ∨ ∃ d ∈ cs, ∃ S, inputs[d.operand]? = some S ∧ x ∈ S)) :
    ∀ y ∈ R, (y ∈ keptOf inputs out c.operand ↔ y ∈ L ++ o) := by
  intro y hy
  rw [h c (by simp) R hR y hy, List.mem_append, hO]
  have : (∃ e ∈ c :: cs, e.operand ≠ c.operand ∧ ∃ S, inputs[e.operand]? = some S ∧ y ∈ S) ↔
      ∃ d ∈ cs, ∃ S, inputs[d.operand]? = some S ∧ y ∈ S := by
    constructor
    · rintro ⟨e, he, hne, g⟩
      rcases List.mem_cons.1 he with rfl | he
      · exact absurd rfl hne
      · exact ⟨e, he, g⟩
    · rintro ⟨e, he, g⟩
      refine ⟨e, List.mem_cons_of_mem _ he, fun g' => ?_, g⟩
      rw [List.map_cons, List.nodup_cons] at hn
      exact hn.1 (g' ▸ List.mem_map_of_mem he)
  rw [this]
  simp [hy]

theorem Standing.tail (h : Standing inputs out L (c :: cs)) (hn : ((c :: cs).map TwoCall.operand).Nodup)
    (hR : inputs[c.operand]? = some R)
    (hO : ∀ x, x ∈ o ↔ (x ∈ L ∨ x ∈ R) ∧ (x ∈ out ∨ ∃ d ∈ cs, ∃ S, inputs[d.operand]? = some S ∧ x ∈ S)) :
    Standing inputs out o cs := by
  intro d hd S hS y hy
  rw [h d (List.mem_cons_of_mem _ hd) S hS y hy, hO]
  have hne : c.operand ≠ d.operand := fun g => by
    rw [List.map_cons, List.nodup_cons] at hn
    exact hn.1 (g ▸ List.mem_map_of_mem hd)
  have h1 : y ∈ out ∨ ∃ d ∈ cs, ∃ S, inputs[d.operand]? = some S ∧ y ∈ S := .inr ⟨d, hd, S, hS, hy⟩
  have h2 : (∃ e ∈ c :: cs, e.operand ≠ d.operand ∧ ∃ S, inputs[e.operand]? = some S ∧ y ∈ S) ↔
      y ∈ R ∨ ∃ e ∈ cs, e.operand ≠ d.operand ∧ ∃ S, inputs[e.operand]? = some S ∧ y ∈ S := by
    simp [hne, hR]
  rw [h2, and_iff_left h1]
  exact ⟨fun g => g.elim (fun a => .inl (.inl a)) fun g => g.elim (fun a => .inr (.inl a)) fun g =>
    g.elim (fun a => .inl (.inr a)) fun a => .inr (.inr a), fun g => g.elim (fun g => g.elim .inl fun a => .inr (.inr (.inl a)))
    fun g => g.elim (fun a => .inr (.inl a)) fun a => .inr (.inr (.inr a))⟩

/-- All calls, with arrays that are taken. -/
theorem fold_taken [CommSemiring A] {operands : List (View A)} (hw : ∀ v ∈ operands, v.Wf) (hout : out.Nodup)
    (calls : List TwoCall) :
    ∀ (L K : List Char) (al : Alloc A) (x : View A) (d : Char → Nat) (rest : List (List Char × (Char → Nat))), x.Wf →
      TakenAs dims L K x d →
      (∀ y ∈ L, (y ∈ K ↔ y ∈ out ∨ ∃ e ∈ calls, ∃ S, inputs[e.operand]? = some S ∧ y ∈ S)) →
      Standing inputs out L calls → (calls.map TwoCall.operand).Nodup → Linked dims inputs L calls out →
      List.Forall₂ (fun (c : TwoCall) q => inputs[c.operand]? = some q.1 ∧
        ∃ v, operands[c.operand]? = some v ∧ TakenAs dims q.1 (keptOf inputs out c.operand) v q.2) calls rest →
      ReturnsLengths out (lengthsAlong dims out L.toFinset d rest) (foldCalls operands calls al x) := by
  induction calls with
  | nil =>
    intro L K al x d rest hx ht hK hst hn hl hf
    cases hf
    cases hl
    rcases ht with ht | ht
    · exact ⟨x, rfl, ht.2⟩
    · exact absurd hout ht.1
  | cons c cs ih =>
    intro L K al x d rest hx ht hK hst hn hl hf
    obtain ⟨R, o, i1, i2, i3, i4, i5⟩ := hl
    cases hf with
    | @cons _ q _ rest' hq hf =>
    obtain ⟨R', e⟩ := q
    obtain ⟨j1, v, j2, j3⟩ := hq
    obtain rfl : R = R' := Option.some.inj (i1.symm.trans j1)
    have hO : o.toFinset = (L.toFinset ∪ R.toFinset).filter fun c => c ∈ out ∨ ∃ q ∈ rest', c ∈ q.1 := by
      ext y
      simp only [List.mem_toFinset, Finset.mem_filter, Finset.mem_union, i4]
      refine and_congr_right fun _ => or_congr_right ?_
      clear * - hf
      induction hf with
      | nil => simp
      | cons h1 _ ih => simp [h1.1, ih]
    have kL : ∀ y ∈ L, (y ∈ K ↔ y ∈ R ++ o) := fun y hy => by
      rw [hK y hy, List.mem_append, i4]
      simp only [List.mem_cons, exists_eq_or_imp, i1, Option.some.injEq, exists_eq_left', hy, true_or, true_and]
      tauto
    have step := (call_taken (dims := dims) i2 c.order al hx (hw v (List.mem_of_getElem? j2))).1 d e
      (TakenAs.congr ht kL) (TakenAs.congr j3 (hst.head hn i1 i4))
    rw [hO] at step
    simp only [lengthsAlong, foldCalls, index_eq_ok.2 j2, bind_ok, i3]
    cases hla : lengthsAfter dims L.toFinset R.toFinset
        ((L.toFinset ∪ R.toFinset).filter fun c => c ∈ out ∨ ∃ q ∈ rest', c ∈ q.1) d e with
    | none =>
      rw [hla] at step
      obtain ⟨k, hk⟩ := step
      rw [hk]
      exact ⟨k, rfl⟩
    | some f =>
      rw [hla] at step
      obtain ⟨w, w1, w2, w3⟩ := step
      rw [w1, bind_ok, Option.bind_some, ← hO]
      refine ih o o (al.sub 1) w f rest' w2 (.inl ⟨i2.1, w3⟩) (fun y hy => ?_) (hst.tail hn i1 i4) (List.nodup_cons.1 hn).2 i5 hf
      exact iff_of_true hy ((i4 y).1 hy).2

/-- All calls, if an array is refused. -/
theorem fold_refused [CommSemiring A] {operands : List (View A)} (hw : ∀ v ∈ operands, v.Wf) (hout : out.Nodup)
    (calls : List TwoCall) :
    ∀ (L K : List Char) (al : Alloc A) (x : View A), x.Wf → ((∃ d, TakenAs dims L K x d) ∨ Refused dims L K x) →
      (∀ y ∈ L, (y ∈ K ↔ y ∈ out ∨ ∃ e ∈ calls, ∃ S, inputs[e.operand]? = some S ∧ y ∈ S)) →
      Standing inputs out L calls → (calls.map TwoCall.operand).Nodup → Linked dims inputs L calls out →
      (∀ c ∈ calls, ∀ S, inputs[c.operand]? = some S → ∃ v, operands[c.operand]? = some v ∧
        ((∃ d, TakenAs dims S (keptOf inputs out c.operand) v d) ∨ Refused dims S (keptOf inputs out c.operand) v)) →
      (Refused dims L K x ∨ ∃ c ∈ calls, ∃ S v, inputs[c.operand]? = some S ∧ operands[c.operand]? = some v ∧
        Refused dims S (keptOf inputs out c.operand) v) →
      ∃ k, foldCalls operands calls al x = panic k := by
  induction calls with
  | nil =>
    intro L K al x hx ht hK hst hn hl ha hr
    cases hl
    rcases hr with hr | ⟨_, h, -⟩
    · exact absurd hout hr.1
    · cases h
  | cons c cs ih =>
    intro L K al x hx ht hK hst hn hl ha hr
    obtain ⟨R, o, i1, i2, i3, i4, i5⟩ := hl
    obtain ⟨v, j2, j3⟩ := ha c (by simp) R i1
    have kL : ∀ y ∈ L, (y ∈ K ↔ y ∈ R ++ o) := fun y hy => by
      rw [hK y hy, List.mem_append, i4]
      simp only [List.mem_cons, exists_eq_or_imp, i1, Option.some.injEq, exists_eq_left', hy, true_or, true_and]
      tauto
    have kR := hst.head hn i1 i4
    obtain ⟨s1, s2, s3⟩ := call_taken (dims := dims) i2 c.order al hx (hw v (List.mem_of_getElem? j2))
    simp only [foldCalls, index_eq_ok.2 j2, bind_ok, i3]
    by_cases g1 : Refused dims L K x
    · obtain ⟨k, hk⟩ := s2 (Refused.congr g1 kL)
      rw [hk]
      exact ⟨k, rfl⟩
    obtain ⟨d, hd⟩ := ht.resolve_right g1
    by_cases g2 : Refused dims R (keptOf inputs out c.operand) v
    · obtain ⟨k, hk⟩ := s3 d (TakenAs.congr hd kL) (Refused.congr g2 kR)
      rw [hk]
      exact ⟨k, rfl⟩
    obtain ⟨e, he⟩ := j3.resolve_right g2
    have step := s1 d e (TakenAs.congr hd kL) (TakenAs.congr he kR)
    cases hla : lengthsAfter dims L.toFinset R.toFinset o.toFinset d e with
    | none =>
      rw [hla] at step
      obtain ⟨k, hk⟩ := step
      rw [hk]
      exact ⟨k, rfl⟩
    | some f =>
      rw [hla] at step
      obtain ⟨w, w1, w2, w3⟩ := step
      rw [w1, bind_ok]
      refine ih o o (al.sub 1) w w2 (.inl ⟨f, .inl ⟨i2.1, w3⟩⟩) (fun y hy => iff_of_true hy ((i4 y).1 hy).2) (hst.tail hn i1 i4)
        (List.nodup_cons.1 hn).2 i5 (fun c' hc' => ha c' (List.mem_cons_of_mem _ hc')) (.inr ?_)
      rcases hr with hr | ⟨c', hc', S, u, h1, h2, h3⟩
      · exact absurd hr g1
      · rcases List.mem_cons.1 hc' with rfl | hc'
        · rw [i1] at h1
          cases h1
          rw [j2] at h2
          cases h2
          exact absurd h3 g2
        · exact ⟨c', hc', S, u, h1, h2, h3⟩

end

theorem operandOrder_nodup {m : OptimizationMethod} {n : Nat} : (operandOrder m n).Nodup := by
  cases m <;> simp [operandOrder, List.nodup_range]

/-- What the induction over the calls starts with. -/
theorem standing_start {inputs : List (List Char)} {out L : List Char} {first : Nat} {calls : List TwoCall} {m : OptimizationMethod}
    (f1 : inputs[first]? = some L) (f2 : first :: calls.map TwoCall.operand = operandOrder m inputs.length) :
    (∀ y ∈ L, (y ∈ keptOf inputs out first ↔ y ∈ out ∨ ∃ e ∈ calls, ∃ S, inputs[e.operand]? = some S ∧ y ∈ S)) ∧
      Standing inputs out L calls ∧ (calls.map TwoCall.operand).Nodup := by
  have hn : (first :: calls.map TwoCall.operand).Nodup := f2 ▸ operandOrder_nodup
  rw [List.nodup_cons] at hn
  have hall : ∀ j S, inputs[j]? = some S → j = first ∨ ∃ e ∈ calls, e.operand = j := by
    intro j S hj
    have : j ∈ operandOrder m inputs.length := mem_operandOrder.2 (List.getElem?_eq_some_iff.1 hj).1
    rw [← f2] at this
    simpa [eq_comm] using this
  refine ⟨fun y _ => ?_, fun c hc R hR y _ => ?_, hn.2⟩
  · rw [mem_keptOf]
    refine or_congr_right ⟨?_, ?_⟩
    · rintro ⟨j, h1, S, h2, h3⟩
      obtain ⟨e, he, rfl⟩ := (hall j S h2).resolve_left h1
      exact ⟨e, he, S, h2, h3⟩
    · rintro ⟨e, he, S, h2, h3⟩
      exact ⟨_, fun g => hn.1 (g ▸ List.mem_map_of_mem he), S, h2, h3⟩
  · have hcf : c.operand ≠ first := fun g => hn.1 (g ▸ List.mem_map_of_mem hc)
    rw [mem_keptOf]
    constructor
    · rintro (h | ⟨j, h1, S, h2, h3⟩)
      · exact .inr (.inl h)
      · rcases hall j S h2 with rfl | ⟨e, he, rfl⟩
        · rw [f1] at h2
          cases h2
          exact .inl h3
        · exact .inr (.inr ⟨e, he, h1, S, h2, h3⟩)
    · rintro (h | h | ⟨e, -, h1, S, h2, h3⟩)
      · exact .inr ⟨first, hcf.symm, L, f1, h⟩
      · exact .inl h
      · exact .inr ⟨_, h1, S, h2, h3⟩

/-- C120: which lengths a path of several operands, with repeated letters or not, accepts, and the lengths of the result. -/
theorem C120_lengths {A B : Type} [Zero A] [Add A] [Mul A] [MulAdd A] (h : HashOrd) (s : String) (ops : List (View B))
    (inputs : List (List Char)) (out : List Char) (dims : Char → Nat) (hd : Denotes s inputs out)
    (hs : Sized dims inputs (ops.map View.shape)) (h2 : 2 ≤ inputs.length) (m : OptimizationMethod) (p : EinsumPath)
    (hp : einsumPath h s ops m = .ok (.ok p)) (operands : List (View A)) (hw : ∀ v ∈ operands, v.Wf) (lens : Nat → Char → Nat)
    (ha : ∀ i L, inputs[i]? = some L → ∃ v, operands[i]? = some v ∧ TakenAs dims L (keptOf inputs out i) v (lens i))
    (al : UniformAlloc) :
    ReturnsLengths out (lengthsOf dims out ((operandOrder m inputs.length).map fun i => (inputs.getD i [], lens i)))
      (p.contractOperands (al.alloc A) operands) := by
  obtain ⟨first, L, calls, f1, f2, f3, f4⟩ := C83_path h s ops inputs out dims hd hs h2 m p hp
  obtain ⟨g1, g2, g3⟩ := standing_start (out := out) f1 f2
  set zs := operands.map (View.map fun _ => (0 : Int)) with hzs
  have hz : ∀ v ∈ zs, v.Wf := by
    intro v hv
    obtain ⟨u, hu, rfl⟩ := List.mem_map.1 hv
    exact (view_wf_map _).2 (hw u hu)
  have ha' : ∀ i L, inputs[i]? = some L → ∃ v, zs[i]? = some v ∧ TakenAs dims L (keptOf inputs out i) v (lens i) := by
    intro i L hi
    obtain ⟨v, v1, v2⟩ := ha i L hi
    exact ⟨v.map fun _ => 0, by rw [hzs, List.getElem?_map, v1]; rfl, v2⟩
  obtain ⟨v, v1, v2⟩ := ha' first L f1
  have key : ReturnsLengths out (lengthsOf dims out ((operandOrder m inputs.length).map fun i => (inputs.getD i [], lens i)))
      (p.contractOperands (al.alloc Int) zs) := by
    rw [f4, index_eq_ok.2 v1, bind_ok, ← f2, List.map_cons]
    have e1 : inputs.getD first [] = L := by simp [List.getD, f1]
    rw [e1]
    refine fold_taken hz hd.outputOk.1 calls L _ _ v _ _ (hz v (List.mem_of_getElem? v1)) v2 g1 g2 g3 f3 ?_
    rw [List.map_map, List.forall₂_map_right_iff, List.forall₂_same]
    intro c hc
    have hlt : c.operand < inputs.length := by
      rw [← mem_operandOrder (m := m), ← f2]
      exact List.mem_cons_of_mem _ (List.mem_map_of_mem hc)
    have e2 : inputs[c.operand]? = some (inputs.getD c.operand []) := by simp [List.getD, hlt]
    exact ⟨e2, ha' _ _ e2⟩
  obtain ⟨z1, z2⟩ := zeros_outcome p al hw
  revert key
  cases lengthsOf dims out ((operandOrder m inputs.length).map fun i => (inputs.getD i [], lens i)) with
  | none =>
    rintro ⟨k, hk⟩
    exact ⟨k, z2 k hk⟩
  | some f =>
    rintro ⟨w, w1, w2⟩
    obtain ⟨x, x1, x2⟩ := z1 w w1
    exact ⟨x, x1, x2.trans w2⟩

/-- C120: every array with the compiled number of axes is either taken with some lengths or refused. -/
theorem C120_all {A : Type} (dims : Char → Nat) (L kept : List Char) (v : View A) (hl : v.shape.length = L.length) :
    Xor (∃ d, TakenAs dims L kept v d) (Refused dims L kept v) := by
  by_cases hn : L.Nodup
  · exact .inl ⟨⟨assign L v.shape, .inl ⟨hn, (map_assign hn hl).symm⟩⟩, fun h => h.1 hn⟩
  · by_cases hf : ∃ st, Addressed v L kept st ∧ Accommodated dims L st v.shape.prod
    · exact .inl ⟨⟨dims, .inr ⟨hn, rfl, hl, hf⟩⟩, fun h => h.2.2 hf⟩
    · refine .inr ⟨⟨hn, hl, hf⟩, ?_⟩
      rintro ⟨d, h | h⟩
      · exact hn h.1
      · exact hf h.2.2.2

/-- C120: for one operand with a repeated letter.  If a letter was compiled with length zero, what is returned is the Einstein
sum of any elements, that is, empty or zero. -/
theorem C120_one {A B : Type} [CommSemiring A] (h : HashOrd) (s : String) (v₀ : View B) (L out : List Char)
    (dims : Char → Nat) (hd : Denotes s [L] out) (hs : Sized dims [L] [v₀.shape]) (m : OptimizationMethod)
    (p : EinsumPath) (hp : einsumPath h s [v₀] m = .ok (.ok p)) (hn : ¬ L.Nodup) (v : View A) (hw : v.Wf)
    (hl : v.shape.length = L.length) (al : Alloc A) :
    (∀ d, TakenAs dims L out v d → ∃ w, p.contractOperands al [v] = .ok w ∧ w.Wf ∧ w.shape = out.map dims ∧
      ((∃ c ∈ L, dims c = 0) → ∀ T, IsEinsum dims [L] [T] out w)) ∧
    (Refused dims L out v → ∃ k, p.contractOperands al [v] = panic k) := by
  obtain ⟨sc, c, rfl, h1, h2, rfl, h4⟩ := path_one hd hs hp
  obtain ⟨k1, k2⟩ := misfit_total h1 h2 h4 hn hw.elements hl al
  refine ⟨fun d hd => ?_, fun hr => k2 hr.2.2⟩
  rcases hd with hd | ⟨-, -, -, st, s1, s2⟩
  · exact absurd hd.1 hn
  · exact k1 st s1 s2

/-- C120: the path panics if the diagonals of an operand do not fit into its array. -/
theorem C120_refused {A B : Type} [Zero A] [Add A] [Mul A] [MulAdd A] (h : HashOrd) (s : String) (ops : List (View B))
    (inputs : List (List Char)) (out : List Char) (dims : Char → Nat) (hd : Denotes s inputs out)
    (hs : Sized dims inputs (ops.map View.shape)) (h2 : 2 ≤ inputs.length) (m : OptimizationMethod) (p : EinsumPath)
    (hp : einsumPath h s ops m = .ok (.ok p)) (operands : List (View A)) (hw : ∀ v ∈ operands, v.Wf)
    (ha : ∀ (i : Nat) (L : List Char), inputs[i]? = some L →
      ∃ v : View A, operands[i]? = some v ∧ v.shape.length = L.length)
    (hr : ∃ i L v, inputs[i]? = some L ∧ operands[i]? = some v ∧ Refused dims L (keptOf inputs out i) v) (al : UniformAlloc) :
    ∃ k, p.contractOperands (al.alloc A) operands = panic k := by
  obtain ⟨first, L, calls, f1, f2, f3, f4⟩ := C83_path h s ops inputs out dims hd hs h2 m p hp
  obtain ⟨g1, g2, g3⟩ := standing_start (out := out) f1 f2
  set zs := operands.map (View.map fun _ => (0 : Int)) with hzs
  have hz : ∀ v ∈ zs, v.Wf := by
    intro v hv
    obtain ⟨u, hu, rfl⟩ := List.mem_map.1 hv
    exact (view_wf_map _).2 (hw u hu)
  have ha' : ∀ i L, inputs[i]? = some L → ∃ v, zs[i]? = some v ∧
      ((∃ d, TakenAs dims L (keptOf inputs out i) v d) ∨ Refused dims L (keptOf inputs out i) v) := by
    intro i L hi
    obtain ⟨v, v1, v2⟩ := ha i L hi
    exact ⟨v.map fun _ => 0, by rw [hzs, List.getElem?_map, v1]; rfl, (C120_all dims L _ (v.map fun _ => (0 : Int)) v2).or⟩
  obtain ⟨v, v1, v2⟩ := ha' first L f1
  have key : ∃ k, p.contractOperands (al.alloc Int) zs = panic k := by
    rw [f4, index_eq_ok.2 v1, bind_ok]
    refine fold_refused hz hd.outputOk.1 calls L _ _ v (hz v (List.mem_of_getElem? v1)) v2 g1 g2 g3 f3
      (fun c _ S hS => ha' _ S hS) ?_
    obtain ⟨i, S, u, u1, u2, u3⟩ := hr
    have hi : i ∈ operandOrder m inputs.length := mem_operandOrder.2 (List.getElem?_eq_some_iff.1 u1).1
    have hu : zs[i]? = some (u.map fun _ => 0) := by rw [hzs, List.getElem?_map, u2]; rfl
    rw [← f2] at hi
    rcases List.mem_cons.1 hi with rfl | hi
    · rw [f1] at u1
      cases u1
      rw [v1] at hu
      cases hu
      exact .inl u3
    · obtain ⟨c, hc, rfl⟩ := List.mem_map.1 hi
      exact .inr ⟨c, hc, S, _, u1, hu, u3⟩
  obtain ⟨k, hk⟩ := key
  exact ⟨k, (zeros_outcome p al hw).2 k hk⟩

/-! ### Cases -/

theorem Ex.denotes_120 : Denotes "ii,i->i" [['i', 'i'], ['i']] ['i'] :=
  .inl ⟨by decide, ⟨by simp, by simp [Letter], by simp [Letter]⟩, by simp [OutputOk, Used]⟩

def Ex.row12_120 : View Int := ⟨[1, 2], 0, [1, 2], [2, 1]⟩
def Ex.vec2_120 : View Int := ⟨[1, 2], 0, [2], [1]⟩

/-- The hypotheses of `C120_lengths` and `C120_refused`: a path for the product of the diagonal of a 2 by 2 matrix with a vector
takes a column of four elements for the matrix, and panics on a row of two. -/
example (h : HashOrd) (al : UniformAlloc) : ∃ p, einsumPath h "ii,i->i" [Ex.v22_119, Ex.vec2_120] .naive = .ok (.ok p) ∧
    (∃ w, p.contractOperands (al.alloc Int) [Ex.col41, Ex.vec2_120] = .ok w ∧ w.shape = [2]) ∧
    ∃ k, p.contractOperands (al.alloc Int) [Ex.row12_120, Ex.vec2_120] = panic k := by
  have s1 : Sized (fun _ => 2) [['i', 'i'], ['i']] ([Ex.v22_119, Ex.vec2_120].map View.shape) := .cons rfl (.cons rfl .nil)
  obtain ⟨p, hp, -⟩ := einsumPath_ok (operands := [Ex.v22_119, Ex.vec2_120]) Ex.denotes_120 s1 h (.inl rfl)
  have w2 : Ex.vec2_120.Wf := (elements_of (t := Ex.elems Ex.vec2_120) rfl (by decide)).1
  have w3 : Ex.row12_120.Wf := (elements_of (t := Ex.elems Ex.row12_120) rfl (by decide)).1
  have t1 : TakenAs (fun _ => 2) ['i', 'i'] ['i', 'i'] Ex.col41 fun _ => 2 :=
    .inr ⟨by decide, rfl, rfl, _, .inr ⟨.inl (by simp), by decide, rfl⟩, .inr ⟨by simp, by unfold FitsInto; decide⟩⟩
  have t2 : TakenAs (fun _ => 2) ['i'] ['i', 'i', 'i'] Ex.vec2_120 fun _ => 2 := .inl ⟨by decide, rfl⟩
  have r1 : Refused (fun _ => 2) ['i', 'i'] ['i', 'i'] Ex.row12_120 := by
    refine ⟨by decide, rfl, ?_⟩
    rintro ⟨st, ⟨⟨c, hc, g⟩, -⟩ | ⟨-, -, rfl⟩, ⟨⟨_, -, e⟩, -⟩ | ⟨-, f⟩⟩
    · cases e
    · exact g (by simpa using hc)
    · cases e
    · revert f; unfold FitsInto; decide
  refine ⟨p, hp, ?_, ?_⟩
  · have key := C120_lengths h _ _ _ _ _ Ex.denotes_120 s1 (by simp) .naive p hp [Ex.col41, Ex.vec2_120]
      (by
        simp only [List.mem_cons, List.not_mem_nil, or_false]
        rintro v (rfl | rfl)
        · exact Ex.ecol41.1
        · exact w2) (fun _ _ => 2)
      (by
        rintro (_ | _ | i) L hi
        · cases hi; exact ⟨_, rfl, t1⟩
        · cases hi; exact ⟨_, rfl, t2⟩
        · simp at hi) al
    have e : (lengthsOf (fun _ => 2) ['i'] [(['i', 'i'], fun _ => 2), (['i'], fun _ => 2)]).map (['i'].map ·) = some [2] := by
      decide +kernel
    change ReturnsLengths ['i'] (lengthsOf (fun _ => 2) ['i'] [(['i', 'i'], fun _ => 2), (['i'], fun _ => 2)]) _ at key
    revert e key
    cases lengthsOf (fun _ => 2) ['i'] [(['i', 'i'], fun _ => 2), (['i'], fun _ => 2)] with
    | none => intro e; cases e
    | some f =>
      rintro e ⟨w, w1, w2⟩
      exact ⟨w, w1, w2.trans (Option.some.inj e)⟩
  · exact C120_refused h _ _ _ _ _ Ex.denotes_120 s1 (by simp) .naive p hp [Ex.row12_120, Ex.vec2_120]
      (by
        simp only [List.mem_cons, List.not_mem_nil, or_false]
        rintro v (rfl | rfl)
        · exact w3
        · exact w2)
      (by
        rintro (_ | _ | i) L hi
        · cases hi; exact ⟨_, rfl, rfl⟩
        · cases hi; exact ⟨_, rfl, rfl⟩
        · simp at hi) ⟨0, _, _, rfl, rfl, r1⟩ al

/-- A freshly created matrix without elements. -/
def Ex.m00_120 : View Int := ⟨[], 0, [0, 0], [0, 0]⟩

theorem Ex.denotes_ii_120 : Denotes "ii->i" [['i', 'i']] ['i'] :=
  .inl ⟨by decide, ⟨by simp, by simp [Letter], by simp [Letter]⟩, by simp [OutputOk, Used]⟩

/-- C120, finding: a path compiled for the diagonal of a matrix without elements panics on this matrix, but returns an empty array
for a 2 by 2 matrix. -/
theorem C120_empty (h : HashOrd) (m : OptimizationMethod) (p : EinsumPath)
    (hp : einsumPath h "ii->i" [Ex.m00_120] m = .ok (.ok p)) (al : Alloc Int) :
    (∃ k, p.contractOperands al [Ex.m00_120] = panic k) ∧
      ∃ w, p.contractOperands al [Ex.v22_119] = .ok w ∧ w.shape = [0] := by
  have s1 : Sized (fun _ => 0) [['i', 'i']] [Ex.m00_120.shape] := .cons rfl .nil
  have w1 : Ex.m00_120.Wf := (elements_of (t := Ex.elems Ex.m00_120) rfl (by decide)).1
  have w2 : Ex.v22_119.Wf := (elements_of (t := Ex.elems Ex.v22_119) rfl (by decide)).1
  constructor
  · refine (C120_one h _ _ _ _ _ Ex.denotes_ii_120 s1 m p hp (by decide) Ex.m00_120 w1 rfl al).2 ⟨by decide, rfl, ?_⟩
    rintro ⟨st, ⟨⟨c, hc, g⟩, -⟩ | ⟨-, g, -⟩, -⟩
    · exact g (by simpa using hc)
    · exact g (by decide)
  · obtain ⟨w, w3, -, w4, -⟩ := (C120_one h _ _ _ _ _ Ex.denotes_ii_120 s1 m p hp (by decide) Ex.v22_119 w2 rfl al).1 _
      (.inr ⟨by decide, rfl, rfl, _, .inr ⟨.inl (by simp), by decide, rfl⟩, .inl ⟨⟨'i', by simp, rfl⟩, by decide⟩⟩)
    exact ⟨w, w3, w4⟩

/-- There is such a path. -/
example (h : HashOrd) : ∃ p, einsumPath h "ii->i" [Ex.m00_120] .naive = .ok (.ok p) := by
  obtain ⟨p, hp, -⟩ := einsumPath_ok (dims := fun _ => 0) (operands := [Ex.m00_120]) Ex.denotes_ii_120 (.cons rfl .nil) h (.inl rfl)
  exact ⟨p, hp⟩

/-- No rows of a matrix with two columns: an empty slice whose strides are positive. -/
def Ex.m02_120 : View Int := ⟨[1, 2], 0, [0, 2], [2, 1]⟩

/-- The path for the trace of a matrix without elements takes this slice and returns zero. -/
example (h : HashOrd) (al : Alloc Int) : ∃ p w, einsumPath h "ii->" [Ex.m00_120] .naive = .ok (.ok p) ∧
    p.contractOperands al [Ex.m02_120] = .ok w ∧ w.read [] = .ok 0 := by
  have s1 : Sized (fun _ => 0) [['i', 'i']] [Ex.m00_120.shape] := .cons rfl .nil
  obtain ⟨p, hp, -⟩ := einsumPath_ok (operands := [Ex.m00_120]) Ex.denotes_ii s1 h (.inl rfl)
  have w1 : Ex.m02_120.Wf := (elements_of (t := Ex.elems Ex.m02_120) rfl (by decide)).1
  have hside : SideBySide Ex.m02_120.shape [2, 1] := by
    rw [SideBySide, if_pos (by decide)]
    refine ⟨0, rfl, fun a ha => ⟨[0, a], ?_, by simp [distance]⟩, rfl⟩
    simpa [InB, Ex.m02_120] using ha
  obtain ⟨w, w2, -, -, w3⟩ := (C120_one h _ _ _ _ _ Ex.denotes_ii s1 .naive p hp (by decide) Ex.m02_120 w1 rfl al).1 _
    (.inr ⟨by decide, rfl, rfl, [2, 1], .inl ⟨⟨'i', by simp, by simp⟩, rfl, by simp, hside⟩,
      .inl ⟨⟨'i', by simp, rfl⟩, by decide⟩⟩)
  refine ⟨p, w, hp, w2, ?_⟩
  exact ((w3 ⟨'i', by simp, rfl⟩ fun _ => 0).2.2 (fun _ => 0) (by simp [InRange])).trans
    (by simp [Spec.einsum, term, summed, sumOver])

end Einsum
