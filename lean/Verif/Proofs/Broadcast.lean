import Verif.Proofs.Pair

/-!
# The broadcast contractor

`BroadcastProductGeneral` is never selected by the library (strategies.rs); the lemmas here follow it
step by step: permute, insert axes of length 1, broadcast, multiply.
-/

namespace Einsum

open Spec

variable {ι A : Type} [DecidableEq ι] {dims : ι → Nat}

theorem eraseIdx_append_length {α : Type} (l m : List α) (x : α) :
    (l ++ x :: m).eraseIdx l.length = l ++ m := by
  rw [List.eraseIdx_append_of_length_le (by simp)]
  simp

/-- Inserting an axis of length 1. -/
theorem Rep.insertAxis {v : View A} {a b : List ι} {c : ι} {F : (ι → Nat) → A}
    (h : Rep v (a ++ b) dims F) (hn : (a ++ c :: b).Nodup) (hc : dims c = 1) :
    ∃ w, v.insertAxis a.length = .ok w ∧ Rep w (a ++ c :: b) dims F := by
  have hn' : (a ++ b).Nodup := (List.nodup_cons.1 (List.nodup_middle.1 hn)).2
  obtain ⟨w, h1, h2⟩ := (h.holds hn').insertAxis (ax := a.length) (by simp)
  refine ⟨w, h1, ?_⟩
  have e : ((a ++ b).map dims).insertIdx a.length 1 = (a ++ c :: b).map dims := by
    rw [List.map_append, List.map_append, List.map_cons, hc]
    have := insertIdx_append_length (a.map dims) (b.map dims) 1
    simpa using this
  rw [e] at h2
  refine .of_holds h2 fun σ hσ => ?_
  have e2 : ((a ++ c :: b).map σ).eraseIdx a.length = (a ++ b).map σ := by
    rw [List.map_append, List.map_append, List.map_cons]
    have := eraseIdx_append_length (a.map σ) (b.map σ) (σ c)
    simpa using this
  rw [e2]
  refine h.agree_assign fun d hd => hσ d ?_
  simp only [List.mem_append, List.mem_cons] at hd ⊢
  tauto

/-- The positions at which `nonePositions` reports a missing label. -/
theorem nonePositions_map {L rest : List ι} (i : Nat) (c : ι) :
    nonePositions i (((c :: rest).map fun c => position c L)) =
      if c ∈ L then nonePositions (i + 1) (rest.map fun c => position c L)
      else i :: nonePositions (i + 1) (rest.map fun c => position c L) := by
  by_cases hc : c ∈ L
  · rw [if_pos hc, List.map_cons, position_of_mem hc]
    rfl
  · rw [if_neg hc, List.map_cons, position_eq_none.2 hc]
    rfl

/-- All missing axes are inserted. -/
theorem Rep.insertAxes {L : List ι} (pre rest : List ι) {v : View A} {F : (ι → Nat) → A}
    (h : Rep v (pre ++ rest.filter fun c => c ∈ L) dims F) (hn : (pre ++ rest).Nodup)
    (hd : ∀ c ∈ rest, c ∉ L → dims c = 1) :
    ∃ w, Einsum.insertAxes (nonePositions pre.length (rest.map fun c => position c L)) v = .ok w ∧
      Rep w (pre ++ rest) dims F := by
  induction rest generalizing pre v with
  | nil => exact ⟨v, rfl, by simpa using h⟩
  | cons c rest ih =>
    have hn' : ((pre ++ [c]) ++ rest).Nodup := by simpa using hn
    rw [nonePositions_map]
    by_cases hc : c ∈ L
    · rw [if_pos hc]
      rw [List.filter_cons_of_pos (by simpa using hc)] at h
      obtain ⟨w, h1, h2⟩ := ih (pre ++ [c]) (v := v) (by simpa using h) hn'
        fun d hd' => hd d (List.mem_cons_of_mem _ hd')
      refine ⟨w, by simpa using h1, by simpa using h2⟩
    · rw [if_neg hc]
      rw [List.filter_cons_of_neg (by simpa using hc)] at h
      have hn2 : (pre ++ c :: (rest.filter fun c => c ∈ L)).Nodup := by
        refine hn.sublist ?_
        exact (List.Sublist.refl _).append (List.Sublist.cons_cons _ List.filter_sublist)
      obtain ⟨v', g1, g2⟩ := h.insertAxis hn2 (hd c (by simp) hc)
      obtain ⟨w, h1, h2⟩ := ih (pre ++ [c]) (v := v') (by simpa using g2) hn'
        fun d hd' => hd d (List.mem_cons_of_mem _ hd')
      refine ⟨w, ?_, by simpa using h2⟩
      simp only [Einsum.insertAxes, g1, bind_ok]
      simpa using h1

omit [DecidableEq ι] in
theorem bcIdxRev_map (l : List ι) (f g : ι → Nat) :
    bcIdxRev (l.map f) (l.map g) = l.map fun c => if f c = 1 then 0 else g c := by
  induction l with
  | nil => rfl
  | cons c l ih => simp [bcIdxRev, ih]

omit [DecidableEq ι] in
theorem bcIdx_map (l : List ι) (f g : ι → Nat) :
    bcIdx (l.map f) (l.map g) = l.map fun c => if f c = 1 then 0 else g c := by
  simp only [bcIdx, ← List.map_reverse, bcIdxRev_map, List.reverse_reverse]

/-- One operand of the broadcast product: permuted, filled up with axes of length 1 and broadcast to
the output shape, it holds the same values for every assignment of the output labels. -/
theorem Rep.broadcastTo {v : View A} {L out : List ι} {F : (ι → Nat) → A} (h : Rep v L dims F)
    (hL : L.Nodup) (ho : out.Nodup) (hs : ∀ c ∈ L, c ∈ out) :
    ∃ p q w, v.permutedAxes ((out.map fun c => position c L).filterMap id) = .ok p ∧
      Einsum.insertAxes (nonePositions 0 (out.map fun c => position c L)) p = .ok q ∧
      q.broadcast (out.map dims) = some w ∧ Rep w out dims F := by
  set K := out.filter fun c => c ∈ L with hK
  have pK : K.Perm L := perm_of_nodup (ho.filter _) hL fun c => by
    simp only [hK, List.mem_filter, decide_eq_true_eq]
    exact ⟨fun x => x.2, fun x => ⟨hs c x, x⟩⟩
  have eK : (out.map fun c => position c L).filterMap id = K.map fun c => pos c L := by
    rw [hK]
    clear hK pK K hs ho
    induction out with
    | nil => rfl
    | cons c out ih =>
      by_cases hc : c ∈ L
      · rw [List.map_cons, position_of_mem hc, List.filter_cons_of_pos (by simpa using hc),
          List.map_cons, List.filterMap_cons, ih]
        rfl
      · rw [List.map_cons, position_eq_none.2 hc, List.filter_cons_of_neg (by simpa using hc),
          List.filterMap_cons, ih]
        rfl
  obtain ⟨p, p1, p2⟩ := h.permute hL pK
  -- lengths after the insertions
  let dims' : ι → Nat := fun c => if c ∈ L then dims c else 1
  have hd1 : ∀ c ∈ L, dims' c = dims c := fun c hc => if_pos hc
  have hd2 : ∀ c, c ∉ L → dims' c = 1 := fun c hc => if_neg hc
  have p3 : Rep p K dims' F := by
    refine ⟨?_, p2.strides, fun σ hσ => p2.get σ fun c hc => ?_⟩
    · rw [p2.shape]
      exact List.map_congr_left fun c hc => (hd1 c (pK.mem_iff.1 hc)).symm
    · rw [← hd1 c (pK.mem_iff.1 hc)]
      exact hσ c hc
  obtain ⟨q, q1, q2⟩ := Rep.insertAxes (L := L) [] out (v := p) p3 (by simpa using ho)
    fun c _ hc => hd2 c hc
  have q3 := q2.holds (by simpa using ho)
  simp only [List.nil_append] at q3 q2
  have hcomp : List.Forall₂ (fun d n => d = n ∨ d = 1) (out.map dims') (out.map dims) := by
    rw [List.forall₂_map_left_iff, List.forall₂_map_right_iff]
    refine List.forall₂_same.2 fun c _ => ?_
    by_cases hc : c ∈ L
    · exact .inl (hd1 c hc)
    · exact .inr (hd2 c hc)
  obtain ⟨w, w1⟩ := q3.broadcast_ok hcomp
  have w2 := q3.broadcast w1
  refine ⟨p, q, w, by rw [eK]; exact p1, q1, w1, .of_holds w2 fun σ hσ => ?_⟩
  rw [bcIdx_map]
  have hr : InRange dims' out fun c => if dims' c = 1 then 0 else σ c := by
    intro c hc
    by_cases h1 : dims' c = 1
    · simp [h1]
    · by_cases hcL : c ∈ L
      · simp only [h1, if_false]
        rw [hd1 c hcL]
        exact hσ c hc
      · exact absurd (hd2 c hcL) h1
  rw [q2.agree_assign hr]
  refine (h.agree (fun c hc => hσ c (hs c hc)) fun c hc => ?_).symm
  by_cases h1 : dims' c = 1
  · have := hσ c (hs c hc)
    rw [← hd1 c hc, h1] at this
    simp only [h1, if_true]
    omega
  · simp [h1]

section op

variable {sc : SizedContraction} {dims : Char → Nat} {L R : List Char}

theorem broadcastGeneral_ok (hv : sc.Valid dims) (hops : sc.contraction.operandIndices = [L, R])
    (hL : L.Nodup) (hR : R.Nodup) (sL : ∀ c ∈ L, c ∈ sc.contraction.outputIndices)
    (sR : ∀ c ∈ R, c ∈ sc.contraction.outputIndices) :
    ∃ op, PairOp.new sc .broadcastProductGeneral = .ok op ∧
      op.Computes false dims L R sc.contraction.outputIndices := by
  have hon := hv.out.1
  have hsub := hv.out_sub2 hops
  set out := sc.contraction.outputIndices with hO
  refine ⟨.broadcastProductGeneral ⟨⟨(out.map fun c => position c L).filterMap id⟩,
    ⟨(out.map fun c => position c R).filterMap id⟩, nonePositions 0 (out.map fun c => position c L),
    nonePositions 0 (out.map fun c => position c R), out.map dims⟩, ?_, ?_⟩
  · have hz : sizesOf sc out = .ok (out.map dims) := sizesOf_ok hv fun c hc => by
      rw [hops]
      simpa using hsub c hc
    simp only [PairOp.new, BroadcastProductGeneral.new]
    rw [hops]
    simp only [List.length_cons, List.length_nil, Nat.zero_add, Nat.reduceAdd, decide_true,
      assertThat_true, bind_ok, index_cons_zero, index_one]
    rw [← hO, maybeFind_ok hL, maybeFind_ok hR]
    simp only [bind_ok, hz]
    rfl
  · intro A _ al l r F G hl hr
    obtain ⟨p, q, l', l1, l2, l3, l4⟩ := hl.broadcastTo hL hon sL
    obtain ⟨p', q', r', r1, r2, r3, r4⟩ := hr.broadcastTo hR hon sR
    obtain ⟨w, h1, h2⟩ := l4.mul r4 hon al
    have hnil : summed [L, R] out = [] := by
      rw [List.eq_nil_iff_forall_not_mem]
      intro c hc
      have := mem_summed.1 hc
      simp only [List.flatten_cons, List.flatten_nil, List.append_nil, List.mem_append] at this
      rcases this.1 with h | h
      · exact this.2 (sL c h)
      · exact this.2 (sR c h)
    refine ⟨w, ?_, by rw [hnil]; exact h2⟩
    simp only [PairOp.run, BroadcastProductGeneral.run, Permutation.view, l1, r1, bind_ok, l2, r2, l3,
      r3, unwrapO, HadamardProduct.run]
    exact h1

end op

end Einsum
