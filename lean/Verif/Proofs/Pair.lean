import Verif.Proofs.Stack

/-! # Contractions of two operands -/

namespace Einsum

open Spec Function

@[simp] theorem index_one {α : Type} (a b : α) (l : List α) : index (a :: b :: l) 1 = .ok b := rfl

/-! ## Positions -/

theorem maybeFind_ok {out input : List Char} (hn : input.Nodup) :
    maybeFindOutputsInInputsUnique out input = .ok (out.map fun c => position c input) := by
  unfold maybeFindOutputsInInputsUnique
  apply mapE_ok
  intro c _
  cases hp : position c input with
  | none => rfl
  | some p =>
    have : (position c (input.drop (p + 1))).isNone = true := by
      rw [position_isNone, decide_eq_true_eq]
      intro hc
      obtain ⟨j, hj, e⟩ := List.mem_iff_getElem.1 hc
      rw [List.getElem_drop] at e
      have hlt : p + 1 + j < input.length := by simpa [Nat.lt_sub_iff_add_lt, Nat.add_comm] using hj
      have h1 := position_getElem? hp
      have hpl := position_lt hp
      rw [List.getElem?_eq_getElem hpl, Option.some.injEq] at h1
      have := (hn.getElem_inj_iff (hi := hpl) (hj := hlt)).1 (by rw [h1, e])
      omega
    simp [this]

theorem find_ok {out input : List Char} (hn : input.Nodup) (hs : ∀ c ∈ out, c ∈ input) :
    findOutputsInInputsUnique out input = .ok (out.map fun c => pos c input) := by
  unfold findOutputsInInputsUnique
  rw [maybeFind_ok hn, bind_ok]
  rw [List.map_congr_left (g := fun c => some (pos c input)) fun c hc => position_of_mem (hs c hc)]
  rw [mapE_ok (g := fun o => o.getD 0)]
  · simp
  · intro a ha
    obtain ⟨c, _, rfl⟩ := List.mem_map.1 ha
    rfl

/-! ## Strategy -/

theorem length_filter_zero {l : List Char} {p : Char → Bool} :
    (l.filter p).length = 0 ↔ ∀ c ∈ l, p c = false := by
  rw [List.length_eq_zero_iff, List.filter_eq_nil_iff]
  simp

theorem pairSummary_ok {L R out : List Char} (hL : L.Nodup) (hR : R.Nodup) (ho : out.Nodup) :
    ∃ a b c d, PairSummary.fromIndices L R out = .ok ⟨a, b, c, d⟩ ∧
      (a = 0 ↔ ∀ x ∈ L, x ∈ R → x ∉ out) ∧ (b = 0 ↔ ∀ x ∈ L, x ∈ R) ∧ (c = 0 ↔ ∀ x ∈ R, x ∈ L) ∧
      (d = 0 ↔ ∀ x ∈ L, x ∈ R → x ∈ out) := by
  have eL := hset_length_eq_iff.2 hL
  have eR := hset_length_eq_iff.2 hR
  have eO := hset_length_eq_iff.2 ho
  set I := (hset L).filter fun c => c ∈ hset R with hI
  set S := I.filter fun c => c ∈ hset out with hS
  have h1 : S.length ≤ I.length := List.length_filter_le _ _
  have h2 : I.length ≤ (hset L).length := List.length_filter_le _ _
  have mI : ∀ x, x ∈ I ↔ x ∈ L ∧ x ∈ R := fun x => by simp [hI]
  have mS : ∀ x, x ∈ S ↔ (x ∈ L ∧ x ∈ R) ∧ x ∈ out := fun x => by
    rw [hS, List.mem_filter, mI]; simp
  have nI : I.Nodup := (nodup_hset L).filter _
  have nS : S.Nodup := nI.filter _
  have sub : I.Subperm (hset R) := nI.subperm fun x hx => mem_hset.2 ((mI x).1 hx).2
  have subL : I.Subperm (hset L) := nI.subperm fun x hx => mem_hset.2 ((mI x).1 hx).1
  have h3 := sub.length_le
  refine ⟨S.length, (hset L).length - I.length, (hset R).length - I.length, I.length - S.length, ?_,
    ?_, ?_, ?_, ?_⟩
  · unfold PairSummary.fromIndices
    simp only [eL, eR, eO, decide_true, assertThat_true, bind_ok, ← hI, ← hS]
    rw [usub_of_le h1, bind_ok, usub_of_le (by omega), bind_ok, usub_of_le (by omega), bind_ok,
      usub_of_le (by omega), bind_ok, usub_of_le (by omega), bind_ok]
    rw [eL, eR] at *
    have e1 : L.length - S.length - (I.length - S.length) = L.length - I.length := by omega
    have e2 : R.length - S.length - (I.length - S.length) = R.length - I.length := by omega
    rw [e1, e2]; rfl
  · rw [List.length_eq_zero_iff, List.eq_nil_iff_forall_not_mem]
    constructor
    · intro h x hx hx' hxo; exact h x ((mS x).2 ⟨⟨hx, hx'⟩, hxo⟩)
    · intro h x hx
      have := (mS x).1 hx
      exact h x this.1.1 this.1.2 this.2
  · constructor
    · intro h x hx
      have := subL.perm_of_length_le (by omega)
      exact ((mI x).1 (this.mem_iff.2 (mem_hset.2 hx))).2
    · intro h
      have : (hset L).Subperm I := (nodup_hset L).subperm fun x hx =>
        (mI x).2 ⟨mem_hset.1 hx, h x (mem_hset.1 hx)⟩
      have := this.length_le
      omega
  · constructor
    · intro h x hx
      have := sub.perm_of_length_le (by omega)
      exact ((mI x).1 (this.mem_iff.2 (mem_hset.2 hx))).1
    · intro h
      have : (hset R).Subperm I := (nodup_hset R).subperm fun x hx =>
        (mI x).2 ⟨h x (mem_hset.1 hx), mem_hset.1 hx⟩
      have := this.length_le
      omega
  · constructor
    · intro h x hx hx'
      have hsp : S.Subperm I := nS.subperm fun x hx => (mI x).2 ((mS x).1 hx).1
      have := hsp.perm_of_length_le (by omega)
      exact ((mS x).1 (this.mem_iff.2 ((mI x).2 ⟨hx, hx'⟩))).2
    · intro h
      have : I.Subperm S := nI.subperm fun x hx =>
        (mS x).2 ⟨(mI x).1 hx, h x ((mI x).1 hx).1 ((mI x).1 hx).2⟩
      have := this.length_le
      omega

theorem pairStrategy_eq (a b c d : Nat) :
    PairSummary.getStrategy ⟨a, b, c, d⟩ =
      if d = 0 ∧ b = 0 ∧ c = 0 then .hadamardProductGeneral
      else if d = 0 ∧ b = 0 ∧ a = 0 then .scalarMatrixProductGeneral
      else if d = 0 ∧ c = 0 ∧ a = 0 then .matrixScalarProductGeneral
      else if a = 0 then .tensordotGeneral
      else .stackedTensordotGeneral := by
  rcases a with _ | a <;> rcases b with _ | b <;> rcases c with _ | c <;> rcases d with _ | d <;>
    simp [PairSummary.getStrategy]

/-! ## Label sets of a stacked contraction -/

/-- What a compiled pair step does; `sw` tells whether it multiplies in the opposite order. -/
def PairOp.Computes (op : PairOp) (sw : Bool) (dims : Char → Nat) (L R out : List Char) : Prop :=
  ∀ (A : Type) [Semiring A] (al : Alloc A) (l r : View A) (F G : (Char → Nat) → A),
    Rep l L dims F → Rep r R dims G →
    ∃ w, op.run al l r = .ok w ∧
      Rep w out dims (sumOver dims (summed [L, R] out) fun σ => mulAs sw (F σ) (G σ))

section new
variable {sc : SizedContraction} {dims : Char → Nat} {L R : List Char}

theorem sizesOf_ok (hv : sc.Valid dims) {l : List Char}
    (hl : ∀ c ∈ l, c ∈ sc.contraction.operandIndices.flatten) : sizesOf sc l = .ok (l.map dims) :=
  mapE_size hv hl

theorem SizedContraction.Valid.out_sub2 (hv : sc.Valid dims)
    (hops : sc.contraction.operandIndices = [L, R]) :
    ∀ c ∈ sc.contraction.outputIndices, c ∈ L ∨ c ∈ R := by
  intro c hc
  have := used_iff.1 (hv.out.2 c hc)
  simpa [hops] using this

theorem hadamardGeneral_new (hops : sc.contraction.operandIndices = [L, R]) (hL : L.Nodup)
    (hR : R.Nodup) (pL : sc.contraction.outputIndices.Perm L) (pR : sc.contraction.outputIndices.Perm R) :
    PairOp.new sc .hadamardProductGeneral = .ok (.hadamardProductGeneral
      ⟨⟨sc.contraction.outputIndices.map fun c => pos c L⟩, ⟨sc.contraction.outputIndices.map fun c => pos c R⟩⟩) := by
  set out := sc.contraction.outputIndices with hO
  have e1 : L.length = R.length := pL.length_eq.symm.trans pR.length_eq
  have e2 : L.length = out.length := pL.length_eq.symm
  simp only [PairOp.new, HadamardProductGeneral.new]
  rw [hops]
  simp only [List.length_cons, List.length_nil, Nat.zero_add, Nat.reduceAdd, decide_true,
    assertThat_true, bind_ok, index_cons_zero, index_one]
  rw [assertThat_of (by simpa using e1), bind_ok, ← hO, assertThat_of (by simpa using e2), bind_ok,
    find_ok hL fun c hc => pL.mem_iff.1 hc, find_ok hR fun c hc => pR.mem_iff.1 hc]
  rfl

theorem hadamardGeneral_ok (hops : sc.contraction.operandIndices = [L, R]) (hL : L.Nodup)
    (hR : R.Nodup) (pL : sc.contraction.outputIndices.Perm L) (pR : sc.contraction.outputIndices.Perm R) :
    ∃ op, PairOp.new sc .hadamardProductGeneral = .ok op ∧
      op.Computes false dims L R sc.contraction.outputIndices := by
  set out := sc.contraction.outputIndices with hO
  refine ⟨.hadamardProductGeneral ⟨⟨out.map fun c => pos c L⟩, ⟨out.map fun c => pos c R⟩⟩,
    hadamardGeneral_new hops hL hR pL pR, ?_⟩
  · intro A _ al l r F G hl hr
    obtain ⟨l', l1, l2⟩ := hl.permute hL pL
    obtain ⟨r', r1, r2⟩ := hr.permute hR pR
    obtain ⟨w, h1, h2⟩ := l2.mul r2 (pL.nodup_iff.2 hL) al
    refine ⟨w, by simp [PairOp.run, HadamardProductGeneral.run, Permutation.view, l1, r1,
      HadamardProduct.run, h1], ?_⟩
    have hnil : summed [L, R] out = [] := by
      rw [List.eq_nil_iff_forall_not_mem]
      intro c hc
      have := mem_summed.1 hc
      simp only [List.flatten_cons, List.flatten_nil, List.append_nil, List.mem_append] at this
      rcases this.1 with h | h
      · exact this.2 (pL.mem_iff.2 h)
      · exact this.2 (pR.mem_iff.2 h)
    rw [hnil]
    exact h2

theorem scalarMatrixGeneral_new (hops : sc.contraction.operandIndices = [[], R])
    (hR : R.Nodup) (pR : sc.contraction.outputIndices.Perm R) :
    PairOp.new sc .scalarMatrixProductGeneral = .ok (.scalarMatrixProductGeneral
      ⟨⟨sc.contraction.outputIndices.map fun c => pos c R⟩⟩) := by
  set out := sc.contraction.outputIndices with hO
  simp only [PairOp.new, ScalarMatrixProductGeneral.new]
  rw [hops]
  simp only [List.length_cons, List.length_nil, Nat.zero_add, Nat.reduceAdd, decide_true,
    assertThat_true, bind_ok, index_cons_zero, index_one]
  rw [← hO, assertThat_of (by simpa using pR.length_eq.symm), bind_ok,
    find_ok hR fun c hc => pR.mem_iff.1 hc]
  rfl

theorem scalarMatrixGeneral_ok (hops : sc.contraction.operandIndices = [[], R])
    (hR : R.Nodup) (pR : sc.contraction.outputIndices.Perm R) :
    ∃ op, PairOp.new sc .scalarMatrixProductGeneral = .ok op ∧
      op.Computes true dims [] R sc.contraction.outputIndices := by
  set out := sc.contraction.outputIndices with hO
  refine ⟨.scalarMatrixProductGeneral ⟨⟨out.map fun c => pos c R⟩⟩, scalarMatrixGeneral_new hops hR pR, ?_⟩
  · intro A _ al l r F G hl hr
    obtain ⟨r', r1, r2⟩ := hr.permute hR pR
    have hf := (hl.holds (by simp)).first (by simp)
    simp only [List.map_nil] at hf
    obtain ⟨w, h1, h2⟩ := r2.mapv (pR.nodup_iff.2 hR) al fun x => x * F (assign [] [])
    refine ⟨w, by simp [PairOp.run, ScalarMatrixProductGeneral.run, Permutation.view, r1,
      ScalarMatrixProduct.run, hf, h1], ?_⟩
    have hnil : summed [[], R] out = [] := by
      rw [List.eq_nil_iff_forall_not_mem]
      intro c hc
      have := mem_summed.1 hc
      simp only [List.flatten_cons, List.flatten_nil, List.append_nil, List.nil_append] at this
      exact this.2 (pR.mem_iff.2 this.1)
    rw [hnil]
    refine h2.congr fun σ _ => ?_
    rw [hl.agree (σ := assign [] []) (σ' := σ) (by intro c hc; simp at hc) (by simp)]
    rfl

theorem matrixScalarGeneral_new (hops : sc.contraction.operandIndices = [L, []])
    (hL : L.Nodup) (pL : sc.contraction.outputIndices.Perm L) :
    PairOp.new sc .matrixScalarProductGeneral = .ok (.matrixScalarProductGeneral
      ⟨⟨sc.contraction.outputIndices.map fun c => pos c L⟩⟩) := by
  set out := sc.contraction.outputIndices with hO
  simp only [PairOp.new, MatrixScalarProductGeneral.new]
  rw [hops]
  simp only [List.length_cons, List.length_nil, Nat.zero_add, Nat.reduceAdd, decide_true,
    assertThat_true, bind_ok, index_cons_zero, index_one]
  rw [← hO, assertThat_of (by simpa using pL.length_eq.symm), bind_ok,
    find_ok hL fun c hc => pL.mem_iff.1 hc]
  rfl

theorem matrixScalarGeneral_ok (hops : sc.contraction.operandIndices = [L, []])
    (hL : L.Nodup) (pL : sc.contraction.outputIndices.Perm L) :
    ∃ op, PairOp.new sc .matrixScalarProductGeneral = .ok op ∧
      op.Computes false dims L [] sc.contraction.outputIndices := by
  set out := sc.contraction.outputIndices with hO
  refine ⟨.matrixScalarProductGeneral ⟨⟨out.map fun c => pos c L⟩⟩, matrixScalarGeneral_new hops hL pL, ?_⟩
  · intro A _ al l r F G hl hr
    obtain ⟨l', l1, l2⟩ := hl.permute hL pL
    have hf := (hr.holds (by simp)).first (by simp)
    simp only [List.map_nil] at hf
    obtain ⟨w, h1, h2⟩ := l2.mapv (pL.nodup_iff.2 hL) al fun x => x * G (assign [] [])
    refine ⟨w, by simp [PairOp.run, MatrixScalarProductGeneral.run, Permutation.view, l1,
      MatrixScalarProduct.run, hf, h1], ?_⟩
    have hnil : summed [L, []] out = [] := by
      rw [List.eq_nil_iff_forall_not_mem]
      intro c hc
      have := mem_summed.1 hc
      simp only [List.flatten_cons, List.flatten_nil, List.append_nil] at this
      exact this.2 (pL.mem_iff.2 this.1)
    rw [hnil]
    refine h2.congr fun σ _ => ?_
    rw [hr.agree (σ := assign [] []) (σ' := σ) (by intro c hc; simp at hc) (by simp)]
    rfl

/-! ### tensordot -/

theorem uncontracted_eq {L C : List Char} (hL : L.Nodup) (hC : ∀ c ∈ C, c ∈ L) :
    uncontractedAxes L.length (C.map fun c => pos c L) =
      (L.filter fun c => c ∉ C).map fun c => pos c L := by
  unfold uncontractedAxes
  rw [range_eq_pos hL, List.filter_map]
  congr 1
  apply List.filter_congr
  intro c hc
  simp only [Function.comp_apply, mem_hset, List.mem_map, decide_eq_decide]
  rw [not_iff_not]
  constructor
  · rintro ⟨d, hd, e⟩
    rwa [← pos_inj (hC d hd) hc e]
  · intro h; exact ⟨c, h, rfl⟩

theorem map_pos_nodup {L C : List Char} (hCn : C.Nodup) (hC : ∀ c ∈ C, c ∈ L) :
    (C.map fun c => pos c L).Nodup :=
  (List.nodup_map_iff_inj_on hCn).2 fun x hx y hy e => pos_inj (hC x hx) (hC y hy) e

theorem mapE_index_dims {L l : List Char} (hl : ∀ c ∈ l, c ∈ L) (dims : Char → Nat) :
    mapE (index (L.map dims)) (l.map fun c => pos c L) = .ok (l.map dims) := by
  rw [mapE_ok (g := fun i => (L.map dims).getD i 0)]
  · simp only [List.map_map]
    congr 1
    apply List.map_congr_left
    intro c hc
    exact getD_pos (hl c hc) dims 0
  · intro i hi
    obtain ⟨c, hc, rfl⟩ := List.mem_map.1 hi
    rw [index_eq_ok, getD_pos (hl c hc) dims 0, List.getElem?_map, getElem?_pos (hl c hc)]
    rfl

/-- The compiled general tensordot. -/
theorem fromAxisNumbers_ok {L R C : List Char} (hL : L.Nodup) (hR : R.Nodup) (hCn : C.Nodup)
    (hCL : ∀ c ∈ C, c ∈ L) (hCR : ∀ c ∈ C, c ∈ R) (order : List Nat) (dims : Char → Nat) :
    TensordotGeneral.fromShapesAndAxisNumbers (L.map dims) (R.map dims) (C.map fun c => pos c L)
        (C.map fun c => pos c R) order =
      .ok ⟨⟨((L.filter fun c => c ∉ C) ++ C).map fun c => pos c L⟩,
        ⟨(C ++ R.filter fun c => c ∉ C).map fun c => pos c R⟩,
        ⟨((L.filter fun c => c ∉ C).map dims).prod, ((R.filter fun c => c ∉ C).map dims).prod,
          (C.map dims).prod, ((L.filter fun c => c ∉ C) ++ R.filter fun c => c ∉ C).map dims⟩,
        ⟨order⟩⟩ := by
  have nl := hset_length_eq_iff.2 (map_pos_nodup hCn hCL)
  have nr := hset_length_eq_iff.2 (map_pos_nodup hCn hCR)
  unfold TensordotGeneral.fromShapesAndAxisNumbers
  simp only [List.length_map] at nl nr
  simp only [List.length_map, nl, nr, decide_true, assertThat_true, bind_ok]
  rw [uncontracted_eq hL hCL, uncontracted_eq hR hCR, ← List.map_append, ← List.map_append,
    mapE_index_dims, bind_ok, mapE_index_dims, bind_ok, List.map_append, List.map_append,
    fromShapes_split (by simp) (by simp)]
  · simp
  · intro c hc
    rcases List.mem_append.1 hc with h | h
    · exact hCR c h
    · exact (List.mem_filter.1 h).1
  · intro c hc
    rcases List.mem_append.1 hc with h | h
    · exact (List.mem_filter.1 h).1
    · exact hCL c h

theorem filter_append_perm_of {L C : List Char} (hL : L.Nodup) (hCn : C.Nodup) (hC : ∀ c ∈ C, c ∈ L) :
    ((L.filter fun c => c ∉ C) ++ C).Perm L := by
  refine perm_of_nodup ?_ hL fun c => ?_
  · rw [List.nodup_append]
    refine ⟨hL.filter _, hCn, fun a ha b hb => ?_⟩
    rintro rfl
    simpa [hb] using (List.mem_filter.1 ha).2
  · simp only [List.mem_append, List.mem_filter, decide_eq_true_eq]
    constructor
    · rintro (h | h)
      · exact h.1
      · exact hC c h
    · intro h
      by_cases hc : c ∈ C
      · exact .inr hc
      · exact .inl ⟨h, hc⟩

theorem Rep.tensordot {A : Type} [Semiring A] {l r : View A} {L R C out : List Char}
    {F G : (Char → Nat) → A} (hl : Rep l L dims F) (hr : Rep r R dims G) (hL : L.Nodup) (hR : R.Nodup)
    (hCn : C.Nodup) (hCL : ∀ c ∈ C, c ∈ L) (hCR : ∀ c ∈ C, c ∈ R)
    (hn : ((L.filter fun c => c ∉ C) ++ R.filter fun c => c ∉ C).Nodup)
    (po : out.Perm ((L.filter fun c => c ∉ C) ++ R.filter fun c => c ∉ C)) (al : Alloc A) :
    ∃ w, TensordotGeneral.run ⟨⟨((L.filter fun c => c ∉ C) ++ C).map fun c => pos c L⟩,
        ⟨(C ++ R.filter fun c => c ∉ C).map fun c => pos c R⟩,
        ⟨((L.filter fun c => c ∉ C).map dims).prod, ((R.filter fun c => c ∉ C).map dims).prod,
          (C.map dims).prod, ((L.filter fun c => c ∉ C) ++ R.filter fun c => c ∉ C).map dims⟩,
        ⟨out.map fun c => pos c ((L.filter fun c => c ∉ C) ++ R.filter fun c => c ∉ C)⟩⟩ al l r = .ok w ∧
      Rep w out dims (sumOver dims C fun σ => F σ * G σ) := by
  have pL := filter_append_perm_of hL hCn hCL
  have pR := List.perm_append_comm.trans (filter_append_perm_of hR hCn hCR)
  obtain ⟨l', l1, l2⟩ := hl.permute hL pL
  obtain ⟨r', r1, r2⟩ := hr.permute hR pR
  obtain ⟨t, h1, h2⟩ := l2.fixed r2 (pL.nodup_iff.2 hL) (pR.nodup_iff.2 hR) (al.sub 0)
  obtain ⟨w, h3, h4⟩ := h2.permutationRun hn po (al.sub 1)
  exact ⟨w, by simp only [TensordotGeneral.run, Permutation.view, l1, r1, h1, h3, bind_ok], h4⟩

/-- What `TensordotGeneral::new` stores; `C` lists the contracted labels. -/
theorem tensordotGeneral_new (hv : sc.Valid dims) (hops : sc.contraction.operandIndices = [L, R])
    (hL : L.Nodup) (hR : R.Nodup)
    (hLR : ∀ c ∈ L, c ∈ R ∨ c ∈ sc.contraction.outputIndices)
    (hRL : ∀ c ∈ R, c ∈ L ∨ c ∈ sc.contraction.outputIndices)
    (h0 : ∀ c ∈ L, c ∈ R → c ∉ sc.contraction.outputIndices) :
    ∃ C : List Char, (C.Pairwise (· < ·) ∧ C.Nodup ∧ (∀ c, c ∈ C ↔ (c ∈ L ∨ c ∈ R) ∧ c ∉ sc.contraction.outputIndices) ∧ (∀ c ∈ C, c ∈ L) ∧
      (∀ c ∈ C, c ∈ R) ∧ ((L.filter fun c => c ∉ C) ++ R.filter fun c => c ∉ C).Nodup ∧
      sc.contraction.outputIndices.Perm ((L.filter fun c => c ∉ C) ++ R.filter fun c => c ∉ C)) ∧
      PairOp.new sc .tensordotGeneral = .ok (.tensordotGeneral ⟨⟨((L.filter fun c => c ∉ C) ++ C).map fun c => pos c L⟩,
        ⟨(C ++ R.filter fun c => c ∉ C).map fun c => pos c R⟩,
        ⟨((L.filter fun c => c ∉ C).map dims).prod, ((R.filter fun c => c ∉ C).map dims).prod,
          (C.map dims).prod, ((L.filter fun c => c ∉ C) ++ R.filter fun c => c ∉ C).map dims⟩,
        ⟨sc.contraction.outputIndices.map fun c => pos c ((L.filter fun c => c ∉ C) ++ R.filter fun c => c ∉ C)⟩⟩) := by
  have hsub := hv.out_sub2 hops
  have hon := hv.out.1
  have hsum := hv.summation
  rw [hops] at hsum
  set out := sc.contraction.outputIndices with hO
  set C := summationOf [L, R] out with hC
  have mC : ∀ c, c ∈ C ↔ (c ∈ L ∨ c ∈ R) ∧ c ∉ out := fun c => by
    rw [hC, mem_summationOf]; simp [List.mem_append]
  have hCn : C.Nodup := summationOf_nodup _ _
  have hCL : ∀ c ∈ C, c ∈ L := fun c hc => by
    obtain ⟨h | h, h'⟩ := (mC c).1 hc
    · exact h
    · exact (hRL c h).resolve_right h'
  have hCR : ∀ c ∈ C, c ∈ R := fun c hc => by
    obtain ⟨h | h, h'⟩ := (mC c).1 hc
    · exact (hLR c h).resolve_right h'
    · exact h
  have fL : (L.filter fun c => (position c out).isSome) = L.filter fun c => c ∉ C := by
    apply List.filter_congr
    intro c hc
    rw [position_isSome, decide_eq_decide, mC]
    simp [hc]
  have fR : (R.filter fun c => (position c out).isSome) = R.filter fun c => c ∉ C := by
    apply List.filter_congr
    intro c hc
    rw [position_isSome, decide_eq_decide, mC]
    simp [hc]
  have hn : ((L.filter fun c => c ∉ C) ++ R.filter fun c => c ∉ C).Nodup := by
    rw [List.nodup_append]
    refine ⟨hL.filter _, hR.filter _, fun a ha b hb => ?_⟩
    rintro rfl
    rw [← fL, List.mem_filter, position_isSome, decide_eq_true_eq] at ha
    exact h0 a ha.1 (List.mem_filter.1 hb).1 ha.2
  have po : out.Perm ((L.filter fun c => c ∉ C) ++ R.filter fun c => c ∉ C) := by
    refine perm_of_nodup hon hn fun c => ?_
    rw [← fL, ← fR]
    simp only [List.mem_append, List.mem_filter, position_isSome, decide_eq_true_eq]
    constructor
    · intro h
      rcases hsub c h with h' | h'
      · exact .inl ⟨h', h⟩
      · exact .inr ⟨h', h⟩
    · rintro (h | h) <;> exact h.2
  refine ⟨C, ⟨summationOf_sorted _ _, hCn, mC, hCL, hCR, hn, po⟩, ?_⟩
  simp only [PairOp.new, TensordotGeneral.new]
  rw [hops]
  simp only [List.length_cons, List.length_nil, Nat.zero_add, Nat.reduceAdd, decide_true,
    assertThat_true, bind_ok, index_cons_zero, index_one]
  rw [sizesOf_ok hv (l := L) (by rw [hops]; intro c hc; simp [hc]), bind_ok,
    sizesOf_ok hv (l := R) (by rw [hops]; intro c hc; simp [hc]), bind_ok, hsum, ← hO]
  unfold TensordotGeneral.fromShapesAndIndices
  rw [find_ok hL hCL, bind_ok, find_ok hR hCR, bind_ok]
  simp only []
  rw [fL, fR, find_ok hn fun c hc => po.mem_iff.1 hc, bind_ok,
    fromAxisNumbers_ok hL hR hCn hCL hCR]
  rfl

theorem tensordotGeneral_ok (hv : sc.Valid dims) (hops : sc.contraction.operandIndices = [L, R])
    (hL : L.Nodup) (hR : R.Nodup)
    (hLR : ∀ c ∈ L, c ∈ R ∨ c ∈ sc.contraction.outputIndices)
    (hRL : ∀ c ∈ R, c ∈ L ∨ c ∈ sc.contraction.outputIndices)
    (h0 : ∀ c ∈ L, c ∈ R → c ∉ sc.contraction.outputIndices) :
    ∃ op, PairOp.new sc .tensordotGeneral = .ok op ∧
      op.Computes false dims L R sc.contraction.outputIndices := by
  obtain ⟨C, ⟨-, hCn, mC, hCL, hCR, hn, po⟩, hnew⟩ := tensordotGeneral_new hv hops hL hR hLR hRL h0
  refine ⟨_, hnew, fun A _ al l r F G hl hr => ?_⟩
  obtain ⟨w, h1, h2⟩ := hl.tensordot hr hL hR hCn hCL hCR hn po al
  refine ⟨w, h1, ?_⟩
  rw [← sumOver_summed (S := C) hCn]
  · exact h2
  · intro c; simpa using mC c

/-! ### Stacked tensordot -/

theorem zip_maybe (out L R : List Char) :
    ((out.map fun c => position c L).zip (out.map fun c => position c R)).zip out =
      out.map fun c => ((position c L, position c R), c) := by
  induction out with
  | nil => rfl
  | cons c out ih => simp [ih]

theorem stackClassify_ok (hv : sc.Valid dims) (hops : sc.contraction.operandIndices = [L, R])
    (out : List Char) (hs : ∀ c ∈ out, c ∈ L ∨ c ∈ R) (acc : StackAcc) :
    stackClassify sc (out.map fun c => ((position c L, position c R), c)) acc = .ok
      { lhsStackAxes := acc.lhsStackAxes ++ (out.filter fun c => c ∈ L ∧ c ∈ R).map fun c => pos c L
        rhsStackAxes := acc.rhsStackAxes ++ (out.filter fun c => c ∈ L ∧ c ∈ R).map fun c => pos c R
        stackIndices := acc.stackIndices ++ out.filter fun c => c ∈ L ∧ c ∈ R
        stackLen := acc.stackLen * ((out.filter fun c => c ∈ L ∧ c ∈ R).map dims).prod
        lhsOuterAxes := acc.lhsOuterAxes ++ (out.filter fun c => c ∈ L ∧ c ∉ R).map fun c => pos c L
        lhsOuterIndices := acc.lhsOuterIndices ++ out.filter fun c => c ∈ L ∧ c ∉ R
        lhsUncontractedShape := acc.lhsUncontractedShape ++ (out.filter fun c => c ∈ L ∧ c ∉ R).map dims
        rhsOuterAxes := acc.rhsOuterAxes ++ (out.filter fun c => c ∉ L ∧ c ∈ R).map fun c => pos c R
        rhsOuterIndices := acc.rhsOuterIndices ++ out.filter fun c => c ∉ L ∧ c ∈ R
        rhsUncontractedShape := acc.rhsUncontractedShape ++
          (out.filter fun c => c ∉ L ∧ c ∈ R).map dims } := by
  induction out generalizing acc with
  | nil => simp [stackClassify]
  | cons c out ih =>
    have hsz : sc.outputSize.get c = .ok (dims c) := by
      have : c ∈ sc.contraction.operandIndices.flatten := by
        rw [hops]; simpa using hs c (by simp)
      simp [OutputSize.get, hv.size c this]
    have ih := fun acc => ih (fun d hd => hs d (by simp [hd])) acc
    by_cases hcL : c ∈ L <;> by_cases hcR : c ∈ R
    · simp only [List.map_cons, position_of_mem hcL, position_of_mem hcR, stackClassify, hsz, bind_ok]
      rw [ih]
      simp [hcL, hcR, Nat.mul_assoc]
    · simp only [List.map_cons, position_of_mem hcL, position_eq_none.2 hcR, stackClassify, hsz, bind_ok]
      rw [ih]
      simp [hcL, hcR]
    · simp only [List.map_cons, position_of_mem hcR, position_eq_none.2 hcL, stackClassify, hsz, bind_ok]
      rw [ih]
      simp [hcL, hcR]
    · exact absurd (hs c (by simp)) (by simp [hcL, hcR])

theorem stackContracted_ok (hv : sc.Valid dims) (hops : sc.contraction.operandIndices = [L, R])
    (out : List Char) (hL : L.Nodup) (cs pre : List Char) (he : L = pre ++ cs)
    (hR : ∀ c ∈ cs, c ∉ out → c ∈ R) :
    stackContracted sc R out pre.length cs = .ok ((cs.filter fun c => c ∉ out).map fun c => pos c L,
      (cs.filter fun c => c ∉ out).map fun c => pos c R, (cs.filter fun c => c ∉ out).map dims) := by
  induction cs generalizing pre with
  | nil => simp [stackContracted]
  | cons c cs ih =>
    have ih := ih (pre ++ [c]) (by simp [he]) fun d hd => hR d (by simp [hd])
    rw [List.length_append, List.length_singleton] at ih
    by_cases hc : c ∈ out
    · simp only [stackContracted, position_of_mem hc]
      rw [ih]
      simp [hc]
    · have hcR := hR c (by simp) hc
      have hsz : sc.outputSize.get c = .ok (dims c) := by
        have : c ∈ sc.contraction.operandIndices.flatten := by
          rw [hops, he]; simp
        simp [OutputSize.get, hv.size c this]
      have hp : pos c L = pre.length := by
        have := pos_getElem hL (i := pre.length) (by rw [he]; simp)
        simpa [he] using this
      simp only [stackContracted, position_eq_none.2 hc, position_of_mem hcR, unwrapO_some, bind_ok, hsz]
      rw [ih]
      simp [hc, hp]

/-- What `StackedTensordotGeneral::new` stores. -/
theorem stackedGeneral_new (hv : sc.Valid dims) (hops : sc.contraction.operandIndices = [L, R])
    (hL : L.Nodup) (hR : R.Nodup)
    (hLR : ∀ c ∈ L, c ∈ R ∨ c ∈ sc.contraction.outputIndices)
    (hRL : ∀ c ∈ R, c ∈ L ∨ c ∈ sc.contraction.outputIndices) :
    ∃ S U V C : List Char, (S = (sc.contraction.outputIndices.filter fun c => c ∈ L ∧ c ∈ R) ∧
      U = (sc.contraction.outputIndices.filter fun c => c ∈ L ∧ c ∉ R) ∧
      V = (sc.contraction.outputIndices.filter fun c => c ∉ L ∧ c ∈ R) ∧
      C = L.filter fun c => c ∉ sc.contraction.outputIndices) ∧
      ((S ++ (U ++ C)).Perm L ∧ (S ++ (C ++ V)).Perm R ∧ sc.contraction.outputIndices.Perm (S ++ (U ++ V)) ∧
        (S ++ (U ++ V)).Nodup ∧ C.Nodup) ∧
      PairOp.new sc .stackedTensordotGeneral = .ok (.stackedTensordotGeneral
        ⟨⟨(S ++ (U ++ C)).map fun c => pos c L⟩, ⟨(S ++ (C ++ V)).map fun c => pos c R⟩,
          (S.map dims).prod :: (U ++ C).map dims, (S.map dims).prod :: (C ++ V).map dims,
          (S.map dims).prod :: (U ++ V).map dims,
          ⟨(U.map dims).prod, (V.map dims).prod, (C.map dims).prod, (U ++ V).map dims⟩,
          (S ++ (U ++ V)).map dims, ⟨sc.contraction.outputIndices.map fun c => pos c (S ++ (U ++ V))⟩⟩) := by
  have hsub := hv.out_sub2 hops
  have hon := hv.out.1
  set out := sc.contraction.outputIndices with hO
  set S := out.filter fun c => c ∈ L ∧ c ∈ R with hS
  set U := out.filter fun c => c ∈ L ∧ c ∉ R with hU
  set V := out.filter fun c => c ∉ L ∧ c ∈ R with hV
  set C := L.filter fun c => c ∉ out with hC
  have mS : ∀ c, c ∈ S ↔ c ∈ out ∧ c ∈ L ∧ c ∈ R := fun c => by simp [hS]
  have mU : ∀ c, c ∈ U ↔ c ∈ out ∧ c ∈ L ∧ c ∉ R := fun c => by simp [hU]
  have mV : ∀ c, c ∈ V ↔ c ∈ out ∧ c ∉ L ∧ c ∈ R := fun c => by simp [hV]
  have mC : ∀ c, c ∈ C ↔ c ∈ L ∧ c ∉ out := fun c => by simp [hC]
  have nS : S.Nodup := hon.filter _
  have nU : U.Nodup := hon.filter _
  have nV : V.Nodup := hon.filter _
  have nC : C.Nodup := hL.filter _
  have pL : (S ++ (U ++ C)).Perm L := by
    refine perm_of_nodup ?_ hL fun c => ?_
    · rw [List.nodup_append, List.nodup_append]
      refine ⟨nS, ⟨nU, nC, ?_⟩, ?_⟩
      · rintro a ha b hb rfl
        exact ((mC a).1 hb).2 ((mU a).1 ha).1
      · rintro a ha b hb rfl
        rcases List.mem_append.1 hb with h | h
        · exact ((mU a).1 h).2.2 ((mS a).1 ha).2.2
        · exact ((mC a).1 h).2 ((mS a).1 ha).1
    · simp only [List.mem_append, mS, mU, mC]
      tauto
  have pR : (S ++ (C ++ V)).Perm R := by
    refine perm_of_nodup ?_ hR fun c => ?_
    · rw [List.nodup_append, List.nodup_append]
      refine ⟨nS, ⟨nC, nV, ?_⟩, ?_⟩
      · rintro a ha b hb rfl
        exact ((mC a).1 ha).2 ((mV a).1 hb).1
      · rintro a ha b hb rfl
        rcases List.mem_append.1 hb with h | h
        · exact ((mC a).1 h).2 ((mS a).1 ha).1
        · exact ((mV a).1 h).2.1 ((mS a).1 ha).2.1
    · simp only [List.mem_append, mS, mV, mC]
      have := hLR c
      have := hRL c
      tauto
  have hn : (S ++ (U ++ V)).Nodup := by
    rw [List.nodup_append, List.nodup_append]
    refine ⟨nS, ⟨nU, nV, ?_⟩, ?_⟩
    · rintro a ha b hb rfl
      exact ((mV a).1 hb).2.1 ((mU a).1 ha).2.1
    · rintro a ha b hb rfl
      rcases List.mem_append.1 hb with h | h
      · exact ((mU a).1 h).2.2 ((mS a).1 ha).2.2
      · exact ((mV a).1 h).2.1 ((mS a).1 ha).2.1
  have po : out.Perm (S ++ (U ++ V)) := by
    refine perm_of_nodup hon hn fun c => ?_
    simp only [List.mem_append, mS, mU, mV]
    have := hsub c
    tauto
  have usedS : ∀ l : List Char, (∀ c ∈ l, c ∈ L ∨ c ∈ R) → sizesOf sc l = .ok (l.map dims) :=
    fun l hl => sizesOf_ok hv fun c hc => by rw [hops]; simpa using hl c hc
  refine ⟨S, U, V, C, ⟨rfl, rfl, rfl, rfl⟩, ⟨pL, pR, po, hn, nC⟩, ?_⟩
  simp only [PairOp.new, StackedTensordotGeneral.new]
  rw [hops]
  simp only [List.length_cons, List.length_nil, Nat.zero_add, Nat.reduceAdd, decide_true,
    assertThat_true, bind_ok, index_cons_zero, index_one]
  rw [← hO, maybeFind_ok hL, bind_ok, maybeFind_ok hR, bind_ok, zip_maybe,
    stackClassify_ok hv hops out hsub, bind_ok]
  have hcon := stackContracted_ok hv hops out hL L [] rfl fun c hc hco =>
    (hLR c hc).resolve_right hco
  simp only [List.length_nil] at hcon
  rw [hcon, bind_ok]
  simp only [List.nil_append, ← hS, ← hU, ← hV, ← hC, Nat.one_mul]
  rw [usedS U fun c hc => .inl ((mU c).1 hc).2.1, bind_ok,
    usedS V fun c hc => .inr ((mV c).1 hc).2.2, bind_ok, List.append_assoc, find_ok hn fun c hc => po.mem_iff.1 hc,
    bind_ok, usedS _ fun c hc => hsub c (po.mem_iff.2 hc), bind_ok]
  simp only [List.tail_cons]
  rw [fromShapes_split (by simp) (by simp)]
  simp

theorem stackedGeneral_ok (hv : sc.Valid dims) (hops : sc.contraction.operandIndices = [L, R])
    (hL : L.Nodup) (hR : R.Nodup)
    (hLR : ∀ c ∈ L, c ∈ R ∨ c ∈ sc.contraction.outputIndices)
    (hRL : ∀ c ∈ R, c ∈ L ∨ c ∈ sc.contraction.outputIndices) :
    ∃ op, PairOp.new sc .stackedTensordotGeneral = .ok op ∧
      op.Computes false dims L R sc.contraction.outputIndices := by
  obtain ⟨S, U, V, C, ⟨-, -, -, hC⟩, ⟨pL, pR, po, hn, nC⟩, hnew⟩ := stackedGeneral_new hv hops hL hR hLR hRL
  refine ⟨_, hnew, fun A _ al l r F G hl hr => ?_⟩
  obtain ⟨w, h1, h2⟩ := hl.stacked hr hL hR pL pR po hn al
  refine ⟨w, h1, ?_⟩
  rw [← sumOver_summed (S := C) nC]
  · exact h2
  · intro c
    simp only [List.flatten_cons, List.flatten_nil, List.append_nil, List.mem_append, hC, List.mem_filter,
      decide_eq_true_eq]
    have := hRL c
    tauto

end new

end Einsum
