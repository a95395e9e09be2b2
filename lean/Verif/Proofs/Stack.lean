import Verif.Proofs.Singleton

/-! # Execution of the stacked contraction -/

namespace Einsum

open Spec Function

/-- Merging leading axes. -/
theorem unravel_merge {s t a b : List Nat} (ha : InB s a) (hb : InB t b) :
    unravel (s.prod :: t) (ravel (s ++ t) (a ++ b)) = ravel s a :: b := by
  have h : InB (s.prod :: t) (ravel s a :: b) := ⟨ravel_lt ha, hb⟩
  rw [ravel_append ha.length_eq, ← ravel_cons s.prod, unravel_ravel h]

/-- Splitting a leading axis. -/
theorem unravel_split {s t b : List Nat} {i : Nat} (hi : i < s.prod) (hb : InB t b) :
    unravel (s ++ t) (ravel (s.prod :: t) (i :: b)) = unravel s i ++ b := by
  have h1 := InB_unravel hi
  have h : InB (s ++ t) (unravel s i ++ b) := (InB_append h1.length_eq).2 ⟨h1, hb⟩
  rw [← unravel_ravel h, ravel_append h1.length_eq, ravel_unravel hi, ravel_cons]

section
variable {A : Type}

theorem stackLoop_spec [Zero A] [Add A] [Mul A] [MulAdd A] (fixed : TensordotFixedPosition) (al : Alloc A) (sub : List Nat)
    (lf rf : Nat → View A) (T : Nat → List Nat → A) (n : Nat)
    (hrun : ∀ i < n, ∃ w, fixed.run (al.sub i) (lf i) (rf i) = .ok w ∧ Holds w sub (T i))
    (k i : Nat) (hk : i + k = n) (buf : List A) (hb : buf.length = n * sub.prod) :
    stackLoop fixed al sub sub.prod i k ((List.range' i k).map lf) ((List.range' i k).map rf) buf =
      .ok (buf.take (i * sub.prod) ++ (List.range' i k).flatMap fun j => (allIdx sub).map (T j)) := by
  induction k generalizing i buf with
  | zero =>
    have : i = n := by omega
    subst this
    simp [stackLoop, List.take_of_length_le (Nat.le_of_eq hb)]
  | succ k ih =>
    obtain ⟨w, h1, h2⟩ := hrun i (by omega)
    obtain ⟨w', h3, h4⟩ := h2.broadcast_self
    have hlen : ((allIdx sub).map (T i)).length = sub.prod := by simp [allIdx_length]
    have hi : i * sub.prod ≤ buf.length := by
      rw [hb]; exact Nat.mul_le_mul_right _ (by omega)
    have hi1 : (i + 1) * sub.prod ≤ buf.length := by
      rw [hb]; exact Nat.mul_le_mul_right _ (by omega)
    have hi2 : (i + 1) * sub.prod = i * sub.prod + sub.prod := Nat.succ_mul _ _
    simp only [List.range'_succ, List.map_cons, stackLoop, List.head?_cons, List.tail_cons]
    simp only [unwrapO_some, bind_ok, h1, h3, h4.toVec]
    rw [ih (i + 1) (by omega)]
    · rw [List.take_append_of_le_length, List.take_of_length_le]
      · simp
      · simp [hlen, hi2]
      · simp only [List.length_append, List.length_take, hlen]
        omega
    · simp only [List.length_append, List.length_take, hlen, List.length_drop]
      omega

variable {ι : Type} [DecidableEq ι] {dims : ι → Nat}

/-- The slices of a permuted and merged operand. -/
theorem Rep.slices {v : View A} {S W L : List ι} {F : (ι → Nat) → A} (h : Rep v L dims F) (hn : L.Nodup)
    (hp : (S ++ W).Perm L) :
    ∃ p, v.permutedAxes ((S ++ W).map fun c => pos c L) = .ok p ∧ ∃ d, p.toVec = .ok d ∧
      ∃ re, fromShapeVec ((S.map dims).prod :: W.map dims) d = some re ∧
        ∃ ls : Nat → View A, re.outerIter = .ok ((List.range (S.map dims).prod).map ls) ∧
          ∀ i < (S.map dims).prod, Rep (ls i) W dims fun σ =>
            F (assign (S ++ W) (unravel (S.map dims) i ++ W.map σ)) := by
  obtain ⟨p, h1, h2⟩ := h.permute hn hp
  have h3 := h2.holds (hp.nodup_iff.2 hn)
  obtain ⟨re, h4, -, h6⟩ := fromShapeVec_map (s := (S ++ W).map dims)
    (s' := (S.map dims).prod :: W.map dims) (by simp)
    (fun idx => F (assign (S ++ W) idx))
  obtain ⟨ls, h7, h8⟩ := h6.outerIter
  refine ⟨p, h1, _, h3.toVec, re, h4, ls, h7, fun i hi => .of_holds (h8 i hi) fun σ hσ => ?_⟩
  simp only [List.map_append]
  rw [unravel_split hi (inB_of_inRange hσ)]

theorem Rep.stacked [Semiring A] {l r : View A} {L R S U V C out : List ι} {F G : (ι → Nat) → A}
    (hl : Rep l L dims F) (hr : Rep r R dims G) (hLn : L.Nodup) (hRn : R.Nodup)
    (pL : (S ++ (U ++ C)).Perm L) (pR : (S ++ (C ++ V)).Perm R) (po : out.Perm (S ++ (U ++ V)))
    (hn : (S ++ (U ++ V)).Nodup) (al : Alloc A) :
    ∃ w, StackedTensordotGeneral.run
        ⟨⟨(S ++ (U ++ C)).map fun c => pos c L⟩, ⟨(S ++ (C ++ V)).map fun c => pos c R⟩,
          (S.map dims).prod :: (U ++ C).map dims, (S.map dims).prod :: (C ++ V).map dims,
          (S.map dims).prod :: (U ++ V).map dims,
          ⟨(U.map dims).prod, (V.map dims).prod, (C.map dims).prod, (U ++ V).map dims⟩,
          (S ++ (U ++ V)).map dims, ⟨out.map fun c => pos c (S ++ (U ++ V))⟩⟩ al l r = .ok w ∧
      Rep w out dims (sumOver dims C fun σ => F σ * G σ) := by
  obtain ⟨lp, l1, ld, l2, lre, l3, ls, l4, l5⟩ := hl.slices hLn pL
  obtain ⟨rp, r1, rd, r2, rre, r3, rs, r4, r5⟩ := hr.slices hRn pR
  have nL := List.nodup_append.1 (pL.nodup_iff.2 hLn)
  have nR := List.nodup_append.1 (pR.nodup_iff.2 hRn)
  have nUV := List.nodup_append.1 hn
  set f : TensordotFixedPosition :=
    ⟨(U.map dims).prod, (V.map dims).prod, (C.map dims).prod, (U ++ V).map dims⟩ with hf
  set n := (S.map dims).prod with hnn
  set sub := (U ++ V).map dims with hsub
  let H : Nat → (ι → Nat) → A := fun i => sumOver dims C fun σ =>
    F (assign (S ++ (U ++ C)) (unravel (S.map dims) i ++ (U ++ C).map σ)) *
    G (assign (S ++ (C ++ V)) (unravel (S.map dims) i ++ (C ++ V).map σ))
  have hrep : ∀ i < n, ∃ w, f.run ((al.sub 0).sub i) (ls i) (rs i) = .ok w ∧ Rep w (U ++ V) dims (H i) := by
    intro i hi
    obtain ⟨w, h1, h2⟩ := (l5 i hi).fixed (r5 i hi) nL.2.1 nR.2.1 ((al.sub 0).sub i)
    exact ⟨w, h1, h2⟩
  have hrun : ∀ i < n, ∃ w, f.run ((al.sub 0).sub i) (ls i) (rs i) = .ok w ∧
      Holds w sub (fun idx => H i (assign (U ++ V) idx)) := by
    intro i hi
    obtain ⟨w, h1, h2⟩ := hrep i hi
    exact ⟨w, h1, h2.holds nUV.2.1⟩
  have hloop := stackLoop_spec f (al.sub 0) sub ls rs (fun i idx => H i (assign (U ++ V) idx)) n hrun n 0 (by omega)
    (List.replicate (n * sub.prod) 0) (by simp)
  rw [← List.range_eq_range'] at hloop
  simp only [Nat.zero_mul, List.take_zero, List.nil_append] at hloop
  let T : List Nat → A := fun idx => H (idx.headD 0) (assign (U ++ V) idx.tail)
  have hbuf : ((List.range n).flatMap fun j => (allIdx sub).map fun idx => H j (assign (U ++ V) idx)) =
      (allIdx (n :: sub)).map T := by
    rw [allIdx, List.map_flatMap]
    simp [T, Function.comp_def]
  rw [hbuf] at hloop
  have hint : Holds ⟨(allIdx (n :: sub)).map T, 0, n :: sub, defaultStrides (n :: sub)⟩ (n :: sub) T :=
    holds_of_buf fun k hk => map_allIdx_getElem? hk
  obtain ⟨res, h1, -, h2⟩ := hint.intoShape (s' := (S ++ (U ++ V)).map dims)
    (isStandard_default _) (by simp [hnn, hsub])
  have hres : Rep res (S ++ (U ++ V)) dims (sumOver dims C fun σ => F σ * G σ) := by
    refine .of_holds h2 fun σ hσ => ?_
    have hS : InRange dims S σ := fun c hc => hσ c (by simp [hc])
    have hUV : InRange dims (U ++ V) σ := fun c hc => hσ c (List.mem_append_right _ hc)
    rw [List.map_append (l₁ := S), List.map_append (l₁ := S), hsub, hnn,
      unravel_merge (inB_of_inRange hS) (inB_of_inRange hUV)]
    simp only [T, List.headD_cons, List.tail_cons]
    obtain ⟨w, -, hw⟩ := hrep _ (ravel_lt (inB_of_inRange hS))
    rw [hw.agree_assign hUV]
    simp only [H]
    rw [unravel_ravel (inB_of_inRange hS)]
    have dCL : ∀ c ∈ S ++ U, c ∉ C := by
      have h3 := List.nodup_append.1 (show ((S ++ U) ++ C).Nodup by
        rw [List.append_assoc]; exact pL.nodup_iff.2 hLn)
      exact fun c hc hc' => h3.2.2 c hc c hc' rfl
    have dCV : ∀ c ∈ V, c ∉ C := fun c hc hc' =>
      (List.nodup_append.1 nR.2.1).2.2 c hc' c hc rfl
    apply sumOver_congr
    intro σ' h4 h5
    have eS : S.map σ = S.map σ' :=
      List.map_congr_left fun c hc => (h4 c (dCL c (by simp [hc]))).symm
    have hin : ∀ c ∈ S ++ (U ++ (C ++ V)), σ' c < dims c := by
      intro c hc
      by_cases hcC : c ∈ C
      · exact h5 c hcC
      · rw [h4 c hcC]
        simp only [List.mem_append] at hc
        apply hσ
        simp only [List.mem_append]
        tauto
    have a1 : F (assign (S ++ (U ++ C)) ((S ++ (U ++ C)).map σ')) = F σ' := by
      have hl' : Rep lp (S ++ (U ++ C)) dims F := by
        obtain ⟨p, hp1, hp2⟩ := hl.permute hLn pL
        rw [l1] at hp1; cases hp1; exact hp2
      apply hl'.agree_assign
      intro c hc
      apply hin
      simp only [List.mem_append] at hc ⊢
      tauto
    have a2 : G (assign (S ++ (C ++ V)) ((S ++ (C ++ V)).map σ')) = G σ' := by
      have hr' : Rep rp (S ++ (C ++ V)) dims G := by
        obtain ⟨p, hp1, hp2⟩ := hr.permute hRn pR
        rw [r1] at hp1; cases hp1; exact hp2
      apply hr'.agree_assign
      intro c hc
      apply hin
      simp only [List.mem_append] at hc ⊢
      tauto
    rw [eS, ← List.map_append, ← List.map_append, a1, a2]
  obtain ⟨w, h3, h4⟩ := hres.permutationRun hn po (al.sub 1)
  refine ⟨w, ?_, h4⟩
  unfold StackedTensordotGeneral.run
  simp only [Permutation.view, l1, l2, l3, r1, r2, r3, l4, r4, bind_ok, hloop, h1, h3]

end

end Einsum
