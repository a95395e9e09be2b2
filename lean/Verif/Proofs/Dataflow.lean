import Verif.SpecFlow
import Verif.Proofs.Stack
import Verif.Proofs.Pair

/-!
# The matrix product and the contractions built on it, operation by operation

As `Holds.dot`, `Rep.fixed`, `Rep.tensordot` and `Rep.stacked`, without laws for the elements: the products are listed in
row-major order of the contracted labels and added by the tree that the allocator gives.
-/

namespace Einsum

open Spec Function

section
variable {ι : Type} [DecidableEq ι] {dims : ι → Nat}

omit [DecidableEq ι] in
theorem rank_eq (U : List ι) (σ : ι → Nat) : rank dims U σ = ravel (U.map dims) (U.map σ) := by
  induction U with
  | nil => rfl
  | cons c U ih => simp [rank, ih]

theorem mem_cells {C : List ι} {σ σ' : ι → Nat} (h : σ' ∈ cells dims C σ) (hn : C.Nodup) :
    (∀ c, c ∉ C → σ' c = σ c) ∧ ∀ c ∈ C, σ' c < dims c := by
  induction C generalizing σ with
  | nil =>
    simp only [cells, List.mem_singleton] at h
    subst h
    simp
  | cons c C ih =>
    simp only [cells, List.mem_flatMap, List.mem_range] at h
    obtain ⟨k, hk, h⟩ := h
    obtain ⟨h1, h2⟩ := ih h (List.nodup_cons.1 hn).2
    refine ⟨fun d hd => ?_, fun d hd => ?_⟩
    · simp only [List.mem_cons, not_or] at hd
      rw [h1 d hd.2, update_of_ne hd.1]
    · rcases List.mem_cons.1 hd with rfl | hd
      · rw [h1 d (List.nodup_cons.1 hn).1, update_self]
        exact hk
      · exact h2 d hd

theorem map_cells {C : List ι} (hn : C.Nodup) (σ : ι → Nat) :
    (cells dims C σ).map (fun σ' => C.map σ') = allIdx (C.map dims) := by
  induction C generalizing σ with
  | nil => rfl
  | cons c C ih =>
    obtain ⟨h1, h2⟩ := List.nodup_cons.1 hn
    simp only [cells, List.map_flatMap, List.map_cons, allIdx]
    refine List.flatMap_congr fun k hk => ?_
    rw [← ih h2 (update σ c k), List.map_map]
    refine List.map_congr_left fun σ' hσ' => ?_
    simp only [Function.comp]
    rw [(mem_cells hσ' h2).1 c h1, update_self]

theorem unravel_cells {α : Type} {C : List ι} (hn : C.Nodup) (σ : ι → Nat) (f : List Nat → α) :
    ((List.range (C.map dims).prod).map fun x => f (unravel (C.map dims) x)) =
      (cells dims C σ).map fun σ' => f (C.map σ') := by
  have := congrArg (List.map f) (map_cells (dims := dims) hn σ)
  rw [allIdx_eq, List.map_map, List.map_map] at this
  exact this.symm

end

section
variable {A : Type} [Zero A] [Add A] [Mul A] [MulAdd A]

/-- Element `(i, j)` of the matrix product, added by the given tree. -/
def dotTree (al : Alloc A) (k : Nat) (P Q : List Nat → A) (i j : Nat) : A :=
  (al.sumOrder [i, j] k).dot ((List.range k).map fun x => (P [i, x], Q [x, j]))

theorem dot_tree_ok (al : Alloc A) {l r : View A} {m k n : Nat} {P Q : List Nat → A}
    (hl : Holds l [m, k] P) (hr : Holds r [k, n] Q) {i j : Nat} (hi : i < m) (hj : j < n) :
    (do
      let ps ← mapE (fun x => do
          let a ← l.read [i, x]
          let b ← r.read [x, j]
          return (a, b))
        (List.range k)
      return (al.sumOrder [i, j] k).dot ps : M A) = .ok (dotTree al k P Q i j) := by
  rw [mapE_ok (g := fun x => (P [i, x], Q [x, j]))]
  · rfl
  · intro x hx
    have hx : x < k := by simpa using hx
    rw [hl.get [i, x] ⟨hi, hx, trivial⟩, hr.get [x, j] ⟨hx, hj, trivial⟩]
    rfl

theorem Holds.dotT {l r : View A} {m k n : Nat} {P Q : List Nat → A}
    (hl : Holds l [m, k] P) (hr : Holds r [k, n] Q) (al : Alloc A) :
    ∃ w, l.dot al r = .ok w ∧
      Holds w [m, n] (fun idx => dotTree al k P Q (idx.getD 0 0) (idx.getD 1 0)) ∧
      (l.strides = defaultStrides [m, k] → r.strides = defaultStrides [k, n] →
        w.isStandardLayout = true) := by
  unfold View.dot
  simp only [hl.shape, hr.shape, if_true]
  by_cases hcm : l.strides[0]? = some 1 ∧ r.strides[0]? = some 1
  · simp only [hcm, and_self, if_true]
    rw [mapE_ok (g := fun ji : List Nat => dotTree al k P Q (ji.getD 1 0) (ji.getD 0 0))]
    · refine ⟨_, rfl, ?_, ?_⟩
      · refine Holds.of_readAt rfl (fortranStrides_length _) fun idx hi => ?_
        obtain ⟨i, j, rfl, h1, h2⟩ := InB_two hi
        have hin : InB [n, m] [j, i] := ⟨h2, h1, trivial⟩
        simp only [Int.zero_add]
        have e : dotI (fortranStrides [m, n]) [i, j] = ((ravel [n, m] [j, i] : Nat) : Int) := by
          rw [fortranStrides, if_pos hi.all_ne]
          simp [preProds]
          ring
        rw [e, readAt_nat (map_allIdx_getElem? (ravel_lt hin)), unravel_ravel hin]
        rfl
      · intro hls hrs
        rw [hls, hrs] at hcm
        have hk : ∀ a b : Nat, (defaultStrides [a, b])[0]? = some 1 → b = 1 ∧ a ≠ 0 := by
          intro a b h
          by_cases hab : [a, b].all (· ≠ 0) = true
          · rw [defaultStrides, if_pos hab] at h
            simp [sufProds] at h hab
            exact ⟨by omega, hab.1⟩
          · rw [defaultStrides, if_neg hab] at h
            simp at h
        obtain ⟨_, hm⟩ := hk _ _ hcm.1
        obtain ⟨hn, _⟩ := hk _ _ hcm.2
        subst hn
        simp [View.isStandardLayout, isStandard, fortranStrides, defaultStrides, preProds, sufProds, hm]
    · intro ji hji
      obtain ⟨j, i, rfl, h1, h2⟩ := InB_two (mem_allIdx.1 hji)
      exact dot_tree_ok al hl hr h2 h1
  · rw [if_neg hcm]
    rw [mapE_ok (g := fun ij : List Nat => dotTree al k P Q (ij.getD 0 0) (ij.getD 1 0))]
    · refine ⟨_, rfl, ?_, ?_⟩
      · apply holds_of_buf
        intro p hp
        rw [map_allIdx_getElem? hp]
      · intro _ _
        exact isStandard_default _
    · intro ij hij
      obtain ⟨i, j, rfl, h1, h2⟩ := InB_two (mem_allIdx.1 hij)
      exact dot_tree_ok al hl hr h1 h2

/-- The contraction of `u ++ c` with `c' ++ v` where `c` and `c'` have equally many elements. -/
theorem Holds.fixedRunT {l r : View A} {u c c' v : List Nat} {T U}
    (hl : Holds l (u ++ c) T) (hr : Holds r (c' ++ v) U) (hc : c'.prod = c.prod) (al : Alloc A) :
    ∃ w T', TensordotFixedPosition.run ⟨u.prod, v.prod, c.prod, u ++ v⟩ al l r = .ok w ∧
      Holds w (u ++ v) T' ∧ ∀ a b, InB u a → InB v b →
        T' (a ++ b) = (al.sumOrder [ravel u a, ravel v b] c.prod).dot
          ((List.range c.prod).map fun x => (T (a ++ unravel c x), U (unravel c' x ++ b))) := by
  obtain ⟨lm, e1, s1, H1⟩ := hl.asMatrix (rows := u.prod) (cols := c.prod) (by simp)
  obtain ⟨rm, e2, s2, H2⟩ := hr.asMatrix (rows := c.prod) (cols := v.prod) (by simp [hc])
  obtain ⟨p, e3, H3, hst⟩ := H1.dotT H2 al
  obtain ⟨w, e4, _, H4⟩ := H3.intoShape (s' := u ++ v) (hst s1 s2) (by simp)
  refine ⟨w, _, by simp [TensordotFixedPosition.run, e1, e2, e3, e4], H4, fun a b ha hb => ?_⟩
  have hb' := ravel_lt hb
  have hab : ravel (u ++ v) (a ++ b) = ravel u a * v.prod + ravel v b := ravel_append ha.length_eq
  have hd : ravel (u ++ v) (a ++ b) / v.prod = ravel u a := by
    rw [hab, Nat.mul_comm, Nat.mul_add_div hb.pos, Nat.div_eq_of_lt hb', Nat.add_zero]
  have hm : ravel (u ++ v) (a ++ b) % v.prod = ravel v b := by
    rw [hab, Nat.mul_comm, Nat.mul_add_mod, Nat.mod_eq_of_lt hb']
  have e0 : (unravel [u.prod, v.prod] (ravel (u ++ v) (a ++ b))).getD 0 0 = ravel u a := by
    simp [unravel, hd]
  have e1 : (unravel [u.prod, v.prod] (ravel (u ++ v) (a ++ b))).getD 1 0 = ravel v b := by
    simp [unravel, hm]
  simp only [e0, e1, dotTree]
  congr 1
  refine List.map_congr_left fun x hx => ?_
  have hx : x < c.prod := by simpa using hx
  have k1 : ravel [u.prod, c.prod] [ravel u a, x] = ravel u a * c.prod + x := by simp
  have k2 : ravel [c.prod, v.prod] [x, ravel v b] = x * v.prod + ravel v b := by simp
  rw [k1, k2, unravel_append (ravel_lt ha) hx, unravel_append (hc ▸ hx) hb', unravel_ravel ha,
    unravel_ravel hb]

variable {ι : Type} [DecidableEq ι] {dims : ι → Nat}

/-- The fixed-position contraction of `U ++ C` with `C ++ V`. -/
theorem Rep.fixedT {l r : View A} {U C V : List ι} {F G}
    (hl : Rep l (U ++ C) dims F) (hr : Rep r (C ++ V) dims G)
    (hnl : (U ++ C).Nodup) (hnr : (C ++ V).Nodup) (al : Alloc A) :
    ∃ w, TensordotFixedPosition.run
        ⟨(U.map dims).prod, (V.map dims).prod, (C.map dims).prod, (U ++ V).map dims⟩ al l r = .ok w ∧
      Rep w (U ++ V) dims fun σ =>
        product (al.sumOrder [rank dims U σ, rank dims V σ] (C.map dims).prod) dims C F G σ := by
  have Hl := hl.holds hnl
  have Hr := hr.holds hnr
  rw [List.map_append] at Hl Hr
  obtain ⟨w, T', h1, h2, h3⟩ := Hl.fixedRunT Hr rfl al
  rw [← List.map_append] at h1 h2
  refine ⟨w, h1, .of_holds h2 fun σ hσ => ?_⟩
  have hU : InRange dims U σ := fun c hc => hσ c (by simp [hc])
  have hV : InRange dims V σ := fun c hc => hσ c (by simp [hc])
  rw [List.map_append, h3 _ _ (inB_of_inRange hU) (inB_of_inRange hV)]
  have hCn : C.Nodup := (List.nodup_append.1 hnr).1
  rw [rank_eq, rank_eq, product,
    unravel_cells hCn σ fun x => (F (assign (U ++ C) (U.map σ ++ x)), G (assign (C ++ V) (x ++ V.map σ)))]
  congr 1
  refine List.map_congr_left fun σ' hσ' => ?_
  obtain ⟨h4, h5⟩ := mem_cells hσ' hCn
  have dUC : ∀ c ∈ U, c ∉ C := fun c hc hc' => (List.nodup_append.1 hnl).2.2 c hc c hc' rfl
  have dVC : ∀ c ∈ V, c ∉ C := fun c hc hc' => (List.nodup_append.1 hnr).2.2 c hc' c hc rfl
  have eU : U.map σ = U.map σ' := List.map_congr_left fun c hc => (h4 c (dUC c hc)).symm
  have eV : V.map σ = V.map σ' := List.map_congr_left fun c hc => (h4 c (dVC c hc)).symm
  rw [eU, eV, ← List.map_append, ← List.map_append, hl.agree_assign, hr.agree_assign]
  · intro c hc
    rcases List.mem_append.1 hc with h | h
    · exact h5 c h
    · rw [h4 c (dVC c h)]; exact hV c h
  · intro c hc
    rcases List.mem_append.1 hc with h | h
    · rw [h4 c (dUC c h)]; exact hU c h
    · exact h5 c h

theorem Rep.stackedT {l r : View A} {L R S U V C out : List ι} {F G : (ι → Nat) → A}
    (hl : Rep l L dims F) (hr : Rep r R dims G) (hLn : L.Nodup) (hRn : R.Nodup)
    (pL : (S ++ (U ++ C)).Perm L) (pR : (S ++ (C ++ V)).Perm R) (po : out.Perm (S ++ (U ++ V)))
    (hn : (S ++ (U ++ V)).Nodup) (al : Alloc A) :
    ∃ w, StackedTensordotGeneral.run
        ⟨⟨(S ++ (U ++ C)).map fun c => pos c L⟩, ⟨(S ++ (C ++ V)).map fun c => pos c R⟩,
          (S.map dims).prod :: (U ++ C).map dims, (S.map dims).prod :: (C ++ V).map dims,
          (S.map dims).prod :: (U ++ V).map dims,
          ⟨(U.map dims).prod, (V.map dims).prod, (C.map dims).prod, (U ++ V).map dims⟩,
          (S ++ (U ++ V)).map dims, ⟨out.map fun c => pos c (S ++ (U ++ V))⟩⟩ al l r = .ok w ∧
      Rep w out dims fun σ => product
        (al.sumOrder [0, rank dims S σ, rank dims U σ, rank dims V σ] (C.map dims).prod) dims C F G σ := by
  obtain ⟨lp, l1, ld, l2, lre, l3, ls, l4, l5⟩ := hl.slices hLn pL
  obtain ⟨rp, r1, rd, r2, rre, r3, rs, r4, r5⟩ := hr.slices hRn pR
  have nL := List.nodup_append.1 (pL.nodup_iff.2 hLn)
  have nR := List.nodup_append.1 (pR.nodup_iff.2 hRn)
  have nUV := List.nodup_append.1 hn
  set f : TensordotFixedPosition :=
    ⟨(U.map dims).prod, (V.map dims).prod, (C.map dims).prod, (U ++ V).map dims⟩ with hf
  set n := (S.map dims).prod with hnn
  set sub := (U ++ V).map dims with hsub
  let H : Nat → (ι → Nat) → A := fun i σ => product
    (((al.sub 0).sub i).sumOrder [rank dims U σ, rank dims V σ] (C.map dims).prod) dims C
    (fun σ => F (assign (S ++ (U ++ C)) (unravel (S.map dims) i ++ (U ++ C).map σ)))
    (fun σ => G (assign (S ++ (C ++ V)) (unravel (S.map dims) i ++ (C ++ V).map σ))) σ
  have hrep : ∀ i < n, ∃ w, f.run ((al.sub 0).sub i) (ls i) (rs i) = .ok w ∧ Rep w (U ++ V) dims (H i) := by
    intro i hi
    obtain ⟨w, h1, h2⟩ := (l5 i hi).fixedT (r5 i hi) nL.2.1 nR.2.1 ((al.sub 0).sub i)
    exact ⟨w, h1, h2⟩
  have hrun : ∀ i < n, ∃ w, f.run ((al.sub 0).sub i) (ls i) (rs i) = .ok w ∧
      Holds w sub (fun idx => H i (assign (U ++ V) idx)) := by
    intro i hi
    obtain ⟨w, h1, h2⟩ := hrep i hi
    exact ⟨w, h1, h2.holds nUV.2.1⟩
  have hloop := stackLoop_spec f (al.sub 0) sub ls rs (fun i idx => H i (assign (U ++ V) idx)) n hrun n 0 (by omega)
    (List.replicate (n * sub.prod) 0) (by simp)
  rw [← List.range_eq_range'] at hloop
  simp only [Nat.zero_mul, List.take_zero, List.nil_append] at hloop
  let T : List Nat → A := fun idx => H (idx.headD 0) (assign (U ++ V) idx.tail)
  have hbuf : ((List.range n).flatMap fun j => (allIdx sub).map fun idx => H j (assign (U ++ V) idx)) =
      (allIdx (n :: sub)).map T := by
    rw [allIdx, List.map_flatMap]
    simp [T, Function.comp_def]
  rw [hbuf] at hloop
  have hint : Holds ⟨(allIdx (n :: sub)).map T, 0, n :: sub, defaultStrides (n :: sub)⟩ (n :: sub) T :=
    holds_of_buf fun k hk => map_allIdx_getElem? hk
  obtain ⟨res, h1, -, h2⟩ := hint.intoShape (s' := (S ++ (U ++ V)).map dims)
    (isStandard_default _) (by simp [hnn, hsub])
  have hres : Rep res (S ++ (U ++ V)) dims fun σ => product
      (al.sumOrder [0, rank dims S σ, rank dims U σ, rank dims V σ] (C.map dims).prod) dims C F G σ := by
    refine .of_holds h2 fun σ hσ => ?_
    have hS : InRange dims S σ := fun c hc => hσ c (by simp [hc])
    have hUV : InRange dims (U ++ V) σ := fun c hc => hσ c (List.mem_append_right _ hc)
    rw [List.map_append (l₁ := S), List.map_append (l₁ := S), hsub, hnn,
      unravel_merge (inB_of_inRange hS) (inB_of_inRange hUV)]
    simp only [T, List.headD_cons, List.tail_cons]
    obtain ⟨w, -, hw⟩ := hrep _ (ravel_lt (inB_of_inRange hS))
    rw [hw.agree_assign hUV]
    simp only [H]
    rw [unravel_ravel (inB_of_inRange hS), ← rank_eq S]
    have dCL : ∀ c ∈ S ++ U, c ∉ C := by
      have h3 := List.nodup_append.1 (show ((S ++ U) ++ C).Nodup by
        rw [List.append_assoc]; exact pL.nodup_iff.2 hLn)
      exact fun c hc hc' => h3.2.2 c hc c hc' rfl
    have dCV : ∀ c ∈ V, c ∉ C := fun c hc hc' =>
      (List.nodup_append.1 nR.2.1).2.2 c hc' c hc rfl
    have nC : C.Nodup := (List.nodup_append.1 nR.2.1).1
    show SumTree.dot _ (al.sumOrder _ _) = _
    unfold product
    congr 1
    refine List.map_congr_left fun σ' hσ' => ?_
    obtain ⟨h4, h5⟩ := mem_cells hσ' nC
    have eS : S.map σ = S.map σ' :=
      List.map_congr_left fun c hc => (h4 c (dCL c (by simp [hc]))).symm
    have hin : ∀ c ∈ S ++ (U ++ (C ++ V)), σ' c < dims c := by
      intro c hc
      by_cases hcC : c ∈ C
      · exact h5 c hcC
      · rw [h4 c hcC]
        simp only [List.mem_append] at hc
        apply hσ
        simp only [List.mem_append]
        tauto
    have a1 : F (assign (S ++ (U ++ C)) ((S ++ (U ++ C)).map σ')) = F σ' := by
      have hl' : Rep lp (S ++ (U ++ C)) dims F := by
        obtain ⟨p, hp1, hp2⟩ := hl.permute hLn pL
        rw [l1] at hp1; cases hp1; exact hp2
      apply hl'.agree_assign
      intro c hc
      apply hin
      simp only [List.mem_append] at hc ⊢
      tauto
    have a2 : G (assign (S ++ (C ++ V)) ((S ++ (C ++ V)).map σ')) = G σ' := by
      have hr' : Rep rp (S ++ (C ++ V)) dims G := by
        obtain ⟨p, hp1, hp2⟩ := hr.permute hRn pR
        rw [r1] at hp1; cases hp1; exact hp2
      apply hr'.agree_assign
      intro c hc
      apply hin
      simp only [List.mem_append] at hc ⊢
      tauto
    simp only [eS]
    rw [← List.map_append, ← List.map_append, a1, a2]
  obtain ⟨w, h3, h4⟩ := hres.permutationRun hn po (al.sub 1)
  refine ⟨w, ?_, h4⟩
  unfold StackedTensordotGeneral.run
  simp only [Permutation.view, l1, l2, l3, r1, r2, r3, l4, r4, bind_ok, hloop, h1, h3]

end

section
variable {A : Type} [Zero A] [Add A] [Mul A] [MulAdd A] {dims : Char → Nat}

theorem Rep.tensordotT {l r : View A} {L R C out : List Char}
    {F G : (Char → Nat) → A} (hl : Rep l L dims F) (hr : Rep r R dims G) (hL : L.Nodup) (hR : R.Nodup)
    (hCn : C.Nodup) (hCL : ∀ c ∈ C, c ∈ L) (hCR : ∀ c ∈ C, c ∈ R)
    (hn : ((L.filter fun c => c ∉ C) ++ R.filter fun c => c ∉ C).Nodup)
    (po : out.Perm ((L.filter fun c => c ∉ C) ++ R.filter fun c => c ∉ C)) (al : Alloc A) :
    ∃ w, TensordotGeneral.run ⟨⟨((L.filter fun c => c ∉ C) ++ C).map fun c => pos c L⟩,
        ⟨(C ++ R.filter fun c => c ∉ C).map fun c => pos c R⟩,
        ⟨((L.filter fun c => c ∉ C).map dims).prod, ((R.filter fun c => c ∉ C).map dims).prod,
          (C.map dims).prod, ((L.filter fun c => c ∉ C) ++ R.filter fun c => c ∉ C).map dims⟩,
        ⟨out.map fun c => pos c ((L.filter fun c => c ∉ C) ++ R.filter fun c => c ∉ C)⟩⟩ al l r = .ok w ∧
      Rep w out dims fun σ => product (al.sumOrder [0, rank dims (L.filter fun c => c ∉ C) σ,
        rank dims (R.filter fun c => c ∉ C) σ] (C.map dims).prod) dims C F G σ := by
  have pL := filter_append_perm_of hL hCn hCL
  have pR := List.perm_append_comm.trans (filter_append_perm_of hR hCn hCR)
  obtain ⟨l', l1, l2⟩ := hl.permute hL pL
  obtain ⟨r', r1, r2⟩ := hr.permute hR pR
  obtain ⟨t, h1, h2⟩ := l2.fixedT r2 (pL.nodup_iff.2 hL) (pR.nodup_iff.2 hR) (al.sub 0)
  obtain ⟨w, h3, h4⟩ := h2.permutationRun hn po (al.sub 1)
  exact ⟨w, by simp only [TensordotGeneral.run, Permutation.view, l1, r1, h1, h3, bind_ok], h4⟩

end

/-! ## One operand -/

section
variable {A : Type} [Zero A] [Add A] {ι : Type} [DecidableEq ι] {dims : ι → Nat}

theorem Holds.sumAxisT {v : View A} {s T} (h : Holds v s T) (al : Alloc A) {ax d : Nat} (hd : s[ax]? = some d) :
    ∃ w, v.sumAxis al ax = .ok w ∧ Holds w (s.eraseIdx ax) (fun idx =>
      (al.sumOrder idx d).sum ((List.range d).map fun k => T (idx.insertIdx ax k))) := by
  refine ⟨al.make [] (s.eraseIdx ax) ((allIdx (s.eraseIdx ax)).map fun idx =>
    (al.sumOrder idx d).sum ((List.range d).map fun k => T (idx.insertIdx ax k))), ?_, al.holds _ _ _⟩
  simp only [View.sumAxis, h.shape, hd]
  rw [mapE_ok (g := fun idx => (al.sumOrder idx d).sum ((List.range d).map fun k => T (idx.insertIdx ax k)))]
  · simp
  · intro idx hi
    rw [mapE_ok (g := fun k => T (idx.insertIdx ax k))]
    · rfl
    · intro k hk
      exact h.get _ (InB_insertIdx hd (mem_allIdx.1 hi) (by simpa using hk))

theorem Rep.sumAxisT {v : View A} {a b : List ι} {c : ι} {F}
    (h : Rep v (a ++ c :: b) dims F) (hn : (a ++ c :: b).Nodup) (al : Alloc A) :
    ∃ w, v.sumAxis al a.length = .ok w ∧ Rep w (a ++ b) dims (fun σ =>
      (al.sumOrder ((a ++ b).map σ) (dims c)).sum ((List.range (dims c)).map fun k => F (update σ c k))) := by
  have hd : ((a ++ c :: b).map dims)[a.length]? = some (dims c) := by simp
  obtain ⟨w, h1, h2⟩ := (h.holds hn).sumAxisT al hd
  refine ⟨w, h1, ?_⟩
  have e : ((a ++ c :: b).map dims).eraseIdx a.length = (a ++ b).map dims := by
    rw [List.map_append, List.map_cons, List.eraseIdx_append_of_length_le (by simp)]
    simp
  rw [e] at h2
  refine .of_holds h2 fun σ hσ => ?_
  congr 1
  refine List.map_congr_left fun k hk => ?_
  have hk : k < dims c := by simpa using hk
  have hc : c ∉ a ++ b := by
    have := (List.nodup_middle.1 hn)
    exact (List.nodup_cons.1 this).1
  have hag : ∀ d ∈ a ++ b, update σ c k d = σ d := by
    intro d hd
    exact update_of_ne (fun hdc => hc (by rwa [hdc] at hd)) _ _
  have e4 : ((a ++ b).map σ).insertIdx a.length k = (a ++ c :: b).map (update σ c k) := by
    have ha : a.map (update σ c k) = a.map σ :=
      List.map_congr_left fun d hd => hag d (by simp [hd])
    have hb : b.map (update σ c k) = b.map σ :=
      List.map_congr_left fun d hd => hag d (by simp [hd])
    rw [List.map_append, List.map_append, List.map_cons, update_self, ha, hb]
    have : a.length = (a.map σ).length := by simp
    rw [this]
    exact insertIdx_append_length _ _ _
  rw [e4]
  apply h.agree_assign
  intro d hd
  by_cases hdc : d = c
  · subst hdc; simpa using hk
  · rw [update_of_ne hdc]
    apply hσ
    simp only [List.mem_append, List.mem_cons] at hd ⊢
    tauto

theorem Rep.sumAxesT {v : View A} {a b : List ι} {F} (h : Rep v (a ++ b) dims F) (hn : (a ++ b).Nodup) (al : Alloc A) :
    ∃ w, Einsum.sumAxes al (List.replicate b.length a.length) v = .ok w ∧ Rep w a dims (sums dims a b al F) := by
  induction b generalizing v F al with
  | nil => exact ⟨v, rfl, by simpa [sums] using h⟩
  | cons c b ih =>
    obtain ⟨w, h1, h2⟩ := h.sumAxisT hn (al.sub 0)
    have hn' : (a ++ b).Nodup := (List.nodup_cons.1 (List.nodup_middle.1 hn)).2
    obtain ⟨w', h3, h4⟩ := ih h2 hn' (al.sub 1)
    exact ⟨w', by simp [List.replicate_succ, Einsum.sumAxes, h1, h3], h4⟩

theorem Rep.summationT {v : View A} {a b : List ι} {F} (h : Rep v (a ++ b) dims F)
    (hn : (a ++ b).Nodup) (hb : b ≠ []) (orig : List Nat) (al : Alloc A) :
    ∃ w, Summation.run ⟨orig, List.replicate b.length a.length⟩ al v = .ok w ∧
      Rep w a dims (sums dims a b al F) := by
  obtain ⟨w, h1, h2⟩ := h.sumAxesT hn al
  refine ⟨w, ?_, h2⟩
  cases b with
  | nil => simp at hb
  | cons c b =>
    rw [List.length_cons, List.replicate_succ] at h1 ⊢
    simpa [Summation.run, Einsum.sumAxes] using h1

end

section
variable {ι : Type} [DecidableEq ι]

theorem mem_fresh {seen L : List ι} {c : ι} : c ∈ fresh seen L ↔ c ∈ L ∧ c ∉ seen := by
  induction L generalizing seen with
  | nil => simp [fresh]
  | cons d L ih =>
    unfold fresh
    split
    · rename_i h
      rw [ih, List.mem_cons]
      constructor
      · rintro ⟨a, b⟩; exact ⟨.inr a, b⟩
      · rintro ⟨rfl | a, b⟩
        · exact absurd h b
        · exact ⟨a, b⟩
    · rename_i h
      rw [List.mem_cons, ih]
      simp only [List.mem_append, List.mem_cons, List.not_mem_nil, or_false, not_or]
      constructor
      · rintro (rfl | ⟨a, b, -⟩)
        · exact ⟨.inl rfl, h⟩
        · exact ⟨.inr a, b⟩
      · rintro ⟨rfl | a, b⟩
        · exact .inl rfl
        · by_cases hd : c = d
          · exact .inl hd
          · exact .inr ⟨a, b, hd⟩

theorem nodup_fresh {seen L : List ι} : (fresh seen L).Nodup := by
  induction L generalizing seen with
  | nil => simp [fresh]
  | cons d L ih =>
    unfold fresh
    split
    · exact ih
    · refine List.nodup_cons.2 ⟨fun h => ?_, ih⟩
      exact (mem_fresh.1 h).2 (by simp)

theorem fresh_of_nodup {seen L : List ι} (hn : L.Nodup) : fresh seen L = L.filter fun c => c ∉ seen := by
  induction L generalizing seen with
  | nil => rfl
  | cons d L ih =>
    obtain ⟨h1, h2⟩ := List.nodup_cons.1 hn
    unfold fresh
    split
    · rename_i h
      rw [ih h2, List.filter_cons_of_neg (by simpa using h)]
    · rename_i h
      rw [ih h2, List.filter_cons_of_pos (by simpa using h)]
      congr 1
      refine List.filter_congr fun c hc => ?_
      have : c ≠ d := fun e => h1 (e ▸ hc)
      simp [this]

/-- The order of the fresh labels depends on the set of the seen ones only. -/
theorem fresh_congr {s s' L : List ι} (h : ∀ c ∈ L, c ∈ s ↔ c ∈ s') : fresh s L = fresh s' L := by
  induction L generalizing s s' with
  | nil => rfl
  | cons d L ih =>
    have ihd := h d (by simp)
    have ih' := fun c hc => h c (List.mem_cons_of_mem d hc)
    unfold fresh
    by_cases hd : d ∈ s
    · rw [if_pos hd, if_pos (ihd.1 hd), ih ih']
    · rw [if_neg hd, if_neg (mt ihd.2 hd)]
      congr 1
      exact ih fun c hc => by simp [ih' c hc]

end

theorem diagLoop_fresh (L adj : List Char) (m : List Nat) : (diagLoop adj m L).1 = adj ++ fresh adj L := by
  induction L generalizing adj m with
  | nil => simp [diagLoop, fresh]
  | cons c L ih =>
    by_cases hc : c ∈ adj
    · simp only [diagLoop, position_of_mem hc, fresh, if_pos hc]
      exact ih _ _
    · simp only [diagLoop, position_eq_none.2 hc, fresh, if_neg hc]
      rw [ih]
      simp

section
variable {sc : SizedContraction} {dims : Char → Nat} {L : List Char}

theorem Diagonalization.new_fresh (hv : sc.Valid dims) (hops : sc.contraction.operandIndices = [L]) :
    Diagonalization.new sc = .ok
        ⟨L.map fun c => pos c (sc.contraction.outputIndices ++ fresh sc.contraction.outputIndices L),
          (sc.contraction.outputIndices ++ fresh sc.contraction.outputIndices L).map dims⟩ ∧
      (sc.contraction.outputIndices ++ fresh sc.contraction.outputIndices L).Nodup := by
  obtain ⟨new, h1, h2, h3⟩ := diagLoop_spec L sc.contraction.outputIndices [] hv.out.1
  have e : new = fresh sc.contraction.outputIndices L := by
    have := diagLoop_fresh L sc.contraction.outputIndices []
    rw [h1] at this
    exact List.append_cancel_left this
  subst e
  refine ⟨?_, h2⟩
  unfold Diagonalization.new
  rw [hops]
  simp only [List.length_singleton, decide_true, assertThat_true, bind_ok, index_cons_zero]
  rw [h1]
  simp only [List.nil_append]
  rw [mapE_size hv]
  · rfl
  · intro c hc
    rw [hops]
    rcases List.mem_append.1 hc with h | h
    · have := used_iff.1 (hv.out.2 c h)
      rwa [hops] at this
    · simpa using ((h3 c).1 h).1

/-- What a compiled singleton step computes, operation by operation. -/
theorem singletonT (hv : sc.Valid dims) (hops : sc.contraction.operandIndices = [L]) :
    ∃ p, SingletonContraction.new sc = .ok p ∧
      ∀ (A : Type) [Zero A] [Add A] (al : Alloc A) (v : View A) (F : (Char → Nat) → A), Rep v L dims F → v.Wf →
        (L.Nodup ∨ 0 < (L.map dims).prod) →
        ∃ w, p.op.run al v = .ok w ∧ Rep w sc.contraction.outputIndices dims
          (sums dims sc.contraction.outputIndices (fresh sc.contraction.outputIndices L) (if L.Nodup then al else al.sub 1) F) := by
  have hsub := hv.out_sub hops
  have hout := hv.out.1
  set out := sc.contraction.outputIndices with hO
  have hsum : SingletonSummary.new sc = .ok ⟨(hset L).length - out.length,
      ((charCounts L).filter fun e => 1 < e.2).length,
      ((out.zip L).filter fun p => p.1 ≠ p.2).length⟩ := by
    unfold SingletonSummary.new
    rw [hops]
    simp only [List.length_singleton, decide_true, assertThat_true, bind_ok, index_cons_zero]
    exact summary_ok hout hsub
  have hle := length_le_of_sub hout hsub
  unfold SingletonContraction.new
  rw [hsum]
  simp only [bind_ok, getStrategy_eq, diag_zero_iff, summed_zero_iff hout hsub]
  by_cases hn : L.Nodup
  · rw [if_pos hn]
    simp only [if_pos hn, fresh_of_nodup hn]
    by_cases hs : ∀ c ∈ L, c ∈ out
    · rw [if_pos hs]
      have hperm : out.Perm L := perm_of_nodup hout hn fun c => ⟨hsub c, hs c⟩
      have hnil : (L.filter fun c => c ∉ out) = [] := by simpa using hs
      simp only [hnil, sums]
      by_cases hr : ∃ S, L = out ++ S
      · rw [if_pos ((reord_zero_iff hle).2 hr)]
        refine ⟨⟨.identity, .identity⟩, by simp [SingletonOp.new], ?_⟩
        obtain ⟨S, hS⟩ := hr
        have hSnil : S = [] := by
          have := hperm.length_eq
          rw [hS, List.length_append] at this
          exact List.length_eq_zero_iff.1 (by omega)
        rw [hSnil, List.append_nil] at hS
        intro A _ _ al v F h hwf _
        rw [hS] at h
        exact h.toOwned hout al
      · rw [if_neg (mt (reord_zero_iff hle).1 hr)]
        refine ⟨⟨.permutation, .permutation ⟨out.map fun c => pos c L⟩⟩, ?_, ?_⟩
        · simp [SingletonOp.new, Permutation.new_ok hops hperm.length_eq.symm hsub, ← hO]
        · intro A _ _ al v F h hwf _
          exact h.permutationRun hn hperm al
    · rw [if_neg hs]
      have hlt : out.length < L.length := by
        rcases Nat.lt_or_ge out.length L.length with h | h
        · exact h
        · exfalso
          have := (hout.subperm hsub).perm_of_length_le h
          exact hs fun c hc => this.mem_iff.2 hc
      by_cases hr : ∃ S, L = out ++ S
      · rw [if_pos ((reord_zero_iff hle).2 hr)]
        refine ⟨⟨.summation, .summation ⟨(List.range (L.length - out.length)).map (out.length + ·),
          List.replicate (L.length - out.length) out.length⟩⟩, ?_, ?_⟩
        · simp [SingletonOp.new, Summation.new, hops, ← hO, usub_of_le hle,
            Summation.fromSizes_ok (show 1 ≤ L.length - out.length by omega)]
        · obtain ⟨S, rfl⟩ := hr
          intro A _ _ al v F h hwf _
          have hS : S ≠ [] := by rintro rfl; simp at hlt
          have hd := List.nodup_append.1 hn
          have hf : ((out ++ S).filter fun c => c ∉ out) = S := by
            rw [List.filter_append, List.filter_eq_nil_iff.2 (by simp), List.filter_eq_self.2 (fun c hc => by
              simpa using fun ho => hd.2.2 c ho c hc rfl), List.nil_append]
          obtain ⟨w, h1, h2⟩ := h.summationT hn hS
            ((List.range ((out ++ S).length - out.length)).map (out.length + ·)) al
          refine ⟨w, ?_, by rw [hf]; exact h2⟩
          have e : (out ++ S).length - out.length = S.length := by simp
          simp only [SingletonOp.run]
          rw [e] at h1 ⊢
          exact h1
      · rw [if_neg (mt (reord_zero_iff hle).1 hr)]
        refine ⟨⟨.permutationAndSummation, .permutationAndSummation
          ⟨⟨(out ++ L.filter fun c => c ∉ out).map fun c => pos c L⟩,
            ⟨(List.range (L.length - out.length)).map (out.length + ·),
              List.replicate (L.length - out.length) out.length⟩⟩⟩, ?_, ?_⟩
        · simp only [SingletonOp.new, PermutationAndSummation.new_ok hops hlt hn hsub, ← hO, bind_ok]
          rfl
        · intro A _ _ al v F h hwf _
          set S := L.filter fun c => c ∉ out with hSdef
          have hmS : ∀ c, c ∈ S ↔ c ∈ L ∧ c ∉ out := fun c => by simp [hSdef]
          have hnS : (out ++ S).Nodup := by
            rw [List.nodup_append]
            exact ⟨hout, hn.filter _, fun a ha b hb => by
              rintro rfl; exact ((hmS a).1 hb).2 ha⟩
          have hperm : (out ++ S).Perm L := perm_of_nodup hnS hn fun c => by
            rw [List.mem_append, hmS]
            constructor
            · rintro (h | h)
              · exact hsub c h
              · exact h.1
            · intro h
              by_cases ho : c ∈ out
              · exact .inl ho
              · exact .inr ⟨h, ho⟩
          obtain ⟨w, h1, h2⟩ := h.permute hn hperm
          have hlen : L.length - out.length = S.length := by
            have := hperm.length_eq
            rw [List.length_append] at this; omega
          have hS : S ≠ [] := by
            intro e
            rw [e, List.length_nil] at hlen
            omega
          obtain ⟨w', h3, h4⟩ := h2.summationT hnS hS
            ((List.range (L.length - out.length)).map (out.length + ·)) al
          refine ⟨w', ?_, h4⟩
          simp only [SingletonOp.run, PermutationAndSummation.run, Permutation.view]
          rw [h1]
          simp only [bind_ok]
          rw [← hlen] at h3
          exact h3
  · rw [if_neg hn]
    simp only [if_neg hn]
    obtain ⟨hd, hdn⟩ := Diagonalization.new_fresh hv hops
    rw [← hO] at hd hdn
    set new := fresh out L with hnew'
    have hnew : ∀ c, c ∈ new ↔ c ∈ L ∧ c ∉ out := fun c => mem_fresh
    have hLa : ∀ c ∈ L, c ∈ out ++ new := fun c hc => by
      rw [List.mem_append, hnew]
      by_cases ho : c ∈ out
      · exact .inl ho
      · exact .inr ⟨hc, ho⟩
    have haL : ∀ c ∈ out ++ new, c ∈ L := fun c hc => by
      rcases List.mem_append.1 hc with h | h
      · exact hsub c h
      · exact ((hnew c).1 h).1
    by_cases hs : ∀ c ∈ L, c ∈ out
    · rw [if_pos hs]
      have hnil' : new = [] := by
        rw [List.eq_nil_iff_forall_not_mem]
        intro c hc
        exact ((hnew c).1 hc).2 (hs c ((hnew c).1 hc).1)
      rw [hnil', List.append_nil] at hd hLa haL
      refine ⟨⟨.diagonalization, .diagonalization ⟨L.map fun c => pos c out, out.map dims⟩⟩,
        by simp [SingletonOp.new, hd], ?_⟩
      intro A _ _ al v F h hwf hp
      rw [hnil']
      exact h.diagRun hwf (hp.resolve_left hn) hout hLa haL al
    · rw [if_neg hs]
      have hne : new ≠ [] := by
        intro e
        refine hs fun c hc => ?_
        simpa [e] using hLa c hc
      have hlen : 1 ≤ new.length := List.length_pos_iff.2 hne
      refine ⟨⟨.diagonalizationAndSummation, .diagonalizationAndSummation
        ⟨⟨L.map fun c => pos c (out ++ new), (out ++ new).map dims⟩,
          ⟨(List.range new.length).map (out.length + ·), List.replicate new.length out.length⟩⟩⟩,
        ?_, ?_⟩
      · have e : usub ((out ++ new).map dims).length out.length = .ok new.length := by
          rw [usub_of_le (by simp)]; simp
        simp only [SingletonOp.new, DiagonalizationAndSummation.new, hd, ← hO, bind_ok, e,
          Summation.fromSizes_ok hlen]
        rfl
      · intro A _ _ al v F h hwf hp
        obtain ⟨d, d1, d2⟩ := h.diagEither hwf (hp.resolve_left hn) hdn hLa haL (al.sub 0)
        obtain ⟨w, w1, w2⟩ := d2.summationT hdn hne ((List.range new.length).map (out.length + ·)) (al.sub 1)
        refine ⟨w, ?_, w2⟩
        simp only [SingletonOp.run, DiagonalizationAndSummation.run]
        split_ifs at d1 ⊢ with hc
        · rw [d1]
          exact w1
        · rw [d1]
          exact w1

end

end Einsum
