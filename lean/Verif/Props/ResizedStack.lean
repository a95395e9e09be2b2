import Verif.Props.Resized

/-!
# Property C79, stacked tensordots: compiled paths and arrays of other sizes
-/

namespace Einsum

open Spec Function

section
variable {A : Type}

/-- An array of the compiled sizes whose elements, listed with the axes in the order `P`, are those of `v`. -/
theorem Rep.regroup_vec {v : View A} {L P : List Char} {dims' dims : Char → Nat} {t : List Nat → A} (hP : P.Perm L)
    (hn : L.Nodup) (h : Rep v L dims' fun σ => t (L.map σ)) (hs : (P.map dims).prod = (P.map dims').prod) :
    ∃ v₀ t₀, Regrouped L P dims' dims t t₀ ∧ (Rep v₀ L dims fun σ => t₀ (P.map σ)) ∧
      ∃ w w₀, v.permutedAxes (P.map fun c => pos c L) = .ok w ∧ v₀.permutedAxes (P.map fun c => pos c L) = .ok w₀ ∧
        w.toVec = w₀.toVec := by
  have hPn := hP.nodup_iff.2 hn
  let t₀ : List Nat → A := fun idx => t (L.map (assign P (unravel (P.map dims') (ravel (P.map dims) idx))))
  obtain ⟨v₀, -, -, h₀⟩ := fromShapeVec_map_self (L.map dims) fun idx => t₀ (P.map (assign L idx))
  have h0 : Rep v₀ L dims fun σ => t₀ (P.map σ) := by
    refine .of_holds h₀ fun σ _ => ?_
    congr 1
    exact List.map_congr_left fun c hc => assign_map (hP.mem_iff.1 hc)
  obtain ⟨w, w1, w2⟩ := h.permute hn hP
  obtain ⟨w₀, x1, x2⟩ := h0.permute hn hP
  refine ⟨v₀, t₀, ?_, h0, w, w₀, w1, x1, ?_⟩
  · intro σ' σ hσ' hσ e
    rw [rowMajorRank_eq, rowMajorRank_eq] at e
    simp only [t₀]
    rw [e, unravel_ravel (inB_of_inRange hσ')]
    congr 1
    exact List.map_congr_left fun c hc => assign_map (hP.mem_iff.2 hc)
  · rw [(w2.holds hPn).toVec, (x2.holds hPn).toVec]
    congr 1
    apply List.ext_getElem?
    intro n
    by_cases hlt : n < (P.map dims').prod
    · rw [map_allIdx_getElem? hlt, map_allIdx_getElem? (hs ▸ hlt)]
      simp only [t₀]
      rw [map_assign hPn (by rw [unravel_length, List.length_map]), ravel_unravel (hs ▸ hlt)]
    · rw [List.getElem?_eq_none (by simpa [allIdx_length] using hlt),
        List.getElem?_eq_none (by simpa [allIdx_length, hs] using hlt)]

/-- The stacked tensordot reads its operands only through the lists of their elements. -/
theorem stacked_resized [Semiring A] {l r : View A} {L R S U V C out : List Char} {dims dl dr : Char → Nat}
    {t u : List Nat → A} (hl : Rep l L dl fun σ => t (L.map σ)) (hr : Rep r R dr fun σ => u (R.map σ))
    (hL : L.Nodup) (hR : R.Nodup) (pL : (S ++ (U ++ C)).Perm L) (pR : (S ++ (C ++ V)).Perm R)
    (po : out.Perm (S ++ (U ++ V))) (hn : (S ++ (U ++ V)).Nodup) (al : Alloc A) (op : StackedTensordotGeneral)
    (hop : op = ⟨⟨(S ++ (U ++ C)).map fun c => pos c L⟩, ⟨(S ++ (C ++ V)).map fun c => pos c R⟩,
          (S.map dims).prod :: (U ++ C).map dims, (S.map dims).prod :: (C ++ V).map dims,
          (S.map dims).prod :: (U ++ V).map dims,
          ⟨(U.map dims).prod, (V.map dims).prod, (C.map dims).prod, (U ++ V).map dims⟩,
          (S ++ (U ++ V)).map dims, ⟨out.map fun c => pos c (S ++ (U ++ V))⟩⟩) :
    ((L.map dl).prod = (L.map dims).prod → (R.map dr).prod = (R.map dims).prod →
      ∃ w t₀ u₀, op.run al l r = .ok w ∧ Regrouped L (S ++ (U ++ C)) dl dims t t₀ ∧
        Regrouped R (S ++ (C ++ V)) dr dims u u₀ ∧
        Rep w out dims (sumOver dims C fun σ => t₀ ((S ++ (U ++ C)).map σ) * u₀ ((S ++ (C ++ V)).map σ))) ∧
    ((L.map dl).prod ≠ (L.map dims).prod ∨ (R.map dr).prod ≠ (R.map dims).prod → ∃ k, op.run al l r = panic k) := by
  have eL : ∀ d : Char → Nat, ((S ++ (U ++ C)).map d).prod = (L.map d).prod := fun d => (pL.map d).prod_eq
  have eR : ∀ d : Char → Nat, ((S ++ (C ++ V)).map d).prod = (R.map d).prod := fun d => (pR.map d).prod_eq
  have fL : ((S.map dims).prod :: (U ++ C).map dims).prod = (L.map dims).prod := by rw [← eL]; simp
  have fR : ((S.map dims).prod :: (C ++ V).map dims).prod = (R.map dims).prod := by rw [← eR]; simp
  constructor
  · intro c1 c2
    obtain ⟨l₀, t₀, a1, a2, la, lb, a3, a4, a5⟩ := hl.regroup_vec (dims := dims) pL hL (by rw [eL, eL, c1])
    obtain ⟨r₀, u₀, b1, b2, ra, rb, b3, b4, b5⟩ := hr.regroup_vec (dims := dims) pR hR (by rw [eR, eR, c2])
    obtain ⟨w, w1, w2⟩ := a2.stacked b2 hL hR pL pR po hn al
    refine ⟨w, t₀, u₀, ?_, a1, b1, w2⟩
    rw [← w1, hop]
    simp only [StackedTensordotGeneral.run, Permutation.view, a3, a4, b3, b4, bind_ok, a5, b5]
  · intro hne
    obtain ⟨l', l1, l2⟩ := hl.permute hL pL
    obtain ⟨r', r1, r2⟩ := hr.permute hR pR
    have hl' := (l2.holds (pL.nodup_iff.2 hL)).toVec
    have hr' := (r2.holds (pR.nodup_iff.2 hR)).toVec
    subst hop
    simp only [StackedTensordotGeneral.run, Permutation.view, l1, r1, bind_ok, hl', hr']
    by_cases c1 : (L.map dl).prod = (L.map dims).prod
    · have c2 := hne.resolve_left (not_not.2 c1)
      rw [fromShapeVec_ne (s := (S ++ (C ++ V)).map dr) (by rw [fR, eR]; exact Ne.symm c2)]
      cases fromShapeVec ((S.map dims).prod :: (U ++ C).map dims) _ <;> exact ⟨_, rfl⟩
    · rw [fromShapeVec_ne (s := (S ++ (U ++ C)).map dl) (by rw [fL, eL]; exact Ne.symm c1)]
      exact ⟨_, rfl⟩

end

/-- C79, finding: a path of two operands contracted by a stacked tensordot checks the number of elements of each operand
and nothing else: it contracts the operands reshaped to the compiled sizes. -/
theorem C79_stacked {A B : Type} [CommSemiring A] (h : HashOrd) (s : String) (l₀ r₀ : View B) (L R out : List Char)
    (dims : Char → Nat) (hd : Denotes s [L, R] out) (hs : Sized dims [L, R] [l₀.shape, r₀.shape]) (p : EinsumPath)
    (hp : einsumPath h s [l₀, r₀] .naive = .ok (.ok p)) (hsimp : Simplified L R out)
    (hm : pairMethod L R out = .stackedTensordotGeneral) (S U V C : List Char)
    (hS : S = out.filter fun c => c ∈ L ∧ c ∈ R) (hU : U = out.filter fun c => c ∈ L ∧ c ∉ R)
    (hV : V = out.filter fun c => c ∉ L ∧ c ∈ R) (hC : C = L.filter fun c => c ∉ out) (l r : View A)
    (t u : List Nat → A) (hl : Elements l t) (hr : Elements r u) (dl dr : Char → Nat) (sl : l.shape = L.map dl)
    (sr : r.shape = R.map dr) (al : Alloc A) :
    ((L.map dl).prod = (L.map dims).prod → (R.map dr).prod = (R.map dims).prod →
      ∃ w t₀ u₀, p.contractOperands al [l, r] = .ok w ∧
        Regrouped L (S ++ (U ++ C)) dl dims t t₀ ∧ Regrouped R (S ++ (C ++ V)) dr dims u u₀ ∧
        IsEinsum dims [S ++ (U ++ C), S ++ (C ++ V)] [t₀, u₀] out w) ∧
    ((L.map dl).prod ≠ (L.map dims).prod ∨ (R.map dr).prod ≠ (R.map dims).prod →
      ∃ k, p.contractOperands al [l, r] = panic k) := by
  obtain ⟨sc, k, c, rfl, h1, h2, rfl, h4⟩ := path_two hd hs hp
  set out := sc.contraction.outputIndices
  obtain ⟨q, q1, q2, q3, q4, -⟩ := pair_parts h1 h2 k
  rw [h4] at q1
  cases q1
  have hL : ∀ c ∈ L, c ∈ sc.contraction.operandIndices.flatten := by rw [h2]; intro c hc; simp [hc]
  have hR : ∀ c ∈ R, c ∈ sc.contraction.operandIndices.flatten := by rw [h2]; intro c hc; simp [hc]
  obtain ⟨xl, l1, l2⟩ := simplification_parts h1 (k.sub 0) (R := R) (out := out) hL
  obtain ⟨xr, r1, r2⟩ := simplification_parts h1 (k.sub 1) (R := L) (out := out) hR
  rw [q2] at l1; cases l1
  rw [q3] at r1; cases r1
  have nl : c.lhsSimplification = none := by
    rcases l2 with ⟨e, -⟩ | ⟨hn | ⟨x, hx, g⟩, -⟩
    · exact e
    · exact absurd hsimp.lhs_nodup hn
    · exact absurd (hsimp.lhs_used x hx) (not_or.2 g)
  have nr : c.rhsSimplification = none := by
    rcases r2 with ⟨e, -⟩ | ⟨hn | ⟨x, hx, g⟩, -⟩
    · exact e
    · exact absurd hsimp.rhs_nodup hn
    · exact absurd (hsimp.rhs_used x hx) (not_or.2 g)
  obtain ⟨red, k', a1, a2⟩ := pair_inv h2 h4 nl nr
  obtain ⟨b1, b2, b3⟩ := Valid.subset_of h1 (by rw [h2]; exact fun _ h => h) (by rw [← h2]; exact h1.out) a1
  obtain ⟨S', U', V', C', ⟨cS, cU, cV, cC⟩, ⟨pL, pR, po, hn, nC⟩, c7⟩ := stackedGeneral_new b1 b2 hsimp.lhs_nodup
    hsimp.rhs_nodup (by rw [b3]; exact hsimp.lhs_used) (by rw [b3]; exact hsimp.rhs_used)
  rw [b3] at cS cU cV cC po c7
  obtain rfl : S' = S := cS.trans hS.symm
  obtain rfl : U' = U := cU.trans hU.symm
  obtain rfl : V' = V := cV.trans hV.symm
  obtain rfl : C' = C := cC.trans hC.symm
  rw [q4, hm, c7] at a2
  have eop := (Except.ok.inj a2).symm
  have hrl : Rep l L dl fun σ => t (L.map σ) := Holds.rep (by rw [← sl]; exact hl.holds)
  have hrr : Rep r R dr fun σ => u (R.map σ) := Holds.rep (by rw [← sr]; exact hr.holds)
  have key := stacked_resized hrl hrr hsimp.lhs_nodup hsimp.rhs_nodup pL pR po hn ((al.sub 0).sub 2) _ rfl (dims := dims)
  have hrun : EinsumPath.contractOperands ⟨.pairs [⟨sc, ⟨.input 0, .input 1⟩⟩], .pairContractions [c]⟩ al [l, r] =
      c.op.run ((al.sub 0).sub 2) l r := by
    rw [contract_two, PairContraction.run, nl, nr]
    rfl
  rw [hrun, eop]
  refine ⟨fun x y => ?_, key.2⟩
  obtain ⟨w, t₀, u₀, w1, w2, w3, w4⟩ := key.1 x y
  refine ⟨w, t₀, u₀, w1, w2, w3, Rep.isEinsum_two h1.out.1 nC (fun x => ?_) w4⟩
  have mo := po.mem_iff (a := x)
  have hx : x ∈ C' ↔ x ∈ L ∧ x ∉ out := by rw [hC]; simp
  simp only [List.mem_append] at mo ⊢
  have hxo : x ∈ C' → x ∉ out := fun g => (hx.1 g).2
  clear * - mo hxo
  tauto

/-- The hypotheses of `C79_stacked`: a path for 2 products of a 2 by 3 and a 3 by 2 matrix accepts 3 matrices of 2 by 2 and
1 matrix of 4 by 3. -/
example (h : HashOrd) (al : Alloc Int) (l₀ r₀ : View Int) (hl₀ : l₀.shape = [2, 2, 3]) (hr₀ : r₀.shape = [2, 3, 2]) :
    ∃ p, einsumPath h "bij,bjk->bik" [l₀, r₀] .naive = .ok (.ok p) ∧
    ∃ w, p.contractOperands al [⟨(List.range 12).map Int.ofNat, 0, [3, 2, 2], [4, 2, 1]⟩,
      ⟨(List.range 12).map Int.ofNat, 0, [1, 4, 3], [12, 3, 1]⟩] = .ok w ∧ w.shape = [2, 2, 2] := by
  have d : Denotes "bij,bjk->bik" [['b', 'i', 'j'], ['b', 'j', 'k']] ['b', 'i', 'k'] :=
    .inl ⟨by decide, ⟨by simp, by simp [Letter], by simp [Letter]⟩, by simp [OutputOk, Used]⟩
  have s1 : Sized (fun c => if c = 'j' then 3 else 2) [['b', 'i', 'j'], ['b', 'j', 'k']] [l₀.shape, r₀.shape] :=
    .cons (by rw [hl₀]; decide) (.cons (by rw [hr₀]; decide) .nil)
  obtain ⟨p, hp, -⟩ := einsumPath_ok (operands := [l₀, r₀]) d s1 h (.inl rfl)
  refine ⟨p, hp, ?_⟩
  obtain ⟨w, t₀, u₀, w1, -, -, w2⟩ := (C79_stacked h _ l₀ r₀ ['b', 'i', 'j'] ['b', 'j', 'k'] ['b', 'i', 'k'] _ d s1 p hp
    ⟨by decide, by decide, by decide, by decide⟩ (by decide) _ _ _ _ rfl rfl rfl rfl
    ⟨(List.range 12).map Int.ofNat, 0, [3, 2, 2], [4, 2, 1]⟩ ⟨(List.range 12).map Int.ofNat, 0, [1, 4, 3], [12, 3, 1]⟩
    (Ex.elems ⟨(List.range 12).map Int.ofNat, 0, [3, 2, 2], [4, 2, 1]⟩)
    (Ex.elems ⟨(List.range 12).map Int.ofNat, 0, [1, 4, 3], [12, 3, 1]⟩) (elements_of rfl (by decide)) (elements_of rfl (by decide))
    (fun c => if c = 'b' then 3 else 2) (fun c => if c = 'b' then 1 else if c = 'j' then 4 else 3) (by decide) (by decide)
    al).1 (by decide) (by decide)
  exact ⟨w, w1, w2.2.1.trans (by decide)⟩

end Einsum
