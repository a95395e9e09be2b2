import Verif.Props.Stretch
import Verif.Props.ResizedStack

/-!
# C118: tensordots of operands that are summed first, on arrays of other sizes

C79 describes tensordots of operands that are not simplified.  Here the operands may have letters of their own, which are
summed before the tensordot.
-/

namespace Einsum

open Spec

/-- `t'` is the Einstein sum of `t` over the letters of `L` that are not in `N`, for the lengths `d`. -/
def Spec.SummedTo {A : Type} [CommSemiring A] (d : Char → Nat) (L N : List Char) (t t' : List Nat → A) : Prop :=
  ∀ σ, t' (N.map σ) = Spec.einsum d [L] [t] N σ

section
variable {A : Type} [CommSemiring A]

/-- The summed elements as a function of the indices. -/
theorem exists_summedTo (d : Char → Nat) (L N : List Char) (t : List Nat → A) :
    ∃ t', SummedTo d L N t t' ∧ ∀ v : View A, Rep v N d (sumOver d (summed [L] N) fun σ => t (L.map σ)) →
      Rep v N d fun σ => t' (N.map σ) := by
  have hdep : DependsOn (sumOver d (summed [L] N) fun σ => t (L.map σ)) N :=
    (dependsOn_map t L).sumOver fun c hc => by
      by_cases h : c ∈ N
      · exact .inl h
      · exact .inr (mem_summed.2 ⟨by simpa using hc, h⟩)
  have e : ∀ σ, Spec.einsum d [L] [t] N σ = sumOver d (summed [L] N) (fun σ => t (L.map σ)) σ := fun σ => by
    rw [Spec.einsum]
    congr 1
    funext σ
    simp [term]
  have key : ∀ σ, Spec.einsum d [L] [t] N (assign N (N.map σ)) = sumOver d (summed [L] N) (fun σ => t (L.map σ)) σ :=
    fun σ => by rw [e]; exact hdep _ _ fun c hc => assign_map hc
  exact ⟨fun idx => Spec.einsum d [L] [t] N (assign N idx), fun σ => (key σ).trans (e σ).symm,
    fun v hv => hv.congr fun σ _ => (key σ).symm⟩

variable {sc : SizedContraction} {dims : Char → Nat} {L R : List Char}

/-- A step on operands without repeated letters: the operands are summed with their own lengths and contracted. -/
theorem pair_summed {k : HashOrd} {c : PairContraction} (h1 : sc.Valid dims)
    (h2 : sc.contraction.operandIndices = [L, R]) (h4 : PairContraction.new k sc = .ok c) (hL : L.Nodup) (hR : R.Nodup) :
    ∃ NL NR red, (NL.Nodup ∧ ∀ x, x ∈ NL ↔ x ∈ L ∧ (x ∈ R ∨ x ∈ sc.contraction.outputIndices)) ∧
      (NR.Nodup ∧ ∀ x, x ∈ NR ↔ x ∈ R ∧ (x ∈ L ∨ x ∈ sc.contraction.outputIndices)) ∧
      (red.Valid dims ∧ red.contraction.operandIndices = [NL, NR] ∧
        red.contraction.outputIndices = sc.contraction.outputIndices) ∧
      PairOp.new red (pairMethod L R sc.contraction.outputIndices) = .ok c.op ∧
      ∀ (al : Alloc A) (l r : View A) (t u : List Nat → A) (dl dr : Char → Nat), (Rep l L dl fun σ => t (L.map σ)) →
        (Rep r R dr fun σ => u (R.map σ)) → ∃ t' u' l' r', SummedTo dl L NL t t' ∧ SummedTo dr R NR u u' ∧
          (Rep l' NL dl fun σ => t' (NL.map σ)) ∧ (Rep r' NR dr fun σ => u' (NR.map σ)) ∧
          c.run al l r = c.op.run (al.sub 2) l' r' := by
  obtain ⟨q, q1, q2, q3, q4, -⟩ := pair_parts h1 h2 k
  rw [h4] at q1
  cases q1
  obtain ⟨a1, a2, a3⟩ := simplification_any h1 hL (by rw [h2]; intro c hc; simp [hc]) q2
  obtain ⟨b1, b2, b3⟩ := simplification_any h1 hR (by rw [h2]; intro c hc; simp [hc]) q3
  obtain ⟨red, k', c1, c2⟩ := pair_reduced h2 h4
  have hsub := h1.out_sub2 h2
  obtain ⟨d1, d2, d3⟩ := Valid.subset_of h1 (by
    intro x hx
    rw [h2]
    simp only [List.flatten_cons, List.flatten_nil, List.append_nil, List.mem_append] at hx ⊢
    exact hx.imp (fun g => ((a2 x).1 g).1) fun g => ((b2 x).1 g).1) ⟨h1.out.1, fun x hx => used_iff.2 (by
    simp only [List.flatten_cons, List.flatten_nil, List.append_nil, List.mem_append]
    exact (hsub x hx).imp (fun g => (a2 x).2 ⟨g, .inr hx⟩) fun g => (b2 x).2 ⟨g, .inr hx⟩)⟩ c1
  refine ⟨_, _, red, ⟨a1, a2⟩, ⟨b1, b2⟩, ⟨d1, d2, d3⟩, by rw [← q4]; exact c2, fun al l r t u dl dr hl hr => ?_⟩
  obtain ⟨l', l1, l2⟩ := a3 dl A (al.sub 0) l _ hl
  obtain ⟨r', r1, r2⟩ := b3 dr A (al.sub 1) r _ hr
  obtain ⟨t', t1, t2⟩ := exists_summedTo dl L (newIndicesOr c.lhsSimplification L) t
  obtain ⟨u', u1, u2⟩ := exists_summedTo dr R (newIndicesOr c.rhsSimplification R) u
  exact ⟨t', u', l', r', t1, u1, t2 _ l2, u2 _ r2, by rw [PairContraction.run, l1, bind_ok, r1, bind_ok]⟩

/-- A plain tensordot of summed operands. -/
theorem pair_tensordot {k : HashOrd} {c : PairContraction} (h1 : sc.Valid dims)
    (h2 : sc.contraction.operandIndices = [L, R]) (h4 : PairContraction.new k sc = .ok c) (hL : L.Nodup) (hR : R.Nodup)
    (hm : pairMethod L R sc.contraction.outputIndices = .tensordotGeneral) {C : List Char} (hC : C.Pairwise (· < ·))
    (mC : ∀ c, c ∈ C ↔ c ∈ L ∧ c ∈ R) :
    ∃ NL NR, NL.Perm (L.filter fun c => c ∈ R ∨ c ∈ sc.contraction.outputIndices) ∧
      NR.Perm (R.filter fun c => c ∈ L ∨ c ∈ sc.contraction.outputIndices) ∧
    ∀ (l r : View A) (t u : List Nat → A) (dl dr : Char → Nat), (Rep l L dl fun σ => t (L.map σ)) →
      (Rep r R dr fun σ => u (R.map σ)) → ∀ al : Alloc A,
    ((NL.map dl).prod = (NL.map dims).prod → (NR.map dr).prod = (NR.map dims).prod →
      ∃ w t' u' t₀ u₀, c.run al l r = .ok w ∧ SummedTo dl L NL t t' ∧ SummedTo dr R NR u u' ∧
        Regrouped NL ((NL.filter fun c => c ∈ sc.contraction.outputIndices) ++ C) dl dims t' t₀ ∧
        Regrouped NR (C ++ NR.filter fun c => c ∈ sc.contraction.outputIndices) dr dims u' u₀ ∧
        IsEinsum dims [(NL.filter fun c => c ∈ sc.contraction.outputIndices) ++ C,
          C ++ NR.filter fun c => c ∈ sc.contraction.outputIndices] [t₀, u₀] sc.contraction.outputIndices w) ∧
    ((NL.map dl).prod ≠ (NL.map dims).prod ∨ (NR.map dr).prod ≠ (NR.map dims).prod →
      ∃ k, c.run al l r = panic k) := by
  have h0 : ∀ c ∈ L, c ∈ R → c ∉ sc.contraction.outputIndices := by
    rw [pairMethod] at hm
    split_ifs at hm with g1 g2 g3 g4
    exact g4
  obtain ⟨NL, NR, red, ⟨a1, a2⟩, ⟨b1, b2⟩, ⟨d1, d2, d3⟩, c2, run⟩ := pair_summed (A := A) h1 h2 h4 hL hR
  have hon := h1.out.1
  set out := sc.contraction.outputIndices
  refine ⟨NL, NR, perm_of_nodup a1 (hL.filter _) fun x => by simp [a2], perm_of_nodup b1 (hR.filter _) fun x => by simp [b2],
    fun l r t u dl dr hl hr al => ?_⟩
  have hNL : ∀ x ∈ NL, x ∈ NR ∨ x ∈ out := fun x hx =>
    ((a2 x).1 hx).2.imp (fun g => (b2 x).2 ⟨g, .inl ((a2 x).1 hx).1⟩) id
  have hNR : ∀ x ∈ NR, x ∈ NL ∨ x ∈ out := fun x hx =>
    ((b2 x).1 hx).2.imp (fun g => (a2 x).2 ⟨g, .inl ((b2 x).1 hx).1⟩) id
  have h0' : ∀ x ∈ NL, x ∈ NR → x ∉ out := fun x hx hy => h0 x ((a2 x).1 hx).1 ((b2 x).1 hy).1
  obtain ⟨C', ⟨e0, e1, e2, e3, e4, e5, e6⟩, e7⟩ := tensordotGeneral_new d1 d2 a1 b1
    (by rw [d3]; exact hNL) (by rw [d3]; exact hNR) (by rw [d3]; exact h0')
  rw [d3] at e2 e6 e7
  have eC : C' = C := by
    refine List.Perm.eq_of_pairwise (le := (· < ·)) (fun a b _ _ x y => absurd (lt_trans x y) (lt_irrefl _)) e0 hC
      (perm_of_nodup e1 (hC.imp fun x => ne_of_lt x) fun x => ?_)
    rw [mC]
    refine ⟨fun hx => ⟨((a2 x).1 (e3 x hx)).1, ((b2 x).1 (e4 x hx)).1⟩, fun hx => (e2 x).2 ⟨.inl ?_, h0 x hx.1 hx.2⟩⟩
    exact (a2 x).2 ⟨hx.1, .inl hx.2⟩
  subst eC
  have fL : (NL.filter fun c => c ∈ out) = NL.filter fun c => c ∉ C' := by
    apply List.filter_congr
    intro x hx
    rw [decide_eq_decide, e2]
    simp [hx, out]
  have fR : (NR.filter fun c => c ∈ out) = NR.filter fun c => c ∉ C' := by
    apply List.filter_congr
    intro x hx
    rw [decide_eq_decide, e2]
    simp [hx, out]
  rw [hm, e7] at c2
  have eop := (Except.ok.inj c2).symm
  obtain ⟨t', u', l', r', m1, m2, m3, m4, m5⟩ := run al l r t u dl dr hl hr
  have key := m3.tensordot_resized m4 a1 b1 e1 e3 e4 e5 e6 (al.sub 2) _ rfl (dims := dims)
  rw [m5, eop, fL, fR]
  refine ⟨fun x y => ?_, key.2⟩
  obtain ⟨w, t₀, u₀, w1, w2, w3, w4⟩ := key.1 x y
  refine ⟨w, t', u', t₀, u₀, w1, m1, m2, w2, w3, Rep.isEinsum_two hon e1 (fun x => ?_) w4⟩
  simp only [List.mem_append, List.mem_filter, decide_not, Bool.not_eq_true', decide_eq_false_iff_not]
  constructor
  · intro hx
    exact ⟨.inl (.inr hx), ((e2 x).1 hx).2⟩
  · rintro ⟨(⟨g1, g2⟩ | g) | g | ⟨g1, g2⟩, g'⟩
    · exact (e2 x).2 ⟨.inl g1, g'⟩
    · exact g
    · exact g
    · exact (e2 x).2 ⟨.inr g1, g'⟩

/-- A stacked tensordot of summed operands. -/
theorem pair_stacked {k : HashOrd} {c : PairContraction} (h1 : sc.Valid dims)
    (h2 : sc.contraction.operandIndices = [L, R]) (h4 : PairContraction.new k sc = .ok c) (hL : L.Nodup) (hR : R.Nodup)
    (hm : pairMethod L R sc.contraction.outputIndices = .stackedTensordotGeneral) {S U V : List Char}
    (hS : S = sc.contraction.outputIndices.filter fun c => c ∈ L ∧ c ∈ R)
    (hU : U = sc.contraction.outputIndices.filter fun c => c ∈ L ∧ c ∉ R)
    (hV : V = sc.contraction.outputIndices.filter fun c => c ∉ L ∧ c ∈ R) :
    ∃ NL NR, NL.Perm (L.filter fun c => c ∈ R ∨ c ∈ sc.contraction.outputIndices) ∧
      NR.Perm (R.filter fun c => c ∈ L ∨ c ∈ sc.contraction.outputIndices) ∧
    ∀ (l r : View A) (t u : List Nat → A) (dl dr : Char → Nat), (Rep l L dl fun σ => t (L.map σ)) →
      (Rep r R dr fun σ => u (R.map σ)) → ∀ (al : Alloc A) (C : List Char),
      C = (NL.filter fun c => c ∉ sc.contraction.outputIndices) →
    ((NL.map dl).prod = (NL.map dims).prod → (NR.map dr).prod = (NR.map dims).prod →
      ∃ w t' u' t₀ u₀, c.run al l r = .ok w ∧ SummedTo dl L NL t t' ∧ SummedTo dr R NR u u' ∧
        Regrouped NL (S ++ (U ++ C)) dl dims t' t₀ ∧ Regrouped NR (S ++ (C ++ V)) dr dims u' u₀ ∧
        IsEinsum dims [S ++ (U ++ C), S ++ (C ++ V)] [t₀, u₀] sc.contraction.outputIndices w) ∧
    ((NL.map dl).prod ≠ (NL.map dims).prod ∨ (NR.map dr).prod ≠ (NR.map dims).prod →
      ∃ k, c.run al l r = panic k) := by
  obtain ⟨NL, NR, red, ⟨a1, a2⟩, ⟨b1, b2⟩, ⟨d1, d2, d3⟩, c2, run⟩ := pair_summed (A := A) h1 h2 h4 hL hR
  have hon := h1.out.1
  set out := sc.contraction.outputIndices
  refine ⟨NL, NR, perm_of_nodup a1 (hL.filter _) fun x => by simp [a2], perm_of_nodup b1 (hR.filter _) fun x => by simp [b2],
    fun l r t u dl dr hl hr al C hC => ?_⟩
  have hNL : ∀ x ∈ NL, x ∈ NR ∨ x ∈ out := fun x hx =>
    ((a2 x).1 hx).2.imp (fun g => (b2 x).2 ⟨g, .inl ((a2 x).1 hx).1⟩) id
  have hNR : ∀ x ∈ NR, x ∈ NL ∨ x ∈ out := fun x hx =>
    ((b2 x).1 hx).2.imp (fun g => (a2 x).2 ⟨g, .inl ((b2 x).1 hx).1⟩) id
  obtain ⟨S', U', V', C', ⟨cS, cU, cV, cC⟩, ⟨pL, pR, po, hn, nC⟩, c7⟩ := stackedGeneral_new d1 d2 a1 b1
    (by rw [d3]; exact hNL) (by rw [d3]; exact hNR)
  rw [d3] at cS cU cV cC po c7
  have mL : ∀ x ∈ out, (x ∈ NL ↔ x ∈ L) := fun x hx => by rw [a2]; exact ⟨And.left, fun g => ⟨g, .inr hx⟩⟩
  have mR : ∀ x ∈ out, (x ∈ NR ↔ x ∈ R) := fun x hx => by rw [b2]; exact ⟨And.left, fun g => ⟨g, .inr hx⟩⟩
  obtain rfl : S' = S := by
    rw [cS, hS]
    exact List.filter_congr fun x hx => by rw [decide_eq_decide, mL x hx, mR x hx]
  obtain rfl : U' = U := by
    rw [cU, hU]
    exact List.filter_congr fun x hx => by rw [decide_eq_decide, mL x hx, mR x hx]
  obtain rfl : V' = V := by
    rw [cV, hV]
    exact List.filter_congr fun x hx => by rw [decide_eq_decide, mL x hx, mR x hx]
  obtain rfl : C' = C := cC.trans hC.symm
  rw [hm, c7] at c2
  have eop := (Except.ok.inj c2).symm
  obtain ⟨t', u', l', r', m1, m2, m3, m4, m5⟩ := run al l r t u dl dr hl hr
  have key := stacked_resized m3 m4 a1 b1 pL pR po hn (al.sub 2) _ rfl (dims := dims)
  rw [m5, eop]
  refine ⟨fun x y => ?_, key.2⟩
  obtain ⟨w, t₀, u₀, w1, w2, w3, w4⟩ := key.1 x y
  refine ⟨w, t', u', t₀, u₀, w1, m1, m2, w2, w3, Rep.isEinsum_two hon nC (fun x => ?_) w4⟩
  have mo := po.mem_iff (a := x)
  have hxo : x ∈ C' → x ∉ out := fun g => by
    rw [hC] at g
    simpa using (List.mem_filter.1 g).2
  simp only [List.mem_append] at mo ⊢
  clear * - mo hxo
  tauto

end

/-- C118, finding: a path of two operands contracted by a plain tensordot, whose operands have letters of their own, checks
the numbers of elements of the summed operands and nothing else.  The order of the kept letters, which decides how the elements
are regrouped, is that of a hash set. -/
theorem C118_tensordot {A B : Type} [CommSemiring A] (h : HashOrd) (s : String) (l₀ r₀ : View B) (L R C out : List Char)
    (dims : Char → Nat) (hd : Denotes s [L, R] out) (hs : Sized dims [L, R] [l₀.shape, r₀.shape]) (p : EinsumPath)
    (hp : einsumPath h s [l₀, r₀] .naive = .ok (.ok p)) (hL : L.Nodup) (hR : R.Nodup)
    (hm : pairMethod L R out = .tensordotGeneral) (hC : C.Pairwise (· < ·))
    (mC : ∀ c, c ∈ C ↔ c ∈ L ∧ c ∈ R) :
    ∃ NL NR, NL.Perm (L.filter fun c => c ∈ R ∨ c ∈ out) ∧ NR.Perm (R.filter fun c => c ∈ L ∨ c ∈ out) ∧
    ∀ (l r : View A) (t u : List Nat → A), Elements l t → Elements r u → ∀ (dl dr : Char → Nat), l.shape = L.map dl →
      r.shape = R.map dr → ∀ al : Alloc A,
    ((NL.map dl).prod = (NL.map dims).prod → (NR.map dr).prod = (NR.map dims).prod →
      ∃ w t' u' t₀ u₀, p.contractOperands al [l, r] = .ok w ∧ SummedTo dl L NL t t' ∧ SummedTo dr R NR u u' ∧
        Regrouped NL ((NL.filter fun c => c ∈ out) ++ C) dl dims t' t₀ ∧
        Regrouped NR (C ++ NR.filter fun c => c ∈ out) dr dims u' u₀ ∧
        IsEinsum dims [(NL.filter fun c => c ∈ out) ++ C, C ++ NR.filter fun c => c ∈ out] [t₀, u₀] out w) ∧
    ((NL.map dl).prod ≠ (NL.map dims).prod ∨ (NR.map dr).prod ≠ (NR.map dims).prod →
      ∃ k, p.contractOperands al [l, r] = panic k) := by
  obtain ⟨sc, k, c, rfl, h1, h2, rfl, h4⟩ := path_two hd hs hp
  obtain ⟨NL, NR, n1, n2, run⟩ := pair_tensordot (A := A) h1 h2 h4 hL hR hm hC mC
  refine ⟨NL, NR, n1, n2, fun l r t u hl hr dl dr sl sr al => ?_⟩
  rw [contract_two]
  exact run l r t u dl dr (Holds.rep (by rw [← sl]; exact hl.holds)) (Holds.rep (by rw [← sr]; exact hr.holds)) (al.sub 0)

/-- C118, finding: the same for stacked tensordots.  The output decides the order of the letters that are kept to the end, and
the hash set that of the contracted ones. -/
theorem C118_stacked {A B : Type} [CommSemiring A] (h : HashOrd) (s : String) (l₀ r₀ : View B) (L R out : List Char)
    (dims : Char → Nat) (hd : Denotes s [L, R] out) (hs : Sized dims [L, R] [l₀.shape, r₀.shape]) (p : EinsumPath)
    (hp : einsumPath h s [l₀, r₀] .naive = .ok (.ok p)) (hL : L.Nodup) (hR : R.Nodup)
    (hm : pairMethod L R out = .stackedTensordotGeneral) (S U V : List Char)
    (hS : S = out.filter fun c => c ∈ L ∧ c ∈ R) (hU : U = out.filter fun c => c ∈ L ∧ c ∉ R)
    (hV : V = out.filter fun c => c ∉ L ∧ c ∈ R) :
    ∃ NL NR, NL.Perm (L.filter fun c => c ∈ R ∨ c ∈ out) ∧ NR.Perm (R.filter fun c => c ∈ L ∨ c ∈ out) ∧
    ∀ (l r : View A) (t u : List Nat → A), Elements l t → Elements r u → ∀ (dl dr : Char → Nat), l.shape = L.map dl →
      r.shape = R.map dr → ∀ (al : Alloc A) (C : List Char), C = (NL.filter fun c => c ∉ out) →
    ((NL.map dl).prod = (NL.map dims).prod → (NR.map dr).prod = (NR.map dims).prod →
      ∃ w t' u' t₀ u₀, p.contractOperands al [l, r] = .ok w ∧ SummedTo dl L NL t t' ∧ SummedTo dr R NR u u' ∧
        Regrouped NL (S ++ (U ++ C)) dl dims t' t₀ ∧ Regrouped NR (S ++ (C ++ V)) dr dims u' u₀ ∧
        IsEinsum dims [S ++ (U ++ C), S ++ (C ++ V)] [t₀, u₀] out w) ∧
    ((NL.map dl).prod ≠ (NL.map dims).prod ∨ (NR.map dr).prod ≠ (NR.map dims).prod →
      ∃ k, p.contractOperands al [l, r] = panic k) := by
  obtain ⟨sc, k, c, rfl, h1, h2, rfl, h4⟩ := path_two hd hs hp
  obtain ⟨NL, NR, n1, n2, run⟩ := pair_stacked (A := A) h1 h2 h4 hL hR hm hS hU hV
  refine ⟨NL, NR, n1, n2, fun l r t u hl hr dl dr sl sr al => ?_⟩
  rw [contract_two]
  exact run l r t u dl dr (Holds.rep (by rw [← sl]; exact hl.holds)) (Holds.rep (by rw [← sr]; exact hr.holds)) (al.sub 0)

/-! ### Cases -/

theorem Ex.denotes_ikz : Denotes "ikz,j->ikj" [['i', 'k', 'z'], ['j']] ['i', 'k', 'j'] :=
  .inl ⟨by decide, ⟨by simp, by simp [Letter], by simp [Letter]⟩, by simp [OutputOk, Used]⟩

/-- An array of shape 2, 3, 1. -/
def Ex.v231 : View Int := ⟨[1, 2, 3, 4, 5, 6], 0, [2, 3, 1], [3, 1, 1]⟩

/-- The same elements with the first two lengths exchanged. -/
def Ex.v321 : View Int := ⟨[1, 2, 3, 4, 5, 6], 0, [3, 2, 1], [2, 1, 1]⟩

def Ex.one1 : View Int := ⟨[1], 0, [1], [1]⟩

/-- C118, finding: one path, compiled and run on the same arrays, returns different elements for two hash orders. -/
theorem C118_differs : ∃ p p' w w', einsumPath HashOrd.insertion "ikz,j->ikj" [Ex.v231, Ex.one1] .naive = .ok (.ok p) ∧
    einsumPath HashOrd.reversed "ikz,j->ikj" [Ex.v231, Ex.one1] .naive = .ok (.ok p') ∧
    p.contractOperands (Alloc.rowMajor Int) [Ex.v321, Ex.one1] = .ok w ∧
    p'.contractOperands (Alloc.rowMajor Int) [Ex.v321, Ex.one1] = .ok w' ∧
    w = ⟨[1, 2, 3, 4, 5, 6], 0, [2, 3, 1], [3, 1, 1]⟩ ∧ w' = ⟨[1, 5, 4, 3, 2, 6], 0, [2, 3, 1], [3, 1, 1]⟩ := by
  exact ⟨_, _, _, _, by with_unfolding_all rfl, by with_unfolding_all rfl, by with_unfolding_all rfl,
    by with_unfolding_all rfl, rfl, rfl⟩

/-- The hypotheses of `C118_tensordot`: the path of `C118_differs`, for all hash orders and memory layouts. -/
example (h : HashOrd) (al : Alloc Int) : ∃ p, einsumPath h "ikz,j->ikj" [Ex.v231, Ex.one1] .naive = .ok (.ok p) ∧
    ∃ w, p.contractOperands al [Ex.v321, Ex.one1] = .ok w ∧ w.shape = [2, 3, 1] := by
  have s1 : Sized (fun c => if c = 'i' then 2 else if c = 'k' then 3 else 1) [['i', 'k', 'z'], ['j']]
      [Ex.v231.shape, Ex.one1.shape] := .cons (by decide) (.cons (by decide) .nil)
  obtain ⟨p, hp, -⟩ := einsumPath_ok (operands := [Ex.v231, Ex.one1]) Ex.denotes_ikz s1 h (.inl rfl)
  refine ⟨p, hp, ?_⟩
  obtain ⟨NL, NR, n1, n2, run⟩ := C118_tensordot (A := Int) h _ _ _ _ _ [] _ _ Ex.denotes_ikz s1 p hp (by decide) (by decide)
    (by decide) .nil (by simp)
  obtain ⟨w, t', u', t₀, u₀, w1, -, -, -, -, w2⟩ := (run Ex.v321 Ex.one1 (Ex.elems Ex.v321) (Ex.elems Ex.one1)
    (elements_of rfl (by decide)) (elements_of rfl (by decide))
    (fun c => if c = 'i' then 3 else if c = 'k' then 2 else 1) (fun _ => 1) (by decide) (by decide) al).1
    (by rw [(n1.map _).prod_eq, (n1.map _).prod_eq]; decide) (by rw [(n2.map _).prod_eq, (n2.map _).prod_eq]; decide)
  exact ⟨w, w1, w2.2.1.trans (by decide)⟩

/-- The hypotheses of `C118_stacked`: a path for 2 products of a 2 by 3 and a 3 by 2 matrix, of which the first has an axis to
be summed, accepts 3 arrays of 2 by 2 by 5 and 1 matrix of 4 by 3. -/
example (h : HashOrd) (al : Alloc Int) (l₀ r₀ : View Int) (hl₀ : l₀.shape = [2, 2, 3, 7]) (hr₀ : r₀.shape = [2, 3, 2]) :
    ∃ p, einsumPath h "bijz,bjk->bik" [l₀, r₀] .naive = .ok (.ok p) ∧
    ∃ w, p.contractOperands al [⟨(List.range 60).map Int.ofNat, 0, [3, 2, 2, 5], [20, 10, 5, 1]⟩,
      ⟨(List.range 12).map Int.ofNat, 0, [1, 4, 3], [12, 3, 1]⟩] = .ok w ∧ w.shape = [2, 2, 2] := by
  have d : Denotes "bijz,bjk->bik" [['b', 'i', 'j', 'z'], ['b', 'j', 'k']] ['b', 'i', 'k'] :=
    .inl ⟨by decide, ⟨by simp, by simp [Letter], by simp [Letter]⟩, by simp [OutputOk, Used]⟩
  have s1 : Sized (fun c => if c = 'j' then 3 else if c = 'z' then 7 else 2) [['b', 'i', 'j', 'z'], ['b', 'j', 'k']]
      [l₀.shape, r₀.shape] := .cons (by rw [hl₀]; decide) (.cons (by rw [hr₀]; decide) .nil)
  obtain ⟨p, hp, -⟩ := einsumPath_ok (operands := [l₀, r₀]) d s1 h (.inl rfl)
  refine ⟨p, hp, ?_⟩
  obtain ⟨NL, NR, n1, n2, run⟩ := C118_stacked (A := Int) h _ l₀ r₀ _ _ _ _ d s1 p hp (by decide) (by decide)
    (by decide) _ _ _ rfl rfl rfl
  obtain ⟨w, t', u', t₀, u₀, w1, -, -, -, -, w2⟩ := (run
    ⟨(List.range 60).map Int.ofNat, 0, [3, 2, 2, 5], [20, 10, 5, 1]⟩ ⟨(List.range 12).map Int.ofNat, 0, [1, 4, 3], [12, 3, 1]⟩
    (Ex.elems ⟨(List.range 60).map Int.ofNat, 0, [3, 2, 2, 5], [20, 10, 5, 1]⟩)
    (Ex.elems ⟨(List.range 12).map Int.ofNat, 0, [1, 4, 3], [12, 3, 1]⟩) (elements_of rfl (by decide +kernel))
    (elements_of rfl (by decide))
    (fun c => if c = 'b' then 3 else if c = 'z' then 5 else 2) (fun c => if c = 'b' then 1 else if c = 'j' then 4 else 3)
    (by decide) (by decide) al _ rfl).1
    (by rw [(n1.map _).prod_eq, (n1.map _).prod_eq]; decide) (by rw [(n2.map _).prod_eq, (n2.map _).prod_eq]; decide)
  exact ⟨w, w1, w2.2.1.trans (by decide)⟩

end Einsum
