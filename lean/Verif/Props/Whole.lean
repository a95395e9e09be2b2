import Verif.Model.Whole
import Verif.Props.Trees
import Verif.Props.Wrapped
import Verif.Props.Release
import Verif.Props.Strides

/-!
# The crate as built: C78
-/

namespace Einsum

open Spec

/-- Strides that can be added up: of the array, and of a copy of it. -/
def Spec.Roomy {A : Type} (W : Nat) (v : View A) : Prop :=
  (v.strides.map Int.toNat).sum ≤ W / 2 ∧ v.shape.length * v.shape.prod ≤ W / 2

/-- One of the two kinds of build. -/
def Spec.Word (W : Nat) (ar : StrideArith) : Prop := ar = .debug W ∨ ar = .release W

section
variable {A : Type} {W : Nat} {ar : StrideArith}

theorem noUb_add (har : Word W ar) (a b : Nat) : NoUb (ar.add a b) := by
  rcases har with rfl | rfl
  · simp only [StrideArith.debug]
    split
    · exact .ok
    · exact .panic
  · exact .ok

theorem noUb_abs (har : Word W ar) (a : Nat) : NoUb (ar.abs a) := by
  rcases har with rfl | rfl
  · simp only [StrideArith.debug]
    split
    · exact .ok
    · split
      · exact .panic
      · exact .ok
  · exact .ok

theorem noUb_diagStridesS (har : Word W ar) (mapping : List Nat) (ss : List Int) : ∀ (acc : List Nat) (idx : Nat),
    NoUb (diagStridesS ar mapping acc idx ss) := by
  induction ss with
  | nil => intro acc idx; exact .ok
  | cons s ss ih =>
    intro acc idx
    simp only [diagStridesS]
    exact (noUb_assertThat _).bind fun _ => (noUb_index _ _).bind fun _ => (noUb_index _ _).bind fun _ =>
      (noUb_add har _ _).bind fun _ => ih _ _

theorem viewS_weak (har : Word W ar) (d : Diagonalization) (t : View A) :
    (∃ k, d.viewS ar t = panic k) ∨ ∃ w, d.viewS ar t = .ok w ∧ w.shape = d.outputShape ∧
      w.strides.length = d.outputShape.length := by
  unfold Diagonalization.viewS
  rcases noUb_diagStridesS har d.inputToOutputMapping t.strides (d.outputShape.map fun _ => 0) 0 with ⟨k, hk⟩ | ⟨r, hr⟩
  · exact .inl ⟨k, by rw [hk]; rfl⟩
  rw [hr, bind_ok]
  cases t.asSliceMemoryOrder with
  | none => exact .inl ⟨_, rfl⟩
  | some data =>
    simp only [unwrapO_some, bind_ok, fromShapeStridesS]
    split
    · exact .inl ⟨_, rfl⟩
    rename_i hl
    rcases noUb_mapE (noUb_abs har) r with ⟨k, hk⟩ | ⟨a, ha⟩
    · exact .inl ⟨k, by rw [hk]; rfl⟩
    rw [ha, bind_ok]
    cases hf : fromShapeStrides d.outputShape a data with
    | none => exact .inl ⟨_, rfl⟩
    | some v =>
      have := (SameStrides.fromShape (fun _ _ => rfl : SameStrides d.outputShape a a) rfl hf).2
      refine .inr ⟨_, rfl, by rw [this], ?_⟩
      simp only [List.length_map]
      exact (not_ne_iff.1 hl).symm

theorem diagStrides_le {mapping : List Nat} {ss : List Int} : ∀ {acc : List Nat} {idx : Nat} {r : List Nat} {bound : Nat},
    diagStrides mapping acc idx ss = .ok r → (∀ x ∈ acc, x ≤ bound) → ∀ x ∈ r, x ≤ bound + (ss.map Int.toNat).sum := by
  induction ss with
  | nil => intro acc idx r bound h hb x hx; cases h; simpa using hb x hx
  | cons s ss ih =>
    intro acc idx r bound h hb x hx
    simp only [diagStrides] at h
    obtain ⟨_, -, h⟩ := bind_eq_ok.1 h
    obtain ⟨m, -, h⟩ := bind_eq_ok.1 h
    obtain ⟨old, h2, h⟩ := bind_eq_ok.1 h
    have := ih (bound := bound + s.toNat) h (fun y hy => by
      rcases List.mem_or_eq_of_mem_set hy with hy | rfl
      · have := hb y hy; omega
      · have := hb old (List.mem_of_getElem? (index_eq_ok.1 h2)); omega) x hx
    simp only [List.map_cons, List.sum_cons]
    omega

theorem viewS_outcome (har : Word W ar) {d : Diagonalization} {t w : View A} (hlen : t.shape.prod ≤ W / 2)
    (hw : d.view t = .ok w) :
    Outcome (ar = .release W ∨ (t.strides.map Int.toNat).sum ≤ W / 2) False (d.viewS ar t) fun w' =>
      w'.shape = w.shape ∧ w'.strides.length = w.strides.length ∧ ∀ idx, w'.read idx = w.read idx := by
  rcases har with rfl | rfl
  · refine ⟨?_, False.elim, C77_debug W d t w hlen hw⟩
    rintro (hr | hr)
    · exact absurd (congrArg (fun ar => (ar.add 0 (W + 1)).toOption) hr) (by simp [StrideArith.debug, StrideArith.release, Except.toOption, panic])
    · refine ⟨w, C77_fits W _ (.inl rfl) d t w hw fun s hs => ?_, rfl, rfl, fun _ => rfl⟩
      obtain ⟨r, data, h1, h2, -, h3⟩ := view_parts hw
      have hv := (SameStrides.fromShape (fun _ _ => rfl : SameStrides d.outputShape r r) rfl h3).2
      rw [hv] at hs
      obtain ⟨x, hx, rfl⟩ := List.mem_map.1 hs
      have := diagStrides_le (bound := 0) h1 (fun y hy => by
        obtain ⟨_, -, rfl⟩ := List.mem_map.1 hy
        exact le_refl _) x hx
      simp only [Int.ofNat_eq_natCast, Nat.cast_le]
      omega
  · exact (Outcome.ok (C77_release W d t w hlen hw)).imp (fun _ => trivial) id fun _ h => h

theorem Rep.weak {ι : Type} {dims : ι → Nat} {w : View A} {adj : List ι} (F : (ι → Nat) → A) (h1 : w.shape = adj.map dims)
    (h2 : w.strides.length = adj.length) (h0 : (adj.map dims).prod = 0) : Rep w adj dims F :=
  ⟨h1, h2, fun σ hσ => by
    obtain ⟨c, hc, h⟩ := List.mem_map.1 (List.prod_eq_zero_iff.1 h0)
    have := hσ c hc
    omega⟩

theorem sum_sufProds (shape : List Nat) (hp : ∀ d ∈ shape, d ≠ 0) :
    (sufProds shape).sum ≤ shape.length * shape.prod := by
  induction shape with
  | nil => simp [sufProds]
  | cons d ds ih =>
    have := ih fun x hx => hp x (by simp [hx])
    have hd : 1 ≤ d := Nat.one_le_iff_ne_zero.2 (hp d (by simp))
    simp only [sufProds, List.sum_cons, List.length_cons, List.prod_cons]
    have h1 : ds.prod ≤ d * ds.prod := Nat.le_mul_of_pos_left _ hd
    have h2 : ds.length * ds.prod ≤ ds.length * (d * ds.prod) := Nat.mul_le_mul_left _ h1
    rw [Nat.succ_mul]
    omega

theorem sum_default (shape : List Nat) (hp : ∀ d ∈ shape, d ≠ 0) :
    ((defaultStrides shape).map Int.toNat).sum ≤ shape.length * shape.prod := by
  have e : (defaultStrides shape).map Int.toNat = sufProds shape := by
    unfold defaultStrides
    rw [if_pos (by simpa using hp), List.map_map]
    exact (List.map_congr_left fun x _ => rfl).trans (List.map_id _)
  rw [e]
  exact sum_sufProds shape hp

variable [Zero A] {L adj : List Char} {dims : Char → Nat} {t : View A} {F : (Char → Nat) → A}

theorem Rep.diagRunM (har : Word W ar) (h : Rep t L dims F) (hwf : t.Wf) (hadj : adj.Nodup) (hLa : ∀ c ∈ L, c ∈ adj)
    (haL : ∀ c ∈ adj, c ∈ L) (al : Alloc A) (hlen : t.shape.prod ≤ W / 2) :
    Outcome (0 < (L.map dims).prod ∧ (ar = .release W ∨ Roomy W t)) False
      (Diagonalization.runS ar ⟨L.map fun c => pos c adj, adj.map dims⟩ al t) fun w => Rep w adj dims F := by
  classical
  obtain ⟨T, hT⟩ : ∃ T, Holds t t.shape T := by
    refine ⟨fun idx => if hi : InB t.shape idx then (hwf.2 idx hi).choose else 0, rfl, hwf.1, fun idx hi => ?_⟩
    rw [dif_pos hi]; exact (hwf.2 idx hi).choose_spec
  by_cases hp : 0 < (L.map dims).prod
  · obtain ⟨cl, h1, h2, h3⟩ := fromShapeVec_map_self t.shape T
    have hcl : Rep cl L dims F := by
      refine ⟨by rw [h3.shape, h.shape], by rw [h3.strides, h.shape]; simp, fun σ hσ => ?_⟩
      have hi := inB_of_inRange hσ
      rw [← h.shape] at hi
      rw [h3.get _ hi, ← hT.get _ hi, h.get σ hσ]
    obtain ⟨w, h4, h5⟩ := hcl.diagView h3.wf hp
      (by rw [h3.shape, h2]; exact isContiguous_default _)
      (by rw [h2]; exact default_pos (by rw [h.shape]; exact hp)) hadj hLa haL
    have key := (viewS_outcome har (by rw [h3.shape]; exact hlen) h4).bind (f := fun v => v.toOwned al)
      fun w' e => Outcome.ok ((h5.of_reads e.1 e.2.1 e.2.2).toOwned hadj al)
    simp only [Diagonalization.runS, hT.toVec, h1, bind_ok]
    refine key.imp (fun hg => ⟨hg.2.imp_right fun hr => ?_, trivial⟩) False.elim fun _ hw => hw
    rw [h2]
    refine (sum_default _ fun d hd h0 => ?_).trans hr.2
    rw [← h.shape, List.prod_eq_zero (h0 ▸ hd)] at hp
    exact absurd hp (lt_irrefl _)
  · refine ⟨fun hg => absurd hg.1 hp, False.elim, ?_⟩
    simp only [Diagonalization.runS, hT.toVec, bind_ok]
    split
    · exact .inl ⟨_, rfl⟩
    rename_i cl _
    rcases viewS_weak har ⟨L.map fun c => pos c adj, adj.map dims⟩ cl with ⟨k, hk⟩ | ⟨w, w1, w2, w3⟩
    · exact .inl ⟨k, by rw [hk]; rfl⟩
    have : Rep w adj dims F := Rep.weak F w2 (by simpa using w3) (prod_zero_of_sub (by omega) hLa)
    obtain ⟨u, u1, u2⟩ := this.toOwned hadj al
    exact .inr ⟨u, by rw [w1, bind_ok, u1], u2⟩

theorem Rep.diagEitherM (har : Word W ar) (h : Rep t L dims F) (hwf : t.Wf) (hadj : adj.Nodup)
    (hLa : ∀ c ∈ L, c ∈ adj) (haL : ∀ c ∈ adj, c ∈ L) (al : Alloc A) (hlen : t.shape.prod ≤ W / 2) :
    Outcome (0 < (L.map dims).prod ∧ (ar = .release W ∨ Roomy W t)) False
      (if t.asSliceMemoryOrder.isSome && t.strides.all (fun s => 0 < s) then
        Diagonalization.viewS ar ⟨L.map fun c => pos c adj, adj.map dims⟩ t
      else Diagonalization.runS ar ⟨L.map fun c => pos c adj, adj.map dims⟩ al t) fun w => Rep w adj dims F := by
  split
  · rename_i hcond
    by_cases hp : 0 < (L.map dims).prod
    · obtain ⟨w, h1, h2⟩ := h.diagEither hwf hp hadj hLa haL al
      rw [if_pos hcond] at h1
      exact (viewS_outcome har hlen h1).imp (fun hg => hg.2.imp_right And.left) id fun w' e => h2.of_reads e.1 e.2.1 e.2.2
    · refine ⟨fun hg => absurd hg.1 hp, False.elim, ?_⟩
      refine (viewS_weak har ⟨L.map fun c => pos c adj, adj.map dims⟩ t).imp_right ?_
      rintro ⟨w, w1, w2, w3⟩
      exact ⟨w, w1, Rep.weak F w2 (by simpa using w3) (prod_zero_of_sub (by omega) hLa)⟩
  · exact h.diagRunM har hwf hadj hLa haL al hlen

end

/-! ## Steps -/

/-- A step on this operand does not panic. -/
def Fine {A : Type} (W : Nat) (ar : StrideArith) (dims : Char → Nat) (L : List Char) (v : View A) : Prop :=
  L.Nodup ∨ 0 < (L.map dims).prod ∧ (ar = .release W ∨ Roomy W v)

section
variable {A : Type} {W : Nat} {ar : StrideArith} {sc : SizedContraction} {dims : Char → Nat} {L : List Char}

theorem singletonM_ok [AddCommMonoid A] (har : Word W ar) (hv : sc.Valid dims)
    (hops : sc.contraction.operandIndices = [L]) {p : SingletonContraction} (hp : SingletonContraction.new sc = .ok p)
    (al : Alloc A) (v : View A) (F : (Char → Nat) → A) (hr : Rep v L dims F) (hwf : v.Wf)
    (hlen : L.Nodup ∨ v.shape.prod ≤ W / 2) :
    Outcome (Fine W ar dims L v) False (p.op.runS ar al v) fun w =>
      Rep w sc.contraction.outputIndices dims (sumOver dims (summed [L] sc.contraction.outputIndices) F) := by
  obtain ⟨p', p1, -, p3⟩ := singleton_ok hv hops
  obtain ⟨p'', q1, q2⟩ := singleton_method hv hops
  rw [hp] at p1 q1
  cases p1
  cases q1
  have hsub := hv.out_sub hops
  have hout := hv.out.1
  set out := sc.contraction.outputIndices with hO
  have hp' := hp
  simp only [SingletonContraction.new] at hp'
  obtain ⟨summary, -, hp'⟩ := bind_eq_ok.1 hp'
  obtain ⟨op, o1, hp'⟩ := bind_eq_ok.1 hp'
  cases hp'
  simp only at q2 p3 ⊢
  by_cases hd : L.Nodup
  · have e : op.runS ar al v = op.run al v := by
      rw [q2, singletonMethod, if_pos hd] at o1
      split_ifs at o1 <;> (try cases o1; rfl) <;>
      · obtain ⟨x, -, o2⟩ := bind_eq_ok.1 o1
        cases o2
        rfl
    rw [e]
    exact (p3 A al v F hr hwf).imp (fun _ => .inl hd) False.elim fun _ h => h
  replace hlen := hlen.resolve_left hd
  have hgood : Fine W ar dims L v → 0 < (L.map dims).prod ∧ (ar = .release W ∨ Roomy W v) := fun h => h.resolve_left hd
  obtain ⟨new, h1, h2, h3⟩ := Diagonalization.new_ok hv hops
  rw [← hO] at h1 h2 h3
  have hLa : ∀ c ∈ L, c ∈ out ++ new := fun c hc => by
    rw [List.mem_append, h3]
    by_cases ho : c ∈ out
    · exact .inl ho
    · exact .inr ⟨hc, ho⟩
  have haL : ∀ c ∈ out ++ new, c ∈ L := fun c hc => by
    rcases List.mem_append.1 hc with h | h
    · exact hsub c h
    · exact ((h3 c).1 h).1
  by_cases hall : ∀ c ∈ L, c ∈ out
  · rw [q2, singletonMethod, if_neg hd, if_pos hall, SingletonOp.new, h1] at o1
    cases o1
    have hnil : new = [] := List.eq_nil_iff_forall_not_mem.2 fun c hc => ((h3 c).1 hc).2 (hall c ((h3 c).1 hc).1)
    rw [hnil, List.append_nil] at hLa haL ⊢
    rw [summed_one_nil hall]
    exact (hr.diagRunM har hwf hout hLa haL al hlen).imp hgood id fun _ h => h
  · have hne : new ≠ [] := by
      rintro rfl
      exact hall fun c hc => by simpa using hLa c hc
    have e : usub ((out ++ new).map dims).length out.length = .ok new.length := by
      rw [usub_of_le (by simp)]; simp
    rw [q2, singletonMethod, if_neg hd, if_neg hall, SingletonOp.new] at o1
    simp only [DiagonalizationAndSummation.new, h1, ← hO, bind_ok, e,
      Summation.fromSizes_ok (List.length_pos_iff.2 hne)] at o1
    cases o1
    have key := (hr.diagEitherM har hwf h2 hLa haL (al.sub 0) hlen).bind
      (f := fun w => Summation.run ⟨(List.range new.length).map (out.length + ·),
        List.replicate new.length out.length⟩ (al.sub 1) w) fun w w2 =>
      Outcome.ok (w2.summation h2 hne ((List.range new.length).map (out.length + ·)) (al.sub 1))
    refine Outcome.imp (g := (0 < (L.map dims).prod ∧ (ar = .release W ∨ Roomy W v)) ∧ True) (b := False ∨ False)
      (Q := fun w => Rep w out dims (sumOver dims new F)) ?_ (fun x => ⟨hgood x, trivial⟩) False.elim fun w h4 => ?_
    · simp only [SingletonOp.runS, DiagonalizationAndSummation.runS]
      refine Eq.mp ?_ key
      congr 1
      split <;> rfl
    · rw [← sumOver_summed (S := new) (List.nodup_append.1 h2).2.1]
      · exact h4
      · intro c; simpa using h3 c

theorem simplificationM_ok [AddCommMonoid A] (har : Word W ar) (hv : sc.Valid dims) (h : HashOrd) {R out : List Char}
    (hL : ∀ c ∈ L, c ∈ sc.contraction.operandIndices.flatten) {s : Option SimplificationMethodAndOutput}
    (hs : SimplificationMethodAndOutput.fromIndicesAndSizes h L R out sc = .ok s)
    (al : Alloc A) (v : View A) (F : (Char → Nat) → A) (hr : Rep v L dims F) (hwf : v.Wf)
    (hlen : L.Nodup ∨ v.shape.prod ≤ W / 2) :
    Outcome (Fine W ar dims L v) False (simplifyOperandS ar al s v) fun w =>
      Rep w (newIndicesOr s L) dims (sumOver dims (summed [L] (newIndicesOr s L)) F) := by
  set N := desiredIndices (h.sub 0) L R out with hN
  have hout : OutputOk [L] N := ⟨nodup_desired, fun c hc => used_iff.2 (by simpa using (mem_desired.1 hc).1)⟩
  obtain ⟨sc', h1, h2, h3, h4⟩ := hv.subset (h.sub 1) (ops := [L]) (by simpa using hL) hout
  obtain ⟨p, h5, h6, -⟩ := singleton_ok h2 h3
  obtain ⟨str, hstr⟩ := asEinsumString_ok h3 (by simp)
  have key := singletonM_ok har h2 h3 h5 al v F hr hwf hlen
  rw [h4] at h6 key
  unfold SimplificationMethodAndOutput.fromIndicesAndSizes at hs
  simp only [← hN, h1, unwrapR_ok, bind_ok, h5] at hs
  by_cases hm : p.method = .identity ∨ p.method = .permutation
  · have e : s = none := by
      rcases hm with e | e <;> rw [e] at hs <;> cases hs <;> rfl
    subst e
    refine (Outcome.ok ⟨v, rfl, ?_⟩).imp (fun _ => trivial) id fun _ h => h
    have hnil : summed [L] (newIndicesOr none L) = [] := by
      rw [List.eq_nil_iff_forall_not_mem]
      intro c hc
      simpa [newIndicesOr] using mem_summed.1 hc
    rw [hnil]
    exact hr
  · have e : s = some ⟨p.method, p.op, N, str⟩ := by
      rw [hstr] at hs
      cases hpm : p.method <;> simp_all
    subst e
    exact key

theorem pairM_ok [CommSemiring A] (har : Word W ar) {mul : UMul} (hm : NoLarger mul) {R : List Char}
    (hv : sc.Valid dims) (hops : sc.contraction.operandIndices = [L, R]) (h : HashOrd) {p' : PairContraction}
    (hp' : PairContraction.newW mul h sc = .ok p') (al : Alloc A) (l r : View A) (F G : (Char → Nat) → A)
    (hl : Rep l L dims F) (hlw : l.Wf) (hr : Rep r R dims G) (hrw : r.Wf)
    (hll : L.Nodup ∨ l.shape.prod ≤ W / 2) (hrl : R.Nodup ∨ r.shape.prod ≤ W / 2) :
    Outcome (PairContraction.newW mul h sc = PairContraction.new h sc ∧ Fine W ar dims L l ∧ Fine W ar dims R r) False
      (p'.runS ar al l r) fun w =>
      Rep w sc.contraction.outputIndices dims
        (sumOver dims (summed [L, R] sc.contraction.outputIndices) fun σ => F σ * G σ) := by
  have hsub := hv.out_sub2 hops
  have hon := hv.out.1
  set out := sc.contraction.outputIndices with hO
  have hL : ∀ c ∈ L, c ∈ sc.contraction.operandIndices.flatten := by rw [hops]; intro c hc; simp [hc]
  have hR : ∀ c ∈ R, c ∈ sc.contraction.operandIndices.flatten := by rw [hops]; intro c hc; simp [hc]
  obtain ⟨sl, l1, l2, l3, -⟩ := simplification_ok hv (h.sub 0) (L := L) (R := R) (out := out) hL
  obtain ⟨sr, r1, r2, r3, -⟩ := simplification_ok hv (h.sub 1) (L := R) (R := L) (out := out) hR
  set NL := newIndicesOr sl L with hNL
  set NR := newIndicesOr sr R with hNR
  obtain ⟨red, h1, h2, h3, h4⟩ := hv.subset (h.sub 2) (ops := [NL, NR]) (out := out)
    (by
      rw [hops]; intro c hc
      simp only [List.flatten_cons, List.flatten_nil, List.append_nil, List.mem_append, l3, r3] at hc ⊢
      tauto)
    ⟨hon, fun c hc => used_iff.2 (by
      simp only [List.flatten_cons, List.flatten_nil, List.append_nil, List.mem_append, l3, r3]
      have := hsub c hc
      tauto)⟩
  obtain ⟨s, op, h5, h6, h7⟩ := pairOp_ok h2 h3 l2 r2
    (by rw [h4]; intro c hc; rw [r3]; have := (l3 c).1 hc; tauto)
    (by rw [h4]; intro c hc; rw [l3]; have := (r3 c).1 hc; tauto)
  obtain ⟨str, hstr⟩ := asEinsumString_ok h3 (by simp)
  rw [h4] at h7
  have hnew : PairContraction.new h sc = .ok ⟨sl, sr, s.getStrategy, op, str⟩ := by
    unfold PairContraction.new
    rw [hops]
    simp only [List.length_cons, List.length_nil, Nat.zero_add, Nat.reduceAdd, decide_true,
      assertThat_true, bind_ok, index_cons_zero, index_one]
    rw [← hO, l1, bind_ok, r1, bind_ok, ← hNL, ← hNR, h1, unwrapR_ok, bind_ok, h5, bind_ok, h6, bind_ok,
      hstr, bind_ok]
    rfl
  have hp'' := hp'
  unfold PairContraction.newW at hp'
  rw [hops] at hp'
  simp only [List.length_cons, List.length_nil, Nat.zero_add, Nat.reduceAdd, decide_true,
    assertThat_true, bind_ok, index_cons_zero, index_one] at hp'
  rw [← hO, l1, bind_ok, r1, bind_ok, ← hNL, ← hNR, h1, unwrapR_ok, bind_ok, h5, bind_ok] at hp'
  obtain ⟨op', o1, o2⟩ := bind_eq_ok.1 hp'
  rw [hstr, bind_ok] at o2
  cases o2
  obtain ⟨F', f1, f2, f3⟩ := hl.dependsOn
  obtain ⟨G', g1, g2, g3⟩ := hr.dependsOn
  have hop : ∀ l' r' : View A, ∀ F G, Rep l' NL dims F → Rep r' NR dims G →
      Outcome (op' = op) False (op'.run (al.sub 2) l' r') fun w =>
        Rep w out dims (sumOver dims (summed [NL, NR] out) fun σ => F σ * G σ) := by
    intro l' r' F G x1 x2
    obtain ⟨w, c1, c2⟩ := h7 A (al.sub 2) l' r' F G x1 x2
    have c3 : Rep w out dims (sumOver dims (summed [NL, NR] out) fun σ => F σ * G σ) := by
      simpa only [mulAs_comm] using c2
    refine ⟨fun e => ⟨w, e ▸ c1, c3⟩, False.elim, ?_⟩
    rcases op'.run_safe (x1.wf l2) (x2.wf r2) (al.sub 2) with hk | ⟨w', w1, -⟩
    · exact .inl hk
    · have := both_run (both_pairOp hm _ _ _ _ o1 h6) _ _ _ _ _ w1 c1
      subst this
      exact .inr ⟨w', w1, c3⟩
  have key := (simplificationM_ok har hv (h.sub 0) hL l1 (al.sub 0) l F' f2 hlw hll).bind
    (f := fun l' => simplifyOperandS ar (al.sub 1) sr r >>= fun r' => op'.run (al.sub 2) l' r') fun l' a2 =>
    (simplificationM_ok har hv (h.sub 1) hR r1 (al.sub 1) r G' g2 hrw hrl).bind fun r' b2 => hop l' r' _ _ a2 b2
  refine Outcome.imp key (fun x => ⟨x.2.1, x.2.2, ?_⟩) False.elim fun w w2 => ?_
  · have := x.1
    rw [hp'', hnew] at this
    cases this
    rfl
  · rw [sum_pair f1 g1 l3 r3] at w2
    refine w2.congr fun σ hσ => sumOver_congr fun σ' h8 h9 => ?_
    have hin : ∀ c, c ∈ L ∨ c ∈ R → σ' c < dims c := by
      intro c hc
      by_cases hs : c ∈ summed [L, R] out
      · exact h9 c hs
      · rw [h8 c hs]
        apply hσ
        by_contra hno
        exact hs (mem_summed.2 ⟨by simpa using hc, hno⟩)
    rw [f3 σ' fun c hc => hin c (.inl hc), g3 σ' fun c hc => hin c (.inr hc)]

end

/-! ## Orders -/

/-- What a step finds under this number; if `G`, a step on it does not panic. -/
def Pending.InM {A : Type} (G : Prop) (W : Nat) (ar : StrideArith) (dims : Char → Nat) (operands inter : List (View A))
    (x : Pending A) : Prop :=
  ∃ v, fetch operands inter x.num = .ok v ∧ v.Wf ∧ Rep v x.labels dims (fun σ => x.elems (x.labels.map σ)) ∧
    (x.labels.Nodup ∨ v.shape.prod ≤ W / 2) ∧ (G → Fine W ar dims x.labels v)

theorem contractsM_ok {A : Type} [CommSemiring A] {W : Nat} {ar : StrideArith} (har : Word W ar) {mul : UMul}
    (hm : NoLarger mul) (G : Prop) {dims : Char → Nat} {out : List Char} {k : Nat}
    {pending : List (OperandNumber × List Char)} {steps : List PairStep} (hc : Contracts dims out k pending steps)
    (h : HashOrd) {cs : List PairContraction} (hcs : compileStepsW mul h steps = .ok cs)
    (al : Alloc A) (operands inter : List (View A)) (live : List (Pending A)) (hi : inter.length = k)
    (hl : live.map (fun x => (x.num, x.labels)) = pending) (hin : ∀ x ∈ live, x.InM G W ar dims operands inter) :
    Outcome (G ∧ compileStepsW mul h steps = compileSteps h steps) False
      (runStepsS ar al operands (cs.zip steps) inter >>= fun inter => unwrapO inter.getLast?)
      fun w => w.Wf ∧ Rep w out dims (pendingSum dims live out) := by
  induction hc generalizing h cs al inter live with
  | done k =>
    cases hcs
    obtain ⟨x, rfl⟩ : ∃ x, live = [x] := List.length_eq_one_iff.1 (by simpa using congrArg List.length hl)
    simp only [List.map_cons, List.map_nil, List.cons.injEq, Prod.mk.injEq, and_true] at hl
    obtain ⟨v, v1, v2, v3, -⟩ := hin x (by simp)
    rw [hl.1] at v1
    rw [hl.2] at v3
    simp only [fetch, index_eq_ok] at v1
    refine (Outcome.ok ⟨v, ?_, v2, v3.congr fun σ _ => ?_⟩).imp (fun _ => trivial) id fun _ hw => hw
    · have e : inter.getLast? = some v := by
        rw [List.getLast?_eq_getElem?, hi, Nat.add_sub_cancel, v1]
      change unwrapO inter.getLast? = _
      rw [e]
      rfl
    · have : summed [out] out = [] := by
        refine List.eq_nil_iff_forall_not_mem.2 fun c hc => ?_
        have := mem_summed.1 hc
        simp at this
      simp [pendingSum, Spec.einsum, hl.2, this, term]
  | @step k pending rest l r L R O st steps hp hn hops hO hsz hok hkeep hrest' ih =>
    obtain ⟨⟨⟨ops, o, s⟩, sz⟩, nums⟩ := st
    simp only at hn hops hO hsz
    subst hn hops hO
    have hv : SizedContraction.Valid ⟨⟨[L, R], o, summationOf [L, R] o⟩, sz⟩ dims :=
      ⟨hok, rfl, fun c hc => hsz c (by simpa using hc)⟩
    simp only [compileStepsW] at hcs
    obtain ⟨p, p1, hcs⟩ := bind_eq_ok.1 hcs
    obtain ⟨cs', c1, hcs⟩ := bind_eq_ok.1 hcs
    cases hcs
    have p1' : PairContraction.newW mul (h.sub 0) ⟨⟨[L, R], o, summationOf [L, R] o⟩, sz⟩ = .ok p := p1
    obtain ⟨live', f1, f2⟩ := List.perm_comp_forall₂ (r := fun a (x : Pending A) => (x.num, x.labels) = a) hp.symm
      (by rw [← hl, List.forall₂_map_left_iff]; exact List.forall₂_same.2 fun _ _ => rfl)
    cases f1 with
    | @cons _ x _ live' hx f1 =>
    cases f1 with
    | @cons _ y _ live' hy f1 =>
    simp only [Prod.mk.injEq] at hx hy
    obtain ⟨rfl, rfl⟩ := hx
    obtain ⟨rfl, rfl⟩ := hy
    have hrest : live'.map (fun x => (x.num, x.labels)) = rest := by
      rw [← List.forall₂_eq_eq_eq, List.forall₂_map_left_iff]
      exact f1.flip
    obtain ⟨v, v1, v2, v3, v4, v5⟩ := hin x (f2.mem_iff.1 (by simp))
    obtain ⟨w, w1, w2, w3, w4, w5⟩ := hin y (f2.mem_iff.1 (by simp))
    have e : (runStepsS ar al operands ((p :: cs').zip (⟨⟨⟨[x.labels, y.labels], o, s⟩, sz⟩, ⟨x.num, y.num⟩⟩ :: steps)) inter >>=
        fun inter => unwrapO inter.getLast?) = p.runS ar (al.sub 0) v w >>= fun z =>
          runStepsS ar (al.sub 1) operands (cs'.zip steps) (inter ++ [z]) >>= fun inter => unwrapO inter.getLast? := by
      simp only [List.zip_cons_cons, runStepsS, v1, w1, bind_ok, bind_assoc]
    rw [e]
    refine ((pairM_ok har hm hv rfl (h.sub 0) p1' (al.sub 0) v w _ _ v3 v2 w3 w2 v4 w4).bind
      (g' := G ∧ compileStepsW mul (h.sub 1) steps = compileSteps (h.sub 1) steps)
      (b' := False) (R := fun u => u.Wf ∧ Rep u out dims (pendingSum dims live out)) fun z hz => ?_).imp
      (fun hg => ⟨⟨?_, v5 hg.1, w5 hg.1⟩, hg.1, ?_⟩) False.elim fun _ hu => hu
    · have hzw : z.Wf := hz.wf hok.1
      refine (ih (h.sub 1) c1 (al.sub 1) (inter ++ [z]) (⟨.intermediateResult k, o, z.elem⟩ :: live') (by simp [hi])
        (by simp [hrest]) ?_).imp id id fun u hu => ⟨hu.1, hu.2.congr fun σ hσ => ?_⟩
      · intro u hu
        rcases List.mem_cons.1 hu with rfl | hu
        · refine ⟨z, ?_, hzw, ⟨hz.shape, hz.strides, fun σ hσ => ?_⟩, .inl hok.1, fun _ => .inl hok.1⟩
          · simp only [fetch, index_eq_ok]
            rw [← hi, List.getElem?_concat_length]
          · simp [View.elem, hz.get σ hσ]
        · obtain ⟨u', u1, u2, u3, u4⟩ := hin u (f2.mem_iff.1 (by simp [hu]))
          exact ⟨u', fetch_append u1, u2, u3, u4⟩
      · rw [pendingSum_perm f2.symm]
        refine einsum_stage (in₁ := [x.labels, y.labels]) (ts₁ := [x.elems, y.elems]) rfl hok.2 (fun c hc hc' => ?_)
          (fun σ hσ => ?_) hσ
        · refine hkeep c (by simpa [Used] using hc) (hc'.symm.imp_right ?_)
          rintro ⟨q, hq, hcq⟩
          obtain ⟨u, hu, rfl⟩ := List.mem_map.1 hq
          rw [← hrest]
          exact ⟨_, List.mem_map.2 ⟨u, hu, rfl⟩, hcq⟩
        · simp only [View.elem, hz.get σ hσ, Spec.einsum]
          congr 1
          funext σ
          simp [term]
    · have h1 := hg.2
      simp only [compileStepsW, compileSteps, p1, c1, bind_ok] at h1
      obtain ⟨q, q1, -⟩ := pair_ok hv rfl (h.sub 0)
      have q1' : PairContraction.new (h.sub 0) ⟨⟨[x.labels, y.labels], o, s⟩, sz⟩ = .ok q := q1
      obtain ⟨qs, qs1, -⟩ := contracts_ok hrest' (h.sub 1)
      rw [q1', bind_ok, qs1, bind_ok] at h1
      cases h1
      exact p1'.trans q1.symm
    · have h1 := hg.2
      simp only [compileStepsW, compileSteps, p1, c1, bind_ok] at h1
      obtain ⟨q, q1, -⟩ := pair_ok hv rfl (h.sub 0)
      have q1' : PairContraction.new (h.sub 0) ⟨⟨[x.labels, y.labels], o, s⟩, sz⟩ = .ok q := q1
      obtain ⟨qs, qs1, -⟩ := contracts_ok hrest' (h.sub 1)
      rw [q1', bind_ok, qs1, bind_ok] at h1
      cases h1
      exact c1.trans qs1.symm

section
variable {A : Type} [CommSemiring A] {W : Nat} {ar : StrideArith}

theorem pendingM_outcome (har : Word W ar) {mul : UMul} (hm : NoLarger mul) {dims : Char → Nat} {out : List Char}
    {inputs : List (List Char)} {steps : List PairStep} (hc : Contracts dims out 0 (numbered inputs) steps) (h : HashOrd)
    {p : EinsumPath} (hp : EinsumPath.fromPathW mul h (.pairs steps) = .ok p) (al : Alloc A) (operands : List (View A))
    (ts : List (List Nat → A)) (hs : Sized dims inputs (operands.map View.shape)) (he : List.Forall₂ Elements operands ts)
    (hlen : ∀ v ∈ operands, v.shape.prod ≤ W / 2) :
    Outcome ((NoEmptyDiagonal dims inputs ∧ (ar = .release W ∨ ∀ v ∈ operands, Roomy W v)) ∧
        EinsumPath.fromPathW mul h (.pairs steps) = EinsumPath.fromPath h (.pairs steps)) False
      (p.contractOperandsS ar al operands) (IsEinsum dims inputs ts out) := by
  have hp' := hp
  simp only [EinsumPath.fromPathW] at hp
  obtain ⟨cs, c1, hp⟩ := bind_eq_ok.1 hp
  cases hp
  have lt : ts.length = inputs.length := by
    have := he.length_eq
    have l1 : inputs.length = operands.length := by simpa using hs.length_eq
    omega
  have hsum : pendingSum dims ((List.range inputs.length).map fun i => ⟨.input i, inputs.getD i [], ts.getD i fun _ => 0⟩)
      out = Spec.einsum dims inputs ts out := by
    unfold pendingSum
    rw [List.map_map, List.map_map]
    congr 1
    · exact pick_range inputs []
    · rw [← lt]; exact pick_range ts _
  have key := contractsM_ok har hm (NoEmptyDiagonal dims inputs ∧ (ar = .release W ∨ ∀ v ∈ operands, Roomy W v)) hc h c1
    al operands [] ((List.range inputs.length).map fun i => ⟨.input i, inputs.getD i [], ts.getD i fun _ => 0⟩)
    rfl (by simp [numbered]) (fun x hx => by
      obtain ⟨i, hi, rfl⟩ := List.mem_map.1 hx
      replace hi := List.mem_range.1 hi
      obtain ⟨v, v1, v2, v3⟩ := initial_in hs he hi
      have hv : v ∈ operands := List.mem_of_getElem? (index_eq_ok.1 v1)
      refine ⟨v, v1, v2, v3, .inr (hlen v hv), fun hg => ?_⟩
      have hmem : inputs.getD i [] ∈ inputs := by
        rw [List.getD_eq_getElem?_getD, List.getElem?_eq_getElem hi, Option.getD_some]
        exact List.getElem_mem _
      refine (hg.1 _ hmem).imp_right fun h0 => ⟨prod_of_pos fun d hd => ?_, hg.2.imp_right fun h => h v hv⟩
      obtain ⟨c, hc, rfl⟩ := List.mem_map.1 hd
      exact Nat.pos_of_ne_zero (h0 c hc))
  rw [hsum] at key
  refine key.imp (fun hg => ⟨hg.1, ?_⟩) id fun w hw => hw.2.isEinsum (hc.out_nodup hc.ne_nil)
  obtain ⟨qs, q1, -⟩ := contracts_ok hc h
  have := hg.2
  rw [hp'] at this
  simp only [EinsumPath.fromPath, q1, bind_ok] at this
  cases this
  rw [c1, q1]

theorem generatedM_outcome (har : Word W ar) {mul : UMul} (hm : NoLarger mul) (h h' : HashOrd) {s : String}
    {inputs : List (List Char)} {out : List Char} {dims : Char → Nat} (hd : Denotes s inputs out)
    {m : OptimizationMethod} {o : ContractionOrder} (ho : generateOptimizedOrder h (callSC inputs out dims) m = .ok o)
    {p : EinsumPath} (hp : EinsumPath.fromPathW mul h' o = .ok p) (al : Alloc A) (operands : List (View A))
    (ts : List (List Nat → A)) (hs : Sized dims inputs (operands.map View.shape)) (he : List.Forall₂ Elements operands ts)
    (hlen : ∀ v ∈ operands, v.shape.prod ≤ W / 2) :
    Outcome ((NoEmptyDiagonal dims inputs ∧ (ar = .release W ∨ ∀ v ∈ operands, Roomy W v)) ∧
        EinsumPath.fromPathW mul h' o = EinsumPath.fromPath h' o) False
      (p.contractOperandsS ar al operands) (IsEinsum dims inputs ts out) := by
  have hmm : m = .naive ∨ m = .reverse := by
    cases m
    · exact .inl rfl
    · exact .inr rfl
    all_goals cases ho
  have hsc : SizedContraction.fromStringAndShapes h s (operands.map View.shape) = .ok (callSC inputs out dims) :=
    fromStringAndShapes_iff.2 ⟨inputs, out, dims, hd, hs, rfl⟩
  by_cases h2 : 2 ≤ inputs.length
  · obtain ⟨sc, steps, s1, s2, s3⟩ := C72_generated h h s _ inputs out dims hd hs h2 m hmm
    rw [hsc] at s1
    cases s1
    rw [ho] at s2
    cases s2
    exact pendingM_outcome har hm s3 h' hp al operands ts hs he hlen
  · have h1 : inputs.length = 1 := by
      have := List.length_pos_iff.2 hd.inputs_ne.1
      omega
    rw [C10_singleton h h s _ _ hsc m hmm h1] at ho
    cases ho
    obtain ⟨L, rfl⟩ := List.length_eq_one_iff.1 h1
    obtain ⟨v, rfl⟩ : ∃ v, operands = [v] := List.length_eq_one_iff.1 (by simpa using hs.length_eq.symm)
    obtain ⟨t, rfl⟩ : ∃ t, ts = [t] := List.length_eq_one_iff.1 (by simpa using he.length_eq.symm)
    have hel : Elements v t := by cases he; assumption
    have hsh : v.shape = L.map dims := by cases hs; assumption
    simp only [EinsumPath.fromPathW] at hp
    obtain ⟨c, c1, hp⟩ := bind_eq_ok.1 hp
    cases hp
    have key := singletonM_ok har (callSC_valid hd.outputOk) (L := L) rfl c1 al v _ (rep_of_elements hel hsh) hel.1
      (.inr (hlen v (by simp)))
    refine Outcome.imp key (fun hg => ?_) id fun w hw => Rep.isEinsum_one hd.outputOk.1 hw
    refine (hg.1.1 L (by simp)).imp_right fun h0 => ⟨prod_of_pos fun d hd => ?_, hg.1.2.imp_right fun h => h v (by simp)⟩
    obtain ⟨c, hc, rfl⟩ := List.mem_map.1 hd
    exact Nat.pos_of_ne_zero (h0 c hc)

end

/-! ## Whole calls -/

section
variable {A : Type} [CommSemiring A] {B W : Nat} {b : Build} {ar : StrideArith}

/-- A build with or without overflow checks. -/
def Spec.Built (B W : Nat) (b : Build) : Prop := b = .debug B W ∨ b = .release B W

theorem Spec.Built.facts (hb : Built B W b) :
    b.Subtracts ∧ b.NoUb ∧ IsCounter B b.counter ∧ NoLarger b.mul ∧ ExactTo W b.mul ∧ b.maxLen = W / 2 / 8 := by
  rcases hb with rfl | rfl
  · exact ⟨Build.subtracts_debug B W, Build.noUb_debug B W, .inl rfl, noLarger_umul W, exactTo_umul W, rfl⟩
  · exact ⟨Build.subtracts_release B W, Build.noUb_release B W, .inr rfl, noLarger_uwrap W, exactTo_uwrap W, rfl⟩

/-- A call that is accepted, up to the choice of contractors. -/
theorem einsumS_eq (hB : 2 ≤ B) (hb : Built B W b) (h : HashOrd) (al : Alloc A) (s : String) (operands : List (View A))
    (hs : FewLetters B s) (hlen : s.length ≤ W / 2 / 8) :
    einsumS b ar h al s operands = match validateAndSize (h.sub 0) s operands with
      | .error e => .ok (.error e)
      | .ok sc => do
        let order ← generateOptimizedOrder ((h.sub 1).sub 0) sc .naive
        let path ← EinsumPath.fromPathW b.mul ((h.sub 1).sub 1) order
        let r ← path.contractOperandsS ar al operands
        return .ok r := by
  obtain ⟨b1, -, b3, -, -, b6⟩ := hb.facts
  obtain ⟨e, hf⟩ := validateAndSizeC_eq hB b3 (h.sub 0) s operands hs
  simp only [einsumS, e, bind_ok]
  cases hsc : validateAndSize (h.sub 0) s operands with
  | error e => rfl
  | ok sc =>
    obtain ⟨e1, hf1⟩ := generateOptimizedOrderC_eq hB b3 ((h.sub 1).sub 0) sc (hf sc hsc) .naive
    simp only [e1]
    refine bind_congr_ok fun o ho => ?_
    rw [fromPathB_eq b1 hB b3 _ o ((hf1 o ho).tame (optimizedOrder_short _ sc
      ((validateAndSize_short hsc).trans (by rw [b6]; exact hlen)) _ ho)), fromPathC_eq hB b3 _ _ _ (hf1 o ho)]

theorem einsumS_outcome (hB : 2 ≤ B) (hb : Built B W b) (har : Word W ar) (h : HashOrd) (al : Alloc A) (s : String)
    (operands : List (View A)) (inputs : List (List Char)) (out : List Char) (dims : Char → Nat)
    (ts : List (List Nat → A)) (hc : Call s operands inputs out dims ts) (hs : FewLetters B s)
    (hlen : s.length ≤ W / 2 / 8) (hel : ∀ v ∈ operands, v.shape.prod ≤ W / 2) :
    Outcome (NoEmptyDiagonal dims inputs ∧ (ar = .release W ∨ ∀ v ∈ operands, Roomy W v) ∧
        (∀ v ∈ operands, Fits W v.shape) ∧
        ∀ k, 1 ≤ k → k + 1 < operands.length → Fits W ((live inputs out k).map dims)) False
      (einsumS b ar h al s operands) fun r => ∃ w, r = .ok w ∧ IsEinsum dims inputs ts out w := by
  obtain ⟨b1, b2, b3, b4, b5, b6⟩ := hb.facts
  rw [einsumS_eq hB hb h al s operands hs hlen, validateAndSize_ok (h.sub 0) hc.denotes hc.sized]
  simp only
  have hsc : SizedContraction.fromStringAndShapes (h.sub 0) s (operands.map View.shape) = .ok (callSC inputs out dims) :=
    fromStringAndShapes_iff.2 ⟨inputs, out, dims, hc.denotes, hc.sized, rfl⟩
  obtain ⟨o, q, o1, -⟩ := C11_compiles (h.sub 0) ((h.sub 1).sub 0) ((h.sub 1).sub 1) s _ _ hsc .naive (.inl rfl)
  rw [o1, bind_ok]
  have hlen' : inputs.length = operands.length := by simpa using hc.sized.length_eq
  have live_ok : (∀ v ∈ operands, Fits W v.shape) ∧
      (∀ k, 1 ≤ k → k + 1 < operands.length → Fits W ((live inputs out k).map dims)) →
      ∃ p, EinsumPath.fromPath ((h.sub 1).sub 1) o = .ok p ∧ EinsumPath.fromPathW b.mul ((h.sub 1).sub 1) o = .ok p := by
    intro hg
    obtain ⟨o', p, c1, c2, c3⟩ := operands_compile W b.mul b5 (h.sub 0) ((h.sub 1).sub 0) ((h.sub 1).sub 1) s _ inputs out
      dims hc.denotes hc.sized (fun sh hsh => by
        obtain ⟨v, hv, rfl⟩ := List.mem_map.1 hsh
        exact hg.1 v hv) (by rw [hlen']; exact hg.2)
    rw [o1] at c1
    cases c1
    exact ⟨p, c2, c3⟩
  have hnu : NoUb (EinsumPath.fromPathW b.mul ((h.sub 1).sub 1) o) := by
    obtain ⟨e, hf⟩ := validateAndSizeC_eq hB b3 (h.sub 0) s operands hs
    obtain ⟨e1, hf1⟩ := generateOptimizedOrderC_eq hB b3 ((h.sub 1).sub 0) _ (hf _ hsc) .naive
    have := noUb_fromPathB b2 ((h.sub 1).sub 1) o
    rwa [fromPathB_eq b1 hB b3 _ o ((hf1 o o1).tame (optimizedOrder_short _ _
      ((validateAndSize_short hsc).trans (by rw [b6]; exact hlen)) _ o1)), fromPathC_eq hB b3 _ _ _ (hf1 o o1)] at this
  rcases hnu with ⟨k, hk⟩ | ⟨p, hp⟩
  · rw [hk]
    refine ⟨fun hg => ?_, False.elim, .inl ⟨k, rfl⟩⟩
    obtain ⟨p, -, p2⟩ := live_ok hg.2.2
    rw [hk] at p2
    cases p2
  · rw [hp, bind_ok]
    have := (generatedM_outcome har b4 ((h.sub 1).sub 0) ((h.sub 1).sub 1) hc.denotes o1 hp al operands ts hc.sized
      hc.elements hel).bind (f := fun r => (.ok (.ok r) : M (Except String (View A))))
      (R := fun r => ∃ w, r = .ok w ∧ IsEinsum dims inputs ts out w) fun w hw => Outcome.ok ⟨_, rfl, w, rfl, hw⟩
    refine this.imp (fun hg => ⟨⟨⟨hg.1, hg.2.1⟩, ?_⟩, trivial⟩) False.elim fun _ h => h
    obtain ⟨p', p1, p2⟩ := live_ok hg.2.2
    rw [p1, p2]

/-- C78: whatever overflow checks a build makes, a valid call panics or returns the Einstein sum. -/
theorem C78_sound (hB : 2 ≤ B) (hb : Built B W b) (har : Word W ar) (h : HashOrd) (al : Alloc A) (s : String)
    (operands : List (View A)) (inputs : List (List Char)) (out : List Char) (dims : Char → Nat)
    (ts : List (List Nat → A)) (hc : Call s operands inputs out dims ts) (hs : FewLetters B s)
    (hlen : s.length ≤ W / 2 / 8) (hel : ∀ v ∈ operands, v.shape.prod ≤ W / 2) :
    (∃ k, einsumS b ar h al s operands = panic k) ∨
    ∃ w, einsumS b ar h al s operands = .ok (.ok w) ∧ IsEinsum dims inputs ts out w := by
  refine (einsumS_outcome hB hb har h al s operands inputs out dims ts hc hs hlen hel).2.2.imp_right ?_
  rintro ⟨_, h1, w, rfl, h2⟩
  exact ⟨w, h1, h2⟩

/-- C78: it returns when no operand has both a repeated label and an empty axis, the intermediate results fit, and
strides are not checked or are small enough to be added up. -/
theorem C78_live (hB : 2 ≤ B) (hb : Built B W b) (har : Word W ar) (h : HashOrd) (al : Alloc A) (s : String)
    (operands : List (View A)) (inputs : List (List Char)) (out : List Char) (dims : Char → Nat)
    (ts : List (List Nat → A)) (hc : Call s operands inputs out dims ts) (hs : FewLetters B s)
    (hlen : s.length ≤ W / 2 / 8) (hel : ∀ v ∈ operands, v.shape.prod ≤ W / 2)
    (hne : NoEmptyDiagonal dims inputs) (hst : ar = .release W ∨ ∀ v ∈ operands, Roomy W v)
    (hfit : ∀ v ∈ operands, Fits W v.shape)
    (hlive : ∀ k, 1 ≤ k → k + 1 < operands.length → Fits W ((live inputs out k).map dims)) :
    ∃ w, einsumS b ar h al s operands = .ok (.ok w) ∧ IsEinsum dims inputs ts out w := by
  obtain ⟨_, h1, w, rfl, h2⟩ :=
    (einsumS_outcome hB hb har h al s operands inputs out dims ts hc hs hlen hel).1 ⟨hne, hst, hfit, hlive⟩
  exact ⟨w, h1, h2⟩

/-- C78: two builds that return an array return the same one, whatever the hash orders and the allocators. -/
theorem C78_builds {b' : Build} {ar' : StrideArith} (hB : 2 ≤ B) (hb : Built B W b) (hb' : Built B W b')
    (har : Word W ar) (har' : Word W ar') (h h' : HashOrd) (al al' : Alloc A) (s : String)
    (operands : List (View A)) (inputs : List (List Char)) (out : List Char) (dims : Char → Nat)
    (ts : List (List Nat → A)) (hc : Call s operands inputs out dims ts) (hs : FewLetters B s)
    (hlen : s.length ≤ W / 2 / 8) (hel : ∀ v ∈ operands, v.shape.prod ≤ W / 2) (w w' : View A)
    (hw : einsumS b ar h al s operands = .ok (.ok w)) (hw' : einsumS b' ar' h' al' s operands = .ok (.ok w')) :
    SameArray w w' := by
  have key : ∀ {b : Build} {ar : StrideArith} {h : HashOrd} {al : Alloc A} {w : View A}, Built B W b → Word W ar →
      einsumS b ar h al s operands = .ok (.ok w) → IsEinsum dims inputs ts out w := by
    intro b ar h al w hb har hw
    rcases C78_sound hB hb har h al s operands inputs out dims ts hc hs hlen hel with ⟨k, hk⟩ | ⟨r, r1, r2⟩
    · rw [hw] at hk
      cases hk
    · rw [hw] at r1
      cases r1
      exact r2
  exact (key hb har hw).same hc.denotes.outputOk.1 (key hb' har' hw')

/-- C78: a call is refused by every build, with the same message, or by none. -/
theorem C78_refused (hB : 2 ≤ B) (hb : Built B W b) (h : HashOrd) (al : Alloc A) (s : String)
    (operands : List (View A)) (hs : FewLetters B s) (hlen : s.length ≤ W / 2 / 8) (e : String) :
    einsumS b ar h al s operands = .ok (.error e) ↔ einsum h al s operands = .ok (.error e) := by
  rw [einsumS_eq hB hb h al s operands hs hlen, einsum]
  cases validateAndSize (h.sub 0) s operands with
  | error e => rfl
  | ok sc =>
    constructor
    · intro h1
      obtain ⟨_, -, h1⟩ := bind_eq_ok.1 h1
      obtain ⟨_, -, h1⟩ := bind_eq_ok.1 h1
      obtain ⟨_, -, h1⟩ := bind_eq_ok.1 h1
      cases h1
    · intro h1
      obtain ⟨_, -, h1⟩ := bind_eq_ok.1 h1
      cases h1

/-- C78: any order of contraction. -/
theorem C78_order (hB : 2 ≤ B) (hb : Built B W b) (har : Word W ar) (h : HashOrd) (al : Alloc A) (dims : Char → Nat)
    (inputs : List (List Char)) (out : List Char) (steps : List PairStep)
    (hc : Contracts dims out 0 (numbered inputs) steps)
    (hshort : ∀ st ∈ steps, st.sizedContraction.contraction.operandIndices.flatten.length < B ∧
      st.sizedContraction.contraction.operandIndices.flatten.length ≤ W / 2 / 8)
    (operands : List (View A)) (ts : List (List Nat → A)) (hs : Sized dims inputs (operands.map View.shape))
    (he : List.Forall₂ Elements operands ts) (hel : ∀ v ∈ operands, v.shape.prod ≤ W / 2) :
    (∃ k, (EinsumPath.fromPathB b h (.pairs steps) >>= fun p => p.contractOperandsS ar al operands) = panic k) ∨
    ∃ w, (EinsumPath.fromPathB b h (.pairs steps) >>= fun p => p.contractOperandsS ar al operands) = .ok w ∧
      IsEinsum dims inputs ts out w := by
  obtain ⟨b1, b2, b3, b4, b5, b6⟩ := hb.facts
  have hout : ∀ {k pending steps}, Contracts dims out k pending steps → ∀ st ∈ steps,
      st.sizedContraction.contraction.outputIndices.Nodup := by
    intro k pending steps hc
    induction hc with
    | done => simp
    | step _ _ _ hO _ hok _ _ ih =>
      intro st hst
      rcases List.mem_cons.1 hst with rfl | hst
      · rw [hO]; exact hok.1
      · exact ih st hst
  have hfew : ContractionOrder.Few B (.pairs steps) := fun st hst =>
    ⟨fun c => List.count_le_length.trans_lt (hshort st hst).1,
      fun c => (List.nodup_iff_count_le_one.1 (hout hc st hst) c).trans_lt hB⟩
  rcases noUb_fromPathB b2 h (.pairs steps) with ⟨k, hk⟩ | ⟨p, hp⟩
  · exact .inl ⟨k, by rw [hk]; rfl⟩
  rw [hp, bind_ok]
  rw [fromPathB_eq b1 hB b3 _ (.pairs steps) (fun st hst => ⟨hfew st hst, by rw [b6]; exact (hshort st hst).2⟩),
    fromPathC_eq hB b3 _ _ _ hfew] at hp
  exact (pendingM_outcome har b4 hc h hp al operands ts hs he hel).2.2

/-- C78: `einsum_path` and running its path, on these operands or on others of the same lengths. -/
theorem C78_path (hB : 2 ≤ B) (hb : Built B W b) (har : Word W ar) (h : HashOrd) (al : Alloc A) (s : String)
    (m : OptimizationMethod) (operands operands' : List (View A)) (inputs : List (List Char)) (out : List Char)
    (dims : Char → Nat) (ts : List (List Nat → A)) (hd : Denotes s inputs out)
    (hsz : Sized dims inputs (operands.map View.shape)) (hs : FewLetters B s) (hlen : s.length ≤ W / 2 / 8)
    (p : EinsumPath) (hp : einsumPathB b h s operands m = .ok (.ok p))
    (hsz' : Sized dims inputs (operands'.map View.shape)) (he : List.Forall₂ Elements operands' ts)
    (hel : ∀ v ∈ operands', v.shape.prod ≤ W / 2) :
    (∃ k, p.contractOperandsS ar al operands' = panic k) ∨
    ∃ w, p.contractOperandsS ar al operands' = .ok w ∧ IsEinsum dims inputs ts out w := by
  obtain ⟨b1, -, b3, b4, -, b6⟩ := hb.facts
  rw [C70_path hB b b1 b3 h s operands m hs (by rw [b6]; exact hlen)] at hp
  simp only [einsumPathW, validateAndOptimizeOrder, validateAndSize_ok ((h.sub 0).sub 0) hd hsz] at hp
  cases ho : generateOptimizedOrder ((h.sub 0).sub 1) (callSC inputs out dims) m with
  | error e => rw [ho] at hp; cases hp
  | ok o =>
    rw [ho] at hp
    obtain ⟨p', p1, hp⟩ := bind_eq_ok.1 (show (EinsumPath.fromPathW b.mul (h.sub 1) o >>= fun p => .ok (.ok p)) =
      (.ok (.ok p) : M (Except String EinsumPath)) from hp)
    cases hp
    exact (generatedM_outcome har b4 _ _ hd ho p1 al operands' ts hsz' he hel).2.2

end

/-! Examples: a 64-bit machine; letters are counted in 32 bits. -/

namespace Ex

theorem call_wide : Call "ii->" [wide] [['i', 'i']] [] (fun _ => 1) [fun _ => 7] :=
  ⟨.inl ⟨by decide, ⟨by simp, by simp [Letter], by simp [Letter]⟩, by simp [OutputOk]⟩, .cons rfl .nil,
    .cons wide_elems .nil⟩

end Ex

/-- Checked lengths and unchecked strides: the strides `2^62` of `wide` wrap, and the trace is returned. -/
example (h : HashOrd) (al : Alloc Int) : ∃ w, einsumS Ex.debug64 (.release Ex.word64) h al "ii->" [Ex.wide] = .ok (.ok w) ∧
    IsEinsum (fun _ => 1) [['i', 'i']] [fun _ => 7] [] w :=
  C78_live (by decide) (.inl rfl) (.inr rfl) h al _ _ _ _ _ _ Ex.call_wide (.of_length (by decide)) (by decide)
    (by simp [Ex.wide]) (fun ix hix => .inr (by simp)) (.inl rfl) (by simp [Ex.wide]; decide)
    (fun k h1 h2 => by simp at h2)

/-- Strides that can be added up, in a build with all checks. -/
example (h : HashOrd) (al : Alloc Int) :
    ∃ w, einsumS Ex.debug64 (.debug Ex.word64) h al "ij,jjk,kj->ij" [Ex.m23, Ex.m332, Ex.m23] = .ok (.ok w) ∧
    IsEinsum Ex.dims [['i', 'j'], ['j', 'j', 'k'], ['k', 'j']] [Ex.elems Ex.m23, Ex.elems Ex.m332, Ex.elems Ex.m23]
      ['i', 'j'] w :=
  C78_live (by decide) (.inl rfl) (.inl rfl) h al _ _ _ _ _ _ Ex.call_three (.of_length (by decide)) (by decide)
    (by simp [Ex.m23, Ex.m332]) (fun ix hix => .inr (by
      intro c _
      unfold Ex.dims
      split <;> simp))
    (.inr (by simp [Roomy, Ex.m23, Ex.m332])) (by simp [Ex.m23, Ex.m332]; decide)
    (fun k h1 h2 => by
      obtain rfl : k = 1 := by simp at h2; omega
      decide)

example (h : HashOrd) (al : Alloc Int) : (∃ k, einsumS Ex.debug64 (.debug Ex.word64) h al "ii->" [Ex.wide] = panic k) ∨
    ∃ w, einsumS Ex.debug64 (.debug Ex.word64) h al "ii->" [Ex.wide] = .ok (.ok w) ∧
      IsEinsum (fun _ => 1) [['i', 'i']] [fun _ => 7] [] w :=
  C78_sound (by decide) (.inl rfl) (.inl rfl) h al _ _ _ _ _ _ Ex.call_wide (.of_length (by decide)) (by decide)
    (by simp [Ex.wide])

example (h : HashOrd) (al : Alloc Int) (e : String) :
    einsumS Ex.release64 (.release Ex.word64) h al "ij->x" [Ex.m23] = .ok (.error e) ↔
      einsum h al "ij->x" [Ex.m23] = .ok (.error e) :=
  C78_refused (by decide) (.inr rfl) h al _ _ (.of_length (by decide)) (by decide) e

example (h : HashOrd) (al : Alloc Int) :
    (∃ k, (EinsumPath.fromPathB Ex.release64 h (.pairs Ex.balanced) >>= fun p =>
      p.contractOperandsS (.debug Ex.word64) al [Ex.m23, Ex.m32, Ex.m23, Ex.m32]) = panic k) ∨
    ∃ w, (EinsumPath.fromPathB Ex.release64 h (.pairs Ex.balanced) >>= fun p =>
      p.contractOperandsS (.debug Ex.word64) al [Ex.m23, Ex.m32, Ex.m23, Ex.m32]) = .ok w ∧
      IsEinsum Ex.treeDims Ex.treeInputs ([Ex.m23, Ex.m32, Ex.m23, Ex.m32].map View.elem) ['i', 'm'] w :=
  C78_order (by decide) (.inr rfl) (.inl rfl) h al _ _ _ _ Ex.contracts_tree (by simp [Ex.balanced, Ex.stepOf]) _ _
    Ex.sized_tree (forall₂_elem Ex.wf_tree) (by simp [Ex.m23, Ex.m32])

/-- A path for the trace, run on `wide`. -/
example (h : HashOrd) (al : Alloc Int) : ∃ p, einsumPathB Ex.debug64 h "ii->" [Ex.wide] .naive = .ok (.ok p) ∧
    ((∃ k, p.contractOperandsS (.debug Ex.word64) al [Ex.wide] = panic k) ∨
    ∃ w, p.contractOperandsS (.debug Ex.word64) al [Ex.wide] = .ok w ∧
      IsEinsum (fun _ => 1) [['i', 'i']] [fun _ => 7] [] w) := by
  have hp : einsumPathB Ex.debug64 h "ii->" [Ex.wide] .naive = .ok (.ok ⟨.singleton (callSC [['i', 'i']] [] fun _ => 1),
      .singletonContraction ⟨.diagonalizationAndSummation, .diagonalizationAndSummation ⟨⟨[0, 0], [1]⟩, ⟨[0], [0]⟩⟩⟩⟩) := by
    rw [C70_path (B := 2 ^ 31) (by decide) _ (Build.subtracts_debug _ _) (.inl rfl) _ _ _ _ (.of_length (by decide)) (by decide)]
    have hv := validateAndSize_ok ((h.sub 0).sub 0) Ex.call_wide.denotes Ex.call_wide.sized
    simp only [einsumPathW, validateAndOptimizeOrder, hv]
    rw [C10_singleton ((h.sub 0).sub 0) ((h.sub 0).sub 1) _ _ _ hv .naive (.inl rfl) rfl]
    rfl
  exact ⟨_, hp, C78_path (by decide) (.inl rfl) (.inl rfl) h al _ _ _ _ _ _ _ _ Ex.call_wide.denotes Ex.call_wide.sized
    (.of_length (by decide)) (by decide) _ hp Ex.call_wide.sized Ex.call_wide.elements (by simp [Ex.wide]; decide)⟩

/-- The trace of `wide` in two builds. -/
example (h h' : HashOrd) (al al' : Alloc Int) : ∃ w w',
    einsumS Ex.debug64 (.release Ex.word64) h al "ii->" [Ex.wide] = .ok (.ok w) ∧
    einsumS Ex.release64 (.release Ex.word64) h' al' "ii->" [Ex.wide] = .ok (.ok w') ∧ SameArray w w' := by
  have key : ∀ {b : Build} {h : HashOrd} {al : Alloc Int}, Built (2 ^ 31) (2 ^ 64 - 1) b →
      ∃ w, einsumS b (.release Ex.word64) h al "ii->" [Ex.wide] = .ok (.ok w) := by
    intro b h al hb
    obtain ⟨w, h1, -⟩ := C78_live (by decide) hb (.inr rfl) h al _ _ _ _ _ _ Ex.call_wide (.of_length (by decide))
      (by decide) (by simp [Ex.wide]) (fun ix hix => .inr (by simp)) (.inl rfl) (by simp [Ex.wide]; decide)
      (fun k h1 h2 => by simp at h2)
    exact ⟨w, h1⟩
  obtain ⟨w, h1⟩ := key (h := h) (al := al) (.inl rfl : Built (2 ^ 31) (2 ^ 64 - 1) Ex.debug64)
  obtain ⟨w', h2⟩ := key (h := h') (al := al') (.inr rfl : Built (2 ^ 31) (2 ^ 64 - 1) Ex.release64)
  exact ⟨w, w', h1, h2, C78_builds (by decide) (.inl rfl) (.inr rfl) (.inr rfl) (.inr rfl) h h' al al' _ _ _ _ _ _
    Ex.call_wide (.of_length (by decide)) (by decide) (by simp [Ex.wide]) w w' h1 h2⟩

end Einsum
