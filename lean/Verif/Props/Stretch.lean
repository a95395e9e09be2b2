import Verif.Props.Ranks

/-!
# C103: elementwise products broadcast at run time

A compiled path whose two operands are multiplied elementwise hands them to ndarray's `*`, which repeats axes of length one.
-/

namespace Einsum

open Spec

/-- Reads position zero along the axes of length one. -/
def Spec.repeating {A : Type} (L : List Char) (d : Char → Nat) (t : List Nat → A) (idx : List Nat) : A :=
  t (List.zipWith (fun c i => if d c = 1 then 0 else i) L idx)

/-- The operands are multiplied elementwise: a letter that is not in one operand only is in both and in the output. -/
def Spec.Elementwise (L R out : List Char) : Prop :=
  (∀ c ∈ L, c ∈ R ∨ c ∈ out → c ∈ R ∧ c ∈ out) ∧ ∀ c ∈ R, c ∈ L ∨ c ∈ out → c ∈ L ∧ c ∈ out

/-- The lengths of a product of arrays of the lengths `d` and `e`: of two lengths the one that is not one. -/
def Spec.joined (L out : List Char) (d e : Char → Nat) (c : Char) : Nat :=
  if c ∈ out then if d c = 1 then e c else d c else if c ∈ L then d c else e c

section common
variable {ι : Type}

theorem commonRev_map (f g : ι → Nat) : ∀ l : List ι, (∀ c ∈ l, f c = g c ∨ f c = 1 ∨ g c = 1) →
    commonRev (l.map f) (l.map g) = some (l.map fun c => if f c = 1 then g c else f c)
  | [], _ => rfl
  | c :: l, h => by
    have ih := commonRev_map f g l fun x hx => h x (List.mem_cons_of_mem _ hx)
    have hc := h c (by simp)
    simp only [List.map_cons, commonRev, ih, Option.map_some]
    split_ifs <;> simp_all

theorem commonRev_none (f g : ι → Nat) : ∀ l : List ι, (∃ c ∈ l, ¬ (f c = g c ∨ f c = 1 ∨ g c = 1)) →
    commonRev (l.map f) (l.map g) = none
  | [], h => by simp at h
  | c :: l, h => by
    by_cases hc : f c = g c ∨ f c = 1 ∨ g c = 1
    · have ih := commonRev_none f g l (by
        obtain ⟨x, hx, n⟩ := h
        rcases List.mem_cons.1 hx with rfl | hx
        · exact absurd hc n
        · exact ⟨x, hx, n⟩)
      simp only [List.map_cons, commonRev, ih, Option.map_none]
      split_ifs <;> rfl
    · simp only [not_or] at hc
      simp only [List.map_cons, commonRev, if_neg hc.1, if_neg hc.2.1, if_neg hc.2.2]

theorem commonShape_map {f g : ι → Nat} {l : List ι} (h : ∀ c ∈ l, f c = g c ∨ f c = 1 ∨ g c = 1) :
    commonShape (l.map f) (l.map g) = some (l.map fun c => if f c = 1 then g c else f c) := by
  rw [commonShape, ← List.map_reverse, ← List.map_reverse, commonRev_map f g _ (by simpa using h), Option.map_some,
    ← List.map_reverse, List.reverse_reverse]

theorem commonShape_none {f g : ι → Nat} {l : List ι} (h : ∃ c ∈ l, ¬ (f c = g c ∨ f c = 1 ∨ g c = 1)) :
    commonShape (l.map f) (l.map g) = none := by
  rw [commonShape, ← List.map_reverse, ← List.map_reverse, commonRev_none f g _ (by simpa using h)]
  rfl

variable [DecidableEq ι] {A : Type}

/-- One factor, broadcast to lengths that differ from its own only where these are one. -/
theorem Rep.stretch {v : View A} {l : List ι} {d D : ι → Nat} {F : (ι → Nat) → A} (h : Rep v l d F) (hn : l.Nodup)
    (hD : ∀ c ∈ l, d c = D c ∨ d c = 1) :
    ∃ w, v.broadcast (l.map D) = some w ∧ Rep w l D fun σ => F fun c => if d c = 1 then 0 else σ c := by
  have hh := h.holds hn
  obtain ⟨w, h1⟩ := hh.broadcast_ok (s' := l.map D) (by
    rw [List.forall₂_map_left_iff, List.forall₂_map_right_iff]
    exact List.forall₂_same.2 hD)
  refine ⟨w, h1, .of_holds (hh.broadcast h1) fun σ hσ => ?_⟩
  rw [bcIdx_map]
  refine h.agree_assign fun c hc => ?_
  by_cases e : d c = 1
  · simp [e]
  · have := hσ c hc
    simp only [if_neg e]
    rcases hD c hc with x | x
    · omega
    · exact absurd x e

/-- ndarray's product of arrays of the lengths `d` and `e`. -/
theorem Rep.mul_common [Mul A] {l r : View A} {L : List ι} {d e : ι → Nat} {F G : (ι → Nat) → A} (hl : Rep l L d F)
    (hr : Rep r L e G) (hn : L.Nodup) (al : Alloc A) :
    ((∀ c ∈ L, d c = e c ∨ d c = 1 ∨ e c = 1) → ∃ w, l.mul al r = .ok w ∧
      Rep w L (fun c => if d c = 1 then e c else d c) fun σ =>
        F (fun c => if d c = 1 then 0 else σ c) * G fun c => if e c = 1 then 0 else σ c) ∧
    ((∃ c ∈ L, ¬ (d c = e c ∨ d c = 1 ∨ e c = 1)) → l.mul al r = panic .ndarray) := by
  constructor
  · intro h
    set D : ι → Nat := fun c => if d c = 1 then e c else d c with hD
    obtain ⟨l', l1, l2⟩ := hl.stretch (D := D) hn fun c hc => by
      by_cases x : d c = 1
      · exact .inr x
      · exact .inl (by simp [hD, x])
    obtain ⟨r', r1, r2⟩ := hr.stretch (D := D) hn fun c hc => by
      by_cases x : d c = 1
      · exact .inl (by simp [hD, x])
      · rcases h c hc with y | y | y
        · exact .inl (by simp [hD, y])
        · exact absurd y x
        · exact .inr y
    have hb : l.broadcastWith r = some (l', r') :=
      broadcastWith_of (by rw [hl.shape, hr.shape]; exact commonShape_map h) l1 r1
    obtain ⟨w, w1, w2⟩ := Holds.mul_of hb (l2.holds hn) (r2.holds hn) al
    refine ⟨w, w1, .of_holds w2 fun σ hσ => ?_⟩
    exact congrArg₂ _ (l2.agree_assign hσ) (r2.agree_assign hσ)
  · intro h
    have : l.broadcastWith r = none := by
      simp [View.broadcastWith, hl.shape, hr.shape, commonShape_none h]
    simp [View.mul, this]

/-- Sums do not see whether the other axes of length one are repeated. -/
theorem sumOver_repeating [AddCommMonoid A] {d D : ι → Nat} {f g : (ι → Nat) → A}
    (hg : ∀ σ, g σ = f fun c => if d c = 1 then 0 else σ c) : ∀ (cs : List ι), (∀ c ∈ cs, d c = D c) → ∀ σ : ι → Nat,
    sumOver d cs f (fun c => if d c = 1 then 0 else σ c) = sumOver D cs g σ
  | [], _, σ => (hg σ).symm
  | c :: cs, h, σ => by
    simp only [sumOver]
    rw [← h c (by simp)]
    refine Finset.sum_congr rfl fun x hx => ?_
    rw [← sumOver_repeating hg cs (fun e he => h e (List.mem_cons_of_mem _ he))]
    congr 1
    funext e
    have := Finset.mem_range.1 hx
    by_cases ec : e = c
    · subst ec
      simp only [Function.update_self]
      split_ifs <;> omega
    · simp [Function.update_of_ne ec]

end common

theorem repeating_map {A : Type} (L : List Char) (d : Char → Nat) (t : List Nat → A) (σ : Char → Nat) :
    repeating L d t (L.map σ) = t (L.map fun c => if d c = 1 then 0 else σ c) := by
  rw [repeating]
  congr 1
  induction L with
  | nil => rfl
  | cons c L ih => simp [ih]

/-! ## The parts of a step -/

section parts
variable {sc : SizedContraction} {dims : Char → Nat} {L R : List Char}

/-- The simplification of an operand without repeated letters sums arrays of any lengths. -/
theorem simplification_any (hv : sc.Valid dims) (hn : L.Nodup) {k : HashOrd} {out : List Char}
    (hL : ∀ c ∈ L, c ∈ sc.contraction.operandIndices.flatten) {s : Option SimplificationMethodAndOutput}
    (hs : SimplificationMethodAndOutput.fromIndicesAndSizes k L R out sc = .ok s) :
    (newIndicesOr s L).Nodup ∧ (∀ c, c ∈ newIndicesOr s L ↔ c ∈ L ∧ (c ∈ R ∨ c ∈ out)) ∧
    ∀ (d : Char → Nat) (A : Type) [AddCommMonoid A] (al : Alloc A) (v : View A) (F : (Char → Nat) → A), Rep v L d F →
      ∃ w, simplifyOperand al s v = .ok w ∧
        Rep w (newIndicesOr s L) d (sumOver d (summed [L] (newIndicesOr s L)) F) := by
  obtain ⟨s', e, h1, h2, -⟩ := simplification_ok hv k (R := R) (out := out) hL
  rw [hs] at e
  cases e
  refine ⟨h1, h2, fun d A _ al v F hr => ?_⟩
  have hv' : (callSC sc.contraction.operandIndices sc.contraction.outputIndices d).Valid d := callSC_valid hv.out
  obtain ⟨s', e, -, -, h3⟩ := simplification_ok hv' k (L := L) (R := R) (out := out) hL
  obtain ⟨x, x1, x2⟩ := simplification_parts hv k (R := R) (out := out) hL
  rw [hs] at x1
  cases x1
  have : s' = s := (simplification_same hs e).2 fun y hy => by
    rcases x2 with ⟨rfl, -⟩ | ⟨-, z, rfl, -, -, hm, -⟩
    · cases hy
    · cases hy
      rw [hm, singletonMethod, if_pos hn]
      split_ifs <;> trivial
  subst this
  exact (h3 A al v F hr (hr.wf hn)).1 (.inl hn)

/-- The contractor of a step is made for the labels that are kept. -/
theorem pair_reduced {k : HashOrd} {c : PairContraction} (hops : sc.contraction.operandIndices = [L, R])
    (hc : PairContraction.new k sc = .ok c) :
    ∃ red k', unwrapR (sc.subset k' [newIndicesOr c.lhsSimplification L, newIndicesOr c.rhsSimplification R]
      sc.contraction.outputIndices) = .ok red ∧ PairOp.new red c.method = .ok c.op := by
  unfold PairContraction.new at hc
  rw [hops] at hc
  simp only [List.length_cons, List.length_nil, Nat.zero_add, Nat.reduceAdd, decide_true,
    assertThat_true, bind_ok, index_cons_zero, index_one] at hc
  obtain ⟨ls, l1, hc⟩ := bind_eq_ok.1 hc
  obtain ⟨rs, r1, hc⟩ := bind_eq_ok.1 hc
  obtain ⟨a, a1, hc⟩ := bind_eq_ok.1 hc
  obtain ⟨s, -, hc⟩ := bind_eq_ok.1 hc
  obtain ⟨op, o1, hc⟩ := bind_eq_ok.1 hc
  obtain ⟨t, -, hc⟩ := bind_eq_ok.1 hc
  cases hc
  exact ⟨a, _, a1, o1⟩

/-- A step that multiplies its operands elementwise, on arrays of any lengths. -/
theorem Rep.pair_elementwise {A : Type} [CommSemiring A] {k : HashOrd} {c : PairContraction} (h1 : sc.Valid dims)
    (h2 : sc.contraction.operandIndices = [L, R]) (h4 : PairContraction.new k sc = .ok c) (hL : L.Nodup) (hR : R.Nodup)
    (he : Elementwise L R sc.contraction.outputIndices) {l r : View A} {d e : Char → Nat} {F G : (Char → Nat) → A}
    (hrl : Rep l L d F) (hrr : Rep r R e G) (al : Alloc A) :
    ((∀ c ∈ sc.contraction.outputIndices, d c = e c ∨ d c = 1 ∨ e c = 1) → ∃ w, c.run al l r = .ok w ∧
      Rep w sc.contraction.outputIndices (fun c => if d c = 1 then e c else d c) fun σ =>
        sumOver d (summed [L] sc.contraction.outputIndices) F (fun c => if d c = 1 then 0 else σ c) *
        sumOver e (summed [R] sc.contraction.outputIndices) G fun c => if e c = 1 then 0 else σ c) ∧
    ((∃ c ∈ sc.contraction.outputIndices, ¬ (d c = e c ∨ d c = 1 ∨ e c = 1)) → c.run al l r = panic .ndarray) := by
  obtain ⟨q, q1, q2, q3, q4, -⟩ := pair_parts h1 h2 k
  rw [h4] at q1
  cases q1
  obtain ⟨a1, a2, a3⟩ := simplification_any h1 hL (by rw [h2]; intro c hc; simp [hc]) q2
  obtain ⟨b1, b2, b3⟩ := simplification_any h1 hR (by rw [h2]; intro c hc; simp [hc]) q3
  obtain ⟨red, k', c1, c2⟩ := pair_reduced h2 h4
  have hsub := h1.out_sub2 h2
  have hon := h1.out.1
  set out := sc.contraction.outputIndices
  set NL := newIndicesOr c.lhsSimplification L
  set NR := newIndicesOr c.rhsSimplification R
  have hoL : ∀ x, x ∈ out ↔ x ∈ NL := fun x => by
    rw [a2]
    refine ⟨fun hx => ⟨?_, .inr hx⟩, fun hx => (he.1 x hx.1 hx.2).2⟩
    rcases hsub x hx with g | g
    · exact g
    · exact (he.2 x g (.inr hx)).1
  have hoR : ∀ x, x ∈ out ↔ x ∈ NR := fun x => by
    rw [b2]
    refine ⟨fun hx => ⟨?_, .inr hx⟩, fun hx => (he.2 x hx.1 hx.2).2⟩
    rcases hsub x hx with g | g
    · exact (he.1 x g (.inr hx)).1
    · exact g
  have pL : out.Perm NL := perm_of_nodup hon a1 hoL
  have pR : out.Perm NR := perm_of_nodup hon b1 hoR
  obtain ⟨-, d2, d3⟩ := Valid.subset_of h1 (by
    intro x hx
    rw [h2]
    simp only [List.flatten_cons, List.flatten_nil, List.append_nil, List.mem_append] at hx ⊢
    exact hx.imp (fun g => ((a2 x).1 g).1) fun g => ((b2 x).1 g).1) ⟨hon, fun x hx => used_iff.2 (by
    simp only [List.flatten_cons, List.mem_append]
    exact .inl ((hoL x).1 hx))⟩ c1
  have hm : c.method = .hadamardProductGeneral := by rw [q4, pairMethod]; exact if_pos he
  rw [hm, hadamardGeneral_new d2 a1 b1 (by rw [d3]; exact pL) (by rw [d3]; exact pR), d3] at c2
  have hop := (Except.ok.inj c2).symm
  obtain ⟨l1, x1, x2⟩ := a3 d A (al.sub 0) l _ hrl
  obtain ⟨r1, y1, y2⟩ := b3 e A (al.sub 1) r _ hrr
  obtain ⟨l2, x3, x4⟩ := x2.permute a1 pL
  obtain ⟨r2, y3, y4⟩ := y2.permute b1 pR
  have hrun : c.run al l r = l2.mul (al.sub 2) r2 := by
    rw [PairContraction.run, hop, x1, bind_ok, y1, bind_ok]
    simp only [PairOp.run, HadamardProductGeneral.run, Permutation.view, x3, y3, bind_ok]
    rfl
  have sL : summed [L] NL = summed [L] out := List.filter_congr fun x _ => by simp [hoL]
  have sR : summed [R] NR = summed [R] out := List.filter_congr fun x _ => by simp [hoR]
  rw [sL] at x4
  rw [sR] at y4
  rw [hrun]
  exact x4.mul_common y4 hon (al.sub 2)

end parts

/-- C103, finding: a path whose two operands are multiplied elementwise checks neither the compiled lengths nor that the two
arrays have the same lengths: axes of length one are repeated.  Other arrays make it panic. -/
theorem C103_elementwise {A B : Type} [CommSemiring A] (h : HashOrd) (s : String) (l₀ r₀ : View B) (L R out : List Char)
    (dims : Char → Nat) (hd : Denotes s [L, R] out) (hs : Sized dims [L, R] [l₀.shape, r₀.shape]) (p : EinsumPath)
    (hp : einsumPath h s [l₀, r₀] .naive = .ok (.ok p)) (hL : L.Nodup) (hR : R.Nodup) (he : Elementwise L R out)
    (l r : View A) (t u : List Nat → A) (hl : Elements l t) (hr : Elements r u) (d e : Char → Nat)
    (sl : l.shape = L.map d) (sr : r.shape = R.map e) (al : Alloc A) :
    ((∀ c ∈ out, d c = e c ∨ d c = 1 ∨ e c = 1) → ∃ w, p.contractOperands al [l, r] = .ok w ∧
      IsEinsum (joined L out d e) [L, R] [repeating L d t, repeating R e u] out w) ∧
    ((∃ c ∈ out, ¬ (d c = e c ∨ d c = 1 ∨ e c = 1)) → p.contractOperands al [l, r] = panic .ndarray) := by
  obtain ⟨sc, k, c, rfl, h1, h2, rfl, h4⟩ := path_two hd hs hp
  have hrl : Rep l L d fun σ => t (L.map σ) := Holds.rep (by rw [← sl]; exact hl.holds)
  have hrr : Rep r R e fun σ => u (R.map σ) := Holds.rep (by rw [← sr]; exact hr.holds)
  rw [contract_two]
  obtain ⟨m1, m2⟩ := Rep.pair_elementwise h1 h2 h4 hL hR he hrl hrr (al.sub 0)
  have hon := h1.out.1
  set out := sc.contraction.outputIndices
  refine ⟨fun hc => ?_, m2⟩
  obtain ⟨w, w1, w2⟩ := m1 hc
  refine ⟨w, w1, Rep.isEinsum_two hon (summed_nodup [L, R] out) (fun x => by simp [mem_summed]) ?_⟩
  set D := joined L out d e with hD
  have eD : ∀ x ∈ out, (if d x = 1 then e x else d x) = D x := fun x hx => by simp [hD, joined, hx]
  have w3 : Rep w out D _ := ⟨by rw [w2.shape]; exact List.map_congr_left eD, w2.strides,
    fun σ hσ => w2.get σ fun x hx => (hσ x hx).trans_le (eD x hx).ge⟩
  refine w3.congr fun σ _ => ?_
  have hsub := h1.out_sub2 h2
  have a2 : ∀ x, x ∈ out ↔ x ∈ L ∧ (x ∈ R ∨ x ∈ out) := fun x =>
    ⟨fun hx => ⟨(hsub x hx).elim id fun g => (he.2 x g (.inr hx)).1, .inr hx⟩, fun hx => (he.1 x hx.1 hx.2).2⟩
  have b2 : ∀ x, x ∈ out ↔ x ∈ R ∧ (x ∈ L ∨ x ∈ out) := fun x =>
    ⟨fun hx => ⟨(hsub x hx).elim (fun g => (he.1 x g (.inr hx)).1) id, .inr hx⟩, fun hx => (he.2 x hx.1 hx.2).2⟩
  have nil : summed [out, out] out = [] := by
    rw [List.eq_nil_iff_forall_not_mem]
    intro x hx
    have := mem_summed.1 hx
    simp only [List.flatten_cons, List.flatten_nil, List.append_nil, List.mem_append, or_self] at this
    exact this.2 this.1
  rw [← sum_pair (dims := D) (NL := out) (NR := out) (dependsOn_map (repeating L d t) L) (dependsOn_map (repeating R e u) R)
    a2 b2, nil]
  change _ = _ * _
  congr 1
  · refine sumOver_repeating (fun σ => repeating_map L d t σ) _ (fun x hx => ?_) σ
    have := mem_summed.1 hx
    simp [hD, joined, this.2, show x ∈ L by simpa using this.1]
  · refine sumOver_repeating (fun σ => repeating_map R e u σ) _ (fun x hx => ?_) σ
    have := mem_summed.1 hx
    have hxR : x ∈ R := by simpa using this.1
    have hxL : x ∉ L := fun g => this.2 (he.2 x hxR (.inl g)).2
    simp [hD, joined, this.2, hxL]

/-- C103: the checked call refuses arrays that give a letter two lengths. -/
theorem C103_refused {A : Type} [Zero A] [Add A] [Mul A] [MulAdd A] (h : HashOrd) (al : Alloc A) (s : String)
    (L R out : List Char) (hd : Denotes s [L, R] out) (l r : View A) (d e : Char → Nat) (sl : l.shape = L.map d)
    (sr : r.shape = R.map e) (c : Char) (hL : c ∈ L) (hR : c ∈ R) (hne : d c ≠ e c) :
    ∃ m, einsum h al s [l, r] = .ok (.error m) := by
  rw [C13_err_iff]
  rintro ⟨inputs, out', dims, hd', hs⟩
  obtain ⟨rfl, -⟩ := hd.unique hd'
  obtain ⟨h1, hs⟩ := List.forall₂_cons.1 hs
  have h2 := (List.forall₂_cons.1 hs).1
  rw [sl] at h1
  rw [sr] at h2
  exact hne ((List.map_inj_left.1 h1 c hL).trans (List.map_inj_left.1 h2 c hR).symm)

/-! ### Cases -/

namespace Ex

/-- A column and a row. -/
def column : View Int := ⟨[1, 2], 0, [2, 1], [1, 1]⟩
def row : View Int := ⟨[3, 4, 5], 0, [1, 3], [3, 1]⟩

theorem ecolumn : Elements column (elems column) := elements_of rfl (by decide)
theorem erow : Elements row (elems row) := elements_of rfl (by decide)

theorem denotes_elementwise : Denotes "ij,ij->ij" [['i', 'j'], ['i', 'j']] ['i', 'j'] :=
  .inl ⟨by decide, ⟨by simp, by simp [Letter], by simp [Letter]⟩, by simp [OutputOk, Used]⟩

end Ex

/-- The hypotheses of `C103_elementwise`: a path for the elementwise product of 2 by 2 matrices multiplies a column and a row,
and panics for the column and a matrix with three rows. -/
example (h : HashOrd) (al : Alloc Int) : ∃ p, einsumPath h "ij,ij->ij" [Ex.rank2, Ex.rank2] .naive = .ok (.ok p) ∧
    (∃ w, p.contractOperands al [Ex.column, Ex.row] = .ok w ∧ w.shape = [2, 3] ∧ w.read [1, 2] = .ok 10) ∧
    p.contractOperands al [Ex.column, Ex.m32] = panic .ndarray := by
  have s1 : Sized (fun _ => 2) [['i', 'j'], ['i', 'j']] [Ex.rank2.shape, Ex.rank2.shape] :=
    .cons (by decide) (.cons (by decide) .nil)
  obtain ⟨p, hp, -⟩ := einsumPath_ok (operands := [Ex.rank2, Ex.rank2]) Ex.denotes_elementwise s1 h (.inl rfl)
  refine ⟨p, hp, ?_, ?_⟩
  · obtain ⟨w, w1, -, w2, w3⟩ := (C103_elementwise h _ Ex.rank2 Ex.rank2 ['i', 'j'] ['i', 'j'] ['i', 'j'] _
      Ex.denotes_elementwise s1 p hp (by decide) (by decide) ⟨by decide, by decide⟩ Ex.column Ex.row _ _ Ex.ecolumn Ex.erow
      (fun c => if c = 'i' then 2 else 1) (fun c => if c = 'i' then 1 else 3) (by decide) (by decide) al).1 (by decide)
    refine ⟨w, w1, w2.trans (by decide), (w3 (fun c => if c = 'i' then 1 else 2) (by
      simp only [InRange]
      decide)).trans ?_⟩
    decide +kernel
  · exact (C103_elementwise h _ Ex.rank2 Ex.rank2 ['i', 'j'] ['i', 'j'] ['i', 'j'] _
      Ex.denotes_elementwise s1 p hp (by decide) (by decide) ⟨by decide, by decide⟩ Ex.column Ex.m32 _ _ Ex.ecolumn Ex.e32
      (fun c => if c = 'i' then 2 else 1) (fun c => if c = 'i' then 3 else 2) (by decide) (by decide) al).2 (by decide)

/-- The hypotheses of `C103_refused`. -/
example (h : HashOrd) (al : Alloc Int) : ∃ m, einsum h al "ij,ij->ij" [Ex.column, Ex.row] = .ok (.error m) :=
  C103_refused h al _ _ _ _ Ex.denotes_elementwise _ _ (fun c => if c = 'i' then 2 else 1)
    (fun c => if c = 'i' then 1 else 3) (by decide) (by decide) 'i' (by decide) (by decide) (by decide)

end Einsum
