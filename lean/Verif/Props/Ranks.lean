import Verif.Proofs.Dataflow
import Verif.Props.Misfit
import Verif.Proofs.Safe

/-!
# Property C102: arrays with another number of axes
-/

namespace Einsum

open Spec Function

/-! ## Summation of a block of axes -/

section block
variable {ι A : Type} [DecidableEq ι] {dims : ι → Nat}

theorem Rep.sumBlock [AddCommMonoid A] {v : View A} {a b c : List ι} {F} (h : Rep v (a ++ (b ++ c)) dims F)
    (hn : (a ++ (b ++ c)).Nodup) (al : Alloc A) :
    ∃ w, Einsum.sumAxes al (List.replicate b.length a.length) v = .ok w ∧ Rep w (a ++ c) dims (sumOver dims b F) := by
  induction b generalizing v F al with
  | nil => exact ⟨v, rfl, by simpa using h⟩
  | cons d b ih =>
    obtain ⟨w, h1, h2⟩ := h.sumAxis hn (al.sub 0)
    have hn' : (a ++ (b ++ c)).Nodup := (List.nodup_cons.1 (List.nodup_middle.1 hn)).2
    obtain ⟨w', h3, h4⟩ := ih h2 hn' (al.sub 1)
    refine ⟨w', by simp [List.replicate_succ, Einsum.sumAxes, h1, h3], h4.congr fun σ _ => ?_⟩
    have hp : (d :: b).Perm (b ++ [d]) := (List.perm_append_singleton d b).symm
    rw [sumOver_perm hp, sumOver_append]
    rfl

theorem summation_run [Zero A] [Add A] {k a : Nat} (hk : 0 < k) (orig : List Nat) (al : Alloc A) (v : View A) :
    Summation.run ⟨orig, List.replicate k a⟩ al v = sumAxes al (List.replicate k a) v := by
  obtain ⟨k, rfl⟩ := Nat.exists_eq_succ_of_ne_zero hk.ne'
  simp [Summation.run, Einsum.sumAxes, List.replicate_succ]

theorem sumAxes_missing [Zero A] [Add A] {k a : Nat} (hk : 0 < k) {v : View A} (hv : v.Wf)
    (h : v.shape.length < a + k) (al : Alloc A) : sumAxes al (List.replicate k a) v = panic .ndarray := by
  induction k generalizing v al with
  | zero => omega
  | succ k ih =>
    rw [List.replicate_succ, sumAxes]
    by_cases ha : a < v.shape.length
    · obtain ⟨w, w1, w2⟩ := hv.elements.holds.sumAxisT (al.sub 0) (List.getElem?_eq_getElem ha)
      rw [w1, bind_ok]
      have : (v.shape.eraseIdx a).length = v.shape.length - 1 := List.length_eraseIdx_of_lt ha
      exact ih (by omega) w2.wf (by rw [w2.shape]; omega) _
    · rw [View.sumAxis, List.getElem?_eq_none (by omega)]
      rfl

end block

/-! ## Which contractor a path of one operand has -/

section parts
variable {dims : Char → Nat} {sc : SizedContraction} {L : List Char} {c : SingletonContraction}

theorem summation_part (hv : sc.Valid dims) (hops : sc.contraction.operandIndices = [L]) (hn : L.Nodup)
    (hpre : sc.contraction.outputIndices <+: L) (hne : sc.contraction.outputIndices ≠ L)
    (hc : SingletonContraction.new sc = .ok c) :
    sc.contraction.outputIndices.length < L.length ∧ ∃ orig, c.op = .summation ⟨orig,
      List.replicate (L.length - sc.contraction.outputIndices.length) sc.contraction.outputIndices.length⟩ := by
  obtain ⟨q, q1, q2⟩ := singleton_method hv hops
  rw [hc] at q1
  cases q1
  obtain ⟨s, -, -, h3⟩ := singletonContraction_inv hc
  have hlt : sc.contraction.outputIndices.length < L.length :=
    lt_of_le_of_ne hpre.length_le fun e => hne (hpre.eq_of_length e)
  refine ⟨hlt, ?_⟩
  have hall : ¬ ∀ d ∈ L, d ∈ sc.contraction.outputIndices := fun h =>
    absurd ((List.subperm_of_subset hn h).length_le) (by omega)
  rw [q2, singletonMethod, if_pos hn, if_neg hall, if_pos hpre] at h3
  simp only [SingletonOp.new, Summation.new, hops, index_cons_zero, bind_ok] at h3
  obtain ⟨x, x1, h3⟩ := bind_eq_ok.1 h3
  obtain ⟨n, n1, x1⟩ := bind_eq_ok.1 x1
  have hn' : n = L.length - sc.contraction.outputIndices.length := by
    unfold usub at n1
    rw [if_pos hlt.le] at n1
    cases n1; rfl
  subst hn'
  rw [Summation.fromSizes_ok (by omega)] at x1
  cases x1
  exact ⟨_, (Except.ok.inj h3).symm⟩

theorem permuting_part (hv : sc.Valid dims) (hops : sc.contraction.operandIndices = [L]) (hn : L.Nodup)
    (hpre : ¬ sc.contraction.outputIndices <+: L) (hc : SingletonContraction.new sc = .ok c) :
    ∃ axes : List Nat, axes.length = L.length ∧ (c.op = .permutation ⟨axes⟩ ∨
      ∃ s, c.op = .permutationAndSummation ⟨⟨axes⟩, s⟩) := by
  obtain ⟨q, q1, q2⟩ := singleton_method hv hops
  rw [hc] at q1
  cases q1
  obtain ⟨s, -, -, h3⟩ := singletonContraction_inv hc
  have hsub := hv.out_sub hops
  have hne : sc.contraction.outputIndices ≠ L := fun e => hpre (e ▸ List.prefix_rfl)
  rw [q2, singletonMethod, if_pos hn] at h3
  by_cases hall : ∀ d ∈ L, d ∈ sc.contraction.outputIndices
  · rw [if_pos hall, if_neg hne] at h3
    have hl : L.length = sc.contraction.outputIndices.length :=
      le_antisymm (List.subperm_of_subset hn hall).length_le (List.subperm_of_subset hv.out.1 hsub).length_le
    simp only [SingletonOp.new, Permutation.new_ok hops hl hsub, bind_ok] at h3
    exact ⟨_, by simp [hl], .inl (Except.ok.inj h3).symm⟩
  · rw [if_neg hall, if_neg hpre] at h3
    have hle := (List.subperm_of_subset hv.out.1 hsub).length_le
    have hlt : sc.contraction.outputIndices.length < L.length := lt_of_le_of_ne hle fun e => hall fun d hd =>
      ((List.subperm_of_subset hv.out.1 hsub).perm_of_length_le e.ge).mem_iff.2 hd
    simp only [SingletonOp.new, PermutationAndSummation.new_ok hops hlt hn hsub, bind_ok] at h3
    refine ⟨_, ?_, .inr ⟨_, (Except.ok.inj h3).symm⟩⟩
    rw [List.length_map]
    have h1 : (sc.contraction.outputIndices ++ L.filter fun c => c ∉ sc.contraction.outputIndices).Perm L := by
      refine perm_of_nodup ?_ hn fun d => ?_
      · rw [List.nodup_append']
        exact ⟨hv.out.1, hn.filter _, fun d h1 h2 => by simp at h2; exact h2.2 h1⟩
      · by_cases hd : d ∈ sc.contraction.outputIndices
        · simp [hd, hsub d hd]
        · simp [hd]
    exact h1.length_eq

end parts

theorem run_single {A : Type} [Zero A] [Add A] [Mul A] [MulAdd A] (sc : SizedContraction) (c : SingletonContraction)
    (al : Alloc A) (v : View A) :
    EinsumPath.contractOperands ⟨.singleton sc, .singletonContraction c⟩ al [v] = c.op.run al v := rfl

/-! ## One operand without repeated letters -/

/-- C102, finding: a path compiled for a string that repeats its letters returns every array unchanged, whatever its
number of axes. -/
theorem C102_identity {A B : Type} [Zero A] [Add A] [Mul A] [MulAdd A] (h : HashOrd) (s : String) (v₀ : View B)
    (L : List Char) (dims : Char → Nat) (hd : Denotes s [L] L) (hs : Sized dims [L] [v₀.shape])
    (m : OptimizationMethod) (p : EinsumPath) (hp : einsumPath h s [v₀] m = .ok (.ok p)) (v : View A) (hv : v.Wf)
    (al : Alloc A) : ∃ w, p.contractOperands al [v] = .ok w ∧ SameArray v w := by
  obtain ⟨sc, c, rfl, h1, h2, h3, h4⟩ := path_one hd hs hp
  obtain ⟨q, q1, q2⟩ := singleton_method h1 h2
  rw [h4] at q1
  cases q1
  obtain ⟨_, -, -, e⟩ := singletonContraction_inv h4
  rw [q2, singletonMethod, h3, if_pos hd.outputOk.1, if_pos fun _ x => x, if_pos rfl] at e
  have hop : c.op = .identity := (Except.ok.inj e).symm
  rw [run_single]
  obtain ⟨w, w1, w2⟩ := hv.elements.holds.toOwned al
  refine ⟨w, by rw [hop]; exact w1, hv, w2.wf, w2.shape.symm, fun idx hi => ?_⟩
  rw [w2.get idx hi, hv.elements.2 idx hi]

/-- C102, finding: a path compiled for a string whose output is a proper prefix of the letters sums the axes of the
other letters and keeps all further axes.  Axes are labelled by their positions. -/
theorem C102_summation {A B : Type} [CommSemiring A] (h : HashOrd) (s : String) (v₀ : View B) (L out : List Char)
    (dims : Char → Nat) (hd : Denotes s [L] out) (hs : Sized dims [L] [v₀.shape]) (m : OptimizationMethod)
    (p : EinsumPath) (hp : einsumPath h s [v₀] m = .ok (.ok p)) (hn : L.Nodup) (hpre : out <+: L) (hne : out ≠ L)
    (v : View A) (t : List Nat → A) (hv : Elements v t) (hle : L.length ≤ v.shape.length) (al : Alloc A) :
    ∃ w, p.contractOperands al [v] = .ok w ∧ w.Wf ∧ w.shape = v.shape.take out.length ++ v.shape.drop L.length ∧
      ∀ σ : Nat → Nat, (∀ a < v.shape.length, σ a < v.shape.getD a 0) →
        w.read (((List.range v.shape.length).filter fun a => a < out.length ∨ L.length ≤ a).map σ) =
          .ok (Spec.einsum (fun a => v.shape.getD a 0) [List.range v.shape.length] [t]
            ((List.range v.shape.length).filter fun a => a < out.length ∨ L.length ≤ a) σ) := by
  obtain ⟨sc, c, rfl, h1, h2, rfl, h4⟩ := path_one hd hs hp
  obtain ⟨hlt, orig, hop⟩ := summation_part h1 h2 hn hpre hne h4
  rw [run_single, hop]
  set o := sc.contraction.outputIndices.length
  set n := v.shape.length with hN
  set D : Nat → Nat := fun a => v.shape.getD a 0
  set a := List.range' 0 o
  set b := List.range' o (L.length - o)
  set k := List.range' L.length (n - L.length)
  have hsplit : List.range n = a ++ (b ++ k) := by
    rw [List.range_eq_range']
    simp only [a, b, k]
    have e1 : List.range' o (L.length - o) ++ List.range' L.length (n - L.length) = List.range' o (n - o) := by
      have := List.range'_append_1 (s := o) (m := L.length - o) (n := n - L.length)
      rw [show o + (L.length - o) = L.length by omega, show L.length - o + (n - L.length) = n - o by omega] at this
      exact this
    rw [e1]
    have := List.range'_append_1 (s := 0) (m := o) (n := n - o)
    rw [Nat.zero_add, show o + (n - o) = n by omega] at this
    exact this.symm
  have hfil : ((List.range n).filter fun a => a < o ∨ L.length ≤ a) = a ++ k := by
    rw [hsplit, List.filter_append, List.filter_append, List.filter_eq_self.2, List.filter_eq_nil_iff.2,
      List.filter_eq_self.2, List.nil_append]
    · intro x hx; simp [k, List.mem_range'_1] at hx; simp; omega
    · intro x hx; simp [b, List.mem_range'_1] at hx; simp; omega
    · intro x hx; simp [a, List.mem_range'_1] at hx; simp; omega
  have hnd : (a ++ (b ++ k)).Nodup := hsplit ▸ List.nodup_range
  have hshape : v.shape = (List.range n).map D := eq_map_range_getD _ _
  have hr : Rep v (a ++ (b ++ k)) D fun σ => t ((List.range n).map σ) := by
    rw [← hsplit]
    exact Holds.rep (by rw [← hshape]; exact hv.holds)
  obtain ⟨w, w1, w2⟩ := hr.sumBlock hnd al
  have hla : a.length = o := by simp [a]
  have hlb : b.length = L.length - o := by simp [b]
  rw [hla, hlb] at w1
  refine ⟨w, ?_, w2.wf ?_, ?_, fun σ hσ => ?_⟩
  · simp only [SingletonOp.run]
    rw [summation_run (by omega), w1]
  · rw [← hfil]; exact List.nodup_range.filter _
  · rw [w2.shape, List.map_append]
    congr 1
    · rw [hshape, ← List.map_take, hsplit, List.take_left' (by simp [a, o])]
    · rw [hshape, ← List.map_drop, hsplit, ← List.append_assoc, List.drop_left' (by simp [a, b]; omega)]
  · rw [hfil, w2.get σ fun c hc => hσ c (by
      have : c ∈ List.range n := by
        rw [hsplit]
        rcases List.mem_append.1 hc with g | g <;> simp [g]
      simpa using this)]
    rw [Spec.einsum, ← sumOver_summed (S := b)]
    · congr 2
      funext τ
      simp [term]
    · exact (List.nodup_append.1 (List.nodup_append.1 hnd).2.1).1
    · intro x
      rw [hsplit]
      have := List.nodup_append'.1 hnd
      have h' := List.nodup_append'.1 this.2.1
      simp only [List.flatten_cons, List.flatten_nil, List.append_nil, List.mem_append]
      constructor
      · intro hx
        exact ⟨.inr (.inl hx), fun g => g.elim (fun g => this.2.2 g (by simp [hx])) fun g => h'.2.2 hx g⟩
      · rintro ⟨g | g | g, e⟩
        exacts [absurd (.inl g) e, g, absurd (.inr g) e]

/-- C102: with fewer axes than letters the summation panics. -/
theorem C102_summation_fewer {A B : Type} [Zero A] [Add A] [Mul A] [MulAdd A] (h : HashOrd) (s : String) (v₀ : View B)
    (L out : List Char) (dims : Char → Nat) (hd : Denotes s [L] out) (hs : Sized dims [L] [v₀.shape])
    (m : OptimizationMethod) (p : EinsumPath) (hp : einsumPath h s [v₀] m = .ok (.ok p)) (hn : L.Nodup)
    (hpre : out <+: L) (hne : out ≠ L) (v : View A) (hv : v.Wf) (hlt : v.shape.length < L.length) (al : Alloc A) :
    p.contractOperands al [v] = panic .ndarray := by
  obtain ⟨sc, c, rfl, h1, h2, rfl, h4⟩ := path_one hd hs hp
  obtain ⟨ho, orig, hop⟩ := summation_part h1 h2 hn hpre hne h4
  rw [run_single, hop]
  simp only [SingletonOp.run]
  rw [summation_run (by omega)]
  exact sumAxes_missing (by omega) hv (by omega) al

/-- C102: a path that reorders axes panics on every array with another number of axes. -/
theorem C102_others {A B : Type} [Zero A] [Add A] [Mul A] [MulAdd A] (h : HashOrd) (s : String) (v₀ : View B)
    (L out : List Char) (dims : Char → Nat) (hd : Denotes s [L] out) (hs : Sized dims [L] [v₀.shape])
    (m : OptimizationMethod) (p : EinsumPath) (hp : einsumPath h s [v₀] m = .ok (.ok p)) (hn : L.Nodup)
    (hpre : ¬ out <+: L) (v : View A) (hne : v.shape.length ≠ L.length) (al : Alloc A) :
    p.contractOperands al [v] = panic .ndarray := by
  obtain ⟨sc, c, rfl, h1, h2, rfl, h4⟩ := path_one hd hs hp
  obtain ⟨axes, ha, hop⟩ := permuting_part h1 h2 hn hpre h4
  have hperm : ¬ axes.Perm (List.range v.shape.length) := fun e => hne (by
    have := e.length_eq
    rw [List.length_range] at this
    omega)
  rw [run_single]
  rcases hop with e | ⟨s, e⟩ <;> rw [e]
  · simp [SingletonOp.run, Permutation.run, View.permutedAxes_panic hperm]
  · simp [SingletonOp.run, PermutationAndSummation.run, Permutation.view, View.permutedAxes_panic hperm]

/-! ## One operand with a repeated letter -/

section diag
variable {A : Type}

theorem diagStrides_long {mapping : List Nat} (ss : List Int) : ∀ (acc : List Nat) (idx : Nat),
    mapping.length < idx + ss.length → idx ≤ mapping.length → ∃ k, diagStrides mapping acc idx ss = panic k := by
  induction ss with
  | nil => intro acc idx h1 h2; simp at h1; omega
  | cons s ss ih =>
    intro acc idx h1 h2
    rcases diagStrides_weak mapping acc idx (s :: ss) with g | ⟨r, g, -⟩
    · exact g
    · exfalso
      simp only [diagStrides] at g
      obtain ⟨_, -, g⟩ := bind_eq_ok.1 g
      obtain ⟨m, m1, g⟩ := bind_eq_ok.1 g
      obtain ⟨x, -, g⟩ := bind_eq_ok.1 g
      have hi : idx < mapping.length := by
        by_contra hlt
        rw [index, List.getElem?_eq_none (by omega)] at m1
        cases m1
      obtain ⟨k, hk⟩ := ih (acc.set m (x + s.toNat)) (idx + 1) (by simp at h1; omega) hi
      rw [hk] at g
      cases g

theorem diagStrides_untouched {mapping : List Nat} {k : Nat} (ss : List Int) : ∀ (acc : List Nat) (idx : Nat) (r : List Nat),
    diagStrides mapping acc idx ss = .ok r → (∀ j, idx ≤ j → j < idx + ss.length → mapping[j]? ≠ some k) →
    r.getD k 0 = acc.getD k 0 := by
  induction ss with
  | nil => intro acc idx r h _; cases h; rfl
  | cons s ss ih =>
    intro acc idx r h hj
    simp only [diagStrides] at h
    obtain ⟨_, -, h⟩ := bind_eq_ok.1 h
    obtain ⟨m, m1, h⟩ := bind_eq_ok.1 h
    obtain ⟨x, -, h⟩ := bind_eq_ok.1 h
    rw [ih _ _ _ h fun j a b => hj j (by omega) (by simp; omega)]
    have hm : m ≠ k := by
      rintro rfl
      refine hj idx le_rfl (by simp) ?_
      unfold index at m1
      split at m1
      · cases m1; assumption
      · cases m1
    simp [List.getD_eq_getElem?_getD, hm]

/-- The diagonal contractors panic if the view does. -/
theorem diag_panics [Zero A] {d : Diagonalization} {v : View A} (hv : v.Wf)
    (hd : ∀ t : View A, t.shape.length = v.shape.length → t.strides.length = v.strides.length → ∃ k, d.view t = panic k)
    (al : Alloc A) : (∃ k, d.view v = panic k) ∧ ∃ k, d.run al v = panic k := by
  refine ⟨hd v rfl rfl, ?_⟩
  obtain ⟨cl, h1, -, h3⟩ := fromShapeVec_map_self v.shape v.elem
  obtain ⟨k, hk⟩ := hd cl (by rw [h3.shape]) (by rw [h3.strides, hv.1])
  exact ⟨k, by simp [Diagonalization.run, hv.elements.holds.toVec, h1, hk]⟩

theorem singleton_panics [Zero A] [Add A] {d : Diagonalization} {v : View A} (hv : v.Wf)
    (hd : ∀ t : View A, t.shape.length = v.shape.length → t.strides.length = v.strides.length → ∃ k, d.view t = panic k)
    (al : Alloc A) : (∃ k, (SingletonOp.diagonalization d).run al v = panic k) ∧
      ∀ s, ∃ k, (SingletonOp.diagonalizationAndSummation ⟨d, s⟩).run al v = panic k := by
  refine ⟨(diag_panics hv hd al).2, fun s => ?_⟩
  simp only [SingletonOp.run]
  rw [diagSum_run]
  obtain ⟨⟨k, hk⟩, k', hk'⟩ := diag_panics hv hd (al.sub 0)
  split
  · exact ⟨k, by simp only [hk]; rfl⟩
  · exact ⟨k', by simp only [hk']; rfl⟩

end diag

/-- C102: with more axes than letters the diagonal contractors panic. -/
theorem C102_repeated_more {A B : Type} [Zero A] [Add A] [Mul A] [MulAdd A] (h : HashOrd) (s : String) (v₀ : View B)
    (L out : List Char) (dims : Char → Nat) (hd : Denotes s [L] out) (hs : Sized dims [L] [v₀.shape])
    (m : OptimizationMethod) (p : EinsumPath) (hp : einsumPath h s [v₀] m = .ok (.ok p)) (hn : ¬ L.Nodup)
    (v : View A) (hv : v.Wf) (hlt : L.length < v.shape.length) (al : Alloc A) :
    ∃ k, p.contractOperands al [v] = panic k := by
  obtain ⟨sc, c, rfl, h1, h2, rfl, h4⟩ := path_one hd hs hp
  obtain ⟨new, -, -, d3⟩ := diag_parts h1 h2 hn h4
  rw [run_single]
  have key : ∀ (adj sh : List Nat), adj.length = L.length → ∀ t : View A, t.shape.length = v.shape.length →
      t.strides.length = v.strides.length → ∃ k, Diagonalization.view ⟨adj, sh⟩ t = panic k := by
    intro adj sh ha t _ e
    obtain ⟨k, hk⟩ := diagStrides_long (mapping := adj) t.strides (sh.map fun _ => 0) 0
      (by rw [e, hv.1, ha]; omega) (by omega)
    exact ⟨k, by simp only [Diagonalization.view, hk]; rfl⟩
  rcases d3 with ⟨-, e⟩ | ⟨-, e⟩ <;> rw [e]
  · exact (singleton_panics hv (key _ _ (by simp)) al).1
  · exact (singleton_panics hv (key _ _ (by simp)) al).2 _

/-- C102: with fewer axes than letters the diagonal contractors panic, if a letter of the missing axes only was compiled
with a length greater than one. -/
theorem C102_repeated_fewer {A B : Type} [Zero A] [Add A] [Mul A] [MulAdd A] (h : HashOrd) (s : String) (v₀ : View B)
    (L out : List Char) (dims : Char → Nat) (hd : Denotes s [L] out) (hs : Sized dims [L] [v₀.shape])
    (m : OptimizationMethod) (p : EinsumPath) (hp : einsumPath h s [v₀] m = .ok (.ok p)) (hn : ¬ L.Nodup)
    (v : View A) (hv : v.Wf) (hpos : ∀ d ∈ L, 0 < dims d) (d : Char) (hdL : d ∈ L)
    (hmiss : d ∉ L.take v.shape.length) (hbig : 1 < dims d) (al : Alloc A) :
    ∃ k, p.contractOperands al [v] = panic k := by
  obtain ⟨sc, c, rfl, h1, h2, rfl, h4⟩ := path_one hd hs hp
  obtain ⟨new, d1, d2, d3⟩ := diag_parts h1 h2 hn h4
  have hsub := h1.out_sub h2
  rw [run_single]
  set out := sc.contraction.outputIndices
  have hLa : ∀ c ∈ L, c ∈ out ++ new := fun c hc => by
    rw [List.mem_append, d2]
    by_cases ho : c ∈ out
    · exact .inl ho
    · exact .inr ⟨hc, ho⟩
  have haL : ∀ c ∈ out ++ new, c ∈ L := fun c hc => by
    rcases List.mem_append.1 hc with g | g
    · exact hsub c g
    · exact ((d2 c).1 g).1
  have key : ∀ t : View A, t.shape.length = v.shape.length → t.strides.length = v.strides.length →
      ∃ k, Diagonalization.view ⟨L.map fun c => pos c (out ++ new), (out ++ new).map dims⟩ t = panic k := by
    intro t _ e
    rcases diagStrides_weak (L.map fun c => pos c (out ++ new)) (((out ++ new).map dims).map fun _ => 0) 0 t.strides with
      ⟨k, hk⟩ | ⟨r, hr, hrl⟩
    · exact ⟨k, by simp only [Diagonalization.view, hk]; rfl⟩
    have hlt : pos d (out ++ new) < (out ++ new).length := pos_lt (hLa d hdL)
    have hz := diagStrides_untouched (k := pos d (out ++ new)) t.strides _ _ _ hr fun j _ hj hm => by
      rw [List.getElem?_map, Option.map_eq_some_iff] at hm
      obtain ⟨x, x1, x2⟩ := hm
      have hx : x ∈ L := List.mem_of_getElem? x1
      have hxd : x = d := by
        have a := getElem?_pos (hLa x hx)
        rw [x2, getElem?_pos (hLa d hdL)] at a
        exact (Option.some.inj a).symm
      subst hxd
      refine hmiss (List.mem_of_getElem? (i := j) ?_)
      rw [List.getElem?_take_of_lt (by rw [e, hv.1] at hj; omega), x1]
    have hz0 : r.getD (pos d (out ++ new)) 0 = 0 := by
      rw [hz, List.map_map, getD_pos (hLa d hdL)]; rfl
    have hsh : ((out ++ new).map dims).getD (pos d (out ++ new)) 0 = dims d := getD_pos (hLa d hdL) _ _
    have hov : overlapLoop ((out ++ new).map dims) r 0 (strideOrder (r.map Int.ofNat)) = true := by
      by_contra hf
      rw [Bool.not_eq_true, overlap_iff (by rw [hrl]; simp)] at hf
      · have := hf _ (by simpa using hlt) (by rw [hsh]; omega)
        rw [hz0] at this
        omega
      · intro i hi
        rw [List.length_map] at hi
        rw [show ((out ++ new).map dims).getD i 0 = dims (out ++ new)[i] by
          rw [List.getD_eq_getElem?_getD, List.getElem?_map, List.getElem?_eq_getElem hi]; rfl]
        exact (hpos _ (haL _ (List.getElem_mem hi))).ne'
    have hne : ((out ++ new).map dims).any (· = 0) = false := by
      rw [List.any_eq_false]
      intro x hx
      obtain ⟨c, hc, rfl⟩ := List.mem_map.1 hx
      simpa using (hpos c (haL c hc)).ne'
    have hnone : ∀ data : List A, fromShapeStrides ((out ++ new).map dims) r data = none := by
      intro data
      simp only [fromShapeStrides, hne, hov]
      split_ifs <;> simp_all
    simp only [Diagonalization.view, hr, bind_ok]
    cases t.asSliceMemoryOrder with
    | none => exact ⟨_, rfl⟩
    | some data => exact ⟨_, by simp only [unwrapO, bind_ok, hnone]; rfl⟩
  rcases d3 with ⟨e0, e⟩ | ⟨-, e⟩ <;> rw [e]
  · rw [e0, List.append_nil] at key
    exact (singleton_panics hv key al).1
  · exact (singleton_panics hv key al).2 _

/-- Only as many entries of the mapping matter as the array has axes. -/
theorem diagStrides_prefix {m m' : List Nat} (ss : List Int) : ∀ (acc : List Nat) (idx : Nat), idx + ss.length ≤ m.length →
    diagStrides (m ++ m') acc idx ss = diagStrides m acc idx ss := by
  induction ss with
  | nil => intro acc idx _; rfl
  | cons s ss ih =>
    intro acc idx hl
    rw [List.length_cons] at hl
    simp only [diagStrides]
    rw [show index (m ++ m') idx = index m idx by simp only [index, List.getElem?_append_left (show idx < m.length by omega)]]
    simp only [fun a => ih a (idx + 1) (by omega)]

/-- C102, finding: with fewer axes than letters a diagonal contractor ignores the letters of the missing axes, if all of
them label an axis that is there. -/
theorem C102_repeated_accepts {A B : Type} [CommSemiring A] (h : HashOrd) (s : String) (v₀ : View B) (L K out : List Char)
    (dims dims' : Char → Nat) (hd : Denotes s [L] out) (hs : Sized dims [L] [v₀.shape]) (m : OptimizationMethod)
    (p : EinsumPath) (hp : einsumPath h s [v₀] m = .ok (.ok p)) (hn : ¬ L.Nodup) (hK : K <+: L) (hLK : ∀ c ∈ L, c ∈ K)
    (v : View A) (t : List Nat → A) (hv : Elements v t) (hsh : v.shape = K.map dims') (hpos : ∀ c ∈ K, 0 < dims' c)
    (hle : ∀ c ∈ K, dims c ≤ dims' c) (al : Alloc A) :
    ∃ w, p.contractOperands al [v] = .ok w ∧ IsEinsum dims [K] [t] out w := by
  obtain ⟨sc, c, rfl, h1, h2, rfl, h4⟩ := path_one hd hs hp
  obtain ⟨new, d1, d2, d3⟩ := diag_parts h1 h2 hn h4
  set out := sc.contraction.outputIndices
  have hsub := h1.out_sub h2
  have hLa : ∀ c ∈ K, c ∈ out ++ new := fun c hc => by
    rw [List.mem_append, d2]
    by_cases ho : c ∈ out
    · exact .inl ho
    · exact .inr ⟨hK.subset hc, ho⟩
  have haL : ∀ c ∈ out ++ new, c ∈ K := fun c hc => by
    rcases List.mem_append.1 hc with g | g
    · exact hLK c (hsub c g)
    · exact hLK c ((d2 c).1 g).1
  have hr : Rep v K dims' fun σ => t (K.map σ) := Holds.rep (by rw [← hsh]; exact hv.holds)
  have hpp : 0 < (K.map dims').prod := Nat.pos_of_ne_zero fun e => by
    obtain ⟨c, hc, e⟩ := List.mem_map.1 (List.prod_eq_zero_iff.1 e)
    have := hpos c hc
    omega
  obtain ⟨K', rfl⟩ := hK
  have hview : ∀ (f : Char → Nat) (sh : List Nat) (z : View A), z.strides.length = K.length →
      Diagonalization.view ⟨(K ++ K').map f, sh⟩ z = Diagonalization.view ⟨K.map f, sh⟩ z := by
    intro f sh z hz
    simp only [Diagonalization.view, List.map_append]
    rw [diagStrides_prefix _ _ _ (by simp [hz])]
  have hst : v.strides.length = K.length := by rw [hv.1.1, hsh]; simp
  have hdrun : ∀ (f : Char → Nat) (sh : List Nat) (al : Alloc A),
      Diagonalization.run ⟨(K ++ K').map f, sh⟩ al v = Diagonalization.run ⟨K.map f, sh⟩ al v := by
    intro f sh al
    obtain ⟨cl, e1, -, e3⟩ := fromShapeVec_map_self v.shape t
    simp only [Diagonalization.run, hv.holds.toVec, bind_ok, e1]
    rw [hview f sh cl (by rw [e3.strides, hsh]; simp)]
  rw [run_single]
  rcases d3 with ⟨rfl, e⟩ | ⟨hne, e⟩
  · rw [List.append_nil] at hLa haL d1
    obtain ⟨w, w1, w2⟩ := hr.diagRun_le hv.1 hpp d1 hLa haL hle al
    refine ⟨w, by rw [e]; simp only [SingletonOp.run, hdrun]; exact w1, Rep.isEinsum_one d1 ?_⟩
    rwa [show summed [K] out = [] from by
      rw [List.eq_nil_iff_forall_not_mem]
      intro c hc
      have := mem_summed.1 hc
      simp only [List.flatten_cons, List.flatten_nil, List.append_nil] at this
      exact this.2 (hLa c this.1)]
  · obtain ⟨x, x1, x2⟩ := hr.diagEither_le hv.1 hpp d1 hLa haL hle (al.sub 0)
    obtain ⟨w, w1, w2⟩ := x2.summation d1 hne ((List.range new.length).map (out.length + ·)) (al.sub 1)
    refine ⟨w, ?_, Rep.isEinsum_one h1.out.1 ?_⟩
    · rw [e]
      simp only [SingletonOp.run]
      rw [diagSum_run]
      simp only [hdrun, hview _ _ v hst]
      rw [x1]
      exact w1
    · rw [← sumOver_summed (S := new) (List.nodup_append.1 d1).2.1 fun c => by
        rw [d2]
        simp only [List.flatten_cons, List.flatten_nil, List.append_nil]
        exact ⟨fun g => ⟨hLK c g.1, g.2⟩, fun g => ⟨List.mem_append_left _ g.1, g.2⟩⟩]
      exact w2

/-! ## Two operands, one of them summed away -/

section pair

/-- An operand that has no letter of the other one or of the output is summed completely. -/
theorem summed_away {sc : SizedContraction} {dims : Char → Nat} (hv : sc.Valid dims) {k : HashOrd} {L R out : List Char}
    (hL : ∀ c ∈ L, c ∈ sc.contraction.operandIndices.flatten) (hn : L.Nodup) (h0 : L ≠ [])
    (hf : ∀ c ∈ L, c ∉ R ∧ c ∉ out) {x : Option SimplificationMethodAndOutput}
    (hx : SimplificationMethodAndOutput.fromIndicesAndSizes k L R out sc = .ok x) :
    ∃ y orig, x = some y ∧ y.op = .summation ⟨orig, List.replicate L.length 0⟩ := by
  have hnil : desiredIndices (k.sub 0) L R out = [] := List.eq_nil_iff_forall_not_mem.2 fun c hc => by
    obtain ⟨a, b⟩ := mem_desired.1 hc
    exact b.elim (hf c a).1 (hf c a).2
  unfold SimplificationMethodAndOutput.fromIndicesAndSizes at hx
  simp only [hnil] at hx
  obtain ⟨a, a1, hx⟩ := bind_eq_ok.1 hx
  obtain ⟨c, c1, hx⟩ := bind_eq_ok.1 hx
  obtain ⟨b1, b2, b3⟩ := Valid.subset_of hv (by simpa using hL) ⟨List.nodup_nil, by simp⟩ a1
  obtain ⟨-, orig, hop⟩ := summation_part b1 b2 hn (by rw [b3]; exact List.nil_prefix) (by rw [b3]; exact h0.symm) c1
  obtain ⟨q, q1, q2⟩ := singleton_method b1 b2
  rw [c1] at q1
  cases q1
  have hall : ¬ ∀ d ∈ L, d ∈ ([] : List Char) := fun h => h0 (List.eq_nil_iff_forall_not_mem.2 fun d hd => by simpa using h d hd)
  have hm : c.method = .summation := by
    rw [q2, singletonMethod, b3, if_pos hn, if_neg hall, if_pos List.nil_prefix]
  rw [hm] at hx
  obtain ⟨t, -, hx⟩ := bind_eq_ok.1 hx
  cases hx
  refine ⟨_, orig, rfl, ?_⟩
  rw [hop, b3]
  rfl

theorem pair_op {sc : SizedContraction} {L R : List Char} {k : HashOrd} {c : PairContraction}
    (hops : sc.contraction.operandIndices = [L, R]) (hc : PairContraction.new k sc = .ok c) :
    ∃ red, PairOp.new red c.method = .ok c.op := by
  unfold PairContraction.new at hc
  rw [hops] at hc
  simp only [List.length_cons, List.length_nil, Nat.zero_add, Nat.reduceAdd, decide_true,
    assertThat_true, bind_ok, index_cons_zero, index_one] at hc
  obtain ⟨ls, l1, hc⟩ := bind_eq_ok.1 hc
  obtain ⟨rs, r1, hc⟩ := bind_eq_ok.1 hc
  obtain ⟨a, a1, hc⟩ := bind_eq_ok.1 hc
  obtain ⟨s, -, hc⟩ := bind_eq_ok.1 hc
  obtain ⟨op, o1, hc⟩ := bind_eq_ok.1 hc
  obtain ⟨t, -, hc⟩ := bind_eq_ok.1 hc
  cases hc
  exact ⟨a, o1⟩

variable {A : Type}

/-- The first element after the leading axes are summed. -/
theorem first_summed [AddCommMonoid A] {l l' : View A} {n : Nat} (hl : l.Wf) (hl' : l'.Wf) (hn : n ≤ l.shape.length)
    (hsh : l'.shape = l.shape.take n)
    (hread : ∀ idx, InB l'.shape idx → l'.read idx = l.read (idx ++ List.replicate (l.shape.length - n) 0)) (al : Alloc A) :
    ∃ w w', sumAxes al (List.replicate n 0) l = .ok w ∧ sumAxes al (List.replicate n 0) l' = .ok w' ∧
      (0 ∈ l.shape.drop n → w.first = .ok none) ∧ (0 ∉ l.shape.drop n → w.first = w'.first) := by
  set N := l.shape.length
  set D : Nat → Nat := fun a => l.shape.getD a 0
  set b := List.range' 0 n
  set k := List.range' n (N - n)
  have hsplit : List.range N = b ++ k := by
    rw [List.range_eq_range']
    have := List.range'_append_1 (s := 0) (m := n) (n := N - n)
    rw [Nat.zero_add, show n + (N - n) = N by omega] at this
    exact this.symm
  have hnd : (b ++ k).Nodup := hsplit ▸ List.nodup_range
  have hshape : l.shape = (b ++ k).map D := by rw [← hsplit]; exact eq_map_range_getD _ _
  have hlb : b.length = n := by simp [b]
  have hsh' : l'.shape = (b ++ []).map D := by
    rw [hsh, hshape, ← List.map_take, List.take_left' hlb, List.append_nil]
  have hdrop : l.shape.drop n = k.map D := by rw [hshape, ← List.map_drop, List.drop_left' hlb]
  have hr : Rep l ([] ++ (b ++ k)) D fun σ => l.elem ((b ++ k).map σ) :=
    Holds.rep (by rw [List.nil_append, ← hshape]; exact hl.elements.holds)
  have hr' : Rep l' ([] ++ (b ++ [])) D fun σ => l'.elem ((b ++ []).map σ) :=
    Holds.rep (by rw [List.nil_append, ← hsh']; exact hl'.elements.holds)
  obtain ⟨w, w1, w2⟩ := hr.sumBlock (by simpa using hnd) al
  obtain ⟨w', w1', w2'⟩ := hr'.sumBlock (by simpa using (List.nodup_append.1 hnd).1) al
  rw [hlb, List.length_nil] at w1 w1'
  have hk : k.Nodup := (List.nodup_append.1 hnd).2.1
  refine ⟨w, w', w1, w1', fun h0 => ?_, fun h0 => ?_⟩
  · rw [hdrop] at h0
    exact (w2.holds (by simpa using hk)).first_empty (List.prod_eq_zero (by simpa using h0))
  · rw [hdrop] at h0
    have hw : w.read ((([] : List Nat) ++ k).map fun _ => 0) = _ := w2.get (fun _ => 0) fun c hc => by
      refine Nat.pos_of_ne_zero fun e => h0 ?_
      exact List.mem_map.2 ⟨c, by simpa using hc, e⟩
    have hw' : w'.read ((([] : List Nat) ++ []).map fun _ => 0) = _ := w2'.get (fun _ => 0) fun c hc => by simp at hc
    have e1 : w.shape.any (· = 0) = false := by
      rw [w2.shape, List.nil_append, List.any_eq_false]
      intro x hx e
      exact h0 (by simpa [of_decide_eq_true e] using hx)
    have e2 : w'.shape = [] := by rw [w2'.shape]; rfl
    rw [View.first, View.first, e1, e2, w2.shape]
    simp only [List.map_map, Bool.false_eq_true, if_false, List.any_nil, List.map_nil]
    have e3 : (([] : List Nat) ++ k).map ((fun _ => 0) ∘ D) = (([] : List Nat) ++ k).map fun _ => 0 := rfl
    rw [e3, hw]
    rw [List.append_nil, List.map_nil] at hw'
    rw [hw']
    congr 2
    refine sumOver_congr (A := A) fun σ h1 h2 => ?_
    have hin : InB l'.shape (b.map σ) := by
      rw [hsh', List.append_nil]
      exact inB_of_inRange h2
    have h3 := hread _ hin
    rw [hl'.elements.2 _ hin] at h3
    have h4 : b.map σ ++ List.replicate (N - n) 0 = (b ++ k).map σ := by
      rw [List.map_append]
      congr 1
      symm
      rw [List.eq_replicate_iff]
      refine ⟨by simp [k], fun x hx => ?_⟩
      obtain ⟨c, hc, rfl⟩ := List.mem_map.1 hx
      exact h1 c fun hb => (List.nodup_append'.1 hnd).2.2 hb hc
    rw [h4, hl.elements.2 _ (by
      rw [hshape]
      refine inB_of_inRange fun c hc => ?_
      rcases List.mem_append.1 hc with g | g
      · exact h2 c g
      · rw [h1 c fun hb => (List.nodup_append'.1 hnd).2.2 hb g]
        exact Nat.pos_of_ne_zero fun e => h0 (List.mem_map.2 ⟨c, g, e⟩))] at h3
    rw [List.append_nil]
    exact (Except.ok.inj h3).symm

end pair

/-- C102, finding: the first operand is summed away before the multiplication.  If its array has further axes, only
position zero of these is used; there is a panic if one of them is empty. -/
theorem C102_extra {A B : Type} [CommSemiring A] (h : HashOrd) (s : String) (l₀ r₀ : View B) (L R out : List Char)
    (dims : Char → Nat) (hd : Denotes s [L, R] out) (hs : Sized dims [L, R] [l₀.shape, r₀.shape]) (p : EinsumPath)
    (hp : einsumPath h s [l₀, r₀] .naive = .ok (.ok p)) (hn : L.Nodup) (h0 : L ≠ [])
    (hf : ∀ c ∈ L, c ∉ R ∧ c ∉ out) (hR : ∃ c ∈ R, c ∈ out) (l l' r : View A) (hl : l.Wf) (hl' : l'.Wf) (hr : r.Wf)
    (hle : L.length ≤ l.shape.length) (hsh : l'.shape = l.shape.take L.length)
    (hread : ∀ idx, InB l'.shape idx → l'.read idx = l.read (idx ++ List.replicate (l.shape.length - L.length) 0))
    (al : Alloc A) :
    (0 ∉ l.shape.drop L.length → p.contractOperands al [l, r] = p.contractOperands al [l', r]) ∧
    (0 ∈ l.shape.drop L.length → ∃ k, p.contractOperands al [l, r] = panic k) := by
  obtain ⟨sc, k, c, rfl, h1, h2, h3, h4⟩ := path_two hd hs hp
  obtain ⟨q, q1, q2, -, q4, -⟩ := pair_parts h1 h2 k
  rw [h4] at q1
  cases q1
  rw [h3] at q2 q4
  obtain ⟨y, orig, hy, hop⟩ := summed_away h1 (by rw [h2]; intro c hc; simp [hc]) hn h0 hf q2
  obtain ⟨d, hdR, hdo⟩ := hR
  have hm : c.method = .scalarMatrixProductGeneral := by
    rw [q4, pairMethod, if_neg fun g => (hf d (g.2 d hdR (.inr hdo)).1).1 hdR, if_pos hf]
  obtain ⟨red, ho⟩ := pair_op h2 h4
  rw [hm] at ho
  obtain ⟨x, -, ho⟩ := bind_eq_ok.1 ho
  have ho : c.op = .scalarMatrixProductGeneral x := (Except.ok.inj ho).symm
  obtain ⟨w, w', w1, w2, w3, w4⟩ := first_summed hl hl' hle hsh hread ((al.sub 0).sub 0)
  have hL0 : 0 < L.length := List.length_pos_iff.2 h0
  have e1 : ∀ z, simplifyOperand ((al.sub 0).sub 0) c.lhsSimplification z =
      sumAxes ((al.sub 0).sub 0) (List.replicate L.length 0) z := fun z => by
    rw [hy]
    simp only [simplifyOperand, hop, SingletonOp.run]
    exact summation_run hL0 _ _ _
  refine ⟨fun g => ?_, fun g => ?_⟩
  · rw [contract_two, contract_two]
    simp only [PairContraction.run, e1, w1, w2, bind_ok, ho, PairOp.run, ScalarMatrixProductGeneral.run,
      ScalarMatrixProduct.run, w4 g]
  · refine (EinsumPath.contractOperands_safe _ (operands := [l, r]) (by simp [hl, hr]) al).resolve_right ?_
    rintro ⟨z, hz, -⟩
    rw [contract_two] at hz
    simp only [PairContraction.run, e1, w1, bind_ok, ho, PairOp.run, ScalarMatrixProductGeneral.run,
      ScalarMatrixProduct.run, w3 g] at hz
    obtain ⟨_, -, hz⟩ := bind_eq_ok.1 hz
    obtain ⟨_, -, hz⟩ := bind_eq_ok.1 hz
    cases hz

/-- C102, finding: the same for the second operand. -/
theorem C102_extra_second {A B : Type} [CommSemiring A] (h : HashOrd) (s : String) (l₀ r₀ : View B) (L R out : List Char)
    (dims : Char → Nat) (hd : Denotes s [L, R] out) (hs : Sized dims [L, R] [l₀.shape, r₀.shape]) (p : EinsumPath)
    (hp : einsumPath h s [l₀, r₀] .naive = .ok (.ok p)) (hn : R.Nodup) (h0 : R ≠ [])
    (hf : ∀ c ∈ R, c ∉ L ∧ c ∉ out) (hR : ∃ c ∈ L, c ∈ out) (l r r' : View A) (hl : l.Wf) (hr : r.Wf) (hr' : r'.Wf)
    (hle : R.length ≤ r.shape.length) (hsh : r'.shape = r.shape.take R.length)
    (hread : ∀ idx, InB r'.shape idx → r'.read idx = r.read (idx ++ List.replicate (r.shape.length - R.length) 0))
    (al : Alloc A) :
    (0 ∉ r.shape.drop R.length → p.contractOperands al [l, r] = p.contractOperands al [l, r']) ∧
    (0 ∈ r.shape.drop R.length → ∃ k, p.contractOperands al [l, r] = panic k) := by
  obtain ⟨sc, k, c, rfl, h1, h2, h3, h4⟩ := path_two hd hs hp
  obtain ⟨q, q1, -, q2, q4, -⟩ := pair_parts h1 h2 k
  rw [h4] at q1
  cases q1
  rw [h3] at q2 q4
  obtain ⟨y, orig, hy, hop⟩ := summed_away h1 (by rw [h2]; intro c hc; simp [hc]) hn h0 hf q2
  obtain ⟨d, hdL, hdo⟩ := hR
  have hm : c.method = .matrixScalarProductGeneral := by
    rw [q4, pairMethod, if_neg fun g => (hf d (g.1 d hdL (.inr hdo)).1).1 hdL, if_neg fun g => (g d hdL).2 hdo, if_pos hf]
  obtain ⟨red, ho⟩ := pair_op h2 h4
  rw [hm] at ho
  obtain ⟨x, -, ho⟩ := bind_eq_ok.1 ho
  have ho : c.op = .matrixScalarProductGeneral x := (Except.ok.inj ho).symm
  obtain ⟨w, w', w1, w2, w3, w4⟩ := first_summed hr hr' hle hsh hread ((al.sub 0).sub 1)
  have hR0 : 0 < R.length := List.length_pos_iff.2 h0
  have e1 : ∀ z, simplifyOperand ((al.sub 0).sub 1) c.rhsSimplification z =
      sumAxes ((al.sub 0).sub 1) (List.replicate R.length 0) z := fun z => by
    rw [hy]
    simp only [simplifyOperand, hop, SingletonOp.run]
    exact summation_run hR0 _ _ _
  refine ⟨fun g => ?_, fun g => ?_⟩
  · rw [contract_two, contract_two]
    simp only [PairContraction.run, e1, w1, w2, bind_ok, ho, PairOp.run, MatrixScalarProductGeneral.run,
      MatrixScalarProduct.run, w4 g]
  · refine (EinsumPath.contractOperands_safe _ (operands := [l, r]) (by simp [hl, hr]) al).resolve_right ?_
    rintro ⟨z, hz, -⟩
    rw [contract_two] at hz
    simp only [PairContraction.run, e1, w1, bind_ok, ho, PairOp.run, MatrixScalarProductGeneral.run,
      MatrixScalarProduct.run, w3 g] at hz
    obtain ⟨_, -, hz⟩ := bind_eq_ok.1 hz
    obtain ⟨_, -, hz⟩ := bind_eq_ok.1 hz
    cases hz

/-! ## Cases -/

namespace Ex

def rank1 : View Int := ⟨[1, 4], 0, [2], [1]⟩
def rank2 : View Int := ⟨[1, 2, 3, 4], 0, [2, 2], [2, 1]⟩
def rank3 : View Int := ⟨[0, 1, 2, 3, 4, 5, 6, 7], 0, [2, 2, 2], [4, 2, 1]⟩
def rank23 : View Int := ⟨[1, 2, 3, 4, 5, 6], 0, [2, 3], [3, 1]⟩

theorem wf1 : rank1.Wf := (elements_of (t := elems rank1) rfl (by decide +kernel)).1
theorem wf2 : rank2.Wf := (elements_of (t := elems rank2) rfl (by decide +kernel)).1
theorem wf3 : rank3.Wf := (elements_of (t := elems rank3) rfl (by decide +kernel)).1
theorem wf23 : rank23.Wf := (elements_of (t := elems rank23) rfl (by decide +kernel)).1

theorem sized2 (L : List Char) (v : View Int) (h : v.shape = L.map fun _ => 2) : Sized (fun _ => 2) [L] [v.shape] :=
  .cons h .nil

end Ex

/-- The hypotheses of `C102_identity`: a path for vectors returns a matrix. -/
example (h : HashOrd) (al : Alloc Int) : ∃ p, einsumPath h "i->i" [Ex.rank1] .naive = .ok (.ok p) ∧
    ∃ w, p.contractOperands al [Ex.rank23] = .ok w ∧ SameArray Ex.rank23 w := by
  have d : Denotes "i->i" [['i']] ['i'] :=
    .inl ⟨by decide, ⟨by simp, by simp [Letter], by simp [Letter]⟩, by simp [OutputOk, Used]⟩
  obtain ⟨p, hp, -⟩ := einsumPath_ok (operands := [Ex.rank1]) d (Ex.sized2 _ _ rfl) h (.inl rfl)
  exact ⟨p, hp, C102_identity h _ Ex.rank1 _ _ d (Ex.sized2 _ _ rfl) _ p hp _ Ex.wf23 al⟩

/-- The hypotheses of `C102_summation`: a path for the row sums of a matrix sums the middle axis of a cube; of a vector it
computes nothing. -/
example (h : HashOrd) (al : Alloc Int) : ∃ p, einsumPath h "ij->i" [Ex.rank2] .naive = .ok (.ok p) ∧
    (∃ w, p.contractOperands al [Ex.rank3] = .ok w ∧ w.shape = [2, 2] ∧ w.read [1, 0] = .ok 10) ∧
    p.contractOperands al [Ex.rank1] = panic .ndarray := by
  have d : Denotes "ij->i" [['i', 'j']] ['i'] :=
    .inl ⟨by decide, ⟨by simp, by simp [Letter], by simp [Letter]⟩, by simp [OutputOk, Used]⟩
  have s := Ex.sized2 ['i', 'j'] Ex.rank2 rfl
  obtain ⟨p, hp, -⟩ := einsumPath_ok (operands := [Ex.rank2]) d s h (.inl rfl)
  refine ⟨p, hp, ?_, C102_summation_fewer h _ Ex.rank2 _ _ _ d s _ p hp (by decide) (by decide) (by decide) _ Ex.wf1
    (by decide) al⟩
  obtain ⟨w, w1, -, w2, w3⟩ := C102_summation h _ Ex.rank2 _ _ _ d s _ p hp (by decide) (by decide) (by decide) Ex.rank3
    (Ex.elems Ex.rank3) (elements_of rfl (by decide +kernel)) (by decide) al
  refine ⟨w, w1, by rw [w2]; rfl, ?_⟩
  have := w3 (fun a => if a = 0 then 1 else 0) (by decide)
  rw [show ((List.range Ex.rank3.shape.length).filter fun a => a < (['i'] : List Char).length ∨
    (['i', 'j'] : List Char).length ≤ a) = [0, 2] by decide] at this
  rw [show ([0, 2] : List Nat).map (fun a => if a = 0 then 1 else 0) = [1, 0] by decide] at this
  rw [this]
  rfl

/-- The hypotheses of `C102_others`: a path for transposing a matrix panics on a cube. -/
example (h : HashOrd) (al : Alloc Int) : ∃ p, einsumPath h "ij->ji" [Ex.rank2] .naive = .ok (.ok p) ∧
    p.contractOperands al [Ex.rank3] = panic .ndarray := by
  have s := Ex.sized2 ['i', 'j'] Ex.rank2 rfl
  obtain ⟨p, hp, -⟩ := einsumPath_ok (operands := [Ex.rank2]) Ex.denotes_ijji s h (.inl rfl)
  exact ⟨p, hp, C102_others h _ Ex.rank2 _ _ _ Ex.denotes_ijji s _ p hp (by decide) (by decide) _ (by decide) al⟩

/-- The hypotheses of `C102_repeated_more`: a path for a trace panics on a cube. -/
example (h : HashOrd) (al : Alloc Int) : ∃ p, einsumPath h "ii->" [Ex.rank2] .naive = .ok (.ok p) ∧
    ∃ k, p.contractOperands al [Ex.rank3] = panic k := by
  have s := Ex.sized2 ['i', 'i'] Ex.rank2 rfl
  obtain ⟨p, hp, -⟩ := einsumPath_ok (operands := [Ex.rank2]) Ex.denotes_ii s h (.inl rfl)
  exact ⟨p, hp, C102_repeated_more h _ Ex.rank2 _ _ _ Ex.denotes_ii s _ p hp (by decide) _ Ex.wf3 (by decide) al⟩

/-- The hypotheses of `C102_repeated_fewer`: a path for the diagonals of a cube panics on a vector. -/
example (h : HashOrd) (al : Alloc Int) : ∃ p, einsumPath h "jii->ji" [Ex.rank3] .naive = .ok (.ok p) ∧
    ∃ k, p.contractOperands al [Ex.rank1] = panic k := by
  have s := Ex.sized2 ['j', 'i', 'i'] Ex.rank3 rfl
  obtain ⟨p, hp, -⟩ := einsumPath_ok (operands := [Ex.rank3]) Ex.denotes_jii s h (.inl rfl)
  exact ⟨p, hp, C102_repeated_fewer h _ Ex.rank3 _ _ _ Ex.denotes_jii s _ p hp (by decide) _ Ex.wf1 (by simp) 'i' (by decide)
    (by decide) (by decide) al⟩

/-- The hypotheses of `C102_repeated_accepts`: a path for the diagonal of a matrix returns a vector as it is. -/
example (h : HashOrd) (al : Alloc Int) : ∃ p, einsumPath h "ii->i" [Ex.rank2] .naive = .ok (.ok p) ∧
    ∃ w, p.contractOperands al [Ex.rank1] = .ok w ∧ w.shape = [2] ∧ w.read [1] = .ok 4 := by
  have d : Denotes "ii->i" [['i', 'i']] ['i'] :=
    .inl ⟨by decide, ⟨by simp, by simp [Letter], by simp [Letter]⟩, by simp [OutputOk, Used]⟩
  have s := Ex.sized2 ['i', 'i'] Ex.rank2 rfl
  obtain ⟨p, hp, -⟩ := einsumPath_ok (operands := [Ex.rank2]) d s h (.inl rfl)
  obtain ⟨w, w1, w2⟩ := C102_repeated_accepts h _ Ex.rank2 _ ['i'] _ _ (fun _ => 2) d s _ p hp (by decide) (by decide)
    (by decide) Ex.rank1 (Ex.elems Ex.rank1) (elements_of rfl (by decide +kernel)) rfl (by simp) (by simp) al
  refine ⟨p, hp, w, w1, w2.2.1, ?_⟩
  rw [show ([1] : List Nat) = ['i'].map (fun _ => 1) from rfl, w2.2.2 (fun _ => 1) (by simp [InRange])]
  rfl

/-- The hypotheses of `C102_extra` and `C102_extra_second`: a path for the sum of one vector times another vector uses the
first column of a matrix in place of the vector that is summed. -/
example (h : HashOrd) (al : Alloc Int) : ∃ p p', einsumPath h "i,j->j" [Ex.rank1, Ex.rank1] .naive = .ok (.ok p) ∧
    einsumPath h "j,i->j" [Ex.rank1, Ex.rank1] .naive = .ok (.ok p') ∧
    p.contractOperands al [Ex.rank23, Ex.rank1] = p.contractOperands al [Ex.rank1, Ex.rank1] ∧
    p'.contractOperands al [Ex.rank1, Ex.rank23] = p'.contractOperands al [Ex.rank1, Ex.rank1] := by
  have d : Denotes "i,j->j" [['i'], ['j']] ['j'] :=
    .inl ⟨by decide, ⟨by simp, by simp [Letter], by simp [Letter]⟩, by simp [OutputOk, Used]⟩
  have d' : Denotes "j,i->j" [['j'], ['i']] ['j'] :=
    .inl ⟨by decide, ⟨by simp, by simp [Letter], by simp [Letter]⟩, by simp [OutputOk, Used]⟩
  have s : ∀ a b : Char, Sized (fun _ => 2) [[a], [b]] [Ex.rank1.shape, Ex.rank1.shape] := fun _ _ => .cons rfl (.cons rfl .nil)
  obtain ⟨p, hp, -⟩ := einsumPath_ok (operands := [Ex.rank1, Ex.rank1]) d (s _ _) h (.inl rfl)
  obtain ⟨p', hp', -⟩ := einsumPath_ok (operands := [Ex.rank1, Ex.rank1]) d' (s _ _) h (.inl rfl)
  have hread : ∀ idx, InB Ex.rank1.shape idx → Ex.rank1.read idx =
      Ex.rank23.read (idx ++ List.replicate (Ex.rank23.shape.length - 1) 0) := by
    intro idx hi
    match idx, hi with
    | [0], _ => rfl
    | [1], _ => rfl
    | [n + 2], hi => exact absurd hi.1 (by omega)
  exact ⟨p, p', hp, hp',
    (C102_extra h _ Ex.rank1 Ex.rank1 _ _ _ _ d (s _ _) p hp (by decide) (by decide) (by decide) (by decide) Ex.rank23
      Ex.rank1 Ex.rank1 Ex.wf23 Ex.wf1 Ex.wf1 (by decide) rfl hread al).1 (by decide),
    (C102_extra_second h _ Ex.rank1 Ex.rank1 _ _ _ _ d' (s _ _) p' hp' (by decide) (by decide) (by decide) (by decide)
      Ex.rank1 Ex.rank23 Ex.rank1 Ex.wf1 Ex.wf23 Ex.wf1 (by decide) rfl hread al).1 (by decide)⟩

end Einsum
