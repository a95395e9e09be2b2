import Verif.Props.Reverse

/-!
# Elementwise products of any number of arrays (C105)
-/

namespace Einsum

open Spec

/-- NumPy's rule: `D` are the lengths of the product of arrays of the lengths `ds`.  Each of them is the length of one of the
arrays, and the other arrays have it too or have length one. -/
def Spec.Common (out : List Char) (ds : List (Char → Nat)) (D : Char → Nat) : Prop :=
  ∀ c ∈ out, (∃ d ∈ ds, d c = D c) ∧ ∀ d ∈ ds, d c = D c ∨ d c = 1

/-- Position zero along the axes of length one. -/
def Spec.clamp (d σ : Char → Nat) (c : Char) : Nat := if d c = 1 then 0 else σ c

/-- For each array its element at the output position, summed over the letters that are not in the output. -/
def Spec.factors {A : Type} [CommSemiring A] (out : List Char) (inputs : List (List Char)) (ds : List (Char → Nat))
    (ts : List (List Nat → A)) (σ : Char → Nat) : List A :=
  List.zipWith (fun L (x : (Char → Nat) × (List Nat → A)) => Spec.einsum x.1 [L] [x.2] out (clamp x.1 σ)) inputs (ds.zip ts)

/-- C105: there are such lengths exactly if the lengths other than one agree. -/
theorem C105_common (out : List Char) (ds : List (Char → Nat)) (h0 : ds ≠ []) :
    (∃ D, Common out ds D) ↔ ∀ c ∈ out, ∀ d ∈ ds, ∀ e ∈ ds, d c = e c ∨ d c = 1 ∨ e c = 1 := by
  constructor
  · rintro ⟨D, h⟩ c hc d hd e he
    have h1 := (h c hc).2 d hd
    have h2 := (h c hc).2 e he
    omega
  · intro h
    have : ∀ c, ∃ n, c ∈ out → (∃ d ∈ ds, d c = n) ∧ ∀ d ∈ ds, d c = n ∨ d c = 1 := by
      intro c
      by_cases hc : c ∈ out
      · by_cases hx : ∃ d ∈ ds, d c ≠ 1
        · obtain ⟨d, hd, hn⟩ := hx
          refine ⟨d c, fun _ => ⟨⟨d, hd, rfl⟩, fun e he => ?_⟩⟩
          have := h c hc d hd e he
          omega
        · obtain ⟨d, ds, rfl⟩ := List.exists_cons_of_ne_nil h0
          refine ⟨d c, fun _ => ⟨⟨d, by simp, rfl⟩, fun e he => .inr ?_⟩⟩
          by_contra g
          exact hx ⟨e, he, g⟩
      · exact ⟨0, fun g => absurd g hc⟩
    choose D hD using this
    exact ⟨D, fun c hc => hD c hc⟩

theorem common_join {out : List Char} {d e : Char → Nat} {ds : List (Char → Nat)}
    (h : ∀ a ∈ out, d a = e a ∨ d a = 1 ∨ e a = 1) (D : Char → Nat) :
    Common out (d :: e :: ds) D ↔ Common out ((fun c => if d c = 1 then e c else d c) :: ds) D := by
  refine forall₂_congr fun a ha => ?_
  have hca := h a ha
  simp only [List.mem_cons, exists_eq_or_imp, forall_eq_or_imp]
  generalize (∃ d ∈ ds, d a = D a) = P
  generalize (∀ d ∈ ds, d a = D a ∨ d a = 1) = Q
  generalize d a = x, e a = y, D a = z at *
  by_cases h1 : x = 1
  · subst h1
    simp only [if_true]
    constructor
    · rintro ⟨x1 | x1, x2, x3, x4⟩
      · exact ⟨.inl (by omega), x3, x4⟩
      · exact ⟨x1, x3, x4⟩
    · rintro ⟨x1, x3, x4⟩
      exact ⟨.inr x1, .inr trivial, x3, x4⟩
  · simp only [if_neg h1]
    constructor
    · rintro ⟨x1, x2, x3, x4⟩
      exact ⟨.inl (x2.resolve_right h1), x2, x4⟩
    · rintro ⟨x1, x2, x4⟩
      have x2' := x2.resolve_right h1
      exact ⟨.inl x2', x2, by omega, x4⟩

section fold
variable {A : Type} [CommSemiring A] {dims : Char → Nat} {inputs : List (List Char)} {out : List Char}

omit [CommSemiring A] in
theorem DependsOn.clamp {f : (Char → Nat) → A} {L : List Char} (h : DependsOn f L) (d : Char → Nat) :
    DependsOn (fun σ => f (clamp d σ)) L :=
  fun σ σ' e => h _ _ fun c hc => by simp only [Spec.clamp, e c hc]

theorem dependsOn_own {F : (Char → Nat) → A} {L : List Char} (h : DependsOn F L) (d : Char → Nat) :
    DependsOn (sumOver d (summed [L] out) F) out :=
  h.sumOver fun c hc => by
    by_cases g : c ∈ out
    · exact .inl g
    · exact .inr (mem_summed.2 ⟨by simpa using hc, g⟩)

theorem call_run {L R o : List Char} (ho : OutputOk [L, R] o) (h : HashOrd) :
    ∃ k c, PairContraction.new k (callSC [L, R] o dims) = .ok c ∧ ∀ (al : Alloc A) (l r : View A),
      (callSC [L, R] o dims).contractOperands h al [l, r] = c.run (al.sub 0) l r := by
  obtain ⟨c, hc, -⟩ := pair_parts (callSC_valid (dims := dims) ho) rfl ((h.sub 1).sub 0)
  refine ⟨_, c, hc, fun al l r => ?_⟩
  unfold SizedContraction.contractOperands
  rw [new_two _ ho, hc]
  exact contract_two

/-- The calls of an elementwise product, on arrays of any lengths. -/
theorem fold_elementwise {operands : List (View A)} (Ls : Nat → List Char) (vs : Nat → View A) (ds : Nat → Char → Nat)
    (Fs : Nat → (Char → Nat) → A) : ∀ (calls : List TwoCall) (L : List Char) (x : View A) (d : Char → Nat)
    (F : (Char → Nat) → A) (al : Alloc A), Linked dims inputs L calls out →
    (∀ c ∈ calls, inputs[c.operand]? = some (Ls c.operand) ∧ operands[c.operand]? = some (vs c.operand) ∧
      Rep (vs c.operand) (Ls c.operand) (ds c.operand) (Fs c.operand) ∧ (Ls c.operand).Nodup ∧
      (∀ a ∈ out, a ∈ Ls c.operand) ∧ DependsOn (Fs c.operand) (Ls c.operand)) →
    (calls.map TwoCall.operand).Pairwise (fun i j => ∀ a ∈ Ls i, a ∈ Ls j → a ∈ out) →
    Rep x L d F → L.Nodup → (∀ a ∈ out, a ∈ L) → DependsOn F L →
    (∀ c ∈ calls, ∀ a ∈ L, a ∈ Ls c.operand → a ∈ out) →
    (∀ D, Common out (d :: calls.map fun c => ds c.operand) D → ∃ w, foldCalls operands calls al x = .ok w ∧
      Rep w out D fun σ => sumOver d (summed [L] out) F (clamp d σ) *
        (calls.map fun c => sumOver (ds c.operand) (summed [Ls c.operand] out) (Fs c.operand) (clamp (ds c.operand) σ)).prod) ∧
    ((¬ ∃ D, Common out (d :: calls.map fun c => ds c.operand) D) → foldCalls operands calls al x = panic .ndarray)
  | [], L, x, d, F, al, hlink, _, _, hx, hn, _, hdep, _ => by
    cases hlink
    have nil : summed [out] out = [] := by
      rw [List.eq_nil_iff_forall_not_mem]
      intro a ha
      have := mem_summed.1 ha
      exact this.2 (by simpa using this.1)
    refine ⟨fun D hD => ⟨x, rfl, ?_⟩, fun h => absurd ⟨d, fun c _ => by simp⟩ h⟩
    have e : ∀ c ∈ out, D c = d c := fun c hc => by
      obtain ⟨⟨d', h1, h2⟩, -⟩ := hD c hc
      simp only [List.map_nil, List.mem_singleton] at h1
      rw [← h2, h1]
    refine ⟨by rw [hx.shape]; exact List.map_congr_left fun c hc => (e c hc).symm, hx.strides, fun σ hσ => ?_⟩
    have hσ' : InRange d out σ := fun c hc => (hσ c hc).trans_eq (e c hc)
    rw [hx.get σ hσ', nil]
    simp only [sumOver_nil, List.map_nil, List.prod_nil, mul_one]
    congr 1
    refine hdep _ _ fun c hc => ?_
    have := hσ' c hc
    unfold Spec.clamp
    split <;> omega
  | c :: cs, L, x, d, F, al, hlink, hcs, hpw, hx, hn, ho, hdep, hown => by
    obtain ⟨R, o, h1, h2, h3, h4, h5⟩ := hlink
    obtain ⟨g1, g2, g3, g4, g5, g6⟩ := hcs c (by simp)
    rw [g1] at h1
    cases h1
    set n := c.operand with hnn
    obtain ⟨hp1, hp2⟩ := List.pairwise_cons.1 hpw
    -- the letters of the result are those of the output
    have eo : ∀ a, a ∈ o ↔ a ∈ out := by
      intro a
      rw [h4]
      constructor
      · rintro ⟨ha, ha' | ⟨q, hq, S, hS, haS⟩⟩
        · exact ha'
        · have := (hcs q (by simp [hq])).1
          rw [hS] at this
          cases this
          rcases ha with ha | ha
          · exact hown q (by simp [hq]) a ha haS
          · exact hp1 q.operand (List.mem_map.2 ⟨q, hq, rfl⟩) a ha haS
      · exact fun ha => ⟨.inl (ho a ha), .inl ha⟩
    have he : Elementwise L (Ls n) o :=
      ⟨fun a ha hb => by
        have : a ∈ out := hb.elim (fun g => hown c (by simp) a ha g) fun g => (eo a).1 g
        exact ⟨g5 a this, (eo a).2 this⟩,
      fun a ha hb => by
        have : a ∈ out := hb.elim (fun g => hown c (by simp) a g ha) fun g => (eo a).1 g
        exact ⟨ho a this, (eo a).2 this⟩⟩
    obtain ⟨k, pc, hpc, hrun⟩ := call_run (A := A) (dims := dims) h2 c.order
    obtain ⟨m1, m2⟩ := Rep.pair_elementwise (callSC_valid (dims := dims) h2) rfl hpc hn g4 he hx g3 (al.sub 0)
    rw [← h3] at hrun
    have hfold : foldCalls operands (c :: cs) al x = (pc.run (al.sub 0) x (vs n) >>= fun z => foldCalls operands cs (al.sub 1) z) := by
      have : index operands n = .ok (vs n) := index_eq_ok.2 g2
      simp only [foldCalls, ← hnn, this, bind_ok, hrun]
    rw [hfold]
    set e := ds n with hen
    set d' : Char → Nat := fun c => if d c = 1 then e c else d c with hd'
    have s1 : summed [L] o = summed [L] out := List.filter_congr fun a _ => by simp [eo]
    have s2 : summed [Ls n] o = summed [Ls n] out := List.filter_congr fun a _ => by simp [eo]
    have s3 : summed [o] out = [] := by
      rw [List.eq_nil_iff_forall_not_mem]
      intro a ha
      have := mem_summed.1 ha
      exact this.2 ((eo a).1 (by simpa using this.1))
    change (∀ a ∈ o, _) → ∃ w, _ ∧ Rep w o d' _ at m1
    change (∃ a ∈ o, _) → _ at m2
    simp only [show (callSC [L, Ls n] o dims).contraction.outputIndices = o from rfl, s1, s2] at m1
    by_cases hcompat : ∀ a ∈ o, d a = e a ∨ d a = 1 ∨ e a = 1
    · obtain ⟨w, w1, w2⟩ := m1 hcompat
      rw [w1, bind_ok]
      have dep : DependsOn (fun σ => sumOver d (summed [L] out) F (clamp d σ) * sumOver e (summed [Ls n] out) (Fs n) (clamp e σ)) o :=
        (((dependsOn_own hdep d).clamp d).mul ((dependsOn_own g6 e).clamp e)).mono fun a ha => by
          simpa [eo] using ha
      obtain ⟨i1, i2⟩ := fold_elementwise Ls vs ds Fs cs o w d' _ (al.sub 1) h5 (fun q hq => hcs q (by simp [hq])) hp2 w2
        h2.1 (fun a ha => (eo a).2 ha) dep fun q _ a ha _ => (eo a).1 ha
      have iff : ∀ D, Common out (d :: e :: cs.map fun c => ds c.operand) D ↔ Common out (d' :: cs.map fun c => ds c.operand) D :=
        common_join fun a ha => hcompat a ((eo a).2 ha)
      refine ⟨fun D hD => ?_, fun hD => i2 fun ⟨D, h⟩ => hD ⟨D, (iff D).2 h⟩⟩
      obtain ⟨w', v1, v2⟩ := i1 D ((iff D).1 hD)
      refine ⟨w', v1, v2.congr fun σ _ => ?_⟩
      rw [s3]
      simp only [sumOver_nil, List.map_cons, List.prod_cons]
      rw [mul_assoc]
      congr 1
      · refine dependsOn_own hdep d _ _ fun a ha => ?_
        simp only [Spec.clamp, hd']
        by_cases h1 : d a = 1 <;> simp [h1]
      · congr 1
        refine dependsOn_own g6 e _ _ fun a ha => ?_
        simp only [Spec.clamp, hd']
        by_cases h1 : d a = 1 <;> by_cases h2 : ds c.operand a = 1 <;> simp [h1, h2, hen, hnn]
    · have hne : ∃ a ∈ o, ¬ (d a = e a ∨ d a = 1 ∨ e a = 1) := by
        by_contra g
        exact hcompat fun a ha => by
          by_contra g'
          exact g ⟨a, ha, g'⟩
      obtain ⟨a, ha, hna⟩ := hne
      refine ⟨fun D hD => absurd ?_ hna, fun _ => by rw [m2 ⟨a, ha, hna⟩]; rfl⟩
      have h1 := (hD a ((eo a).1 ha)).2 d (by simp)
      have h2 := (hD a ((eo a).1 ha)).2 e (by simp [hen, hnn])
      omega

end fold

/-- C105, finding: a path for an elementwise product of any number of operands broadcasts the arrays. -/
theorem C105_elementwise {A B : Type} [CommSemiring A] (h : HashOrd) (s : String) (ops : List (View B))
    (inputs : List (List Char)) (out : List Char) (dims : Char → Nat) (hd : Denotes s inputs out)
    (hs : Sized dims inputs (ops.map View.shape)) (h2 : 2 ≤ inputs.length) (m : OptimizationMethod) (p : EinsumPath)
    (hp : einsumPath h s ops m = .ok (.ok p)) (hn : ∀ L ∈ inputs, L.Nodup) (ho : ∀ c ∈ out, ∀ L ∈ inputs, c ∈ L)
    (hown : inputs.Pairwise fun L R => ∀ c ∈ L, c ∈ R → c ∈ out) (operands : List (View A)) (ts : List (List Nat → A))
    (ds : List (Char → Nat)) (he : List.Forall₂ Elements operands ts) (hl : ds.length = inputs.length)
    (hsh : operands.map View.shape = List.zipWith (fun L d => L.map d) inputs ds) (al : Alloc A) :
    (∀ D, Common out ds D → ∃ w, p.contractOperands al operands = .ok w ∧ w.Wf ∧ w.shape = out.map D ∧
      ∀ σ, InRange D out σ → w.read (out.map σ) = .ok (factors out inputs ds ts σ).prod) ∧
    ((¬ ∃ D, Common out ds D) → p.contractOperands al operands = panic .ndarray) := by
  obtain ⟨first, L, calls, a1, a2, a3, a4⟩ := C83_path h s ops inputs out dims hd hs h2 m p hp
  have hperm : (first :: calls.map TwoCall.operand).Perm (List.range inputs.length) := by
    rw [a2]
    cases m <;> first | exact .refl _ | exact List.reverse_perm _
  have hol : operands.length = inputs.length := by
    have := congrArg List.length hsh
    simpa [hl] using this
  have htl : ts.length = inputs.length := by rw [← he.length_eq, hol]
  -- the parts of an operand
  have part : ∀ n, n < inputs.length → ∃ v, operands[n]? = some v ∧ inputs[n]? = some (inputs.getD n []) ∧
      Rep v (inputs.getD n []) (ds.getD n fun _ => 0) fun σ => ts.getD n (fun _ => 0) ((inputs.getD n []).map σ) := by
    intro n hn'
    refine ⟨operands[n], by simp [hol, hn'], by simp [hn'], ?_⟩
    have e1 : Elements operands[n] ts[n] := List.Forall₂.get he (by omega) (by omega)
    have e2 : operands[n].shape = (inputs[n]).map ds[n] := by
      have := congrArg (fun l => l[n]?) hsh
      simpa [hol, hn', hl, List.getElem?_zipWith] using this
    have : Rep operands[n] inputs[n] ds[n] fun σ => ts[n] (inputs[n].map σ) :=
      Holds.rep (by rw [← e2]; exact e1.holds)
    simpa [hn', hl, htl] using this
  have hlt : ∀ n ∈ first :: calls.map TwoCall.operand, n < inputs.length := fun n hn' => by
    simpa using hperm.mem_iff.1 hn'
  have hpw : (first :: calls.map TwoCall.operand).Pairwise fun i j => ∀ a ∈ inputs.getD i [], a ∈ inputs.getD j [] → a ∈ out := by
    refine (hperm.nodup_iff.2 List.nodup_range).pairwise_of_forall_ne fun i hi j hj hij a ha hb => ?_
    have hi' := hlt i hi
    have hj' := hlt j hj
    simp only [List.getD_eq_getElem?_getD, List.getElem?_eq_getElem hi', List.getElem?_eq_getElem hj', Option.getD_some] at ha hb
    rcases Nat.lt_or_gt_of_ne hij with g | g
    · exact List.pairwise_iff_getElem.1 hown i j hi' hj' g a ha hb
    · exact List.pairwise_iff_getElem.1 hown j i hj' hi' g a hb ha
  obtain ⟨pw1, pw2⟩ := List.pairwise_cons.1 hpw
  have hmem : ∀ n, n < inputs.length → inputs.getD n [] ∈ inputs := fun n hn' => by simp [hn']
  classical
  obtain ⟨x, x1, x2, x3⟩ := part first (hlt first (by simp))
  have hL : L = inputs.getD first [] := by
    rw [a1] at x2
    exact Option.some.inj x2
  have vsp : ∀ n, ∃ v, n < inputs.length → operands[n]? = some v ∧ inputs[n]? = some (inputs.getD n []) ∧
      Rep v (inputs.getD n []) (ds.getD n fun _ => 0) fun σ => ts.getD n (fun _ => 0) ((inputs.getD n []).map σ) := by
    intro n
    by_cases g : n < inputs.length
    · obtain ⟨v, hv⟩ := part n g
      exact ⟨v, fun _ => hv⟩
    · exact ⟨x, fun g' => absurd g' g⟩
  choose vs hvs using vsp
  subst hL
  obtain ⟨f1, f2⟩ := fold_elementwise (dims := dims) (inputs := inputs) (out := out) (operands := operands)
    (fun n => inputs.getD n []) vs (fun n => ds.getD n fun _ => 0)
    (fun n σ => ts.getD n (fun _ => 0) ((inputs.getD n []).map σ)) calls (inputs.getD first []) x _ _ al a3
    (fun c hc => by
      have := hlt c.operand (List.mem_cons_of_mem _ (List.mem_map.2 ⟨c, hc, rfl⟩))
      obtain ⟨b1, b2, b3⟩ := hvs c.operand this
      exact ⟨b2, b1, b3, hn _ (hmem _ this), fun a ha => ho a ha _ (hmem _ this), dependsOn_map _ _⟩) pw2 x3
    (hn _ (hmem _ (hlt first (by simp)))) (fun a ha => ho a ha _ (hmem _ (hlt first (by simp)))) (dependsOn_map _ _)
    (fun c hc a ha hb => pw1 _ (List.mem_map.2 ⟨c, hc, rfl⟩) a ha hb)
  have hrun : p.contractOperands al operands = foldCalls operands calls al x := by
    rw [a4 A al operands, index_eq_ok.2 x1, bind_ok]
  rw [hrun]
  -- the lists of all operands, in the order of the steps and in the order of the string
  have eds : ((ds.getD first fun _ => 0) :: calls.map fun c => ds.getD c.operand fun _ => 0) =
      (first :: calls.map TwoCall.operand).map fun n => ds.getD n fun _ => 0 := by simp
  have eds' : ds = (List.range inputs.length).map fun n => ds.getD n fun _ => 0 := by
    rw [← hl]
    exact eq_map_range_getD ds _
  have hcommon : ∀ D, Common out ((ds.getD first fun _ => 0) :: calls.map fun c => ds.getD c.operand fun _ => 0) D ↔
      Common out ds D := by
    intro D
    rw [eds]
    have hm : ∀ d, d ∈ (first :: calls.map TwoCall.operand).map (fun n => ds.getD n fun _ => 0) ↔ d ∈ ds := fun d => by
      rw [(hperm.map _).mem_iff, ← eds']
    unfold Common
    simp only [hm]
  refine ⟨fun D hD => ?_, fun hD => f2 fun ⟨D, g⟩ => hD ⟨D, (hcommon D).1 g⟩⟩
  obtain ⟨w, w1, w2⟩ := f1 D ((hcommon D).2 hD)
  refine ⟨w, w1, w2.wf hd.outputOk.1, w2.shape, fun σ hσ => ?_⟩
  rw [w2.get σ hσ]
  congr 1
  set f : Nat → A := fun n => Spec.einsum (ds.getD n fun _ => 0) [inputs.getD n []] [ts.getD n fun _ => 0] out
    (clamp (ds.getD n fun _ => 0) σ) with hf
  have e1 : factors out inputs ds ts σ = (List.range inputs.length).map f := by
    apply List.ext_getElem
    · simp [factors, hl, htl]
    · intro i h1 h2
      have hi : i < inputs.length := by simpa using h2
      simp [factors, hf, hi, hl, htl]
  have e2 : ∀ n, sumOver (ds.getD n fun _ => 0) (summed [inputs.getD n []] out)
      (fun σ => ts.getD n (fun _ => 0) ((inputs.getD n []).map σ)) (clamp (ds.getD n fun _ => 0) σ) = f n := by
    intro n
    simp only [hf, Spec.einsum]
    congr 1
    funext τ
    simp [term]
  rw [e1, ← (hperm.map f).prod_eq]
  simp only [e2, List.map_cons, List.prod_cons, List.map_map]
  rfl

/-! ### Cases -/

namespace Ex

/-- Arrays of the shapes 1 by 1, 3 by 1, 2 by 1 by 2 and 2 by 2 by 2. -/
def a105 : View Int := ⟨[7], 0, [1, 1], [1, 1]⟩
def b105 : View Int := ⟨[3, 4, 5], 0, [3, 1], [1, 1]⟩
def c105 : View Int := ⟨[1, 2, 3, 4], 0, [2, 1, 2], [2, 2, 1]⟩
def d105 : View Int := ⟨[1, 2, 3, 4, 5, 6, 7, 8], 0, [2, 2, 2], [4, 2, 1]⟩

theorem ea105 : Elements a105 (elems a105) := elements_of rfl (by decide)
theorem eb105 : Elements b105 (elems b105) := elements_of rfl (by decide)
theorem ec105 : Elements c105 (elems c105) := elements_of rfl (by decide)

theorem denotes_105 : Denotes "ijk,ji,ij->ij" [['i', 'j', 'k'], ['j', 'i'], ['i', 'j']] ['i', 'j'] :=
  .inl ⟨by decide, ⟨by simp, by simp [Letter], by simp [Letter]⟩, by simp [OutputOk, Used]⟩

/-- The lengths of the letters. -/
def lengths (i j k : Nat) (c : Char) : Nat := if c = 'i' then i else if c = 'j' then j else k

end Ex

/-- The hypotheses of `C105_elementwise`: a path compiled for lengths two, in the reverse order, with an operand that is summed
over its third axis first, on arrays of the shapes 2 by 1 by 2, 3 by 1 and 1 by 1; and on arrays that do not go together. -/
example (h : HashOrd) (al : Alloc Int) :
    ∃ p, einsumPath h "ijk,ji,ij->ij" [Ex.d105, Ex.rank2, Ex.rank2] .reverse = .ok (.ok p) ∧
    (∃ w, p.contractOperands al [Ex.c105, Ex.b105, Ex.a105] = .ok w ∧ w.shape = [2, 3] ∧
      w.read [1, 2] = .ok ((3 + 4) * 5 * 7)) ∧
    p.contractOperands al [Ex.c105, Ex.b105, Ex.m32] = panic .ndarray := by
  have s1 : Sized (fun _ => 2) [['i', 'j', 'k'], ['j', 'i'], ['i', 'j']] [Ex.d105.shape, Ex.rank2.shape, Ex.rank2.shape] :=
    .cons (by decide) (.cons (by decide) (.cons (by decide) .nil))
  obtain ⟨p, hp, -⟩ := einsumPath_ok (operands := [Ex.d105, Ex.rank2, Ex.rank2]) Ex.denotes_105 s1 h (.inr rfl)
  refine ⟨p, hp, ?_, ?_⟩
  · obtain ⟨w, w1, -, w2, w3⟩ := (C105_elementwise h _ [Ex.d105, Ex.rank2, Ex.rank2] _ _ _ Ex.denotes_105 s1 (by decide) _ p hp
      (by decide) (by decide) (by decide) [Ex.c105, Ex.b105, Ex.a105] _
      [Ex.lengths 2 1 2, Ex.lengths 1 3 1, Ex.lengths 1 1 1] (.cons Ex.ec105 (.cons Ex.eb105 (.cons Ex.ea105 .nil))) rfl
      (by decide) al).1 (Ex.lengths 2 3 1) (by unfold Common; decide)
    refine ⟨w, w1, w2.trans (by decide), (w3 (Ex.lengths 1 2 0) (by
      simp only [InRange]
      decide)).trans ?_⟩
    decide +kernel
  · refine (C105_elementwise h _ [Ex.d105, Ex.rank2, Ex.rank2] _ _ _ Ex.denotes_105 s1 (by decide) _ p hp
      (by decide) (by decide) (by decide) [Ex.c105, Ex.b105, Ex.m32] _
      [Ex.lengths 2 1 2, Ex.lengths 1 3 1, Ex.lengths 3 2 1] (.cons Ex.ec105 (.cons Ex.eb105 (.cons Ex.e32 .nil))) rfl
      (by decide) al).2 ?_
    rw [C105_common _ _ (by simp)]
    intro g
    have := g 'i' (by decide) (Ex.lengths 2 1 2) (by simp) (Ex.lengths 3 2 1) (by simp)
    revert this
    decide

end Einsum
