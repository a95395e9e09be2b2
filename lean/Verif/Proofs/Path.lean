import Verif.Model.Lib
import Verif.Proofs.PairWhole

/-! # Contraction paths -/

namespace Einsum

open Spec Function

/-- The operands at the positions `nums` hold the tensors `ts` with labels `inputs`. -/
def Bound {A : Type} (dims : Char → Nat) (operands : List (View A)) (inputs : List (List Char))
    (nums : List Nat) (ts : List (List Nat → A)) : Prop :=
  ∀ (i : Nat) (ix : List Char), inputs[i]? = some ix → ∃ (n : Nat) (v : View A) (t : List Nat → A), nums[i]? = some n ∧ operands[n]? = some v ∧ ts[i]? = some t ∧
    Holds v (ix.map dims) t

/-- None of these operands has a repeated label and a zero-length axis, up to the exception in `Good`. -/
def GoodAt {A : Type} (dims : Char → Nat) (operands : List (View A)) (inputs : List (List Char))
    (nums : List Nat) (pre : List Char) : Prop :=
  ∀ (i : Nat) (ix : List Char) (n : Nat) (v : View A), inputs[i]? = some ix → nums[i]? = some n →
    operands[n]? = some v → Good dims (Elsewhere inputs pre i) ix v

theorem Bound.cons {A : Type} {dims : Char → Nat} {operands : List (View A)} {ix : List Char}
    {inputs : List (List Char)} {nums : List Nat} {ts : List (List Nat → A)}
    (h : Bound dims operands (ix :: inputs) nums ts) :
    ∃ n ns t ts' v, nums = n :: ns ∧ ts = t :: ts' ∧ operands[n]? = some v ∧
      Holds v (ix.map dims) t ∧
      Bound dims operands inputs ns ts' := by
  obtain ⟨n, v, t, h1, h2, h3, h4⟩ := h 0 ix rfl
  cases nums with
  | nil => simp at h1
  | cons n' ns =>
    cases ts with
    | nil => simp at h3
    | cons t' ts' =>
      simp at h1 h3
      subst h1; subst h3
      exact ⟨n', ns, t', ts', v, rfl, rfl, h2, h4, fun i ix hi => h (i + 1) ix hi⟩

theorem elsewhere_zero {ix : List Char} {inputs : List (List Char)} {pre : List Char} {c : Char} :
    Elsewhere (ix :: inputs) pre 0 c ↔ c ∈ inputs.flatten ∨ c ∈ pre := by
  unfold Elsewhere
  rw [or_comm, List.mem_flatten]
  refine or_congr ⟨?_, ?_⟩ Iff.rfl
  · rintro ⟨j, jx, h1, h2, h3⟩
    cases j with
    | zero => simp at h1
    | succ j => exact ⟨jx, List.mem_of_getElem? h2, h3⟩
  · rintro ⟨jx, h1, h2⟩
    obtain ⟨j, hj⟩ := List.mem_iff_getElem?.1 h1
    exact ⟨j + 1, jx, by omega, hj, h2⟩

theorem elsewhere_succ {ix : List Char} {inputs : List (List Char)} {pre : List Char} {i : Nat} {c : Char} :
    Elsewhere (ix :: inputs) pre (i + 1) c ↔ Elsewhere inputs (ix ++ pre) i c := by
  unfold Elsewhere
  rw [List.mem_append]
  constructor
  · rintro (h | ⟨j, jx, h1, h2, h3⟩)
    · exact .inl (.inr h)
    · cases j with
      | zero => simp at h2; subst h2; exact .inl (.inl h3)
      | succ j => exact .inr ⟨j, jx, by omega, h2, h3⟩
  · rintro ((h | h) | ⟨j, jx, h1, h2, h3⟩)
    · exact .inr ⟨0, ix, by omega, rfl, h⟩
    · exact .inl h
    · exact .inr ⟨j + 1, jx, by omega, h2, h3⟩

theorem goodAt_cons {A : Type} {dims : Char → Nat} {operands : List (View A)} {ix : List Char}
    {inputs : List (List Char)} {n : Nat} {nums : List Nat} {v : View A} {pre : List Char}
    (hv : operands[n]? = some v) :
    GoodAt dims operands (ix :: inputs) (n :: nums) pre ↔
      Good dims (fun c => c ∈ inputs.flatten ∨ c ∈ pre) ix v ∧ GoodAt dims operands inputs nums (ix ++ pre) := by
  constructor
  · intro h
    refine ⟨(h 0 ix n v rfl rfl hv).congr fun c _ => elsewhere_zero, fun i ix' n' v' h1 h2 h3 => ?_⟩
    exact (h (i + 1) ix' n' v' h1 h2 h3).congr fun c _ => elsewhere_succ
  · rintro ⟨h, h'⟩ i ix' n' v' h1 h2 h3
    cases i with
    | zero =>
      simp only [List.getElem?_cons_zero, Option.some.injEq] at h1 h2
      subst h1; subst h2
      rw [hv, Option.some.injEq] at h3
      subst h3
      exact h.congr fun c _ => elsewhere_zero.symm
    | succ i => exact (h' i ix' n' v' h1 h2 h3).congr fun c _ => elsewhere_succ.symm

theorem GoodAt.congr {A : Type} {dims : Char → Nat} {operands : List (View A)} {inputs : List (List Char)}
    {nums : List Nat} {pre pre' : List Char} (hp : ∀ c ∈ inputs.flatten, (c ∈ pre ↔ c ∈ pre'))
    (h : GoodAt dims operands inputs nums pre) : GoodAt dims operands inputs nums pre' := by
  intro i ix n v h1 h2 h3
  refine (h i ix n v h1 h2 h3).congr fun c hc => ?_
  unfold Elsewhere
  rw [hp c (List.mem_flatten.2 ⟨ix, List.mem_of_getElem? h1, hc⟩)]

theorem term_cons {ι A : Type} [CommMonoid A] (ix : List ι) (inputs : List (List ι)) (t : List Nat → A)
    (ts : List (List Nat → A)) (σ : ι → Nat) :
    term (ix :: inputs) (t :: ts) σ = t (ix.map σ) * term inputs ts σ := by
  simp [term]

theorem dependsOn_term {ι A : Type} [CommMonoid A] (inputs : List (List ι)) (ts : List (List Nat → A)) :
    DependsOn (term inputs ts) inputs.flatten := by
  induction inputs generalizing ts with
  | nil => intro σ σ' _; simp [term]
  | cons ix inputs ih =>
    cases ts with
    | nil => intro σ σ' _; simp [term]
    | cons t ts =>
      intro σ σ' h
      rw [term_cons, term_cons, ih ts σ σ' fun c hc => h c (by simp only [List.flatten_cons]; simp [hc]),
        List.map_congr_left fun c hc => h c (by simp [hc])]

/-! ## Products in order -/

theorem fromLeft_congr {ι : Type} {b b' this later later' : List ι}
    (h1 : ∀ c ∈ this, c ∈ b ↔ c ∈ b') (h2 : ∀ c, (c ∈ b ∨ c ∈ b' ∨ c ∈ this) → (c ∈ later ↔ c ∈ later'))
    (h3 : ∀ c ∈ later, c ∈ b ↔ c ∈ b') : FromLeft b this later ↔ FromLeft b' this later' := by
  unfold FromLeft
  refine and_congr ⟨fun h c hc => ?_, fun h c hc => ?_⟩
    (exists_congr fun c => and_congr_right fun hc => h2 c (.inr (.inr hc)))
  · by_cases hcb : c ∈ b
    · exact ⟨(h c hcb).1, mt (h2 c (.inl hcb)).2 (h c hcb).2⟩
    · have h4 := h1 c
      have h5 := h2 c (.inr (.inl hc))
      have h6 := h3 c
      tauto
  · by_cases hcb : c ∈ b'
    · exact ⟨(h c hcb).1, mt (h2 c (.inl hc)).1 (h c hcb).2⟩
    · have h4 := h1 c
      have h6 := h3 c
      tauto

theorem orderedTerm_before {ι A : Type} [DecidableEq ι] [Mul A] {out : List ι} {σ : ι → Nat} {b b' : List ι} {x : A}
    {inputs : List (List ι)} {ts : List (List Nat → A)}
    (h : ∀ c, c ∈ inputs.flatten ∨ c ∈ out → (c ∈ b ↔ c ∈ b')) :
    orderedTerm out σ b x inputs ts = orderedTerm out σ b' x inputs ts := by
  induction inputs generalizing b b' x ts with
  | nil => cases ts <;> rfl
  | cons ix inputs ih =>
    cases ts with
    | nil => rfl
    | cons t ts =>
      simp only [orderedTerm]
      have : FromLeft b ix (inputs.flatten ++ out) ↔ FromLeft b' ix (inputs.flatten ++ out) :=
        fromLeft_congr (fun c hc => h c (.inl (by simp [hc]))) (fun c _ => Iff.rfl)
          (fun c hc => h c (by
            simp only [List.mem_append] at hc
            simp only [List.flatten_cons, List.mem_append]
            tauto))
      simp only [this]
      apply ih
      intro c hc
      simp only [List.mem_append]
      have := h c (by
        simp only [List.flatten_cons, List.mem_append]
        tauto)
      tauto

/-- The product so far enters as one factor. -/
theorem orderedTerm_factor {ι A : Type} [DecidableEq ι] [Monoid A] (out b : List ι) (inputs : List (List ι))
    (ts : List (List Nat → A)) :
    ∃ l r : (ι → Nat) → A, DependsOn l inputs.flatten ∧ DependsOn r inputs.flatten ∧
      ∀ σ x, orderedTerm out σ b x inputs ts = l σ * x * r σ := by
  induction inputs generalizing b ts with
  | nil => exact ⟨fun _ => 1, fun _ => 1, fun _ _ _ => rfl, fun _ _ _ => rfl, fun σ x => by cases ts <;> simp [orderedTerm]⟩
  | cons ix inputs ih =>
    cases ts with
    | nil => exact ⟨fun _ => 1, fun _ => 1, fun _ _ _ => rfl, fun _ _ _ => rfl, fun σ x => by simp [orderedTerm]⟩
    | cons t ts =>
      obtain ⟨l, r, h1, h2, h3⟩ := ih (b ++ ix) ts
      have ht : DependsOn (fun σ => t (ix.map σ)) ix := dependsOn_map t ix
      by_cases hs : FromLeft b ix (inputs.flatten ++ out)
      · refine ⟨fun σ => l σ * t (ix.map σ), r, (h1.mul ht).mono ?_, h2.mono ?_, fun σ x => ?_⟩
        · intro c hc
          simp only [List.flatten_cons, List.mem_append] at hc ⊢
          tauto
        · intro c hc
          simp only [List.flatten_cons, List.mem_append]
          exact .inr hc
        · simp only [orderedTerm, if_pos hs, h3, mul_assoc]
      · refine ⟨l, fun σ => t (ix.map σ) * r σ, h1.mono ?_, (ht.mul h2).mono ?_, fun σ x => ?_⟩
        · intro c hc
          simp only [List.flatten_cons, List.mem_append]
          exact .inr hc
        · intro c hc
          simp only [List.flatten_cons, List.mem_append] at hc ⊢
          tauto
        · simp only [orderedTerm, if_neg hs, h3, mul_assoc]

theorem orderedTerm_comm {ι A : Type} [DecidableEq ι] [CommMonoid A] (out b : List ι) (inputs : List (List ι))
    (ts : List (List Nat → A)) (σ : ι → Nat) (x : A) :
    orderedTerm out σ b x inputs ts = x * term inputs ts σ := by
  induction inputs generalizing b ts x with
  | nil => cases ts <;> simp [orderedTerm, term]
  | cons ix inputs ih =>
    cases ts with
    | nil => simp [orderedTerm, term]
    | cons t ts =>
      rw [term_cons]
      simp only [orderedTerm, ih]
      split
      · rw [mul_comm (t _), mul_assoc]
      · rw [mul_assoc]

theorem einsumOrdered_comm {ι A : Type} [DecidableEq ι] [CommSemiring A] {dims : ι → Nat} {inputs : List (List ι)}
    {ts : List (List Nat → A)} (hne : inputs ≠ []) (hl : ts.length = inputs.length) (out : List ι) :
    einsumOrdered dims inputs ts out = Spec.einsum dims inputs ts out := by
  match inputs, ts, hne, hl with
  | ix :: inputs, t :: ts, _, _ =>
    funext σ
    simp only [einsumOrdered, Spec.einsum]
    congr 1
    funext σ
    rw [orderedTerm_comm, term_cons]

theorem mulAs_decide {A : Type} [Semiring A] (p : Prop) [Decidable p] (x y : A) :
    mulAs (decide p) x y = if p then y * x else x * y := by
  by_cases h : p <;> simp [mulAs, h]

section
variable {sc : SizedContraction} {dims : Char → Nat}

/-- The output labels of one step. -/
theorem stepOutput_spec {h : HashOrd} {lhs rhs : List Char} {later : List (List Char)} {out : List Char}
    (hn : out.Nodup) (ho : ∀ c ∈ out, c ∈ lhs ∨ c ∈ rhs ∨ c ∈ later.flatten) :
    (stepOutput h lhs rhs later out).Nodup ∧
      ∀ c, c ∈ stepOutput h lhs rhs later out ↔ (c ∈ lhs ∨ c ∈ rhs) ∧ (c ∈ later.flatten ∨ c ∈ out) := by
  cases later with
  | nil =>
    refine ⟨hn, fun c => ?_⟩
    have := ho c
    simp only [stepOutput, List.flatten_nil, List.not_mem_nil, or_false, false_or] at this ⊢
    tauto
  | cons ix later =>
    constructor
    · exact ((h.perm _ _).nodup_iff.2 (nodup_hset _)).filter _
    · intro c
      simp only [stepOutput, List.mem_filter, (h.perm _ _).mem_iff, getExistingIndices, mem_hset,
        List.mem_append, getRemainingIndices, decide_eq_true_eq]

/-- What a compiled sequence of steps does, starting from the array `l` labelled `lhs`. -/
def StepsCompute (dims : Char → Nat) (out : List Char) (first idx : Nat) (lhs : List Char)
    (rest : List (List Char)) (nums : List Nat) (steps : List PairStep) (cs : List PairContraction) : Prop :=
  ∀ (A : Type) [Semiring A] (al : Alloc A) (operands inter : List (View A)) (l : View A)
    (F : (Char → Nat) → A) (ts : List (List Nat → A)),
    (if idx = 0 then operands[first]? = some l else inter[idx - 1]? = some l) → inter.length = idx →
    Rep l lhs dims F → l.Wf → Bound dims operands rest nums ts →
    Outcome
      (Good dims (fun c => c ∈ rest.flatten ∨ c ∈ out) lhs l ∧ GoodAt dims operands rest nums (lhs ++ out))
      (¬ (Good dims (fun c => c ∈ rest.flatten ∨ c ∈ out) lhs l ∧ GoodAt dims operands rest nums (lhs ++ out)))
      (runSteps al operands (cs.zip steps) inter) fun inter' => ∃ w, inter'.getLast? = some w ∧
      Rep w out dims (sumOver dims (summed (lhs :: rest) out) fun σ => orderedTerm out σ lhs (F σ) rest ts)

theorem steps_ok (hv : sc.Valid dims) (h : HashOrd) (first idx : Nat) (lhs : List Char)
    (rest : List (List Char)) (nums : List Nat) (hne : rest ≠ []) (hlen : nums.length = rest.length)
    (hlhs : ∀ c ∈ lhs, c ∈ sc.contraction.operandIndices.flatten)
    (hrest : ∀ c ∈ rest.flatten, c ∈ sc.contraction.operandIndices.flatten)
    (hout : ∀ c ∈ sc.contraction.outputIndices, c ∈ lhs ∨ c ∈ rest.flatten) :
    ∃ steps, generateSteps h sc first idx lhs rest nums = .ok steps ∧ ∀ h' : HashOrd,
      ∃ cs, compileSteps h' steps = .ok cs ∧
        StepsCompute dims sc.contraction.outputIndices first idx lhs rest nums steps cs := by
  induction rest generalizing idx lhs nums with
  | nil => simp at hne
  | cons rhs later ih =>
    cases nums with
    | nil => simp at hlen
    | cons num nums =>
      have hon := hv.out.1
      set out := sc.contraction.outputIndices with hO
      set N := stepOutput (h.sub (2 * idx)) lhs rhs later out with hN
      obtain ⟨n1, n2⟩ := stepOutput_spec (h := h.sub (2 * idx)) (lhs := lhs) (rhs := rhs) (later := later)
        hon fun c hc => by simpa using hout c hc
      rw [← hN] at n1 n2
      obtain ⟨sc', s1, s2, s3, s4⟩ := hv.subset (h.sub (2 * idx + 1)) (ops := [lhs, rhs]) (out := N)
        (by
          intro c hc
          simp only [List.flatten_cons, List.flatten_nil, List.append_nil, List.mem_append] at hc
          rcases hc with hc | hc
          · exact hlhs c hc
          · exact hrest c (by simp [hc]))
        ⟨n1, fun c hc => used_iff.2 (by simpa using ((n2 c).1 hc).1)⟩
      have hstep : ∀ steps, generateSteps h sc first (idx + 1) N later nums = .ok steps →
          generateSteps h sc first idx lhs (rhs :: later) (num :: nums) =
          .ok (⟨sc', if idx = 0 then ⟨.input first, .input num⟩
            else ⟨.intermediateResult (idx - 1), .input num⟩⟩ :: steps) := by
        intro steps hs
        simp only [generateSteps, generateSizedContractionPair, ← hO, ← hN]
        rw [s1, unwrapR_ok, bind_ok, hs]
        rfl
      -- running one compiled step
      have hone : ∀ (p : PairContraction), p.Computes (decide (FromLeft lhs rhs N)) dims lhs rhs N →
          ∀ (A : Type) [Semiring A] (al : Alloc A) (operands inter : List (View A)) (l : View A)
            (F : (Char → Nat) → A) (ts : List (List Nat → A)) (more : List (PairContraction × PairStep)),
          (if idx = 0 then operands[first]? = some l else inter[idx - 1]? = some l) →
          Rep l lhs dims F → l.Wf →
          Bound dims operands (rhs :: later) (num :: nums) ts →
          ∃ r t ts', ts = t :: ts' ∧ operands[num]? = some r ∧ Bound dims operands later nums ts' ∧
            Outcome (Good dims (fun c => c ∈ rhs ∨ c ∈ N) lhs l ∧ Good dims (fun c => c ∈ lhs ∨ c ∈ N) rhs r)
              (Bad dims (fun c => c ∈ rhs ∨ c ∈ N) lhs l ∨ Bad dims (fun c => c ∈ lhs ∨ c ∈ N) rhs r)
              (p.run (al.sub 0) l r) (fun w =>
              Rep w N dims (sumOver dims (summed [lhs, rhs] N) fun σ =>
                mulAs (decide (FromLeft lhs rhs N)) (F σ) (t (rhs.map σ)))) ∧
            runSteps al operands ((p, ⟨sc', if idx = 0 then ⟨.input first, .input num⟩
              else ⟨.intermediateResult (idx - 1), .input num⟩⟩) :: more) inter =
              p.run (al.sub 0) l r >>= fun w => runSteps (al.sub 1) operands more (inter ++ [w]) := by
        intro p hp A _ al operands inter l F ts more hl hrep hadm hb
        obtain ⟨n, ns, t, ts', r, e1, e2, b1, b2, b4⟩ := hb.cons
        simp only [List.cons.injEq] at e1
        obtain ⟨rfl, rfl⟩ := e1
        refine ⟨r, t, ts', e2, b1, b4, hp A (al.sub 0) l r F _ hrep hadm b2.rep b2.wf, ?_⟩
        by_cases hi : idx = 0
        · rw [if_pos hi] at hl
          simp only [runSteps, hi, if_true, fetch]
          rw [index_eq_ok.2 hl, index_eq_ok.2 b1]
          simp only [bind_ok]
        · rw [if_neg hi] at hl
          simp only [runSteps, hi, if_false, fetch]
          rw [index_eq_ok.2 hl, index_eq_ok.2 b1]
          simp only [bind_ok]
      -- which operands are accepted
      have hgood : ∀ {A : Type} {operands : List (View A)} {l r : View A}, operands[num]? = some r →
          ((Good dims (fun c => c ∈ (rhs :: later).flatten ∨ c ∈ out) lhs l ∧
            GoodAt dims operands (rhs :: later) (num :: nums) (lhs ++ out)) ↔
          ((Good dims (fun c => c ∈ rhs ∨ c ∈ N) lhs l ∧ Good dims (fun c => c ∈ lhs ∨ c ∈ N) rhs r) ∧
            GoodAt dims operands later nums (N ++ out))) := by
        intro A operands l r bn
        rw [goodAt_cons bn]
        have e1 : ∀ c ∈ lhs, (c ∈ (rhs :: later).flatten ∨ c ∈ out ↔ c ∈ rhs ∨ c ∈ N) := fun c hc => by
          rw [n2, List.flatten_cons, List.mem_append]; tauto
        have e2 : ∀ c ∈ rhs, (c ∈ later.flatten ∨ c ∈ lhs ++ out ↔ c ∈ lhs ∨ c ∈ N) := fun c hc => by
          rw [n2, List.mem_append]; tauto
        have e3 : ∀ c ∈ later.flatten, (c ∈ rhs ++ (lhs ++ out) ↔ c ∈ N ++ out) := fun c hc => by
          rw [List.mem_append, List.mem_append, List.mem_append, n2]; tauto
        constructor
        · rintro ⟨a, b, c⟩
          exact ⟨⟨a.congr e1, b.congr e2⟩, c.congr e3⟩
        · rintro ⟨⟨a, b⟩, c⟩
          exact ⟨a.congr fun c hc => (e1 c hc).symm, b.congr fun c hc => (e2 c hc).symm,
            c.congr fun c hc => (e3 c hc).symm⟩
      cases later with
      | nil =>
        refine ⟨_, hstep [] (by simp [generateSteps]), fun h' => ?_⟩
        obtain ⟨p, p1, p2⟩ := pair_ok s2 s3 (h'.sub 0)
        refine ⟨[p], by simp [compileSteps, p1], ?_⟩
        rw [s4] at p2
        intro A _ al operands inter l F ts hl hlen' hrep hadm hb
        obtain ⟨r, t, ts', e, bn, b, r1, r2⟩ := hone p p2 A al operands inter l F ts [] hl hrep hadm hb
        rw [List.zip_cons_cons, List.zip_nil_right, r2]
        have hNo : N = out := by rw [hN]; rfl
        refine Outcome.imp (r1.bind fun w hw => Outcome.ok
          (Q := fun i : List (View A) => ∃ w, i.getLast? = some w ∧ Rep w out dims
            (sumOver dims (summed [lhs, rhs] out) fun σ => orderedTerm out σ lhs (F σ) [rhs] ts))
          ⟨inter ++ [w], rfl, w, by simp, ?_⟩)
          (fun x => ⟨(hgood bn).1 x |>.1, trivial⟩) (fun x => .inl ?_) fun w hw => hw
        · rw [hNo] at hw
          refine hw.congr fun σ _ => ?_
          subst e
          cases ts' <;> simp [orderedTerm, mulAs_decide]
        · rw [← not_and_or]
          exact fun y => x ((hgood bn).2 ⟨y, fun i _ _ _ hi => by simp at hi⟩)
      | cons ix later =>
        obtain ⟨steps, g1, g2⟩ := ih (idx + 1) N nums (by simp) (by simpa using hlen)
          (fun c hc => by
            rcases ((n2 c).1 hc).1 with h | h
            · exact hlhs c h
            · exact hrest c (by simp [h]))
          (fun c hc => hrest c (by rw [List.flatten_cons]; simp only [List.mem_append]; exact .inr hc))
          (fun c hc => by
            rw [n2]
            have h1 := hout c hc
            rw [List.flatten_cons, List.mem_append] at h1
            tauto)
        refine ⟨_, hstep steps g1, fun h' => ?_⟩
        obtain ⟨p, p1, p2⟩ := pair_ok s2 s3 (h'.sub 0)
        obtain ⟨cs, c1, c2⟩ := g2 (h'.sub 1)
        refine ⟨p :: cs, by simp [compileSteps, p1, c1], ?_⟩
        rw [s4] at p2
        intro A _ al operands inter l F ts hl hlen' hrep hadm hb
        obtain ⟨r, t, ts', e, bn, b, r1, r2⟩ :=
          hone p p2 A al operands inter l F ts (cs.zip steps) hl hrep hadm hb
        rw [List.zip_cons_cons, r2]
        refine Outcome.imp (r1.bind (g' := GoodAt dims operands (ix :: later) nums (N ++ out))
          (b' := ¬ GoodAt dims operands (ix :: later) nums (N ++ out))
          fun w hw => (c2 A (al.sub 1) operands (inter ++ [w]) w _ ts'
            (by rw [if_neg (by omega)]; simp [hlen']) (by simp [hlen']) hw (hw.wf n1) b).imp (fun x => ⟨.inl n1, x⟩)
              (fun x y => x y.2) fun _ hq => hq)
          (hgood bn).1
          (fun x => ?_) fun inter' hq => ?_
        · rw [← not_and_or, ← not_and_or]
          exact fun y => x ((hgood bn).2 y)
        · obtain ⟨w', q2, q3⟩ := hq
          refine ⟨w', q2, ?_⟩
          subst e
          obtain ⟨fl, fr, d1, d2, d3⟩ := orderedTerm_factor out N (ix :: later) ts'
          have hsw : FromLeft lhs rhs N ↔ FromLeft lhs rhs ((ix :: later).flatten ++ out) :=
            fromLeft_congr (fun _ _ => Iff.rfl)
              (fun c hc => by rw [n2, List.mem_append]; tauto) (fun _ _ => Iff.rfl)
          have := sum_step2 (dims := dims) (X := lhs ++ rhs) (Y := (ix :: later).flatten) (O := out) (N := N)
            (f := fun σ => mulAs (decide (FromLeft lhs rhs N)) (F σ) (t (rhs.map σ))) d1 d2
            (fun c => by rw [n2, List.mem_append])
            (summed_nodup [lhs, rhs] N) (summed_nodup (N :: ix :: later) out)
            (summed_nodup (lhs :: rhs :: ix :: later) out)
            (fun c => by rw [mem_summed]; simp)
            (fun c => by rw [mem_summed, List.flatten_cons, List.mem_append])
            (fun c => by
              rw [mem_summed, List.flatten_cons, List.flatten_cons, List.mem_append, List.mem_append,
                List.mem_append, or_assoc])
          simp only [d3] at q3
          rw [this] at q3
          refine q3.congr fun σ _ => ?_
          congr 1
          funext σ
          rw [orderedTerm]
          simp only [mulAs_decide, hsw]
          rw [← d3]
          apply orderedTerm_before
          intro c hc
          rw [n2, List.mem_append]
          tauto

/-! ## Reordering the operands -/

/-- Select list elements by position. -/
def pick {α : Type} (l : List α) (d : α) (order : List Nat) : List α := order.map fun i => l.getD i d

theorem pick_range {α : Type} (l : List α) (d : α) : pick l d (List.range l.length) = l :=
  (eq_map_range_getD l d).symm

theorem pick_perm {α : Type} (l : List α) (d : α) {order : List Nat}
    (ho : order.Perm (List.range l.length)) : (pick l d order).Perm l := by
  have := ho.map fun i => l.getD i d
  exact this.trans (by rw [← pick, pick_range])

theorem pick_getElem? {α : Type} {l : List α} {d : α} {order : List Nat}
    (ho : order.Perm (List.range l.length)) {i : Nat} {x : α} (h : (pick l d order)[i]? = some x) :
    ∃ n, order[i]? = some n ∧ l[n]? = some x := by
  rw [pick, List.getElem?_map, Option.map_eq_some_iff] at h
  obtain ⟨n, h1, h2⟩ := h
  refine ⟨n, h1, ?_⟩
  have : n < l.length := by simpa using ho.mem_iff.1 (List.mem_of_getElem? h1)
  simp only [List.getD_eq_getElem?_getD, List.getElem?_eq_getElem this, Option.getD_some] at h2
  rw [List.getElem?_eq_getElem this, h2]

theorem zipWith_pick {α β γ : Type} (f : α → β → γ) (a : List α) (b : List β) (da : α) (db : β)
    (order : List Nat) :
    List.zipWith f (pick a da order) (pick b db order) = order.map fun i => f (a.getD i da) (b.getD i db) := by
  induction order with
  | nil => rfl
  | cons i order ih => simp only [pick, List.map_cons, List.zipWith_cons_cons] at ih ⊢; rw [ih]

theorem term_pick {A : Type} [CommMonoid A] {inputs : List (List Char)} {ts : List (List Nat → A)}
    (hl : ts.length = inputs.length) (d : List Nat → A) {order : List Nat}
    (ho : order.Perm (List.range inputs.length)) :
    term (pick inputs [] order) (pick ts d order) = term inputs ts := by
  funext σ
  unfold term
  rw [zipWith_pick, (ho.map _).prod_eq,
    ← zipWith_pick (fun ix t => t (List.map σ ix)) inputs ts [] d, pick_range, ← hl, pick_range]

theorem Bound.pick {A : Type} {operands : List (View A)} {inputs : List (List Char)}
    {ts : List (List Nat → A)} (h : Bound dims operands inputs (List.range inputs.length) ts)
    (d : List Nat → A) {order : List Nat} (ho : order.Perm (List.range inputs.length)) :
    Bound dims operands (Einsum.pick inputs [] order) order (Einsum.pick ts d order) := by
  intro i ix hi
  obtain ⟨n, h1, h2⟩ := pick_getElem? ho hi
  obtain ⟨n', v, t, h3, h4, h5, h6⟩ := h n ix h2
  have hn : n < inputs.length := by
    by_contra hc
    rw [List.getElem?_eq_none (by omega)] at h2; simp at h2
  rw [List.getElem?_range hn, Option.some.injEq] at h3
  subst h3
  refine ⟨n, v, t, h1, h4, ?_, h6⟩
  rw [Einsum.pick, List.getElem?_map, h1]
  simp [h5]

/-- What a compiled path does, using the operands in the given order. -/
def EinsumPath.ComputesInOrder (p : EinsumPath) (order : List Nat) (dims : Char → Nat) (inputs : List (List Char))
    (out : List Char) : Prop :=
  ∀ (A : Type) [Semiring A] (al : Alloc A) (operands : List (View A)) (ts : List (List Nat → A)),
    ts.length = inputs.length → Bound dims operands inputs (List.range inputs.length) ts →
    Outcome (GoodAt dims operands inputs (List.range inputs.length) out)
      (¬ GoodAt dims operands inputs (List.range inputs.length) out)
      (p.contractOperands al operands) fun w =>
        Rep w out dims (einsumOrdered dims (pick inputs [] order) (pick ts (fun _ => 0) order) out)

/-- What a compiled path does when multiplication is commutative. -/
def EinsumPath.Computes (p : EinsumPath) (dims : Char → Nat) (inputs : List (List Char))
    (out : List Char) : Prop :=
  ∀ (A : Type) [CommSemiring A] (al : Alloc A) (operands : List (View A)) (ts : List (List Nat → A)),
    ts.length = inputs.length → Bound dims operands inputs (List.range inputs.length) ts →
    Outcome (GoodAt dims operands inputs (List.range inputs.length) out)
      (¬ GoodAt dims operands inputs (List.range inputs.length) out)
      (p.contractOperands al operands) fun w => Rep w out dims (Spec.einsum dims inputs ts out)

theorem elsewhere_pick {inputs : List (List Char)} {order : List Nat}
    (ho : order.Perm (List.range inputs.length)) {k n : Nat} (hk : order[k]? = some n) (pre : List Char) (c : Char) :
    Elsewhere (pick inputs [] order) pre k c ↔ Elsewhere inputs pre n c := by
  have hnd : order.Nodup := ho.nodup_iff.2 List.nodup_range
  obtain ⟨hk', ek⟩ := List.getElem?_eq_some_iff.1 hk
  unfold Elsewhere
  refine or_congr Iff.rfl ⟨?_, ?_⟩
  · rintro ⟨j, jx, h1, h2, h3⟩
    obtain ⟨m, h4, h5⟩ := pick_getElem? ho h2
    refine ⟨m, jx, ?_, h5, h3⟩
    rintro rfl
    obtain ⟨hj, ej⟩ := List.getElem?_eq_some_iff.1 h4
    exact h1 ((hnd.getElem_inj_iff).1 (ej.trans ek.symm))
  · rintro ⟨m, jx, h1, h2, h3⟩
    have hm : m < inputs.length := (List.getElem?_eq_some_iff.1 h2).1
    obtain ⟨j, hj⟩ := List.mem_iff_getElem?.1 (ho.mem_iff.2 (List.mem_range.2 hm))
    refine ⟨j, jx, ?_, ?_, h3⟩
    · rintro rfl
      rw [hk, Option.some.injEq] at hj
      exact h1 hj.symm
    · rw [Einsum.pick, List.getElem?_map, hj, Option.map_some, List.getD_eq_getElem?_getD, h2]
      rfl

theorem goodAt_pick {A : Type} {operands : List (View A)} {inputs : List (List Char)} {order : List Nat}
    (ho : order.Perm (List.range inputs.length)) {pre : List Char} :
    GoodAt dims operands (pick inputs [] order) order pre ↔
      GoodAt dims operands inputs (List.range inputs.length) pre := by
  constructor
  · intro h i ix n v h1 h2 h3
    have hi : i < inputs.length := (List.getElem?_eq_some_iff.1 h1).1
    rw [List.getElem?_range hi, Option.some.injEq] at h2
    subst h2
    obtain ⟨k, hk⟩ := List.mem_iff_getElem?.1 (ho.mem_iff.2 (List.mem_range.2 hi))
    refine (h k ix i v ?_ hk h3).congr fun c _ => elsewhere_pick ho hk pre c
    rw [Einsum.pick, List.getElem?_map, hk, Option.map_some, List.getD_eq_getElem?_getD, h1]
    rfl
  · intro h i ix n v h1 h2 h3
    obtain ⟨m, h4, h5⟩ := pick_getElem? ho h1
    rw [h2, Option.some.injEq] at h4
    subst h4
    exact (h n ix n v h5 (List.getElem?_range (List.getElem?_eq_some_iff.1 h5).1) h3).congr
      fun c _ => (elsewhere_pick ho h2 pre c).symm

theorem summed_perm {inputs inputs' : List (List Char)} (hp : inputs.Perm inputs') (out : List Char) :
    (summed inputs out).Perm (summed inputs' out) :=
  perm_of_nodup (summed_nodup _ _) (summed_nodup _ _) fun c => by
    rw [mem_summed, mem_summed, hp.flatten.mem_iff]

theorem path_ordered_ok (hv : sc.Valid dims) (h : HashOrd) {order : List Nat}
    (hne : sc.contraction.operandIndices ≠ [])
    (ho : order.Perm (List.range sc.contraction.operandIndices.length)) :
    ∃ o, generatePath h sc order = .ok o ∧ ∀ h' : HashOrd,
      ∃ p, EinsumPath.fromPath h' o = .ok p ∧
        p.ComputesInOrder order dims sc.contraction.operandIndices sc.contraction.outputIndices := by
  set inputs := sc.contraction.operandIndices with hI
  set out := sc.contraction.outputIndices with hO
  have hol : order.length = inputs.length := by simpa using ho.length_eq
  set pin := pick inputs [] order with hpin
  have hpp : pin.Perm inputs := pick_perm inputs [] ho
  have hpl : pin.length = inputs.length := hpp.length_eq
  obtain ⟨psc, p1, p2, p3, p4⟩ := hv.subset (h.sub 0) (ops := pin) (out := out)
    (fun c hc => hpp.flatten.mem_iff.1 hc)
    ⟨hv.out.1, fun c hc => used_iff.2 (hpp.flatten.mem_iff.2 (used_iff.1 (hv.out.2 c hc)))⟩
  have hperm : generatePermutedContraction (h.sub 0) sc order = .ok psc := by
    unfold generatePermutedContraction
    rw [← hI, ← hO, assertThat_of (by simpa using hol.symm), bind_ok,
      mapE_ok (g := fun i => inputs.getD i [])]
    · rw [bind_ok]
      exact (congrArg unwrapR p1).trans (unwrapR_ok _)
    · intro i hi
      have : i < inputs.length := by simpa using ho.mem_iff.1 hi
      rw [index_getElem this]; simp [this]
  have hpout : ∀ c ∈ out, c ∈ pin.flatten := fun c hc => by
    rw [hpp.flatten.mem_iff]; exact used_iff.1 (hv.out.2 c hc)
  -- several operands
  have hmany : ∀ (t0 : Nat) (ns : List Nat) (lhs : List Char) (rest : List (List Char)) (hh : HashOrd),
      order = t0 :: ns → pin = lhs :: rest → rest ≠ [] →
      ∃ steps, generateSteps hh psc t0 0 lhs rest ns = .ok steps ∧ ∀ h' : HashOrd,
        ∃ p, EinsumPath.fromPath h' (.pairs steps) = .ok p ∧ p.ComputesInOrder order dims inputs out := by
    intro t0 ns lhs rest hh e1 e2 hr
    obtain ⟨steps, g1, g2⟩ := steps_ok p2 hh t0 0 lhs rest ns hr
      (by rw [e1] at hol; rw [e2] at hpl; simp at hol hpl; omega)
      (fun c hc => by rw [p3, e2]; simp [hc])
      (fun c hc => by rw [p3, e2, List.flatten_cons, List.mem_append]; exact .inr hc)
      (fun c hc => by
        rw [p4] at hc
        have := hpout c hc
        rwa [e2, List.flatten_cons, List.mem_append] at this)
    refine ⟨steps, g1, fun h' => ?_⟩
    obtain ⟨cs, c1, c2⟩ := g2 h'
    refine ⟨⟨.pairs steps, .pairContractions cs⟩, by simp [EinsumPath.fromPath, c1], ?_⟩
    intro A _ al operands ts hl hb
    have hb' := hb.pick (fun _ => 0) ho
    rw [← hpin, e1, e2] at hb'
    obtain ⟨n, ns', t, ts', v, q1, q2, q3, q4, q6⟩ := hb'.cons
    simp only [List.cons.injEq] at q1
    obtain ⟨rfl, rfl⟩ := q1
    rw [p4] at c2
    have key := c2 A al operands [] v _ ts' (by rw [if_pos rfl]; exact q3) rfl q4.rep q4.wf q6
    refine Outcome.imp (key.bind (f := fun i => unwrapO i.getLast?) fun inter' hw =>
      Outcome.ok (Q := fun w => Rep w out dims
        (einsumOrdered dims (pick inputs [] order) (pick ts (fun _ => 0) order) out)) ?_)
      (fun x => ⟨?_, trivial⟩)
      (fun x => .inl ?_) fun w hw => hw
    · obtain ⟨w, w2, w3⟩ := hw
      refine ⟨w, by simp [w2], ?_⟩
      rw [← hpin, e1, q2, e2]
      exact w3
    · rw [← goodAt_pick ho, ← hpin, e1, e2, goodAt_cons q3] at x
      exact x
    · rw [← goodAt_pick ho, ← hpin, e1, e2, goodAt_cons q3] at x
      exact x
  unfold generatePath
  rw [hperm, bind_ok, p3]
  rcases hp : pin with _ | ⟨ix, _ | ⟨rhs, rest⟩⟩
  · rw [hp] at hpl
    exact absurd (List.length_eq_zero_iff.1 (by simpa using hpl.symm)) hne
  · rw [hp] at p3 hpin hpl
    refine ⟨.singleton psc, rfl, fun h' => ?_⟩
    obtain ⟨p, s1, -, s3⟩ := singleton_ok p2 p3
    refine ⟨⟨.singleton psc, .singletonContraction p⟩, by simp [EinsumPath.fromPath, s1], ?_⟩
    intro A _ al operands ts hl hb
    have hb' := hb.pick (fun _ => 0) ho
    rw [← hpin] at hb'
    obtain ⟨n, ns', t, ts', v, q1, q2, q3, q4, q6⟩ := hb'.cons
    have hn0 : n = 0 := by
      have := ho.mem_iff.1 (show n ∈ order by rw [q1]; simp)
      rw [← hpl] at this
      simpa using this
    subst hn0
    have hrun : (⟨.singleton psc, .singletonContraction p⟩ : EinsumPath).contractOperands al operands =
        p.op.run al v := by
      simp only [EinsumPath.contractOperands]
      rw [index_eq_ok.2 q3]
      rfl
    rw [hrun]
    refine Outcome.imp (s3 A al v _ q4.rep q4.wf) (fun x => ?_) (fun x => ?_) fun w w2 => ?_
    · rw [← goodAt_pick ho, ← hpin, q1, goodAt_cons q3] at x
      rw [p4]
      exact x.1.congr fun c _ => by simp
    · rw [← goodAt_pick ho, ← hpin, q1, goodAt_cons q3] at x
      rw [p4]
      exact fun y => x ⟨y.congr fun c _ => by simp, fun i _ _ _ hi => by simp at hi⟩
    · rw [p4] at w2
      rw [← hpin, q2]
      refine w2.congr fun σ _ => ?_
      simp only [einsumOrdered]
      cases ts' <;> rfl
  · obtain ⟨t0, t1, ns, e1⟩ : ∃ t0 t1 ns, order = t0 :: t1 :: ns := by
      rw [← hpl, hp] at hol
      match order, hol with
      | t0 :: t1 :: ns, _ => exact ⟨t0, t1, ns, rfl⟩
    cases rest with
    | nil =>
      have hns : ns = [] := by
        rw [← hpl, hp, e1] at hol
        simpa using hol
      obtain ⟨steps, g1, g2⟩ := hmany t0 (t1 :: ns) ix [rhs] h e1 hp (by simp)
      refine ⟨.pairs steps, ?_, g2⟩
      rw [e1]
      simp only [generateSteps, stepOutput] at g1
      simp only []
      obtain ⟨sc', k1, k2⟩ := bind_eq_ok.1 g1
      simp only [Nat.mul_zero, Nat.zero_add] at k1
      rw [k1]
      simpa using k2
    | cons r2 rest =>
      obtain ⟨steps, g1, g2⟩ := hmany t0 (t1 :: ns) ix (rhs :: r2 :: rest) (h.sub 2) e1 hp (by simp)
      refine ⟨.pairs steps, ?_, g2⟩
      rw [e1]
      simp only []
      rw [g1]
      rfl

theorem path_ok (hv : sc.Valid dims) (h : HashOrd) {order : List Nat}
    (hne : sc.contraction.operandIndices ≠ [])
    (ho : order.Perm (List.range sc.contraction.operandIndices.length)) :
    ∃ o, generatePath h sc order = .ok o ∧ ∀ h' : HashOrd,
      ∃ p, EinsumPath.fromPath h' o = .ok p ∧
        p.Computes dims sc.contraction.operandIndices sc.contraction.outputIndices := by
  obtain ⟨o, h1, h2⟩ := path_ordered_ok hv h hne ho
  refine ⟨o, h1, fun h' => ?_⟩
  obtain ⟨p, h3, h4⟩ := h2 h'
  refine ⟨p, h3, ?_⟩
  intro A _ al operands ts hl hb
  refine (h4 A al operands ts hl hb).imp id id fun w hw => ?_
  have hpp := pick_perm sc.contraction.operandIndices [] ho
  rw [einsumOrdered_comm (fun e => hne (by rw [e] at hpp; exact hpp.symm.eq_nil)) (by simp [pick])] at hw
  refine hw.congr fun σ _ => ?_
  unfold Spec.einsum
  rw [term_pick hl _ ho, sumOver_perm (summed_perm hpp _)]

end

end Einsum
