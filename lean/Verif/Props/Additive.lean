import Verif.Props.CheckedInts
import Verif.Props.NonComm
import Verif.Props.Reproducible

/-!
# Property C122: a commutative and associative addition is enough

Multiplication has no laws here; in particular it need not distribute over addition.
-/

namespace Einsum

open Spec Function

/-- The value of a step for two operands with the labels `L` and `R`, if `later` are the labels needed afterwards: each operand
is summed over the labels that nothing else needs, then the products are summed over the labels that both have and that are not
needed afterwards.  A left operand without labels is the second factor (see `FromLeft`). -/
def Spec.combined {ι A : Type} [DecidableEq ι] [AddCommMonoid A] [Mul A] (dims : ι → Nat) (L R later : List ι)
    (F G : (ι → Nat) → A) (σ : ι → Nat) : A :=
  let F' := sumOver dims (summed [L] (R ++ later)) F
  let G' := sumOver dims (summed [R] (L ++ later)) G
  if FromLeft L R later then G' σ * F' σ
  else sumOver dims (L.dedup.filter fun c => c ∈ R ∧ c ∉ later) (fun τ => F' τ * G' τ) σ

/-- The steps for an array with the labels `L` and the elements `F`, then the operands `inputs` with the elements `ts`. -/
def Spec.stepwise {ι A : Type} [DecidableEq ι] [AddCommMonoid A] [Mul A] (dims : ι → Nat) (out : List ι) :
    List ι → ((ι → Nat) → A) → List (List ι) → List (List Nat → A) → (ι → Nat) → A
  | L, F, R :: inputs, t :: ts =>
    stepwise dims out ((L ++ R).filter fun c => c ∈ inputs.flatten ++ out)
      (combined dims L R (inputs.flatten ++ out) F fun σ => t (R.map σ)) inputs ts
  | L, F, _, _ => sumOver dims (summed [L] out) F

/-- The result of the operands taken one after the other. -/
def Spec.einsumSteps {ι A : Type} [DecidableEq ι] [AddCommMonoid A] [Mul A] (dims : ι → Nat) (inputs : List (List ι))
    (ts : List (List Nat → A)) (out : List ι) (σ : ι → Nat) : A :=
  match inputs, ts with
  | L :: inputs, t :: ts => stepwise dims out L (fun σ => t (L.map σ)) inputs ts σ
  | _, _ => 0

/-- `r` holds the elements computed by `einsumSteps`. -/
def Spec.IsStepwise {A : Type} [AddCommMonoid A] [Mul A] (dims : Char → Nat) (inputs : List (List Char))
    (ts : List (List Nat → A)) (out : List Char) (r : View A) : Prop :=
  r.Wf ∧ r.shape = out.map dims ∧
    ∀ σ, InRange dims out σ → r.read (out.map σ) = .ok (einsumSteps dims inputs ts out σ)

namespace Stepwise

section
variable {A : Type} [AddCommMonoid A] {dims : Char → Nat} {L R L' R' L₂ o later : List Char} {F G : (Char → Nat) → A}

theorem sums_sumOver (a b : List Char) (al : Alloc A) (F : (Char → Nat) → A) : sums dims a b al F = sumOver dims b F := by
  induction b generalizing al F with
  | nil => rfl
  | cons c b ih =>
    have e : sumOver dims (c :: b) F = sumOver dims b (sumOver dims [c] F) := by
      rw [← sumOver_append]
      exact sumOver_perm (List.perm_append_comm (l₁ := [c])) F
    rw [sums, ih, e]
    congr 1
    funext σ
    rw [sumOrder_sum]
    rfl

theorem sum_cells (C : List Char) (f : (Char → Nat) → A) (σ : Char → Nat) :
    ((cells dims C σ).map f).sum = sumOver dims C f σ := by
  induction C generalizing σ with
  | nil => simp [cells]
  | cons c C ih =>
    rw [sumOver_cons, cells, List.map_flatMap, List.flatMap_def, List.sum_flatten, List.map_map]
    simp only [Function.comp_def, ih]
    rw [← List.sum_toFinset _ List.nodup_range]
    congr 1
    ext
    simp

theorem length_cells (C : List Char) (σ : Char → Nat) : (cells dims C σ).length = (C.map dims).prod := by
  induction C generalizing σ with
  | nil => rfl
  | cons c C ih => simp [cells, List.length_flatMap, ih]

variable [Mul A]

theorem product_sumOver (al : Alloc A) (p : List Nat) (C : List Char) (F G : (Char → Nat) → A) (σ : Char → Nat) :
    product (al.sumOrder p (C.map dims).prod) dims C F G σ = sumOver dims C (fun τ => F τ * G τ) σ := by
  rw [product, SumTree.dot_eq, List.map_map, ← sum_cells]
  · have e : (cells dims C σ).map ((fun p : A × A => p.1 * p.2) ∘ fun σ' => (F σ', G σ')) =
        (List.range (C.map dims).prod).map fun i => ((cells dims C σ).map fun τ => F τ * G τ).getD i 0 := by
      refine List.ext_getElem (by simp [length_cells]) fun i h1 h2 => ?_
      have : i < (cells dims C σ).length := by simpa using h1
      simp [List.getD_eq_getElem?_getD, this]
    rw [e, sumOrder_sum]
    have e2 : ((cells dims C σ).map fun τ => F τ * G τ) =
        (List.range (C.map dims).prod).map fun i => ((cells dims C σ).map fun τ => F τ * G τ).getD i 0 := by
      rw [← e]
      rfl
    conv_rhs => rw [e2]
    rw [← List.sum_toFinset _ List.nodup_range]
    congr 1
    ext
    simp
  · intro i hi
    rw [List.length_map, length_cells]
    simpa using (al.sumOrder_perm p _).mem_iff.1 hi

theorem combined_congr (hL : ∀ c, c ∈ L ↔ c ∈ L₂) (ho : ∀ c, c ∈ L ∨ c ∈ R → (c ∈ o ↔ c ∈ later)) :
    combined dims L R o F G = combined dims L₂ R later F G := by
  funext σ
  have e1 : sumOver dims (summed [L] (R ++ o)) F = sumOver dims (summed [L₂] (R ++ later)) F :=
    sumOver_summed (summed_nodup _ _) (fun c => by
      rw [mem_summed]
      simp only [List.flatten_cons, List.flatten_nil, List.append_nil, List.mem_append, hL]
      exact and_congr_right fun h => by rw [ho c (.inl ((hL c).2 h))]) F
  have e2 : sumOver dims (summed [R] (L ++ o)) G = sumOver dims (summed [R] (L₂ ++ later)) G :=
    sumOver_summed (summed_nodup _ _) (fun c => by
      rw [mem_summed]
      simp only [List.flatten_cons, List.flatten_nil, List.append_nil, List.mem_append, hL]
      exact and_congr_right fun h => by rw [ho c (.inr h)]) G
  have e3 : FromLeft L R o ↔ FromLeft L₂ R later := by
    unfold FromLeft
    refine and_congr ?_ ?_
    · exact forall_congr' fun c => by
        rw [← hL]
        exact forall_congr' fun h => by rw [ho c (.inl h)]
    · exact exists_congr fun c => and_congr_right fun h => by rw [ho c (.inr h)]
  have e4 : (L.dedup.filter fun c => c ∈ R ∧ c ∉ o).Perm (L₂.dedup.filter fun c => c ∈ R ∧ c ∉ later) :=
    perm_of_nodup (L.nodup_dedup.filter _) (L₂.nodup_dedup.filter _) fun c => by
      simp only [List.mem_filter, List.mem_dedup, decide_eq_true_eq, hL]
      exact and_congr_right fun h => and_congr_right fun _ => by rw [ho c (.inl ((hL c).2 h))]
  simp only [combined]
  rw [e1, e2, sumOver_perm e4]
  by_cases h : FromLeft L R o
  · rw [if_pos h, if_pos (e3.1 h)]
  · rw [if_neg h, if_neg (mt e3.2 h)]

/-- One operand. -/
theorem one_value (ho : OutputOk [L] o) (hp : L.Nodup ∨ ∀ c ∈ L, dims c ≠ 0) (h : HashOrd) (al : Alloc A) {v : View A}
    (hv : Rep v L dims F) (wv : v.Wf) :
    ∃ w, (callSC [L] o dims).contractOperands h al [v] = .ok w ∧ Rep w o dims (sumOver dims (summed [L] o) F) := by
  obtain ⟨p, p1, p2⟩ := singletonT (callSC_valid (dims := dims) ho) (L := L) rfl
  obtain ⟨w, w1, w2⟩ := p2 A al v _ hv wv (hp.imp_right prod_dims_pos)
  refine ⟨w, by rw [one_run ho p1, w1], ?_⟩
  rw [sums_sumOver] at w2
  change Rep w o dims (sumOver dims (fresh o L) F) at w2
  rwa [sumOver_summed (inputs := [L]) (out := o) nodup_fresh (fun c => by simpa using mem_fresh)] at w2

/-- Two operands, reduced. -/
theorem reduced_value (ho : OutputOk [L, R] o) (hr : Reduced L R o) (h : HashOrd) (al : Alloc A) {l r : View A}
    (hl : Rep l L dims F) (hr' : Rep r R dims G) :
    ∃ w, (callSC [L, R] o dims).contractOperands h al [l, r] = .ok w ∧ Rep w o dims fun σ =>
      if L = [] ∧ R ≠ [] then G σ * F σ else sumOver dims (L.filter fun c => c ∉ o) (fun τ => F τ * G τ) σ := by
  have el := (hl.holds hr.left).elements
  have er := (hr'.holds hr.right).elements
  have fin : ∀ {w : View A} {C : List Char} {p : (Char → Nat) → List Nat}, C.Perm (L.filter fun c => c ∉ o) →
      ¬ (L = [] ∧ R ≠ []) →
      Rep w o dims (fun σ => product (al.sumOrder (p σ) (C.map dims).prod) dims C (fun τ => F (assign L (L.map τ)))
        (fun τ => G (assign R (R.map τ))) σ) →
      Rep w o dims fun σ => if L = [] ∧ R ≠ [] then G σ * F σ else
        sumOver dims (L.filter fun c => c ∉ o) (fun τ => F τ * G τ) σ := by
    intro w C p hC hne hw
    refine hw.congr fun σ hσ => ?_
    rw [if_neg hne, product_sumOver, sumOver_perm hC]
    refine sumOver_congr fun τ t1 t2 => ?_
    have key : ∀ c, c ∈ L ∨ c ∈ R → τ c < dims c := fun c hc => by
      by_cases hco : c ∈ o
      · rw [t1 c (by simp [hco])]
        exact hσ c hco
      · refine t2 c (List.mem_filter.2 ⟨?_, by simpa using hco⟩)
        exact hc.elim id fun hc => (hr.rightNeeded c hc).resolve_right hco
    rw [hl.agree_assign fun c hc => key c (.inl hc), hr'.agree_assign fun c hc => key c (.inr hc)]
  by_cases c1 : (∀ c ∈ L, c ∈ R ∧ c ∈ o) ∧ ∀ c ∈ R, c ∈ L ∧ c ∈ o
  · obtain ⟨w, w1, w2⟩ := C84_product ho hr c1.1 c1.2 h al el er hl.shape hr'.shape
    refine ⟨w, w1, w2.congr fun σ hσ => ?_⟩
    have hne : ¬ (L = [] ∧ R ≠ []) := fun e => by
      obtain ⟨d, hd⟩ := List.exists_mem_of_ne_nil R e.2
      have := (c1.2 d hd).1
      rw [e.1] at this
      simp at this
    have e : (L.filter fun c => c ∉ o) = [] := by
      rw [List.filter_eq_nil_iff]
      intro c hc
      simpa using (c1.1 c hc).2
    rw [if_neg hne, e, sumOver_nil, hl.agree_assign fun c hc => hσ c (c1.1 c hc).2,
      hr'.agree_assign fun c hc => hσ c (c1.2 c hc).2]
  by_cases c2 : L = []
  · subst c2
    have c3 : R ≠ [] := by rintro rfl; simp at c1
    obtain ⟨w, w1, w2⟩ := C84_scalar_left ho hr c3 h al el er hl.shape hr'.shape
    have a : ∀ σ, F (assign [] []) = F σ := fun σ => hl.agree_assign (σ := σ) (by simp [InRange])
    have m : ∀ c ∈ R, c ∈ o := fun c hc => (hr.rightNeeded c hc).resolve_left (by simp)
    refine ⟨w, w1, w2.congr fun σ hσ => ?_⟩
    rw [if_pos ⟨rfl, c3⟩, hr'.agree_assign fun c hc => hσ c (m c hc), a σ]
  by_cases c3 : R = []
  · subst c3
    obtain ⟨w, w1, w2⟩ := C84_scalar_right ho hr c2 h al el er hl.shape hr'.shape
    have a : ∀ σ, G (assign [] []) = G σ := fun σ => hr'.agree_assign (σ := σ) (by simp [InRange])
    have m : ∀ c ∈ L, c ∈ o := fun c hc => (hr.leftNeeded c hc).resolve_left (by simp)
    have e : (L.filter fun c => c ∉ o) = [] := by
      rw [List.filter_eq_nil_iff]
      intro c hc
      simpa using m c hc
    refine ⟨w, w1, w2.congr fun σ hσ => ?_⟩
    rw [if_neg (by simp), e, sumOver_nil, hl.agree_assign fun c hc => hσ c (m c hc), a σ]
  by_cases c4 : ∀ c ∈ L, c ∈ R → c ∉ o
  · obtain ⟨C, C1, C2⟩ : ∃ C : List Char, C.Pairwise (· < ·) ∧ ∀ c, c ∈ C ↔ c ∈ L ∧ c ∈ R := by
      obtain ⟨D, ⟨d1, d2, d3, d4, d5, d6, d7⟩, -⟩ := tensordotGeneral_new (callSC_valid (dims := dims) ho) rfl hr.left hr.right
        hr.leftNeeded hr.rightNeeded c4
      exact ⟨D, d1, fun c => ⟨fun hc => ⟨d4 c hc, d5 c hc⟩, fun hc => (d3 c).2 ⟨.inl hc.1, c4 c hc.1 hc.2⟩⟩⟩
    obtain ⟨w, w1, w2⟩ := C84_contraction ho hr c2 c3 c4 C C1 C2 h al el er hl.shape hr'.shape
    have hn : C.Nodup := C1.imp fun h => ne_of_lt h
    refine ⟨w, w1, fin (perm_of_nodup hn (hr.left.filter _) fun c => ?_) (by simp [c2]) w2⟩
    rw [C2]
    simp only [List.mem_filter, decide_eq_true_eq]
    exact and_congr_right fun hc => ⟨c4 c hc, (hr.leftNeeded c hc).resolve_right⟩
  · have c4' : ∃ c ∈ L, c ∈ R ∧ c ∈ o := by
      by_contra hx
      exact c4 fun c hc hc' hco => hx ⟨c, hc, hc', hco⟩
    have c5 : (∃ c ∈ L, ¬ (c ∈ R ∧ c ∈ o)) ∨ ∃ c ∈ R, ¬ (c ∈ L ∧ c ∈ o) := by
      by_contra hx
      simp only [not_or, not_exists, not_and] at hx
      exact c1 ⟨fun c hc => by have := hx.1 c hc; tauto, fun c hc => by have := hx.2 c hc; tauto⟩
    obtain ⟨w, w1, w2⟩ := C84_stack ho hr c4' c5 h al el er hl.shape hr'.shape
    exact ⟨w, w1, fin (.refl _) (by simp [c2]) w2⟩

/-- One of the two operands, simplified if needed. -/
theorem simplified (a1 : L'.Nodup) (a2 : ∀ x, x ∈ L' ↔ x ∈ L ∧ (x ∈ R ∨ x ∈ o)) (a3 : ¬ NeedsSimplification L R o → L' = L)
    (hp : L.Nodup ∨ ∀ c ∈ L, dims c ≠ 0) (k : HashOrd) (al : Alloc A) {l : View A} (hl : Rep l L dims F) (wl : l.Wf) :
    ∃ x, (if NeedsSimplification L R o then (callSC [L] L' dims).contractOperands k al [l] else .ok l) = .ok x ∧
      Rep x L' dims (sumOver dims (summed [L] (R ++ o)) F) := by
  by_cases hN : NeedsSimplification L R o
  · rw [if_pos hN]
    obtain ⟨x, x1, x2⟩ := one_value ⟨a1, fun c hc => used_iff.2 (by simpa using ((a2 c).1 hc).1)⟩ hp k al hl wl
    refine ⟨x, x1, ?_⟩
    rwa [sumOver_summed (inputs := [L]) (out := R ++ o) (summed_nodup _ _) (fun c => by
      rw [mem_summed, a2]
      simp only [List.flatten_cons, List.flatten_nil, List.append_nil, List.mem_append]
      tauto)] at x2
  · rw [if_neg hN, a3 hN]
    refine ⟨l, rfl, ?_⟩
    have e : summed [L] (R ++ o) = [] := List.eq_nil_iff_forall_not_mem.2 fun c hc => by
      rw [mem_summed] at hc
      simp only [List.flatten_cons, List.flatten_nil, List.append_nil, List.mem_append, not_or] at hc
      exact hN (.inr ⟨c, hc.1, hc.2.1, hc.2.2⟩)
    rwa [e]

/-- Two operands. -/
theorem pair_value (ho : OutputOk [L, R] o) (hpL : L.Nodup ∨ ∀ c ∈ L, dims c ≠ 0) (hpR : R.Nodup ∨ ∀ c ∈ R, dims c ≠ 0)
    (h : HashOrd) (al : Alloc A) {l r : View A} (hl : Rep l L dims F) (hr : Rep r R dims G) (wl : l.Wf) (wr : r.Wf) :
    ∃ w, (callSC [L, R] o dims).contractOperands h al [l, r] = .ok w ∧ Rep w o dims (combined dims L R o F G) := by
  obtain ⟨L', R', k, a1, a2, a3, b1, b2, b3, ho', hr', hrun⟩ := pair_run (dims := dims) ho h
  obtain ⟨x, x1, x2⟩ := simplified a1 a2 a3 hpL h ((al.sub 0).sub 0) hl wl
  obtain ⟨y, y1, y2⟩ := simplified b1 b2 b3 hpR h ((al.sub 0).sub 1) hr wr
  obtain ⟨w, w1, w2⟩ := reduced_value ho' hr' k al x2 y2
  refine ⟨w, by rw [hrun A h, x1, bind_ok, y1, bind_ok, w1], w2.congr fun σ _ => ?_⟩
  have e1 : (L' = [] ∧ R' ≠ []) ↔ FromLeft L R o := by
    have m1 : L' = [] ↔ ∀ c ∈ L, c ∉ R ∧ c ∉ o := by
      rw [List.eq_nil_iff_forall_not_mem]
      simp only [a2, not_and, not_or]
    unfold FromLeft
    rw [← m1]
    refine and_congr_right fun e => ⟨fun hne => ?_, ?_⟩
    · obtain ⟨c, hc⟩ := List.exists_mem_of_ne_nil R' hne
      obtain ⟨c1, c2⟩ := (b2 c).1 hc
      exact ⟨c, c1, c2.resolve_left fun hcL => (m1.1 e c hcL).1 c1⟩
    · rintro ⟨c, c1, c2⟩ e'
      have := (b2 c).2 ⟨c1, .inr c2⟩
      rw [e'] at this
      simp at this
  have e2 : (L'.filter fun c => c ∉ o).Perm (L.dedup.filter fun c => c ∈ R ∧ c ∉ o) :=
    perm_of_nodup (a1.filter _) (L.nodup_dedup.filter _) fun c => by
      simp only [List.mem_filter, List.mem_dedup, decide_eq_true_eq, a2]
      tauto
  simp only [combined]
  rw [sumOver_perm e2]
  by_cases hF : FromLeft L R o
  · rw [if_pos hF, if_pos (e1.2 hF)]
  · rw [if_neg hF, if_neg (mt e1.1 hF)]

theorem stepwise_congr {out : List Char} (rest : List (List Char)) : ∀ (L L₂ : List Char) (F : (Char → Nat) → A)
    (ts : List (List Nat → A)), (∀ c, c ∈ L ↔ c ∈ L₂) →
    stepwise dims out L F rest ts = stepwise dims out L₂ F rest ts := by
  have base : ∀ (L L₂ : List Char) (F : (Char → Nat) → A), (∀ c, c ∈ L ↔ c ∈ L₂) →
      sumOver dims (summed [L] out) F = sumOver dims (summed [L₂] out) F := fun L L₂ F h =>
    sumOver_summed (summed_nodup _ _) (fun c => by rw [mem_summed]; simp [h]) F
  induction rest with
  | nil => intro L L₂ F ts h; simp only [stepwise]; exact base L L₂ F h
  | cons R rest ih =>
    intro L L₂ F ts h
    cases ts with
    | nil => simp only [stepwise]; exact base L L₂ F h
    | cons t ts =>
      simp only [stepwise]
      rw [combined_congr h fun _ _ => Iff.rfl]
      exact ih _ _ _ ts fun c => by simp [h]

end

/-- The loop. -/
theorem fold_value {A : Type} [AddCommMonoid A] [Mul A] {dims : Char → Nat} {inputs : List (List Char)} {out : List Char}
    {operands : List (View A)} {all : List (List Nat → A)}
    (hop : ∀ n R t, inputs[n]? = some R → all[n]? = some t →
      ∃ y, index operands n = .ok y ∧ (Rep y R dims fun σ => t (R.map σ)) ∧ y.Wf)
    (hdiag : NoEmptyDiagonal dims inputs) (rest : List (List Char)) :
    ∀ (ts : List (List Nat → A)) (calls : List TwoCall) (L : List Char) (x : View A) (F : (Char → Nat) → A) (al : Alloc A),
      List.Forall₂ (fun R n => inputs[n]? = some R) rest (calls.map TwoCall.operand) →
      List.Forall₂ (fun t n => all[n]? = some t) ts (calls.map TwoCall.operand) →
      Linked dims inputs L calls out → (L.Nodup ∨ ∀ c ∈ L, dims c ≠ 0) → Rep x L dims F → x.Wf →
      ∃ w, foldCalls operands calls al x = .ok w ∧ Rep w out dims (stepwise dims out L F rest ts) := by
  induction rest with
  | nil =>
    intro ts calls L x F al hf ht hl _ hx _
    cases calls with
    | cons c cs => cases hf
    | nil =>
      change L = out at hl
      subst hl
      cases ht
      refine ⟨x, rfl, ?_⟩
      have e : summed [L] L = [] := List.eq_nil_iff_forall_not_mem.2 fun c hc => by
        rw [mem_summed] at hc
        simp at hc
      rw [stepwise.eq_2 _ _ _ _ _ _ (by simp), e]
      exact hx
  | cons R rest ih =>
    intro ts calls L x F al hf ht hl hp hx wx
    cases calls with
    | nil => cases hf
    | cons c cs =>
    cases ts with
    | nil => cases ht
    | cons t ts =>
    obtain ⟨hR, hf⟩ := List.forall₂_cons.1 (by simpa only [List.map_cons] using hf)
    obtain ⟨hT, ht⟩ := List.forall₂_cons.1 (by simpa only [List.map_cons] using ht)
    obtain ⟨R', o, r1, ho, r2, r3, r4⟩ := hl
    rw [hR] at r1
    cases r1
    have mo : ∀ x, x ∈ o ↔ (x ∈ L ∨ x ∈ R) ∧ x ∈ rest.flatten ++ out := fun x => by
      rw [r3, List.mem_append, ← mem_operands hf x, or_comm (a := x ∈ out)]
      simp
    obtain ⟨y, y1, y2, y3⟩ := hop _ _ _ hR hT
    obtain ⟨z, z1, z2⟩ := pair_value ho hp (hdiag R (List.mem_of_getElem? hR)) c.order al hx y2 wx y3
    rw [combined_congr (L₂ := L) (later := rest.flatten ++ out) (fun _ => Iff.rfl)
      (fun c hc => by rw [mo]; exact and_iff_right hc)] at z2
    obtain ⟨w, w1, w2⟩ := ih ts cs o z _ (al.sub 1) hf ht r4 (.inl ho.1) z2 (z2.wf ho.1)
    refine ⟨w, by simp only [foldCalls, y1, bind_ok, r2, z1, w1], ?_⟩
    rw [stepwise]
    rwa [stepwise_congr rest o ((L ++ R).filter fun c => c ∈ rest.flatten ++ out) _ ts fun c => by
      rw [mo, List.mem_filter, List.mem_append (s := L)]
      simp] at w2

theorem operand_of {A : Type} {dims : Char → Nat} {inputs : List (List Char)} {operands : List (View A)}
    {ts : List (List Nat → A)} (hs : Sized dims inputs (operands.map View.shape)) (he : List.Forall₂ Elements operands ts)
    (n : Nat) (R : List Char) (t : List Nat → A) (hR : inputs[n]? = some R) (ht : ts[n]? = some t) :
    ∃ y, index operands n = .ok y ∧ (Rep y R dims fun σ => t (R.map σ)) ∧ y.Wf := by
  obtain ⟨h1, e1⟩ := List.getElem?_eq_some_iff.1 hR
  obtain ⟨h3, e3⟩ := List.getElem?_eq_some_iff.1 ht
  have hlen := hs.length_eq
  rw [List.length_map] at hlen
  have h2 : n < operands.length := hlen ▸ h1
  have hsh := (List.forall₂_iff_get.1 hs).2 n h1 (by simpa using h2)
  simp only [List.get_eq_getElem, List.getElem_map, e1] at hsh
  have hel := (List.forall₂_iff_get.1 he).2 n h2 h3
  simp only [List.get_eq_getElem, e3] at hel
  exact ⟨operands[n], index_getElem h2, rep_of hel hsh, hel.1⟩

end Stepwise

open Stepwise

section
variable {A : Type} [AddCommMonoid A] [Mul A]

/-- C122: if addition is commutative and associative, the elements of the result are given by `einsumSteps`, which mentions no
hash order and no order of additions. -/
theorem C122_einsum (h : HashOrd) (al : Alloc A) (s : String) (operands : List (View A))
    (inputs : List (List Char)) (out : List Char) (dims : Char → Nat) (ts : List (List Nat → A))
    (hc : Call s operands inputs out dims ts) (hn : NoEmptyDiagonal dims inputs) :
    ∃ r, einsum h al s operands = .ok (.ok r) ∧ IsStepwise dims inputs ts out r := by
  have hop := operand_of hc.sized hc.elements
  have hne := hc.denotes.inputs_ne
  have l1 := hc.sized.length_eq
  have l2 := hc.elements.length_eq
  rw [List.length_map] at l1
  match inputs, ts with
  | [], _ => exact absurd rfl hne.1
  | _ :: _, [] => simp [l2] at l1
  | [L], t :: ts =>
    have : ts = [] := by
      rw [← l1] at l2
      simpa using l2.symm
    subst this
    obtain ⟨x, x1, x2, x3⟩ := hop 0 L t rfl rfl
    obtain ⟨v, rfl⟩ : ∃ v, operands = [v] := List.length_eq_one_iff.1 (by simpa using l1.symm)
    cases x1
    obtain ⟨r, r1, r2⟩ := one_value hc.denotes.outputOk (hn L (by simp)) (h.sub 1) al x2 x3
    refine ⟨r, by rw [C84_einsum hc.denotes hc.sized, r1]; rfl, r2.wf hc.denotes.outputOk.1, r2.shape, r2.get⟩
  | L :: R :: rest, t :: ts =>
    obtain ⟨X, calls, a1, a2, a3, a4⟩ := C83_einsum h s _ out dims hc.denotes (by simp)
    cases a1
    rw [List.length_cons, List.range_succ_eq_map] at a2
    have a2' := (List.cons.inj a2).2
    have hf : List.Forall₂ (fun S n => (L :: R :: rest)[n]? = some S) (R :: rest) (calls.map TwoCall.operand) := by
      rw [a2']
      refine List.forall₂_iff_get.2 ⟨by simp, fun i h1 h2 => ?_⟩
      simp only [List.length_cons] at h1
      simp only [List.get_eq_getElem, List.getElem_map, List.getElem_range, List.getElem?_cons_succ]
      exact List.getElem?_eq_getElem (by simpa using h1)
    have hT : List.Forall₂ (fun S n => (t :: ts)[n]? = some S) ts (calls.map TwoCall.operand) := by
      rw [a2']
      have l3 : (R :: rest).length = ts.length := by
        rw [← l1] at l2
        simpa using l2
      refine List.forall₂_iff_get.2 ⟨by simp [← l3], fun i h1 h2 => ?_⟩
      simp only [List.get_eq_getElem, List.getElem_map, List.getElem_range, List.getElem?_cons_succ]
      exact List.getElem?_eq_getElem h1
    obtain ⟨x, x1, x2, x3⟩ := hop 0 L t rfl rfl
    obtain ⟨w, w1, w2⟩ := fold_value hop hn (R :: rest) ts calls L x _ al hf hT a3 (hn L (by simp)) x2 x3
    refine ⟨w, ?_, w2.wf hc.denotes.outputOk.1, w2.shape, w2.get⟩
    rw [a4 A al operands hc.sized, x1, bind_ok, w1]
    rfl

/-- The steps of a path, in its order of the operands. -/
theorem path_value {B : Type} (h : HashOrd) (al : Alloc A) (s : String) (ops : List (View B)) (operands : List (View A))
    (inputs : List (List Char)) (out : List Char) (dims : Char → Nat) (ts : List (List Nat → A)) (m : OptimizationMethod)
    (hd : Denotes s inputs out) (hs₀ : Sized dims inputs (ops.map View.shape))
    (hs : Sized dims inputs (operands.map View.shape)) (he : List.Forall₂ Elements operands ts) (h2 : 2 ≤ inputs.length)
    (hn : NoEmptyDiagonal dims inputs) (p : EinsumPath) (hp : einsumPath h s ops m = .ok (.ok p)) :
    ∃ r, p.contractOperands al operands = .ok r ∧
      IsStepwise dims (pick inputs [] (operandOrder m inputs.length)) (pick ts (fun _ => 0) (operandOrder m inputs.length))
        out r := by
  obtain ⟨n, L, calls, a1, a2, a3, a4⟩ := C83_path h s ops inputs out dims hd hs₀ h2 m p hp
  have hperm : (operandOrder m inputs.length).Perm (List.range inputs.length) := by
    cases m <;> first | exact .refl _ | exact List.reverse_perm _
  have l1 : inputs.length = ts.length := by
    have := hs.length_eq
    rw [List.length_map] at this
    rw [this, he.length_eq]
  have hpf : ∀ {α : Type} (l : List α) (d : α), l.length = inputs.length →
      List.Forall₂ (fun R n => l[n]? = some R) (pick l d (operandOrder m inputs.length)) (operandOrder m inputs.length) := by
    intro α l d hl
    rw [pick, List.forall₂_map_left_iff, List.forall₂_same]
    intro i hi
    have : i < inputs.length := by simpa using hperm.mem_iff.1 hi
    simp [hl, this]
  have hI := hpf inputs [] rfl
  have hT := hpf ts (fun _ => 0) l1.symm
  generalize pick inputs [] (operandOrder m inputs.length) = I at hI ⊢
  generalize pick ts (fun _ => 0) (operandOrder m inputs.length) = T at hT ⊢
  rw [← a2] at hI hT
  obtain ⟨L', rest, e1, hI', rfl⟩ := List.forall₂_cons_right_iff.1 hI
  obtain ⟨t, T, e2, hT', rfl⟩ := List.forall₂_cons_right_iff.1 hT
  rw [e1] at a1
  cases a1
  have hop := operand_of hs he
  obtain ⟨x, x1, x2, x3⟩ := hop n L t e1 e2
  obtain ⟨w, w1, w2⟩ := fold_value hop hn rest T calls L x _ al hI' hT' a3 (hn L (List.mem_of_getElem? e1)) x2 x3
  exact ⟨w, by rw [a4 A al operands, x1, bind_ok, w1], w2.wf hd.outputOk.1, w2.shape, w2.get⟩

/-- C122: the same for compiled paths that take the operands in order. -/
theorem C122_naive {B : Type} (h : HashOrd) (al : Alloc A) (s : String) (ops : List (View B)) (operands : List (View A))
    (inputs : List (List Char)) (out : List Char) (dims : Char → Nat) (ts : List (List Nat → A))
    (hd : Denotes s inputs out) (hs₀ : Sized dims inputs (ops.map View.shape))
    (hs : Sized dims inputs (operands.map View.shape)) (he : List.Forall₂ Elements operands ts) (h2 : 2 ≤ inputs.length)
    (hn : NoEmptyDiagonal dims inputs) (p : EinsumPath) (hp : einsumPath h s ops .naive = .ok (.ok p)) :
    ∃ r, p.contractOperands al operands = .ok r ∧ IsStepwise dims inputs ts out r := by
  have l1 : inputs.length = ts.length := by
    have := hs.length_eq
    rw [List.length_map] at this
    rw [this, he.length_eq]
  have := path_value h al s ops operands inputs out dims ts .naive hd hs₀ hs he h2 hn p hp
  rw [show operandOrder .naive inputs.length = List.range inputs.length from rfl, pick_range, l1, pick_range] at this
  exact this

/-- C122: the same for compiled paths that take the operands in reverse order. -/
theorem C122_reverse {B : Type} (h : HashOrd) (al : Alloc A) (s : String) (ops : List (View B)) (operands : List (View A))
    (inputs : List (List Char)) (out : List Char) (dims : Char → Nat) (ts : List (List Nat → A))
    (hd : Denotes s inputs out) (hs₀ : Sized dims inputs (ops.map View.shape))
    (hs : Sized dims inputs (operands.map View.shape)) (he : List.Forall₂ Elements operands ts) (h2 : 2 ≤ inputs.length)
    (hn : NoEmptyDiagonal dims inputs) (p : EinsumPath) (hp : einsumPath h s ops .reverse = .ok (.ok p)) :
    ∃ r, p.contractOperands al operands = .ok r ∧ IsStepwise dims inputs.reverse ts.reverse out r := by
  have l1 : inputs.length = ts.length := by
    have := hs.length_eq
    rw [List.length_map] at this
    rw [this, he.length_eq]
  have := path_value h al s ops operands inputs out dims ts .reverse hd hs₀ hs he h2 hn p hp
  rw [operandOrder, pick_reverse _ _ rfl, pick_reverse _ _ l1] at this
  exact this

theorem same_stepwise {dims : Char → Nat} {inputs : List (List Char)} {ts : List (List Nat → A)} {out : List Char} {r r₂ : View A}
    (hn : out.Nodup) (h : IsStepwise dims inputs ts out r) (h₂ : IsStepwise dims inputs ts out r₂) : SameArray r r₂ := by
  refine ⟨h.1, h₂.1, by rw [h.2.1, h₂.2.1], fun idx hi => ?_⟩
  rw [h.2.1] at hi
  obtain ⟨σ, hσ, rfl⟩ := exists_assign hn hi
  rw [h.2.2 σ hσ, h₂.2.2 σ hσ]

/-- C122: so two calls with the same elements return the same elements, whatever the hash orders, the memory layouts and the
orders of additions. -/
theorem C122_same (h h₂ : HashOrd) (al al₂ : Alloc A) (s s₂ : String) (operands operands₂ : List (View A))
    (inputs : List (List Char)) (out : List Char) (dims : Char → Nat) (ts : List (List Nat → A))
    (hc : Call s operands inputs out dims ts) (hc₂ : Call s₂ operands₂ inputs out dims ts) (hn : NoEmptyDiagonal dims inputs) :
    ∃ r r₂, einsum h al s operands = .ok (.ok r) ∧ einsum h₂ al₂ s₂ operands₂ = .ok (.ok r₂) ∧ SameArray r r₂ := by
  obtain ⟨r, r1, r2⟩ := C122_einsum h al s operands inputs out dims ts hc hn
  obtain ⟨r₂, r3, r4⟩ := C122_einsum h₂ al₂ s₂ operands₂ inputs out dims ts hc₂ hn
  exact ⟨r, r₂, r1, r3, same_stepwise hc.denotes.outputOk.1 r2 r4⟩

end

/-- C122: with all laws of arithmetic the steps give the Einstein sum. -/
theorem C122_agrees {A : Type} [CommSemiring A] (s : String) (operands : List (View A)) (inputs : List (List Char))
    (out : List Char) (dims : Char → Nat) (ts : List (List Nat → A)) (hc : Call s operands inputs out dims ts)
    (hn : NoEmptyDiagonal dims inputs) {σ : Char → Nat} (hσ : InRange dims out σ) :
    einsumSteps dims inputs ts out σ = Spec.einsum dims inputs ts out σ := by
  obtain ⟨r, r1, -, -, r2⟩ := C122_einsum HashOrd.insertion (Alloc.rowMajor A) s operands inputs out dims ts hc hn
  obtain ⟨r', r3, -, -, r4⟩ := C13_einsum HashOrd.insertion (Alloc.rowMajor A) s operands inputs out dims ts hc hn
  rw [r1] at r3
  cases r3
  have := (r2 σ hσ).symm.trans (r4 σ hσ)
  exact Except.ok.inj this

/-- Natural numbers up to `B`, with a mark for a value that left the range. -/
structure Spec.Unsigned (B : ℕ) where
  value : Option {n : ℕ // n ≤ B}
deriving DecidableEq

namespace Spec.Unsigned

variable {B : ℕ}

/-- A number, or the mark. -/
def of (B n : ℕ) : Unsigned B := if h : n ≤ B then ⟨some ⟨n, h⟩⟩ else ⟨none⟩

/-- An operation that stays marked if one of its arguments is. -/
def op (f : ℕ → ℕ → ℕ) (x y : Unsigned B) : Unsigned B :=
  match x.value, y.value with
  | some a, some b => of B (f a b)
  | _, _ => ⟨none⟩

instance : Zero (Unsigned B) := ⟨of B 0⟩
instance : Add (Unsigned B) := ⟨op (· + ·)⟩
instance : Mul (Unsigned B) := ⟨op (· * ·)⟩

end Spec.Unsigned

namespace Unsigned

variable {B : ℕ}

theorem add_def (x y : Unsigned B) : x + y = Unsigned.op (· + ·) x y := rfl

theorem cases_on (x : Unsigned B) : x = ⟨none⟩ ∨ ∃ n, n ≤ B ∧ x = Unsigned.of B n := by
  obtain ⟨_ | ⟨n, h⟩⟩ := x
  · exact .inl rfl
  · exact .inr ⟨n, h, by simp [Unsigned.of, h]⟩

theorem op_none_left (f : ℕ → ℕ → ℕ) (y : Unsigned B) : Unsigned.op f ⟨none⟩ y = ⟨none⟩ := rfl

theorem op_none_right (f : ℕ → ℕ → ℕ) (x : Unsigned B) : Unsigned.op f x ⟨none⟩ = ⟨none⟩ := by
  obtain ⟨_ | x⟩ := x <;> rfl

theorem of_none {n : ℕ} (h : ¬ n ≤ B) : Unsigned.of B n = ⟨none⟩ := dif_neg h

theorem op_of (f : ℕ → ℕ → ℕ) {a b : ℕ} (ha : a ≤ B) (hb : b ≤ B) :
    Unsigned.op f (Unsigned.of B a) (Unsigned.of B b) = Unsigned.of B (f a b) := by
  simp [Unsigned.of, Unsigned.op, ha, hb]

/-- The addition of natural numbers with overflow checks is associative. -/
instance : AddCommMonoid (Unsigned B) where
  add_assoc x y z := by
    simp only [add_def]
    obtain rfl | ⟨a, ha, rfl⟩ := cases_on x
    · rfl
    obtain rfl | ⟨b, hb, rfl⟩ := cases_on y
    · simp only [op_none_left, op_none_right]
    obtain rfl | ⟨c, hc, rfl⟩ := cases_on z
    · simp only [op_none_right]
    rw [op_of _ ha hb, op_of _ hb hc]
    by_cases h : a + b + c ≤ B
    · rw [op_of _ (by omega) hc, op_of _ ha (by omega), Nat.add_assoc]
    · have e1 : Unsigned.op (· + ·) (Unsigned.of B (a + b)) (Unsigned.of B c) = ⟨none⟩ := by
        by_cases h' : a + b ≤ B
        · rw [op_of _ h' hc, of_none h]
        · rw [of_none h', op_none_left]
      have e2 : Unsigned.op (· + ·) (Unsigned.of B a) (Unsigned.of B (b + c)) = ⟨none⟩ := by
        by_cases h' : b + c ≤ B
        · rw [op_of _ ha h', of_none (by omega)]
        · rw [of_none h', op_none_right]
      rw [e1, e2]
  zero_add x := by
    obtain rfl | ⟨a, ha, rfl⟩ := cases_on x
    · exact op_none_right _ _
    · exact (op_of _ (Nat.zero_le _) ha).trans (by rw [Nat.zero_add])
  add_zero x := by
    obtain rfl | ⟨a, ha, rfl⟩ := cases_on x
    · rfl
    · exact (op_of _ ha (Nat.zero_le _)).trans (by rw [Nat.add_zero])
  add_comm x y := by
    simp only [add_def]
    obtain rfl | ⟨a, ha, rfl⟩ := cases_on x
    · rw [op_none_left, op_none_right]
    obtain rfl | ⟨b, hb, rfl⟩ := cases_on y
    · rw [op_none_left, op_none_right]
    rw [op_of _ ha hb, op_of _ hb ha, Nat.add_comm]
  nsmul := nsmulRec

theorem absorbing : Absorbing fun x : Unsigned B => x.value = none := by
  have key : ∀ (f : ℕ → ℕ → ℕ) (x y : Unsigned B), x.value = none ∨ y.value = none → (Unsigned.op f x y).value = none := by
    rintro f ⟨x⟩ ⟨y⟩ (rfl | rfl)
    · rfl
    · rw [op_none_right]
  refine ⟨key _, key _, fun x y z h => ?_⟩
  rcases h with h | h | h
  · exact key (· + ·) _ _ (.inl (key (· * ·) _ _ (.inl h)))
  · exact key (· + ·) _ _ (.inl (key (· * ·) _ _ (.inr h)))
  · exact key (· + ·) _ _ (.inr h)

end Unsigned

/-- C122: for natural numbers with overflow checks the hash order, the memory layouts and the order of additions do not decide
whether an operation for the result left the range. -/
theorem C122_unsigned {B : ℕ} (h h₂ : HashOrd) (al al₂ : Alloc (Unsigned B)) (s : String) (operands operands₂ : List (View (Unsigned B)))
    (inputs : List (List Char)) (out : List Char) (dims : Char → Nat) (ts : List (List Nat → Unsigned B))
    (hc : Call s operands inputs out dims ts) (hc₂ : Call s operands₂ inputs out dims ts) (hn : NoEmptyDiagonal dims inputs) :
    ∃ r r₂, einsum h al s operands = .ok (.ok r) ∧ einsum h₂ al₂ s operands₂ = .ok (.ok r₂) ∧
      ∀ σ, InRange dims out σ → ∀ x x₂, r.read (out.map σ) = .ok x → r₂.read (out.map σ) = .ok x₂ →
        (x.value = none ↔ x₂.value = none) := by
  obtain ⟨r, r1, -, -, r2⟩ := C122_einsum h al s operands inputs out dims ts hc hn
  obtain ⟨r₂, r3, -, -, r4⟩ := C122_einsum h₂ al₂ s operands₂ inputs out dims ts hc₂ hn
  refine ⟨r, r₂, r1, r3, fun σ hσ x x₂ hx hx₂ => ?_⟩
  have e := hx.symm.trans (r2 σ hσ)
  have e₂ := hx₂.symm.trans (r4 σ hσ)
  rw [Except.ok.inj e, Except.ok.inj e₂]

/-- C122: if no axis is empty, an overflow in any intermediate array of a path reaches the result (C121), and whether the result
has one does not depend on the hash order or the order of additions; so neither does the panic. -/
theorem C122_panics {B : ℕ} (h h₂ : HashOrd) (al al₂ : UniformAlloc) (s : String) (operands : List (View (Unsigned B)))
    (inputs : List (List Char)) (out : List Char) (dims : Char → Nat) (ts : List (List Nat → Unsigned B))
    (hc : Call s operands inputs out dims ts) (h2 : 2 ≤ inputs.length) (h0 : ∀ c ∈ inputs.flatten, dims c ≠ 0)
    (m : OptimizationMethod) (p p₂ : EinsumPath)
    (hp : einsumPath h s operands m = .ok (.ok p)) (hp₂ : einsumPath h₂ s operands m = .ok (.ok p₂)) :
    ∃ (calls calls₂ : List TwoCall) (x r r₂ : View (Unsigned B)),
      p.contractOperands (al.alloc _) operands = .ok r ∧ foldCalls operands calls (al.alloc _) x = .ok r ∧
      p₂.contractOperands (al₂.alloc _) operands = .ok r₂ ∧ foldCalls operands calls₂ (al₂.alloc _) x = .ok r₂ ∧
      (∀ cs ds, calls = cs ++ ds → cs ≠ [] → ∃ z, foldCalls operands cs (al.alloc _) x = .ok z ∧
        (HasElement (fun y => y.value = none) z → HasElement (fun y => y.value = none) r)) ∧
      (∀ cs ds, calls₂ = cs ++ ds → cs ≠ [] → ∃ z, foldCalls operands cs (al₂.alloc _) x = .ok z ∧
        (HasElement (fun y => y.value = none) z → HasElement (fun y => y.value = none) r₂)) ∧
      (HasElement (fun y => y.value = none) r ↔ HasElement (fun y => y.value = none) r₂) := by
  have hw := elements_wf hc.elements
  have hn := noEmptyDiagonal_of h0
  obtain ⟨n, L, calls, x, r, a1, a2, -, a4, a5, a6, a7⟩ :=
    C121_reaches Unsigned.absorbing h al s operands inputs out dims m hc.denotes hc.sized hw h2 h0 p hp
  obtain ⟨n₂, L₂, calls₂, x₂, r₂, b1, b2, -, b4, b5, b6, b7⟩ :=
    C121_reaches Unsigned.absorbing h₂ al₂ s operands inputs out dims m hc.denotes hc.sized hw h2 h0 p₂ hp₂
  obtain ⟨en, -⟩ := List.cons.inj (a2.trans b2.symm)
  subst en
  rw [a4] at b4
  cases b4
  obtain ⟨w, w1, w2⟩ := path_value h (al.alloc _) s operands operands inputs out dims ts m hc.denotes hc.sized hc.sized hc.elements
    h2 hn p hp
  obtain ⟨w₂, w3, w4⟩ := path_value h₂ (al₂.alloc _) s operands operands inputs out dims ts m hc.denotes hc.sized hc.sized
    hc.elements h2 hn p₂ hp₂
  rw [a5] at w1
  rw [b5] at w3
  cases w1
  cases w3
  obtain ⟨-, -, s1, s2⟩ := same_stepwise hc.denotes.outputOk.1 w2 w4
  refine ⟨calls, calls₂, x, r, r₂, a5, a6, b5, b6, a7, b7, ?_⟩
  have hin : ∀ {v : View (Unsigned B)} {idx y}, v.read idx = .ok y → InB v.shape idx := by
    intro v idx y e
    by_contra hi
    rw [View.read, if_neg hi] at e
    cases e
  constructor
  · rintro ⟨idx, y, e, q⟩
    refine ⟨idx, y, ?_, q⟩
    rw [← s2 idx (hin e), e]
  · rintro ⟨idx, y, e, q⟩
    refine ⟨idx, y, ?_, q⟩
    rw [s2 idx (s1 ▸ hin e), e]

/-- C122: multiplication with overflow checks does not distribute over addition, nor is it associative: C01 does not apply. -/
theorem C122_lawless :
    (∃ x y z : Unsigned 255, x * (y + z) ≠ x * y + x * z) ∧ ∃ x y z : Unsigned 255, x * y * z ≠ x * (y * z) :=
  ⟨⟨.of _ 0, .of _ 200, .of _ 100, by decide +kernel⟩, .of _ 0, .of _ 100, .of _ 100, by decide +kernel⟩

namespace Ex

/-- Bytes, in row-major order. -/
def a122 (n : ℕ) : View (Unsigned 255) := ⟨[100, 100, 0, n].map (Unsigned.of 255), 0, [1, 2, 2, 1], [4, 2, 1, 1]⟩

def b122 : View (Unsigned 255) := ⟨[1, 1, 1, 1].map (Unsigned.of 255), 0, [1, 2, 2], [4, 2, 1]⟩

def dims122 (c : Char) : Nat := if c = 'x' ∨ c = 'k' then 1 else 2

theorem call122 (n : ℕ) : Call "xijk,xij->x" [a122 n, b122] [['x', 'i', 'j', 'k'], ['x', 'i', 'j']] ['x'] dims122
    [(a122 n).elem, b122.elem] where
  denotes := .inl ⟨by decide, ⟨by simp, by simp [Letter], by simp [Letter]⟩, by simp [OutputOk, Used]⟩
  sized := .cons rfl (.cons rfl .nil)
  elements := .cons (elements_of rfl (by
      intro idx hi
      rw [show allIdx (a122 n).shape = [[0, 0, 0, 0], [0, 0, 1, 0], [0, 1, 0, 0], [0, 1, 1, 0]] from rfl] at hi
      simp only [List.mem_cons, List.not_mem_nil, or_false] at hi
      rcases hi with rfl | rfl | rfl | rfl <;> rfl)) (.cons (elements_of rfl (by decide +kernel)) .nil)

theorem diag122 : NoEmptyDiagonal dims122 [['x', 'i', 'j', 'k'], ['x', 'i', 'j']] := fun L hL => .inl (by
  simp only [List.mem_cons, List.not_mem_nil, or_false] at hL
  rcases hL with rfl | rfl <;> decide)

end Ex

/-- For all hash orders and orders of additions, the sum of bytes overflows if and only if it exceeds 255. -/
example (h : HashOrd) (al : Alloc (Unsigned 255)) :
    ∃ r r', einsum h al "xijk,xij->x" [Ex.a122 55, Ex.b122] = .ok (.ok r) ∧ r.read [0] = .ok (.of _ 255) ∧
      einsum h al "xijk,xij->x" [Ex.a122 56, Ex.b122] = .ok (.ok r') ∧ r'.read [0] = .ok ⟨none⟩ := by
  obtain ⟨r, r1, -, -, r2⟩ := C122_einsum h al _ _ _ _ _ _ (Ex.call122 55) Ex.diag122
  obtain ⟨r', r3, -, -, r4⟩ := C122_einsum h al _ _ _ _ _ _ (Ex.call122 56) Ex.diag122
  have hσ : InRange Ex.dims122 ['x'] fun _ => 0 := by simp [InRange, Ex.dims122]
  exact ⟨r, r', r1, (r2 (fun _ => 0) hσ).trans (by decide +kernel), r3, (r4 (fun _ => 0) hσ).trans (by decide +kernel)⟩

example := C122_same HashOrd.insertion HashOrd.reversed (Alloc.rowMajor _) (Alloc.colMajor _) _ _ _ _ _ _ _ _ (Ex.call122 56)
  (Ex.call122 56) Ex.diag122

example := C122_unsigned HashOrd.insertion HashOrd.reversed (Alloc.rowMajor _) (Alloc.colMajor _) _ _ _ _ _ _ _ (Ex.call122 56)
  (Ex.call122 56) Ex.diag122

example (p : EinsumPath) (hp : einsumPath HashOrd.reversed "xijk,xij->x" [Ex.a122 56, Ex.b122] .naive = .ok (.ok p)) :=
  C122_naive HashOrd.reversed (Alloc.colMajor _) _ _ _ _ _ _ _ (Ex.call122 56).denotes (Ex.call122 56).sized
    (Ex.call122 56).sized (Ex.call122 56).elements (by decide) Ex.diag122 p hp

example (p : EinsumPath) (hp : einsumPath HashOrd.reversed "xijk,xij->x" [Ex.a122 56, Ex.b122] .reverse = .ok (.ok p)) :=
  C122_reverse HashOrd.reversed (Alloc.colMajor _) _ _ _ _ _ _ _ (Ex.call122 56).denotes (Ex.call122 56).sized
    (Ex.call122 56).sized (Ex.call122 56).elements (by decide) Ex.diag122 p hp

example (p p₂ : EinsumPath) (hp : einsumPath HashOrd.reversed "xijk,xij->x" [Ex.a122 56, Ex.b122] .naive = .ok (.ok p))
    (hp₂ : einsumPath HashOrd.insertion "xijk,xij->x" [Ex.a122 56, Ex.b122] .naive = .ok (.ok p₂)) :=
  C122_panics HashOrd.reversed HashOrd.insertion UniformAlloc.colMajor UniformAlloc.rowMajor _ _ _ _ _ _ (Ex.call122 56)
    (by decide) (by decide) .naive p p₂ hp hp₂

example {σ : Char → Nat} (hσ : InRange Ex.dims ['i', 'k'] σ) :=
  C122_agrees _ _ _ _ _ _ Ex.call_matmul Ex.ned_matmul hσ

end Einsum
