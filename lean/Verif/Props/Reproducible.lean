import Verif.Props.OneOperand
import Verif.Props.Findings

/-!
# Property C86: when the result does not depend on the hash order
-/

namespace Einsum

open Spec Function

theorem settled_congr {L L₂ : List Char} {rest : List (List Char)} {out : List Char} (h : ∀ c, c ∈ L ↔ c ∈ L₂)
    (hs : Settled false L rest out) : Settled false L₂ rest out := by
  induction rest generalizing L L₂ with
  | nil => trivial
  | cons R rest ih =>
    obtain ⟨h1, h2⟩ := hs
    refine ⟨?_, ih (fun c => by simp [h]) h2⟩
    rcases h1 with h1 | h1 | h1
    · exact .inl fun c hc => h1 c ((h c).2 hc)
    · exact .inr (.inl fun c hc d hd => h1 c ((h c).2 hc) d ((h d).2 hd))
    · exact absurd h1.1 (by simp)

/-- The positions `f c i` in place of the positions `i`. -/
abbrev sel (f : Char → Nat → Nat) (σ : Char → Nat) : Char → Nat := fun c => f c (σ c)

theorem sel_update {f : Char → Nat → Nat} {c : Char} (h : ∀ i, f c i = i) (σ : Char → Nat) (k : Nat) :
    sel f (update σ c k) = update (sel f σ) c k := by
  funext d
  by_cases hd : d = c
  · subst hd
    simp [h]
  · simp [sel, hd]

section
variable {L R o L₂ R₂ o₂ : List Char} {dims dims₂ : Char → Nat} {f : Char → Nat → Nat} {A : Type} [Zero A] [Add A] [Mul A] [MulAdd A]
  {F G : (Char → Nat) → A}

omit [Mul A] [MulAdd A] in
theorem inTurn_sel {t : Nat → SumTree} {b : List Char} (hb : ∀ c ∈ b, dims₂ c = dims c ∧ ∀ i, f c i = i) (F : (Char → Nat) → A) :
    inTurn t dims₂ b (fun σ => F (sel f σ)) = fun σ => inTurn t dims b F (sel f σ) := by
  induction b generalizing F with
  | nil => rfl
  | cons c b ih =>
    obtain ⟨e1, e2⟩ := hb c (by simp)
    rw [inTurn, inTurn, ← ih fun d hd => hb d (by simp [hd])]
    simp only [sel_update e2, e1]

theorem cells_sel {C : List Char} (hC : ∀ c ∈ C, dims₂ c = dims c ∧ ∀ i, f c i = i) (σ : Char → Nat) :
    (cells dims₂ C σ).map (sel f) = cells dims C (sel f σ) := by
  induction C generalizing σ with
  | nil => rfl
  | cons c C ih =>
    obtain ⟨e1, e2⟩ := hC c (by simp)
    rw [cells, cells, List.map_flatMap, e1]
    simp only [ih fun d hd => hC d (by simp [hd]), sel_update e2]

theorem product_sel {t : Nat → SumTree} {C : List Char} (hC : ∀ c ∈ C, dims₂ c = dims c ∧ ∀ i, f c i = i) (σ : Char → Nat) :
    product (t (C.map dims₂).prod) dims₂ C (fun σ => F (sel f σ)) (fun σ => G (sel f σ)) σ =
      product (t (C.map dims).prod) dims C F G (sel f σ) := by
  unfold product
  rw [← cells_sel hC, List.map_map, List.map_congr_left fun c hc => (hC c hc).1]
  rfl

omit [Zero A] in
theorem product_congr [Zero A] {t : SumTree} {C : List Char} {F' G' : (Char → Nat) → A} {σ : Char → Nat} (hn : C.Nodup)
    (h : ∀ τ, (∀ c ∈ C, τ c < dims c) → (∀ c, c ∉ C → τ c = σ c) → F τ = F' τ ∧ G τ = G' τ) :
    product t dims C F G σ = product t dims C F' G' σ := by
  unfold product
  congr 1
  refine List.map_congr_left fun τ hτ => ?_
  obtain ⟨h1, h2⟩ := mem_cells hτ hn
  obtain ⟨e1, e2⟩ := h τ h2 h1
  rw [e1, e2]

/-- Two calls for one operand, with the output letters in different orders. -/
theorem one_two (ho : OutputOk [L] o) (hoo : o.Perm o₂) (hf : ∀ c ∈ L, c ∉ o → dims₂ c = dims c ∧ ∀ i, f c i = i)
    (hp : L.Nodup ∨ ∀ c ∈ L, dims c ≠ 0) (hp₂ : L.Nodup ∨ ∀ c ∈ L, dims₂ c ≠ 0) (h h₂ : HashOrd)
    {al al₂ : Alloc A} {t : Nat → SumTree} (ht : ∀ p n, al.sumOrder p n = t n) (ht₂ : ∀ p n, al₂.sumOrder p n = t n)
    {v v₂ : View A} (hv : Rep v L dims F) (wv : v.Wf) (hv₂ : Rep v₂ L dims₂ fun σ => F (sel f σ)) (wv₂ : v₂.Wf) :
    ∃ w w₂ H, (callSC [L] o dims).contractOperands h al [v] = .ok w ∧
      (callSC [L] o₂ dims₂).contractOperands h₂ al₂ [v₂] = .ok w₂ ∧ Rep w o dims H ∧ Rep w₂ o₂ dims₂ fun σ => H (sel f σ) := by
  have ho₂ : OutputOk [L] o₂ := ⟨hoo.nodup_iff.1 ho.1, fun c hc => ho.2 c (hoo.mem_iff.2 hc)⟩
  obtain ⟨p, p1, p2⟩ := singletonT (callSC_valid (dims := dims) ho) (L := L) rfl
  obtain ⟨q, q1, q2⟩ := singletonT (callSC_valid (dims := dims₂) ho₂) (L := L) rfl
  obtain ⟨w, w1, w2⟩ := p2 A al v _ hv wv (hp.imp_right prod_dims_pos)
  obtain ⟨w₂, w3, w4⟩ := q2 A al₂ v₂ _ hv₂ wv₂ (hp₂.imp_right prod_dims_pos)
  change Rep w o dims (sums dims o (fresh o L) _ F) at w2
  change Rep w₂ o₂ dims₂ (sums dims₂ o₂ (fresh o₂ L) _ fun σ => F (sel f σ)) at w4
  rw [sums_inTurn (t := t) _ _ (by split <;> simp [Alloc.sub, ht])] at w2
  rw [sums_inTurn (t := t) _ _ (by split <;> simp [Alloc.sub, ht₂]),
    ← fresh_congr (s := o) (s' := o₂) fun c _ => hoo.mem_iff,
    inTurn_sel (dims := dims) fun c hc => hf c (mem_fresh.1 hc).1 (mem_fresh.1 hc).2] at w4
  exact ⟨w, w₂, _, by rw [one_run ho p1, w1], by rw [one_run ho₂ q1, w3], w2, w4⟩

/-- Two calls for two operands, reduced, with the letters in different orders. -/
theorem reduced_two (ho : OutputOk [L, R] o) (hr : Reduced L R o) (hL : L.Perm L₂) (hR : R.Perm R₂) (hoo : o.Perm o₂)
    (hf : ∀ c ∈ L, c ∉ o → dims₂ c = dims c ∧ ∀ i, f c i = i)
    (hc : (∀ c ∈ L, c ∈ R → c ∉ o) ∨ (∀ c ∈ L, ∀ d ∈ L, c ∉ o → d ∉ o → c = d) ∨ L₂ = L) (h h₂ : HashOrd)
    {al al₂ : Alloc A} {t : Nat → SumTree} (ht : ∀ p n, al.sumOrder p n = t n) (ht₂ : ∀ p n, al₂.sumOrder p n = t n)
    {l l₂ r r₂ : View A} (hl : Rep l L dims F) (hl₂ : Rep l₂ L₂ dims₂ fun σ => F (sel f σ)) (hr' : Rep r R dims G)
    (hr₂ : Rep r₂ R₂ dims₂ fun σ => G (sel f σ)) :
    ∃ w w₂ H, (callSC [L, R] o dims).contractOperands h al [l, r] = .ok w ∧
      (callSC [L₂, R₂] o₂ dims₂).contractOperands h₂ al₂ [l₂, r₂] = .ok w₂ ∧ Rep w o dims H ∧
      Rep w₂ o₂ dims₂ fun σ => H (sel f σ) := by
  have ho₂ : OutputOk [L₂, R₂] o₂ := ⟨hoo.nodup_iff.1 ho.1, fun c hc => used_iff.2 (by
    have := used_iff.1 (ho.2 c (hoo.mem_iff.2 hc))
    simpa [hL.mem_iff, hR.mem_iff] using this)⟩
  have hr2 : Reduced L₂ R₂ o₂ := ⟨hL.nodup_iff.1 hr.left, hR.nodup_iff.1 hr.right,
    fun c hc => by rw [← hR.mem_iff, ← hoo.mem_iff]; exact hr.leftNeeded c (hL.mem_iff.2 hc),
    fun c hc => by rw [← hL.mem_iff, ← hoo.mem_iff]; exact hr.rightNeeded c (hR.mem_iff.2 hc)⟩
  have el := (hl.holds hr.left).elements
  have el₂ := (hl₂.holds hr2.left).elements
  have er := (hr'.holds hr.right).elements
  have er₂ := (hr₂.holds hr2.right).elements
  -- the products for a list of contracted letters
  have fin : ∀ {X Y Z : List Char} {x y w : View A} {al : Alloc A} {C : List Char} {p : (Char → Nat) → List Nat}
      {dims : Char → Nat} {F G : (Char → Nat) → A}, Rep x X dims F → Rep y Y dims G → (∀ p n, al.sumOrder p n = t n) → C.Nodup → (∀ c ∈ X, c ∈ Z ∨ c ∈ C) →
      (∀ c ∈ Y, c ∈ Z ∨ c ∈ C) →
      Rep w Z dims (fun σ => product (al.sumOrder (p σ) (C.map dims).prod) dims C (fun τ => F (assign X (X.map τ)))
        (fun τ => G (assign Y (Y.map τ))) σ) →
      Rep w Z dims (fun σ => product (t (C.map dims).prod) dims C F G σ) := by
    intro X Y Z x y w al C p dims F G hx hy ha hn h1 h2 hw
    refine hw.congr fun σ hσ => ?_
    rw [ha]
    refine product_congr hn fun τ t1 t2 => ⟨hx.agree_assign fun c hc => ?_, hy.agree_assign fun c hc => ?_⟩
    · by_cases hcC : c ∈ C
      · exact t1 c hcC
      · rw [t2 c hcC]
        exact hσ c ((h1 c hc).resolve_right hcC)
    · by_cases hcC : c ∈ C
      · exact t1 c hcC
      · rw [t2 c hcC]
        exact hσ c ((h2 c hc).resolve_right hcC)
  by_cases c1 : (∀ c ∈ L, c ∈ R ∧ c ∈ o) ∧ ∀ c ∈ R, c ∈ L ∧ c ∈ o
  · obtain ⟨w, w1, w2⟩ := C84_product ho hr c1.1 c1.2 h al el er hl.shape hr'.shape
    obtain ⟨w₂, w3, w4⟩ := C84_product ho₂ hr2
      (fun c hc => by rw [← hR.mem_iff, ← hoo.mem_iff]; exact c1.1 c (hL.mem_iff.2 hc))
      (fun c hc => by rw [← hL.mem_iff, ← hoo.mem_iff]; exact c1.2 c (hR.mem_iff.2 hc)) h₂ al₂ el₂ er₂ hl₂.shape hr₂.shape
    refine ⟨w, w₂, fun σ => F σ * G σ, w1, w3, w2.congr fun σ hσ => ?_, w4.congr fun σ hσ => ?_⟩
    · rw [hl.agree_assign fun c hc => hσ c (c1.1 c hc).2, hr'.agree_assign fun c hc => hσ c (c1.2 c hc).2]
    · rw [hl₂.agree_assign fun c hc => hσ c (hoo.mem_iff.1 (c1.1 c (hL.mem_iff.2 hc)).2),
        hr₂.agree_assign fun c hc => hσ c (hoo.mem_iff.1 (c1.2 c (hR.mem_iff.2 hc)).2)]
  by_cases c2 : L = []
  · subst c2
    have e2 : L₂ = [] := hL.nil_eq.symm
    subst e2
    have c3 : R ≠ [] := by rintro rfl; simp at c1
    obtain ⟨w, w1, w2⟩ := C84_scalar_left ho hr c3 h al el er hl.shape hr'.shape
    obtain ⟨w₂, w3, w4⟩ := C84_scalar_left ho₂ hr2 (fun e => c3 (by subst e; exact hR.eq_nil)) h₂ al₂ el₂ er₂ hl₂.shape hr₂.shape
    have a : ∀ σ, F (assign [] []) = F σ := fun σ => hl.agree_assign (σ := σ) (by simp [InRange])
    have a₂ : ∀ σ, F (sel f (assign [] [])) = F (sel f σ) := fun σ => hl₂.agree_assign (σ := σ) (by simp [InRange])
    have m : ∀ c ∈ R, c ∈ o := fun c hc => (hr.rightNeeded c hc).resolve_left (by simp)
    refine ⟨w, w₂, fun σ => G σ * F σ, w1, w3, w2.congr fun σ hσ => ?_, w4.congr fun σ hσ => ?_⟩
    · rw [hr'.agree_assign fun c hc => hσ c (m c hc), a σ]
    · rw [hr₂.agree_assign fun c hc => hσ c (hoo.mem_iff.1 (m c (hR.mem_iff.2 hc))), a₂ σ]
  by_cases c3 : R = []
  · subst c3
    have e2 : R₂ = [] := hR.nil_eq.symm
    subst e2
    obtain ⟨w, w1, w2⟩ := C84_scalar_right ho hr c2 h al el er hl.shape hr'.shape
    obtain ⟨w₂, w3, w4⟩ := C84_scalar_right ho₂ hr2 (fun e => c2 (by subst e; exact hL.eq_nil)) h₂ al₂ el₂ er₂ hl₂.shape hr₂.shape
    have a : ∀ σ, G (assign [] []) = G σ := fun σ => hr'.agree_assign (σ := σ) (by simp [InRange])
    have a₂ : ∀ σ, G (sel f (assign [] [])) = G (sel f σ) := fun σ => hr₂.agree_assign (σ := σ) (by simp [InRange])
    have m : ∀ c ∈ L, c ∈ o := fun c hc => (hr.leftNeeded c hc).resolve_left (by simp)
    refine ⟨w, w₂, fun σ => F σ * G σ, w1, w3, w2.congr fun σ hσ => ?_, w4.congr fun σ hσ => ?_⟩
    · rw [hl.agree_assign fun c hc => hσ c (m c hc), a σ]
    · rw [hl₂.agree_assign fun c hc => hσ c (hoo.mem_iff.1 (m c (hL.mem_iff.2 hc))), a₂ σ]
  have c2' : L₂ ≠ [] := fun e => c2 (by subst e; exact hL.eq_nil)
  have c3' : R₂ ≠ [] := fun e => c3 (by subst e; exact hR.eq_nil)
  by_cases c4 : ∀ c ∈ L, c ∈ R → c ∉ o
  · -- alphabetical order of the contracted letters
    obtain ⟨C, C1, C2⟩ : ∃ C : List Char, C.Pairwise (· < ·) ∧ ∀ c, c ∈ C ↔ c ∈ L ∧ c ∈ R := by
      obtain ⟨op, e1, -⟩ := reduced_run (dims := dims) ho hr
      obtain ⟨D, ⟨d1, d2, d3, d4, d5, d6, d7⟩, -⟩ := tensordotGeneral_new (callSC_valid (dims := dims) ho) rfl hr.left hr.right
        hr.leftNeeded hr.rightNeeded c4
      exact ⟨D, d1, fun c => ⟨fun hc => ⟨d4 c hc, d5 c hc⟩, fun hc => (d3 c).2 ⟨.inl hc.1, c4 c hc.1 hc.2⟩⟩⟩
    obtain ⟨w, w1, w2⟩ := C84_contraction ho hr c2 c3 c4 C C1 C2 h al el er hl.shape hr'.shape
    obtain ⟨w₂, w3, w4⟩ := C84_contraction ho₂ hr2 c2' c3'
      (fun c hc hc' => by rw [← hoo.mem_iff]; exact c4 c (hL.mem_iff.2 hc) (hR.mem_iff.2 hc')) C C1
      (fun c => by rw [C2, hL.mem_iff, hR.mem_iff]) h₂ al₂ el₂ er₂ hl₂.shape hr₂.shape
    have hn : C.Nodup := C1.imp fun h => ne_of_lt h
    refine ⟨w, w₂, _, w1, w3, fin hl hr' ht hn ?_ ?_ w2, (fin hl₂ hr₂ ht₂ hn ?_ ?_ w4).congr fun σ _ =>
      product_sel (fun c hc => hf c ((C2 c).1 hc).1 (c4 c ((C2 c).1 hc).1 ((C2 c).1 hc).2)) σ⟩
    · intro c hc
      have := hr.leftNeeded c hc
      rw [C2]; tauto
    · intro c hc
      have := hr.rightNeeded c hc
      rw [C2]; tauto
    · intro c hc
      have := hr2.leftNeeded c hc
      rw [C2, hL.mem_iff, hR.mem_iff]; tauto
    · intro c hc
      have := hr2.rightNeeded c hc
      rw [C2, hL.mem_iff, hR.mem_iff]; tauto
  · have c4' : ∃ c ∈ L, c ∈ R ∧ c ∈ o := by
      by_contra hx
      exact c4 fun c hc hc' hco => hx ⟨c, hc, hc', hco⟩
    have c5 : (∃ c ∈ L, ¬ (c ∈ R ∧ c ∈ o)) ∨ ∃ c ∈ R, ¬ (c ∈ L ∧ c ∈ o) := by
      by_contra hx
      simp only [not_or, not_exists, not_and] at hx
      exact c1 ⟨fun c hc => by have := hx.1 c hc; tauto, fun c hc => by have := hx.2 c hc; tauto⟩
    have e : (L₂.filter fun c => c ∉ o₂) = L.filter fun c => c ∉ o := by
      have e0 : (L₂.filter fun c => c ∉ o₂) = L₂.filter fun c => c ∉ o := List.filter_congr fun c _ => by simp [hoo.mem_iff]
      rw [e0]
      rcases hc with hc | hc | hc
      · exact absurd hc c4
      · have p : (L.filter fun c => c ∉ o).Perm (L₂.filter fun c => c ∉ o) := hL.filter _
        have n : (L.filter fun c => c ∉ o).Nodup := hr.left.filter _
        have m : ∀ c ∈ L.filter (fun c => c ∉ o), ∀ d ∈ L.filter (fun c => c ∉ o), c = d := fun c hc' d hd => by
          simp only [List.mem_filter, decide_eq_true_eq] at hc' hd
          exact hc c hc'.1 d hd.1 hc'.2 hd.2
        generalize (L.filter fun c => c ∉ o) = X at p n m
        cases X with
        | nil => exact p.nil_eq.symm
        | cons a X =>
          cases X with
          | nil => exact (List.perm_singleton.1 p.symm)
          | cons b X =>
            have := m a (by simp) b (by simp)
            simp [this] at n
      · rw [hc]
    obtain ⟨w, w1, w2⟩ := C84_stack ho hr c4' c5 h al el er hl.shape hr'.shape
    obtain ⟨w₂, w3, w4⟩ := C84_stack ho₂ hr2
      (by simpa [hL.mem_iff, hR.mem_iff, hoo.mem_iff] using c4')
      (by simpa only [hL.mem_iff, hR.mem_iff, hoo.mem_iff] using c5) h₂ al₂ el₂ er₂ hl₂.shape hr₂.shape
    rw [e] at w4
    have hn : (L.filter fun c => c ∉ o).Nodup := hr.left.filter _
    refine ⟨w, w₂, _, w1, w3, fin hl hr' ht hn ?_ ?_ w2, (fin hl₂ hr₂ ht₂ hn ?_ ?_ w4).congr fun σ _ =>
      product_sel (fun c hc => hf c (List.mem_filter.1 hc).1 (by simpa using (List.mem_filter.1 hc).2)) σ⟩
    all_goals intro c hc
    · exact (em (c ∈ o)).imp_right fun hco => List.mem_filter.2 ⟨hc, by simpa using hco⟩
    · exact (em (c ∈ o)).imp_right fun hco => List.mem_filter.2 ⟨(hr.rightNeeded c hc).resolve_right hco, by simpa using hco⟩
    · exact (em (c ∈ o₂)).imp_right fun hco => List.mem_filter.2 ⟨hL.mem_iff.2 hc, by simpa [hoo.mem_iff] using hco⟩
    · exact (em (c ∈ o₂)).imp_right fun hco => List.mem_filter.2 ⟨hL.mem_iff.2 ((hr2.rightNeeded c hc).resolve_right hco),
        by simpa [hoo.mem_iff] using hco⟩

/-- A call for two operands: the operands are reduced, then contracted by a reduced call. -/
theorem pair_run (ho : OutputOk [L, R] o) (h : HashOrd) :
    ∃ (L' R' : List Char) (h' : HashOrd),
      L'.Nodup ∧ (∀ x, x ∈ L' ↔ x ∈ L ∧ (x ∈ R ∨ x ∈ o)) ∧ (¬ NeedsSimplification L R o → L' = L) ∧
      R'.Nodup ∧ (∀ x, x ∈ R' ↔ x ∈ R ∧ (x ∈ L ∨ x ∈ o)) ∧ (¬ NeedsSimplification R L o → R' = R) ∧
      OutputOk [L', R'] o ∧ Reduced L' R' o ∧
      ∀ (A : Type) [Zero A] [Add A] [Mul A] [MulAdd A] (k : HashOrd) (al : Alloc A) (l r : View A),
        (callSC [L, R] o dims).contractOperands h al [l, r] =
          (if NeedsSimplification L R o then (callSC [L] L' dims).contractOperands k ((al.sub 0).sub 0) [l] else .ok l) >>= fun l' =>
          (if NeedsSimplification R L o then (callSC [R] R' dims).contractOperands k ((al.sub 0).sub 1) [r] else .ok r) >>= fun r' =>
          (callSC [L', R'] o dims).contractOperands h' al [l', r'] := by
  obtain ⟨c, hc, -⟩ := pair_parts (callSC_valid (dims := dims) ho) rfl ((h.sub 1).sub 0)
  obtain ⟨L', R', c', a1, a2, a3, b1, b2, b3, ho', hc', -, -, -, -, hrun⟩ := C84_pair ho _ c hc
  obtain ⟨h', hh⟩ := C83_call ho' _ c' hc'
  refine ⟨L', R', h', a1, a2, a3, b1, b2, b3, ho', ⟨a1, b1, fun x hx => ?_, fun x hx => ?_⟩, fun A _ _ _ _ k al l r => ?_⟩
  · rw [b2]; have := (a2 x).1 hx; tauto
  · rw [a2]; have := (b2 x).1 hx; tauto
  · have e : (callSC [L, R] o dims).contractOperands h al [l, r] = c.run (al.sub 0) l r := by
      unfold SizedContraction.contractOperands
      rw [new_two _ ho]
      show (do let path ← (PairContraction.new _ _).map _; _) = _
      rw [hc]
      exact contract_two
    rw [e, hrun A k]
    simp only [hh]

/-- Two calls for two operands, with different hash orders. -/
theorem pair_two (ho : OutputOk [L, R] o) (hL : L₂ = L ∨ L.Perm L₂ ∧ ¬ NeedsSimplification L R o) (hoo : o.Perm o₂)
    (hc : (∀ c ∈ L, c ∈ R → c ∉ o) ∨ (∀ c ∈ L, ∀ d ∈ L, c ∈ R → d ∈ R → c ∉ o → d ∉ o → c = d) ∨
      L₂ = L ∧ ¬ NeedsSimplification L R o)
    (hf : ∀ c, c ∈ L ∨ c ∈ R → c ∉ o → dims₂ c = dims c ∧ ∀ i, f c i = i)
    (hpL : L.Nodup ∨ ∀ c ∈ L, dims c ≠ 0) (hpR : R.Nodup ∨ ∀ c ∈ R, dims c ≠ 0)
    (hpL₂ : L.Nodup ∨ ∀ c ∈ L, dims₂ c ≠ 0) (hpR₂ : R.Nodup ∨ ∀ c ∈ R, dims₂ c ≠ 0) (h h₂ : HashOrd)
    {al al₂ : Alloc A} {t : Nat → SumTree} (ht : ∀ p n, al.sumOrder p n = t n) (ht₂ : ∀ p n, al₂.sumOrder p n = t n)
    {l l₂ r r₂ : View A} (hl : Rep l L dims F) (hl₂ : Rep l₂ L₂ dims₂ fun σ => F (sel f σ)) (hr : Rep r R dims G)
    (hr₂ : Rep r₂ R dims₂ fun σ => G (sel f σ)) (wl : l.Wf) (wl₂ : l₂.Wf) (wr : r.Wf) (wr₂ : r₂.Wf) :
    ∃ w w₂ H, (callSC [L, R] o dims).contractOperands h al [l, r] = .ok w ∧
      (callSC [L₂, R] o₂ dims₂).contractOperands h₂ al₂ [l₂, r₂] = .ok w₂ ∧ Rep w o dims H ∧
      Rep w₂ o₂ dims₂ fun σ => H (sel f σ) := by
  have hLp : L.Perm L₂ := hL.elim (fun e => e ▸ .refl _) And.left
  have ho₂ : OutputOk [L₂, R] o₂ := ⟨hoo.nodup_iff.1 ho.1, fun c hc => used_iff.2 (by
    have := used_iff.1 (ho.2 c (hoo.mem_iff.2 hc))
    simpa [hLp.mem_iff] using this)⟩
  have nL : NeedsSimplification L₂ R o₂ ↔ NeedsSimplification L R o := by
    unfold NeedsSimplification
    simp only [hLp.mem_iff, hoo.mem_iff, hLp.nodup_iff]
  have nR : NeedsSimplification R L₂ o₂ ↔ NeedsSimplification R L o := by
    unfold NeedsSimplification
    simp only [hLp.mem_iff, hoo.mem_iff]
  obtain ⟨L', R', k, a1, a2, a3, b1, b2, b3, ho', hr', hrun⟩ := pair_run (dims := dims) ho h
  obtain ⟨L₂', R₂', k₂, a1', a2', a3', b1', b2', b3', -, -, hrun'⟩ := pair_run (dims := dims₂) ho₂ h₂
  have pL : L'.Perm L₂' := perm_of_nodup a1 a1' fun c => by rw [a2, a2', hLp.mem_iff, hoo.mem_iff]
  have pR : R'.Perm R₂' := perm_of_nodup b1 b1' fun c => by rw [b2, b2', hLp.mem_iff, hoo.mem_iff]
  have oL : OutputOk [L] L' := ⟨a1, fun c hc => used_iff.2 (by simpa using ((a2 c).1 hc).1)⟩
  have oR : OutputOk [R] R' := ⟨b1, fun c hc => used_iff.2 (by simpa using ((b2 c).1 hc).1)⟩
  obtain ⟨x, x₂, X, x1, x2, x3, x4⟩ : ∃ x x₂ X,
      (if NeedsSimplification L R o then (callSC [L] L' dims).contractOperands h ((al.sub 0).sub 0) [l] else .ok l) = .ok x ∧
      (if NeedsSimplification L₂ R o₂ then (callSC [L₂] L₂' dims₂).contractOperands h ((al₂.sub 0).sub 0) [l₂] else .ok l₂) = .ok x₂ ∧
      Rep x L' dims X ∧ Rep x₂ L₂' dims₂ fun σ => X (sel f σ) := by
    by_cases hN : NeedsSimplification L R o
    · rw [if_pos hN, if_pos (nL.2 hN)]
      obtain rfl := hL.resolve_right fun e => e.2 hN
      exact one_two oL pL (fun c hc hc' => hf c (.inl hc) fun hco => hc' ((a2 c).2 ⟨hc, .inr hco⟩)) hpL hpL₂ h h (al := (al.sub 0).sub 0) (al₂ := (al₂.sub 0).sub 0) (fun p n => ht (0 :: 0 :: p) n)
        (fun p n => ht₂ (0 :: 0 :: p) n) hl wl hl₂ wl₂
    · rw [if_neg hN, if_neg (mt nL.1 hN), a3 hN, a3' (mt nL.1 hN)]
      exact ⟨l, l₂, F, rfl, rfl, hl, hl₂⟩
  obtain ⟨y, y₂, Y, y1, y2, y3, y4⟩ : ∃ y y₂ Y,
      (if NeedsSimplification R L o then (callSC [R] R' dims).contractOperands h ((al.sub 0).sub 1) [r] else .ok r) = .ok y ∧
      (if NeedsSimplification R L₂ o₂ then (callSC [R] R₂' dims₂).contractOperands h ((al₂.sub 0).sub 1) [r₂] else .ok r₂) = .ok y₂ ∧
      Rep y R' dims Y ∧ Rep y₂ R₂' dims₂ fun σ => Y (sel f σ) := by
    by_cases hN : NeedsSimplification R L o
    · rw [if_pos hN, if_pos (nR.2 hN)]
      exact one_two oR pR (fun c hc hc' => hf c (.inr hc) fun hco => hc' ((b2 c).2 ⟨hc, .inr hco⟩)) hpR hpR₂ h h (al := (al.sub 0).sub 1) (al₂ := (al₂.sub 0).sub 1) (fun p n => ht (0 :: 1 :: p) n)
        (fun p n => ht₂ (0 :: 1 :: p) n) hr wr hr₂ wr₂
    · rw [if_neg hN, if_neg (mt nR.1 hN), b3 hN, b3' (mt nR.1 hN)]
      exact ⟨r, r₂, G, rfl, rfl, hr, hr₂⟩
  obtain ⟨w, w₂, H, w1, w2, w3, w4⟩ := reduced_two ho' hr' pL pR hoo
    (fun c hc hc' => hf c (.inl ((a2 c).1 hc).1) hc') (by
    rcases hc with hc | hc | hc
    · exact .inl fun c h1 h2 => hc c ((a2 c).1 h1).1 ((b2 c).1 h2).1
    · refine .inr (.inl fun c h1 d h2 h3 h4 => hc c ((a2 c).1 h1).1 d ((a2 d).1 h2).1 ?_ ?_ h3 h4)
      · exact ((a2 c).1 h1).2.resolve_right h3
      · exact ((a2 d).1 h2).2.resolve_right h4
    · exact .inr (.inr (by rw [a3 hc.2, a3' (mt nL.1 hc.2), hc.1]))) k k₂ ht ht₂ x3 x4 y3 y4
  refine ⟨w, w₂, H, ?_, ?_, w3, w4⟩
  · rw [hrun A h, x1, bind_ok, y1, bind_ok, w1]
  · rw [hrun' A h, x2, bind_ok, y2, bind_ok, w2]

end

/-- Two runs of the loop, with different hash orders. -/
theorem fold_two {A : Type} [Zero A] [Add A] [Mul A] [MulAdd A] {dims dims₂ : Char → Nat} {f : Char → Nat → Nat}
    {inputs : List (List Char)} {out : List Char} {operands operands₂ : List (View A)}
    (hop : ∀ n R, inputs[n]? = some R → ∃ y y₂ G, index operands n = .ok y ∧ index operands₂ n = .ok y₂ ∧ Rep y R dims G ∧
      (Rep y₂ R dims₂ fun σ => G (sel f σ)) ∧ y.Wf ∧ y₂.Wf)
    (hsel : ∀ c, c ∉ out → dims₂ c = dims c ∧ ∀ i, f c i = i)
    (hdiag : NoEmptyDiagonal dims inputs) (hdiag₂ : NoEmptyDiagonal dims₂ inputs) {t : Nat → SumTree} (rest : List (List Char)) :
    ∀ (first : Bool) (calls calls₂ : List TwoCall) (L L₂ : List Char) (x x₂ : View A) (F : (Char → Nat) → A) (al al₂ : Alloc A),
      List.Forall₂ (fun R n => inputs[n]? = some R) rest (calls.map TwoCall.operand) →
      calls₂.map TwoCall.operand = calls.map TwoCall.operand → Linked dims inputs L calls out → Linked dims₂ inputs L₂ calls₂ out →
      Settled first L rest out → (first = true → L₂ = L) →
      (first = false → L.Perm L₂ ∧ L.Nodup ∧ ∀ c ∈ L, c ∈ rest.flatten ++ out) → (L.Nodup ∨ ∀ c ∈ L, dims c ≠ 0) →
      (L.Nodup ∨ ∀ c ∈ L, dims₂ c ≠ 0) → Rep x L dims F → (Rep x₂ L₂ dims₂ fun σ => F (sel f σ)) → x.Wf → x₂.Wf → (∀ p n, al.sumOrder p n = t n) → (∀ p n, al₂.sumOrder p n = t n) →
      ∃ w w₂ H, foldCalls operands calls al x = .ok w ∧ foldCalls operands₂ calls₂ al₂ x₂ = .ok w₂ ∧
        Rep w out dims H ∧ Rep w₂ out dims₂ fun σ => H (sel f σ) := by
  induction rest with
  | nil =>
    intro first calls calls₂ L L₂ x x₂ F al al₂ hf he hl hl₂ _ _ _ _ _ hx hx₂ _ _ _ _
    cases calls with
    | cons c cs => cases hf
    | nil =>
      cases calls₂ with
      | cons c cs => simp at he
      | nil =>
        change L = out at hl
        change L₂ = out at hl₂
        subst hl
        subst hl₂
        exact ⟨x, x₂, F, rfl, rfl, hx, hx₂⟩
  | cons R rest ih =>
    intro first calls calls₂ L L₂ x x₂ F al al₂ hf he hl hl₂ hset h1 h2 hp hp₂ hx hx₂ wx wx₂ ht ht₂
    cases calls with
    | nil => cases hf
    | cons c cs =>
    cases calls₂ with
    | nil => simp at he
    | cons c₂ cs₂ =>
    rw [List.map_cons, List.map_cons] at he
    obtain ⟨he1, he2⟩ := List.cons.inj he
    obtain ⟨hR, hf⟩ := List.forall₂_cons.1 (by simpa only [List.map_cons] using hf)
    obtain ⟨R', o, r1, ho, r2, r3, r4⟩ := hl
    obtain ⟨R'', o₂, s1, ho₂, s2, s3, s4⟩ := hl₂
    rw [hR] at r1
    cases r1
    rw [he1, hR] at s1
    cases s1
    have hLp : L.Perm L₂ := by
      cases first with
      | true => rw [h1 rfl]
      | false => exact (h2 rfl).1
    have later : ∀ (ds : List TwoCall), ds.map TwoCall.operand = cs.map TwoCall.operand → ∀ x,
        (∃ d ∈ ds, ∃ S, inputs[d.operand]? = some S ∧ x ∈ S) ↔ x ∈ rest.flatten := by
      intro ds hds x
      rw [← mem_operands hf x, ← hds]
      simp
    have mo : ∀ x, x ∈ o ↔ (x ∈ L ∨ x ∈ R) ∧ x ∈ rest.flatten ++ out := fun x => by
      rw [r3, later cs rfl, List.mem_append, or_comm (a := x ∈ out)]
    have mo₂ : ∀ x, x ∈ o₂ ↔ (x ∈ L₂ ∨ x ∈ R) ∧ x ∈ rest.flatten ++ out := fun x => by
      rw [s3, later cs₂ he2, List.mem_append, or_comm (a := x ∈ out)]
    have hoo : o.Perm o₂ := perm_of_nodup ho.1 ho₂.1 fun x => by rw [mo, mo₂, hLp.mem_iff]
    have nL : ∀ c ∈ L, c ∉ o → c ∉ rest.flatten ++ out := fun c hc hco hk => hco ((mo c).2 ⟨.inl hc, hk⟩)
    obtain ⟨y, y₂, G, y1, y1', y2, y2', y3, y3'⟩ := hop _ _ hR
    have hRi : R ∈ inputs := List.mem_of_getElem? hR
    obtain ⟨z, z₂, H, z1, z2, z3, z4⟩ := pair_two ho (L₂ := L₂)
      (by
        cases first with
        | true => exact .inl (h1 rfl)
        | false =>
          obtain ⟨g1, g2, g3⟩ := h2 rfl
          refine .inr ⟨g1, ?_⟩
          rintro (hN | ⟨d, d1, d2, d3⟩)
          · exact hN g2
          · have := g3 d d1
            rw [List.flatten_cons, List.append_assoc, List.mem_append] at this
            exact nL d d1 d3 (this.resolve_left d2)) hoo
      (by
        rcases hset.1 with g | g | g
        · exact .inl fun d d1 d2 d3 => g d d1 d2 ((mo d).1 d3).2
        · exact .inr (.inl fun d d1 e e1 d2 e2 d3 e3 => g d d1 e e1 d2 e2 (nL d d1 d3) (nL e e1 e3))
        · refine .inr (.inr ⟨h1 g.1, ?_⟩)
          rintro (hN | ⟨d, d1, d2, d3⟩)
          · exact hN g.2.1
          · exact nL d d1 d3 ((g.2.2 d d1).resolve_left d2))
      (fun d d1 d2 => hsel d fun d3 => d2 ((mo d).2 ⟨d1, List.mem_append_right _ d3⟩))
      hp (hdiag R hRi) hp₂ (hdiag₂ R hRi) c.order c₂.order ht ht₂ hx hx₂ y2 y2' wx wx₂ y3 y3'
    obtain ⟨w, w₂, K, w1, w2, w3, w4⟩ := ih false cs cs₂ o o₂ z z₂ H (al.sub 1) (al₂.sub 1) hf he2 r4 s4
      (settled_congr (fun c => by
        rw [mo, List.mem_filter, List.mem_append]
        simp) hset.2) (by simp) (fun _ => ⟨hoo, ho.1, fun c hc => ((mo c).1 hc).2⟩) (.inl ho.1) (.inl ho.1) z3 z4 (z3.wf ho.1)
      (z4.wf ho₂.1) (fun p n => ht (1 :: p) n) (fun p n => ht₂ (1 :: p) n)
    refine ⟨w, w₂, K, ?_, ?_, w3, w4⟩
    · simp only [foldCalls, y1, bind_ok, r2, z1, w1]
    · simp only [foldCalls, he1, y1', bind_ok, s2, z2, w2]

section
variable {A : Type} [Zero A] [Add A] [Mul A] [MulAdd A] {dims dims₂ : Char → Nat} {f : Char → Nat → Nat}
  {inputs : List (List Char)} {out : List Char} {s s₂ : String} {operands operands₂ : List (View A)} {t : Nat → SumTree}
  {al al₂ : Alloc A}

omit [Add A] [Mul A] [MulAdd A] in
theorem operand_rep (hs : Sized dims inputs (operands.map View.shape)) (hw : ∀ v ∈ operands, v.Wf) (n : Nat) (R : List Char)
    (hn : inputs[n]? = some R) : ∃ y G, index operands n = .ok y ∧ Rep y R dims G ∧ y.Wf := by
  obtain ⟨h1, e1⟩ := List.getElem?_eq_some_iff.1 hn
  have hlen := hs.length_eq
  rw [List.length_map] at hlen
  have h2 : n < operands.length := hlen ▸ h1
  have hsh := (List.forall₂_iff_get.1 hs).2 n h1 (by simpa using h2)
  simp only [List.get_eq_getElem, List.getElem_map, e1] at hsh
  have hy := hw _ (List.getElem_mem h2)
  exact ⟨operands[n], _, index_getElem h2, rep_of hy.elements hsh, hy⟩

omit [Zero A] [Add A] [Mul A] [MulAdd A] in
theorem same_of_rep {F : (Char → Nat) → A} {r r₂ : View A} (hn : out.Nodup) (h : Rep r out dims F) (h₂ : Rep r₂ out dims F) :
    SameArray r r₂ := by
  refine ⟨h.wf hn, h₂.wf hn, by rw [h.shape, h₂.shape], fun idx hi => ?_⟩
  rw [h.shape] at hi
  rw [(h.holds hn).get idx hi, (h₂.holds hn).get idx hi]

/-- Two calls side by side. -/
theorem einsums_two {L : List Char} {rest : List (List Char)} (hd : Denotes s (L :: rest) out) (hd₂ : Denotes s₂ (L :: rest) out)
    (hs : Sized dims (L :: rest) (operands.map View.shape)) (hs₂ : Sized dims₂ (L :: rest) (operands₂.map View.shape))
    (hop : ∀ n R, (L :: rest)[n]? = some R → ∃ y y₂ G, index operands n = .ok y ∧ index operands₂ n = .ok y₂ ∧ Rep y R dims G ∧
      (Rep y₂ R dims₂ fun σ => G (sel f σ)) ∧ y.Wf ∧ y₂.Wf)
    (hsel : ∀ c, c ∉ out → dims₂ c = dims c ∧ ∀ i, f c i = i)
    (hn : NoEmptyDiagonal dims (L :: rest)) (hn₂ : NoEmptyDiagonal dims₂ (L :: rest)) (hset : Settled true L rest out)
    (ht : ∀ p n, al.sumOrder p n = t n) (ht₂ : ∀ p n, al₂.sumOrder p n = t n) (h h₂ : HashOrd) :
    ∃ r r₂ H, einsum h al s operands = .ok (.ok r) ∧ einsum h₂ al₂ s₂ operands₂ = .ok (.ok r₂) ∧ Rep r out dims H ∧
      Rep r₂ out dims₂ fun σ => H (sel f σ) := by
  obtain ⟨x, x₂, F, x1, x1', x2, x2', x3, x3'⟩ := hop 0 L rfl
  cases rest with
  | nil =>
    obtain ⟨v, rfl⟩ : ∃ v, operands = [v] := by
      have := hs.length_eq
      exact List.length_eq_one_iff.1 (by simpa using this.symm)
    obtain ⟨v₂, rfl⟩ : ∃ v, operands₂ = [v] := by
      have := hs₂.length_eq
      exact List.length_eq_one_iff.1 (by simpa using this.symm)
    cases x1
    cases x1'
    obtain ⟨r, r₂, H, h1, h2, h3, h4⟩ := one_two hd.outputOk (.refl out) (fun c _ => hsel c) (hn L (by simp)) (hn₂ L (by simp))
      (h.sub 1) (h₂.sub 1) ht ht₂ x2 x3 x2' x3'
    refine ⟨r, r₂, H, ?_, ?_, h3, h4⟩
    · rw [C84_einsum hd hs, h1]
      rfl
    · rw [C84_einsum hd₂ hs₂, h2]
      rfl
  | cons R rest =>
    obtain ⟨X, calls, a1, a2, a3, a4⟩ := C83_einsum h s _ out dims hd (by simp)
    obtain ⟨X₂, calls₂, b1, b2, b3, b4⟩ := C83_einsum h₂ s₂ _ out dims₂ hd₂ (by simp)
    cases a1
    cases b1
    rw [List.length_cons, List.range_succ_eq_map] at a2 b2
    have a2' := (List.cons.inj a2).2
    have b2' := (List.cons.inj b2).2
    have hf : List.Forall₂ (fun S n => (L :: R :: rest)[n]? = some S) (R :: rest) (calls.map TwoCall.operand) := by
      rw [a2']
      refine List.forall₂_iff_get.2 ⟨by simp, fun i h1 h2 => ?_⟩
      simp only [List.length_cons] at h1
      simp only [List.get_eq_getElem, List.getElem_map, List.getElem_range, List.getElem?_cons_succ]
      exact List.getElem?_eq_getElem (by simpa using h1)
    obtain ⟨w, w₂, H, w1, w2, w3, w4⟩ := fold_two hop hsel hn hn₂ (R :: rest) true calls calls₂ L L x x₂ F al al₂ hf
      (by rw [a2', b2']) a3 b3 hset (fun _ => rfl) (by simp) (hn L (by simp)) (hn₂ L (by simp)) x2 x2' x3 x3' ht ht₂
    refine ⟨w, w₂, H, ?_, ?_, w3, w4⟩
    · rw [a4 A al operands hs, x1, bind_ok, w1]
      rfl
    · rw [b4 A al₂ operands₂ hs₂, x1', bind_ok, w2]
      rfl

/-- Two paths side by side. -/
theorem paths_two {B B₂ : Type} (ops : List (View B)) (ops₂ : List (View B₂)) (hd : Denotes s inputs out)
    (hd₂ : Denotes s₂ inputs out) (hs : Sized dims inputs (ops.map View.shape)) (hs₂ : Sized dims₂ inputs (ops₂.map View.shape))
    (h2 : 2 ≤ inputs.length) (m : OptimizationMethod) (h h₂ : HashOrd) (p p₂ : EinsumPath)
    (hp : einsumPath h s ops m = .ok (.ok p)) (hp₂ : einsumPath h₂ s₂ ops₂ m = .ok (.ok p₂))
    (hop : ∀ n R, inputs[n]? = some R → ∃ y y₂ G, index operands n = .ok y ∧ index operands₂ n = .ok y₂ ∧ Rep y R dims G ∧
      (Rep y₂ R dims₂ fun σ => G (sel f σ)) ∧ y.Wf ∧ y₂.Wf)
    (hsel : ∀ c, c ∉ out → dims₂ c = dims c ∧ ∀ i, f c i = i)
    (hn : NoEmptyDiagonal dims inputs) (hn₂ : NoEmptyDiagonal dims₂ inputs)
    {L : List Char} {rest : List (List Char)} (hpick : pick inputs [] (operandOrder m inputs.length) = L :: rest)
    (hset : Settled true L rest out) (ht : ∀ p n, al.sumOrder p n = t n) (ht₂ : ∀ p n, al₂.sumOrder p n = t n) :
    ∃ r r₂ H, p.contractOperands al operands = .ok r ∧ p₂.contractOperands al₂ operands₂ = .ok r₂ ∧ Rep r out dims H ∧
      Rep r₂ out dims₂ fun σ => H (sel f σ) := by
  obtain ⟨n, X, calls, a1, a2, a3, a4⟩ := C83_path h s ops inputs out dims hd hs h2 m p hp
  obtain ⟨n₂, X₂, calls₂, b1, b2, b3, b4⟩ := C83_path h₂ s₂ ops₂ inputs out dims₂ hd₂ hs₂ h2 m p₂ hp₂
  have hperm : (operandOrder m inputs.length).Perm (List.range inputs.length) := by
    cases m <;> first | exact .refl _ | exact List.reverse_perm _
  have hpf : List.Forall₂ (fun R n => inputs[n]? = some R) (pick inputs [] (operandOrder m inputs.length))
      (operandOrder m inputs.length) := by
    rw [pick, List.forall₂_map_left_iff, List.forall₂_same]
    intro i hi
    have : i < inputs.length := by simpa using hperm.mem_iff.1 hi
    simp [this]
  rw [hpick, ← a2] at hpf
  obtain ⟨e1, hf⟩ := List.forall₂_cons.1 hpf
  obtain ⟨en, e2⟩ := List.cons.inj (a2.trans b2.symm)
  subst en
  rw [e1] at a1 b1
  cases a1
  cases b1
  obtain ⟨x, x₂, F, x1, x1', x2, x2', x3, x3'⟩ := hop n L e1
  have hm := List.mem_of_getElem? e1
  obtain ⟨w, w₂, H, w1, w2, w3, w4⟩ := fold_two hop hsel hn hn₂ rest true calls calls₂ L L x x₂ F al al₂ hf
    e2.symm a3 b3 hset (fun _ => rfl) (by simp) (hn L hm) (hn₂ L hm) x2 x2' x3 x3' ht ht₂
  refine ⟨w, w₂, H, ?_, ?_, w3, w4⟩
  · rw [a4 A al operands, x1, bind_ok, w1]
  · rw [b4 A al₂ operands₂, x1', bind_ok, w2]

/-- C86: if the order of an addition depends on the number of terms only, and each step is settled, then the elements of the
result are the same for all hash orders. -/
theorem C86_einsum {L : List Char} {rest : List (List Char)} (hd : Denotes s (L :: rest) out)
    (hs : Sized dims (L :: rest) (operands.map View.shape)) (hw : ∀ v ∈ operands, v.Wf)
    (hn : NoEmptyDiagonal dims (L :: rest)) (hset : Settled true L rest out)
    (ht : ∀ p n, al.sumOrder p n = t n) (ht₂ : ∀ p n, al₂.sumOrder p n = t n) (h h₂ : HashOrd) :
    ∃ r r₂, einsum h al s operands = .ok (.ok r) ∧ einsum h₂ al₂ s operands = .ok (.ok r₂) ∧ SameArray r r₂ := by
  obtain ⟨r, r₂, H, h1, h2, h3, h4⟩ := einsums_two (f := fun _ i => i) hd hd hs hs (fun n R hR => by
    obtain ⟨y, G, y1, y2, y3⟩ := operand_rep hs hw n R hR
    exact ⟨y, y, G, y1, y1, y2, y2, y3, y3⟩) (fun _ _ => ⟨rfl, fun _ => rfl⟩) hn hn hset ht ht₂ h h₂
  exact ⟨r, r₂, h1, h2, same_of_rep hd.outputOk.1 h3 h4⟩

/-- C86 for a path, in the order of its operands. -/
theorem C86_path {B : Type} (ops : List (View B)) (hd : Denotes s inputs out) (hs : Sized dims inputs (ops.map View.shape))
    (h2 : 2 ≤ inputs.length) (m : OptimizationMethod) (h h₂ : HashOrd) (p p₂ : EinsumPath)
    (hp : einsumPath h s ops m = .ok (.ok p)) (hp₂ : einsumPath h₂ s ops m = .ok (.ok p₂))
    (hs' : Sized dims inputs (operands.map View.shape)) (hw : ∀ v ∈ operands, v.Wf) (hn : NoEmptyDiagonal dims inputs)
    {L : List Char} {rest : List (List Char)} (hpick : pick inputs [] (operandOrder m inputs.length) = L :: rest)
    (hset : Settled true L rest out) (ht : ∀ p n, al.sumOrder p n = t n) (ht₂ : ∀ p n, al₂.sumOrder p n = t n) :
    ∃ r r₂, p.contractOperands al operands = .ok r ∧ p₂.contractOperands al₂ operands = .ok r₂ ∧ SameArray r r₂ := by
  obtain ⟨r, r₂, H, h1, h2, h3, h4⟩ := paths_two (f := fun _ i => i) ops ops hd hd hs hs h2 m h h₂ p p₂ hp hp₂ (fun n R hR => by
    obtain ⟨y, G, y1, y2, y3⟩ := operand_rep hs' hw n R hR
    exact ⟨y, y, G, y1, y1, y2, y2, y3, y3⟩) (fun _ _ => ⟨rfl, fun _ => rfl⟩) hn hn hpick hset ht ht₂
  exact ⟨r, r₂, h1, h2, same_of_rep hd.outputOk.1 h3 h4⟩

/-- C86: for two operands that need no simplification the runs are the same, whatever the orders of the additions. -/
theorem C86_reduced {L R o : List Char} (ho : OutputOk [L, R] o) (hr : Reduced L R o) (h h₂ : HashOrd) (al : Alloc A)
    (l r : View A) : (callSC [L, R] o dims).contractOperands h al [l, r] = (callSC [L, R] o dims).contractOperands h₂ al [l, r] := by
  obtain ⟨op, -, e⟩ := reduced_run (dims := dims) ho hr
  rw [e A, e A]

end

theorem settled_network (out : List Char) (rest : List (List Char)) : ∀ (first : Bool) (L : List Char),
    (∀ c ∈ L, (rest ++ [out]).countP (fun S => c ∈ S) ≤ 1) → (∀ c, (rest ++ [out]).countP (fun S => c ∈ S) ≤ 2) →
    Settled first L rest out := by
  induction rest with
  | nil => exact fun _ _ _ _ => trivial
  | cons R rest ih =>
    intro first L h1 h2
    have key : ∀ c, (rest ++ [out]).countP (fun S => c ∈ S) = 0 → c ∉ rest.flatten ++ out := by
      intro c hc hm
      rw [List.countP_eq_zero] at hc
      rcases List.mem_append.1 hm with h | h
      · obtain ⟨S, s1, s2⟩ := List.mem_flatten.1 h
        exact hc S (by simp [s1]) (by simpa using s2)
      · exact hc out (by simp) (by simpa using h)
    refine ⟨.inl fun c hc hR => key c ?_, ih _ _ ?_ ?_⟩
    · have := h1 c hc
      rw [List.cons_append, List.countP_cons_of_pos (by simpa using hR)] at this
      omega
    · intro c hc
      rcases List.mem_append.1 (List.mem_filter.1 hc).1 with hL | hR
      · have := h1 c hL
        rw [List.cons_append, List.countP_cons] at this
        omega
      · have := h2 c
        rw [List.cons_append, List.countP_cons_of_pos (by simpa using hR)] at this
        omega
    · intro c
      have := h2 c
      rw [List.cons_append, List.countP_cons] at this
      omega

/-- C86: a tensor network, each letter in at most two of the operands and the output, is settled. -/
theorem C86_network (L : List Char) (rest : List (List Char)) (out : List Char)
    (h : ∀ c, (L :: rest ++ [out]).countP (fun S => c ∈ S) ≤ 2) : Settled true L rest out := by
  refine settled_network out rest true L (fun c hc => ?_) fun c => ?_
  · have := h c
    rw [List.cons_append, List.countP_cons_of_pos (by simpa using hc)] at this
    omega
  · have := h c
    rw [List.cons_append, List.countP_cons] at this
    omega

theorem settled_single (out : List Char) (rest : List (List Char)) : ∀ (first : Bool) (L : List Char),
    (∀ c ∈ L ++ rest.flatten, ∀ d ∈ L ++ rest.flatten, c ∉ out → d ∉ out → c = d) → Settled first L rest out := by
  induction rest with
  | nil => exact fun _ _ _ => trivial
  | cons R rest ih =>
    intro first L h
    refine ⟨.inr (.inl fun c hc d hd _ _ h1 h2 => h c (by simp [hc]) d (by simp [hd]) (fun e => h1 (by simp [e]))
      fun e => h2 (by simp [e])), ih _ _ fun c hc d hd => h c ?_ d ?_⟩
    all_goals simp only [List.mem_append, List.mem_filter, List.flatten_cons] at *
    · tauto
    · tauto

/-- C86: a call that sums over one letter at most is settled. -/
theorem C86_single (L : List Char) (rest : List (List Char)) (out : List Char)
    (h : ∀ c ∈ L ++ rest.flatten, ∀ d ∈ L ++ rest.flatten, c ∉ out → d ∉ out → c = d) : Settled true L rest out :=
  settled_single out rest true L h

/-! ## Examples -/

namespace Ex

def c86 : View Sat := ⟨[⟨9, by decide⟩, ⟨9, by decide⟩, ⟨-9, by decide⟩, ⟨-9, by decide⟩], 0, [1, 2, 2], [4, 2, 1]⟩

def u86 : View Sat := ⟨[1, 1], 0, [1, 2], [2, 1]⟩

theorem denotes_86 : Denotes "xi,xj,xij->x" [['x', 'i'], ['x', 'j'], ['x', 'i', 'j']] ['x'] :=
  .inl ⟨by decide, ⟨by simp, by simp [Letter], by simp [Letter]⟩, by simp [OutputOk, Used]⟩

end Ex

set_option maxRecDepth 100000 in
/-- C86: the exception for intermediate results is real: no operand of `xi,xj,xij->x` is simplified, yet the order of the
letters of the intermediate result decides the order of the additions. -/
theorem C86_intermediate : ¬ Settled true ['x', 'i'] [['x', 'j'], ['x', 'i', 'j']] ['x'] ∧ ∃ (h h' : HashOrd) (r r' : View Sat),
    einsum h (Alloc.rowMajor Sat) "xi,xj,xij->x" [Ex.u86, Ex.u86, Ex.c86] = .ok (.ok r) ∧
    einsum h' (Alloc.rowMajor Sat) "xi,xj,xij->x" [Ex.u86, Ex.u86, Ex.c86] = .ok (.ok r') ∧
    r.read [0] ≠ r'.read [0] := by
  have hs : Sized Ex.dims43 [['x', 'i'], ['x', 'j'], ['x', 'i', 'j']] ([Ex.u86, Ex.u86, Ex.c86].map View.shape) :=
    .cons (by decide) (.cons (by decide) (.cons (by decide) .nil))
  refine ⟨by decide, HashOrd.insertion, HashOrd.reversed, ⟨[⟨-9, by decide⟩], 0, [1], [1]⟩, ⟨[0], 0, [1], [1]⟩, ?_, ?_, ?_⟩
  · have e : (callSC [['x', 'i'], ['x', 'j'], ['x', 'i', 'j']] ['x'] Ex.dims43).contractOperands
        (HashOrd.insertion.sub 1) (Alloc.rowMajor Sat) [Ex.u86, Ex.u86, Ex.c86] =
        .ok ⟨[⟨-9, by decide⟩], 0, [1], [1]⟩ := rfl
    simp only [Einsum.einsum, validateAndSize_ok _ Ex.denotes_86 hs, e]
    rfl
  · have e : (callSC [['x', 'i'], ['x', 'j'], ['x', 'i', 'j']] ['x'] Ex.dims43).contractOperands
        (HashOrd.reversed.sub 1) (Alloc.rowMajor Sat) [Ex.u86, Ex.u86, Ex.c86] = .ok ⟨[0], 0, [1], [1]⟩ := rfl
    simp only [Einsum.einsum, validateAndSize_ok _ Ex.denotes_86 hs, e]
    rfl
  · decide

/-- The call of C43 is not settled. -/
example : ¬ Settled true ['x', 'i', 'j', 'k'] [['x', 'i', 'j']] ['x'] := by decide

/-- A matrix chain and a batched matrix product are settled. -/
example : Settled true ['i', 'j'] [['j', 'k'], ['k', 'l']] ['i', 'l'] := by decide

example : Settled true ['b', 'i', 'j'] [['b', 'j', 'k'], ['b', 'k', 'l']] ['b', 'i', 'l'] := by decide

/-- Two contracted letters in the first step of a batch, with nothing to simplify. -/
example : Settled true ['b', 'i', 'j'] [['j', 'b', 'i'], ['b', 'k']] ['b', 'k'] := by decide

example : Settled true ['i', 'j'] [['j', 'k', 'k'], ['i', 'm']] ['m'] :=
  C86_network _ _ _ fun c => by
    simp only [List.cons_append, List.nil_append, List.countP_cons, List.countP_nil]
    by_cases h1 : c = 'i' <;> by_cases h2 : c = 'j' <;> by_cases h3 : c = 'k' <;> by_cases h4 : c = 'm' <;> simp_all

example : Settled true ['b', 'i'] [['i', 'b', 'i'], ['i', 'b']] ['b'] := C86_single _ _ _ (by decide)

theorem Ex.denotes_chain86 : Denotes "xij,xij,x->" [['x', 'i', 'j'], ['x', 'i', 'j'], ['x']] [] :=
  .inl ⟨by decide, ⟨by simp, by simp [Letter], by simp [Letter]⟩, by simp [OutputOk, Used]⟩

theorem Ex.wf86 : ∀ v ∈ [Ex.c86, Ex.b43, Ex.vec1 1], v.Wf := by
  simp only [List.mem_cons, List.not_mem_nil, or_false]
  rintro v (rfl | rfl | rfl)
  · exact (elements_of (t := Ex.c86.elem) rfl (by decide +kernel)).1
  · exact (elements_of (t := Ex.b43.elem) rfl (by decide +kernel)).1
  · exact (elements_of (t := (Ex.vec1 (1 : Sat)).elem) rfl (by decide +kernel)).1

theorem Ex.sized86 : Sized Ex.dims43 [['x', 'i', 'j'], ['x', 'i', 'j'], ['x']] ([Ex.c86, Ex.b43, Ex.vec1 1].map View.shape) :=
  .cons (by decide) (.cons (by decide) (.cons (by decide) .nil))

/-- Saturating numbers, two hash orders, the same result. -/
example (h h' : HashOrd) : ∃ r r', einsum h (Alloc.rowMajor Sat) "xij,xij,x->" [Ex.c86, Ex.b43, Ex.vec1 1] = .ok (.ok r) ∧
    einsum h' (Alloc.rowMajor Sat) "xij,xij,x->" [Ex.c86, Ex.b43, Ex.vec1 1] = .ok (.ok r') ∧ SameArray r r' :=
  C86_einsum (operands := [Ex.c86, Ex.b43, Ex.vec1 1]) (dims := Ex.dims43) (t := SumTree.sequential) Ex.denotes_chain86 Ex.sized86 Ex.wf86
    (by intro ix hix; exact .inl (by revert ix; decide)) (by decide) (fun _ _ => rfl) (fun _ _ => rfl) h h'

/-- The same with a compiled path that takes the operands in reverse order. -/
example (h h' : HashOrd) : ∃ p p' r r', einsumPath h "xij,xij,x->" [Ex.c86, Ex.b43, Ex.vec1 1] .reverse = .ok (.ok p) ∧
    einsumPath h' "xij,xij,x->" [Ex.c86, Ex.b43, Ex.vec1 1] .reverse = .ok (.ok p') ∧
    p.contractOperands (Alloc.rowMajor Sat) [Ex.c86, Ex.b43, Ex.vec1 1] = .ok r ∧
    p'.contractOperands (Alloc.rowMajor Sat) [Ex.c86, Ex.b43, Ex.vec1 1] = .ok r' ∧ SameArray r r' := by
  obtain ⟨p, hp, -⟩ := einsumPath_ok (operands := [Ex.c86, Ex.b43, Ex.vec1 1]) Ex.denotes_chain86 Ex.sized86 h (.inr rfl)
  obtain ⟨p', hp', -⟩ := einsumPath_ok (operands := [Ex.c86, Ex.b43, Ex.vec1 1]) Ex.denotes_chain86 Ex.sized86 h' (.inr rfl)
  obtain ⟨r, r', h1, h2, h3⟩ := C86_path [Ex.c86, Ex.b43, Ex.vec1 1] Ex.denotes_chain86 Ex.sized86 (by decide) .reverse h h' p p'
    hp hp' (operands := [Ex.c86, Ex.b43, Ex.vec1 1]) (al := Alloc.rowMajor Sat) (al₂ := Alloc.rowMajor Sat) Ex.sized86 Ex.wf86
    (by intro ix hix; exact .inl (by revert ix; decide)) (L := ['x']) (rest := [['x', 'i', 'j'], ['x', 'i', 'j']]) rfl (by decide)
    (t := SumTree.sequential) (fun _ _ => rfl) (fun _ _ => rfl)
  exact ⟨p, p', r, r', hp, hp', h1, h2, h3⟩

example (h h' : HashOrd) (al : Alloc Int) (l r : View Int) :
    (callSC [['b', 'i', 'j'], ['j', 'b', 'i']] ['b'] Ex.dims).contractOperands h al [l, r] =
      (callSC [['b', 'i', 'j'], ['j', 'b', 'i']] ['b'] Ex.dims).contractOperands h' al [l, r] :=
  C86_reduced (by simp [OutputOk, Used]) ⟨by decide, by decide, by decide, by decide⟩ h h' al l r

end Einsum
