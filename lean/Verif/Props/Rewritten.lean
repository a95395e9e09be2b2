import Mathlib.Logic.Equiv.Fintype
import Verif.Props.Reproducible
import Verif.Props.Positions

/-!
# Property C101: rewritings of a call that keep the result bit for bit
-/

namespace Einsum

open Spec Function

section formula
variable {A : Type} [Zero A] [Add A] [Mul A] [MulAdd A]

/-- The letters contracted by a reduced call, in the order in which their products are listed. -/
def contracted (L R o : List Char) : List Char :=
  if ∀ c ∈ L, c ∈ R → c ∉ o then sortChars (L.filter fun c => c ∈ R) else L.filter fun c => c ∉ o

/-- The elements of a reduced call, when the order of an addition depends on the number of terms only (C84). -/
def formula (t : Nat → SumTree) (dims : Char → Nat) (L R o : List Char) (F G : (Char → Nat) → A) (σ : Char → Nat) : A :=
  if (∀ c ∈ L, c ∈ R ∧ c ∈ o) ∧ ∀ c ∈ R, c ∈ L ∧ c ∈ o then F σ * G σ
  else if L = [] then G σ * F σ
  else if R = [] then F σ * G σ
  else product (t ((contracted L R o).map dims).prod) dims (contracted L R o) F G σ

variable {L R o : List Char} {dims : Char → Nat} {F G : (Char → Nat) → A}

theorem contracted_nodup (hL : L.Nodup) : (contracted L R o).Nodup := by
  unfold contracted
  split
  · exact (sortChars_perm _).nodup_iff.2 (hL.filter _)
  · exact hL.filter _

theorem mem_contracted (hr : Reduced L R o) (c : Char) : c ∈ contracted L R o ↔ c ∈ L ∧ c ∉ o := by
  unfold contracted
  split
  · rename_i h
    rw [(sortChars_perm _).mem_iff, List.mem_filter, decide_eq_true_eq]
    exact ⟨fun hc => ⟨hc.1, h c hc.1 hc.2⟩, fun hc => ⟨hc.1, (hr.leftNeeded c hc.1).resolve_right hc.2⟩⟩
  · rw [List.mem_filter, decide_eq_true_eq]

/-- A reduced call has the elements of `formula`. -/
theorem reduced_formula (ho : OutputOk [L, R] o) (hr : Reduced L R o) (h : HashOrd) {al : Alloc A} {t : Nat → SumTree}
    (ht : ∀ p n, al.sumOrder p n = t n) {l r : View A} (hl : Rep l L dims F) (hr' : Rep r R dims G) :
    ∃ w, (callSC [L, R] o dims).contractOperands h al [l, r] = .ok w ∧ Rep w o dims (formula t dims L R o F G) := by
  have el := (hl.holds hr.left).elements
  have er := (hr'.holds hr.right).elements
  by_cases c1 : (∀ c ∈ L, c ∈ R ∧ c ∈ o) ∧ ∀ c ∈ R, c ∈ L ∧ c ∈ o
  · obtain ⟨w, w1, w2⟩ := C84_product ho hr c1.1 c1.2 h al el er hl.shape hr'.shape
    refine ⟨w, w1, w2.congr fun σ hσ => ?_⟩
    rw [hl.agree_assign fun c hc => hσ c (c1.1 c hc).2, hr'.agree_assign fun c hc => hσ c (c1.2 c hc).2, formula, if_pos c1]
  by_cases c2 : L = []
  · subst c2
    have c3 : R ≠ [] := by rintro rfl; simp at c1
    obtain ⟨w, w1, w2⟩ := C84_scalar_left ho hr c3 h al el er hl.shape hr'.shape
    refine ⟨w, w1, w2.congr fun σ hσ => ?_⟩
    have a : F (assign [] []) = F σ := hl.agree_assign (σ := σ) (by simp [InRange])
    rw [hr'.agree_assign fun c hc => hσ c ((hr.rightNeeded c hc).resolve_left (by simp)), a, formula, if_neg c1, if_pos rfl]
  by_cases c3 : R = []
  · subst c3
    obtain ⟨w, w1, w2⟩ := C84_scalar_right ho hr c2 h al el er hl.shape hr'.shape
    refine ⟨w, w1, w2.congr fun σ hσ => ?_⟩
    have a : G (assign [] []) = G σ := hr'.agree_assign (σ := σ) (by simp [InRange])
    rw [hl.agree_assign fun c hc => hσ c ((hr.leftNeeded c hc).resolve_left (by simp)), a, formula, if_neg c1, if_neg c2,
      if_pos rfl]
  -- the products for the contracted letters
  have fin : ∀ (w : View A) (p : (Char → Nat) → List Nat),
      Rep w o dims (fun σ => product (al.sumOrder (p σ) ((contracted L R o).map dims).prod) dims (contracted L R o)
        (fun τ => F (assign L (L.map τ))) (fun τ => G (assign R (R.map τ))) σ) → Rep w o dims (formula t dims L R o F G) := by
    intro w p hw
    refine hw.congr fun σ hσ => ?_
    have e : formula t dims L R o F G σ =
        product (t ((contracted L R o).map dims).prod) dims (contracted L R o) F G σ := by
      rw [formula, if_neg c1, if_neg c2, if_neg c3]
    rw [ht, e]
    refine product_congr (contracted_nodup hr.left) fun τ t1 t2 =>
      ⟨hl.agree_assign fun c hc => ?_, hr'.agree_assign fun c hc => ?_⟩
    · by_cases hcC : c ∈ contracted L R o
      · exact t1 c hcC
      · rw [t2 c hcC]
        rw [mem_contracted hr] at hcC
        exact hσ c (by by_contra hco; exact hcC ⟨hc, hco⟩)
    · by_cases hcC : c ∈ contracted L R o
      · exact t1 c hcC
      · rw [t2 c hcC]
        rw [mem_contracted hr] at hcC
        exact hσ c (by by_contra hco; exact hcC ⟨(hr.rightNeeded c hc).resolve_right hco, hco⟩)
  by_cases c4 : ∀ c ∈ L, c ∈ R → c ∉ o
  · have e : contracted L R o = sortChars (L.filter fun c => c ∈ R) := if_pos c4
    obtain ⟨w, w1, w2⟩ := C84_contraction ho hr c2 c3 c4 (contracted L R o) (by rw [e]; exact sortChars_strict (hr.left.filter _))
      (fun c => by rw [e, (sortChars_perm _).mem_iff, List.mem_filter, decide_eq_true_eq]) h al el er hl.shape hr'.shape
    exact ⟨w, w1, fin w _ w2⟩
  · have c4' : ∃ c ∈ L, c ∈ R ∧ c ∈ o := by
      by_contra hx
      exact c4 fun c hc hc' hco => hx ⟨c, hc, hc', hco⟩
    have c5 : (∃ c ∈ L, ¬ (c ∈ R ∧ c ∈ o)) ∨ ∃ c ∈ R, ¬ (c ∈ L ∧ c ∈ o) := by
      by_contra hx
      simp only [not_or, not_exists, not_and] at hx
      exact c1 ⟨fun c hc => by have := hx.1 c hc; tauto, fun c hc => by have := hx.2 c hc; tauto⟩
    obtain ⟨w, w1, w2⟩ := C84_stack ho hr c4' c5 h al el er hl.shape hr'.shape
    have e : contracted L R o = L.filter fun c => c ∉ o := if_neg c4
    exact ⟨w, w1, fin w _ (by rw [e]; exact w2)⟩

/-- Letters in other orders, if the contracted letters are listed in the same order. -/
theorem formula_perm {L₁ R₁ o₁ : List Char} (hn : L.Nodup) (hL : L.Perm L₁) (hR : R.Perm R₁) (hoo : o.Perm o₁)
    (hc : (∀ c ∈ L, c ∈ R → c ∉ o) ∨ (L.filter fun c => c ∉ o) = L₁.filter fun c => c ∉ o) (t : Nat → SumTree) :
    formula t dims L₁ R₁ o₁ F G = formula t dims L R o F G := by
  have e : contracted L₁ R₁ o₁ = contracted L R o := by
    unfold contracted
    simp only [← hL.mem_iff, ← hR.mem_iff, ← hoo.mem_iff]
    split
    · have p : (L₁.filter fun c => c ∈ R).Perm (L.filter fun c => c ∈ R) := hL.symm.filter _
      refine eq_of_sorted_of_mem (sortChars_strict (p.nodup_iff.2 (hn.filter _))) (sortChars_strict (hn.filter _)) fun c => ?_
      rw [(sortChars_perm _).mem_iff, (sortChars_perm _).mem_iff, p.mem_iff]
    · exact (hc.resolve_left ‹_›).symm
  have n1 : L₁ = [] ↔ L = [] := ⟨fun e => by subst e; exact hL.eq_nil, fun e => by subst e; exact hL.nil_eq.symm⟩
  have n2 : R₁ = [] ↔ R = [] := ⟨fun e => by subst e; exact hR.eq_nil, fun e => by subst e; exact hR.nil_eq.symm⟩
  funext σ
  unfold formula
  simp only [e, n1, n2, ← hL.mem_iff, ← hR.mem_iff, ← hoo.mem_iff]

/-- Two lists with the same members, at most one, each once. -/
theorem eq_of_perm_one {α : Type} {X Y : List α} (p : X.Perm Y) (n : X.Nodup) (m : ∀ c ∈ X, ∀ d ∈ X, c = d) : X = Y := by
  cases X with
  | nil => exact p.nil_eq
  | cons a X =>
    cases X with
    | nil => exact (List.perm_singleton.1 p.symm).symm
    | cons b X =>
      have := m a (by simp) b (by simp)
      simp [this] at n

/-! ## Renamed letters -/

variable (ρ : Equiv.Perm Char)

omit [Zero A] [Add A] [Mul A] [MulAdd A] in
theorem rep_ren {v : View A} : Rep v (L.map ρ) dims (fun σ => F (σ ∘ ρ)) ↔ Rep v L (dims ∘ ρ) F := by
  have e : ∀ σ : Char → Nat, (L.map ρ).map σ = L.map (σ ∘ ρ) := fun σ => List.map_map
  have r : ∀ σ, InRange dims (L.map ρ) σ ↔ InRange (dims ∘ ρ) L (σ ∘ ρ) := fun σ => by simp [InRange]
  constructor
  · rintro ⟨h1, h2, h3⟩
    refine ⟨by rw [h1, e], by rw [h2, List.length_map], fun τ hτ => ?_⟩
    have eτ : (τ ∘ ρ.symm) ∘ ρ = τ := by funext c; simp
    have := h3 (τ ∘ ρ.symm) (by rw [r, eτ]; exact hτ)
    rwa [e, eτ] at this
  · rintro ⟨h1, h2, h3⟩
    refine ⟨by rw [h1, e], by rw [h2, List.length_map], fun σ hσ => ?_⟩
    rw [e, h3 _ ((r σ).1 hσ)]

theorem cells_ren (C : List Char) (σ : Char → Nat) :
    (cells dims (C.map ρ) σ).map (· ∘ ρ) = cells (dims ∘ ρ) C (σ ∘ ρ) := by
  induction C generalizing σ with
  | nil => rfl
  | cons c C ih =>
    simp only [List.map_cons, cells, List.map_flatMap, comp_apply]
    congr 1
    funext k
    rw [ih, update_comp_eq_of_injective _ ρ.injective]

theorem product_ren (t : SumTree) (C : List Char) (σ : Char → Nat) :
    product t dims (C.map ρ) (fun σ => F (σ ∘ ρ)) (fun σ => G (σ ∘ ρ)) σ = product t (dims ∘ ρ) C F G (σ ∘ ρ) := by
  unfold product
  rw [← cells_ren, List.map_map]
  rfl

omit [Mul A] [MulAdd A] in
theorem inTurn_ren (t : Nat → SumTree) (b : List Char) (F : (Char → Nat) → A) :
    inTurn t dims (b.map ρ) (fun σ => F (σ ∘ ρ)) = fun σ => inTurn t (dims ∘ ρ) b F (σ ∘ ρ) := by
  induction b generalizing F with
  | nil => rfl
  | cons c b ih =>
    rw [List.map_cons, inTurn, inTurn, ← ih]
    simp only [update_comp_eq_of_injective _ ρ.injective, comp_apply]

theorem fresh_ren (s L : List Char) : fresh (s.map ρ) (L.map ρ) = (fresh s L).map ρ := by
  induction L generalizing s with
  | nil => rfl
  | cons c L ih =>
    have m : ρ c ∈ s.map ρ ↔ c ∈ s := List.mem_map_of_injective ρ.injective
    rw [List.map_cons, fresh, fresh]
    by_cases h : c ∈ s
    · rw [if_pos (m.2 h), if_pos h, ih]
    · rw [if_neg (mt m.1 h), if_neg h, List.map_cons, ← ih, List.map_append, List.map_singleton]

/-- A renaming that keeps the alphabetical order of the contracted letters. -/
theorem formula_ren (hr : Reduced L R o) (hm : ∀ c d, c ∈ L → d ∈ L → c ∉ o → d ∉ o → c < d → ρ c < ρ d) (t : Nat → SumTree)
    (σ : Char → Nat) : formula t dims (L.map ρ) (R.map ρ) (o.map ρ) (fun σ => F (σ ∘ ρ)) (fun σ => G (σ ∘ ρ)) σ =
      formula t (dims ∘ ρ) L R o F G (σ ∘ ρ) := by
  have m : ∀ (X : List Char) c, ρ c ∈ X.map ρ ↔ c ∈ X := fun X c => List.mem_map_of_injective ρ.injective
  have e : contracted (L.map ρ) (R.map ρ) (o.map ρ) = (contracted L R o).map ρ := by
    unfold contracted
    simp only [List.forall_mem_map, m]
    split
    · rename_i h0
      have hn := hr.left.filter fun c => decide (c ∈ R)
      have p : ((L.map ρ).filter fun c => c ∈ R.map ρ) = (L.filter fun c => c ∈ R).map ρ := by
        rw [List.filter_map]
        congr 1
        exact List.filter_congr fun c _ => by simp only [comp_apply, m]
      rw [p]
      refine eq_of_sorted_of_mem (sortChars_strict (hn.map ρ.injective)) ?_ fun c => ?_
      · rw [List.pairwise_map]
        refine (sortChars_strict hn).imp_of_mem fun {a b} ha hb hab => ?_
        rw [(sortChars_perm _).mem_iff, List.mem_filter, decide_eq_true_eq] at ha hb
        exact hm a b ha.1 hb.1 (h0 a ha.1 ha.2) (h0 b hb.1 hb.2) hab
      · rw [(sortChars_perm _).mem_iff, List.mem_map, List.mem_map]
        simp only [(sortChars_perm _).mem_iff]
    · rw [List.filter_map]
      congr 1
      exact List.filter_congr fun c _ => by simp only [comp_apply, m]
  unfold formula
  simp only [e, List.forall_mem_map, m, List.map_eq_nil_iff, List.map_map, product_ren]

theorem outputOk_ren {L₁ R₁ o₁ : List Char} (ho : OutputOk [L, R] o) (hL : L.Perm L₁) (hR : R.Perm R₁) (hoo : o.Perm o₁) :
    OutputOk [L₁.map ρ, R₁.map ρ] (o₁.map ρ) := by
  refine ⟨(hoo.nodup_iff.1 ho.1).map ρ.injective, fun c hc => used_iff.2 ?_⟩
  obtain ⟨d, hd, rfl⟩ := List.mem_map.1 hc
  have := used_iff.1 (ho.2 d (hoo.mem_iff.2 hd))
  simp only [List.flatten_cons, List.flatten_nil, List.append_nil, List.mem_append, List.mem_map_of_injective ρ.injective,
    ← hL.mem_iff, ← hR.mem_iff] at this ⊢
  exact this

omit [Mul A] [MulAdd A] in
/-- Every list is the list of renamed letters of another one. -/
theorem exists_unren (X : List Char) : ∃ Y : List Char, X = Y.map ρ :=
  ⟨X.map ρ.symm, by simp⟩

/-- Two calls for one operand, the second with renamed letters, in other orders. -/
theorem one_ren {L₁ o₁ : List Char} (ho : OutputOk [L] o) (hL : L.Perm L₁) (hoo : o.Perm o₁) (hs : fresh o L₁ = fresh o L)
    (hp : L.Nodup ∨ ∀ c ∈ L, dims (ρ c) ≠ 0) (h h₂ : HashOrd)
    {al al₂ : Alloc A} {t : Nat → SumTree} (ht : ∀ p n, al.sumOrder p n = t n) (ht₂ : ∀ p n, al₂.sumOrder p n = t n)
    {v v₂ : View A} (hv : Rep v L (dims ∘ ρ) F) (wv : v.Wf) (hv₂ : Rep v₂ L₁ (dims ∘ ρ) F) (wv₂ : v₂.Wf) :
    ∃ w w₂ H, (callSC [L] o (dims ∘ ρ)).contractOperands h al [v] = .ok w ∧
      (callSC [L₁.map ρ] (o₁.map ρ) dims).contractOperands h₂ al₂ [v₂] = .ok w₂ ∧ Rep w o (dims ∘ ρ) H ∧
      Rep w₂ o₁ (dims ∘ ρ) H := by
  have ho₂ : OutputOk [L₁.map ρ] (o₁.map ρ) := by
    refine ⟨(hoo.nodup_iff.1 ho.1).map ρ.injective, fun c hc => used_iff.2 ?_⟩
    obtain ⟨d, hd, rfl⟩ := List.mem_map.1 hc
    have := used_iff.1 (ho.2 d (hoo.mem_iff.2 hd))
    simp only [List.flatten_cons, List.flatten_nil, List.append_nil, List.mem_map_of_injective ρ.injective,
      ← hL.mem_iff] at this ⊢
    exact this
  obtain ⟨p, p1, p2⟩ := singletonT (callSC_valid (dims := dims ∘ ρ) ho) (L := L) rfl
  obtain ⟨q, q1, q2⟩ := singletonT (callSC_valid (dims := dims) ho₂) (L := L₁.map ρ) rfl
  obtain ⟨w, w1, w2⟩ := p2 A al v _ hv wv (hp.imp_right prod_dims_pos)
  obtain ⟨w₂, w3, w4⟩ := q2 A al₂ v₂ _ ((rep_ren ρ).2 hv₂) wv₂ (hp.imp (fun hn => (hL.nodup_iff.1 hn).map ρ.injective) fun hd =>
    prod_dims_pos fun c hc => by
      obtain ⟨d, hd', rfl⟩ := List.mem_map.1 hc
      exact hd d (hL.mem_iff.2 hd'))
  change Rep w o (dims ∘ ρ) (sums (dims ∘ ρ) o (fresh o L) _ F) at w2
  change Rep w₂ (o₁.map ρ) dims (sums dims (o₁.map ρ) (fresh (o₁.map ρ) (L₁.map ρ)) _ fun σ => F (σ ∘ ρ)) at w4
  rw [sums_inTurn (t := t) _ _ (by split <;> simp [Alloc.sub, ht])] at w2
  rw [sums_inTurn (t := t) _ _ (by split <;> simp [Alloc.sub, ht₂]), fresh_ren,
    ← fresh_congr (s := o) (s' := o₁) fun c _ => hoo.mem_iff, hs, inTurn_ren, rep_ren] at w4
  exact ⟨w, w₂, _, by rw [one_run ho p1, w1], by rw [one_run ho₂ q1, w3], w2, w4⟩

/-- The letters summed first are listed in the same order. -/
theorem fresh_same {X X₁ s : List Char} (hX : X.Perm X₁) (hs : X₁ = X ∨ ∀ c ∈ X, ∀ d ∈ X, c ∉ s → d ∉ s → c = d) :
    fresh s X₁ = fresh s X := by
  rcases hs with rfl | hs
  · rfl
  · refine (eq_of_perm_one (perm_of_nodup nodup_fresh nodup_fresh fun c => ?_) nodup_fresh fun c hc d hd => ?_).symm
    · rw [mem_fresh, mem_fresh, hX.mem_iff]
    · exact hs c (mem_fresh.1 hc).1 d (mem_fresh.1 hd).1 (mem_fresh.1 hc).2 (mem_fresh.1 hd).2

theorem needs_ren {L₁ R₁ o₁ : List Char} (hL : L.Perm L₁) (hR : R.Perm R₁) (hoo : o.Perm o₁) :
    NeedsSimplification (L₁.map ρ) (R₁.map ρ) (o₁.map ρ) ↔ NeedsSimplification L R o := by
  unfold NeedsSimplification
  simp only [List.mem_map, exists_exists_and_eq_and, ρ.injective.eq_iff, exists_eq_right, List.nodup_map_iff ρ.injective,
    ← hL.mem_iff, ← hR.mem_iff, ← hoo.mem_iff, ← hL.nodup_iff]

/-- One operand simplified in both calls. -/
theorem simplify_ren {L₁ R₁ o₁ L' M : List Char} (hL : L.Perm L₁) (hR : R.Perm R₁) (hoo : o.Perm o₁)
    (hLs : L₁ = L ∨ ∀ c ∈ L, ∀ d ∈ L, c ∉ R → d ∉ R → c ∉ o → d ∉ o → c = d) (hpL : L.Nodup ∨ ∀ c ∈ L, dims (ρ c) ≠ 0)
    (a1 : L'.Nodup) (a2 : ∀ x, x ∈ L' ↔ x ∈ L ∧ (x ∈ R ∨ x ∈ o)) (a3 : ¬ NeedsSimplification L R o → L' = L)
    (pL : L'.Perm M) (a3' : ¬ NeedsSimplification (L₁.map ρ) (R₁.map ρ) (o₁.map ρ) → M.map ρ = L₁.map ρ) (h h₂ : HashOrd)
    {al al₂ : Alloc A} {t : Nat → SumTree} (ht : ∀ p n, al.sumOrder p n = t n) (ht₂ : ∀ p n, al₂.sumOrder p n = t n)
    {l l₂ : View A} (hl : Rep l L (dims ∘ ρ) F) (hl₂ : Rep l₂ L₁ (dims ∘ ρ) F) (wl : l.Wf) (wl₂ : l₂.Wf) :
    ∃ x x₂ X,
      (if NeedsSimplification L R o then (callSC [L] L' (dims ∘ ρ)).contractOperands h al [l] else .ok l) = .ok x ∧
      (if NeedsSimplification (L₁.map ρ) (R₁.map ρ) (o₁.map ρ) then
        (callSC [L₁.map ρ] (M.map ρ) dims).contractOperands h₂ al₂ [l₂] else .ok l₂) = .ok x₂ ∧
      Rep x L' (dims ∘ ρ) X ∧ Rep x₂ M (dims ∘ ρ) X := by
  have nL := needs_ren ρ hL hR hoo
  have oL : OutputOk [L] L' := ⟨a1, fun c hc => used_iff.2 (by simpa using ((a2 c).1 hc).1)⟩
  by_cases hN : NeedsSimplification L R o
  · rw [if_pos hN, if_pos (nL.2 hN)]
    refine one_ren ρ oL hL pL (fresh_same hL (hLs.imp_right fun g c c1 d d1 c2 d2 => g c c1 d d1 ?_ ?_ ?_ ?_)) hpL h h₂
      ht ht₂ hl wl hl₂ wl₂
    all_goals intro hx
    · exact c2 ((a2 c).2 ⟨c1, .inl hx⟩)
    · exact d2 ((a2 d).2 ⟨d1, .inl hx⟩)
    · exact c2 ((a2 c).2 ⟨c1, .inr hx⟩)
    · exact d2 ((a2 d).2 ⟨d1, .inr hx⟩)
  · have e : M = L₁ := (List.map_injective_iff.2 ρ.injective) (a3' (mt nL.1 hN))
    rw [if_neg hN, if_neg (mt nL.1 hN), a3 hN, e]
    exact ⟨l, l₂, F, rfl, rfl, hl, hl₂⟩

/-- Two calls for two operands, the second with renamed letters, in other orders. -/
theorem pair_ren {L₁ R₁ o₁ : List Char} (ho : OutputOk [L, R] o) (hL : L.Perm L₁) (hR : R.Perm R₁) (hoo : o.Perm o₁)
    (hLs : L₁ = L ∨ ∀ c ∈ L, ∀ d ∈ L, c ∉ R → d ∉ R → c ∉ o → d ∉ o → c = d)
    (hRs : R₁ = R ∨ ∀ c ∈ R, ∀ d ∈ R, c ∉ L → d ∉ L → c ∉ o → d ∉ o → c = d)
    (hc : (∀ c ∈ L, c ∈ R → c ∉ o) ∨ (∀ c ∈ L, ∀ d ∈ L, c ∈ R → d ∈ R → c ∉ o → d ∉ o → c = d) ∨
      L₁ = L ∧ ¬ NeedsSimplification L R o)
    (hm : ∀ c d, c ∈ L → d ∈ L → c ∉ o → d ∉ o → c < d → ρ c < ρ d)
    (hpL : L.Nodup ∨ ∀ c ∈ L, dims (ρ c) ≠ 0) (hpR : R.Nodup ∨ ∀ c ∈ R, dims (ρ c) ≠ 0) (h h₂ : HashOrd)
    {al al₂ : Alloc A} {t : Nat → SumTree} (ht : ∀ p n, al.sumOrder p n = t n) (ht₂ : ∀ p n, al₂.sumOrder p n = t n)
    {l l₂ r r₂ : View A} (hl : Rep l L (dims ∘ ρ) F) (hl₂ : Rep l₂ L₁ (dims ∘ ρ) F) (hr : Rep r R (dims ∘ ρ) G)
    (hr₂ : Rep r₂ R₁ (dims ∘ ρ) G) (wl : l.Wf) (wl₂ : l₂.Wf) (wr : r.Wf) (wr₂ : r₂.Wf) :
    ∃ w w₂ H, (callSC [L, R] o (dims ∘ ρ)).contractOperands h al [l, r] = .ok w ∧
      (callSC [L₁.map ρ, R₁.map ρ] (o₁.map ρ) dims).contractOperands h₂ al₂ [l₂, r₂] = .ok w₂ ∧ Rep w o (dims ∘ ρ) H ∧
      Rep w₂ o₁ (dims ∘ ρ) H := by
  have m : ∀ (X : List Char) c, ρ c ∈ X.map ρ ↔ c ∈ X := fun X c => List.mem_map_of_injective ρ.injective
  have ho₂ := outputOk_ren ρ ho hL hR hoo
  have nL := needs_ren ρ hL hR hoo
  obtain ⟨L', R', k, a1, a2, a3, b1, b2, b3, ho', hr', hrun⟩ := pair_run (dims := dims ∘ ρ) ho h
  obtain ⟨L₂', R₂', k₂, a1', a2', a3', b1', b2', b3', ho₂', hr₂', hrun'⟩ := pair_run (dims := dims) ho₂ h₂
  obtain ⟨M, rfl⟩ := exists_unren ρ L₂'
  obtain ⟨N, rfl⟩ := exists_unren ρ R₂'
  replace a1' := a1'.of_map
  replace b1' := b1'.of_map
  have a2'' : ∀ c, c ∈ M ↔ c ∈ L ∧ (c ∈ R ∨ c ∈ o) := fun c => by
    rw [← m M, a2', m, m, m, hL.mem_iff, hR.mem_iff, hoo.mem_iff]
  have b2'' : ∀ c, c ∈ N ↔ c ∈ R ∧ (c ∈ L ∨ c ∈ o) := fun c => by
    rw [← m N, b2', m, m, m, hL.mem_iff, hR.mem_iff, hoo.mem_iff]
  have pL : L'.Perm M := perm_of_nodup a1 a1' fun c => by rw [a2, a2'']
  have pR : R'.Perm N := perm_of_nodup b1 b1' fun c => by rw [b2, b2'']
  obtain ⟨x, x₂, X, x1, x2, x3, x4⟩ := simplify_ren ρ hL hR hoo hLs hpL a1 a2 a3 pL a3' h h (al := (al.sub 0).sub 0)
    (al₂ := (al₂.sub 0).sub 0) (fun p n => ht (0 :: 0 :: p) n) (fun p n => ht₂ (0 :: 0 :: p) n) hl hl₂ wl wl₂
  obtain ⟨y, y₂, Y, y1, y2, y3, y4⟩ := simplify_ren ρ hR hL hoo hRs hpR b1 b2 b3 pR b3' h h (al := (al.sub 0).sub 1)
    (al₂ := (al₂.sub 0).sub 1) (fun p n => ht (0 :: 1 :: p) n) (fun p n => ht₂ (0 :: 1 :: p) n) hr hr₂ wr wr₂
  obtain ⟨w, w1, w2⟩ := reduced_formula ho' hr' k ht x3 y3
  obtain ⟨w₂, w3, w4⟩ := reduced_formula ho₂' hr₂' k₂ ht₂ ((rep_ren ρ).2 x4) ((rep_ren ρ).2 y4)
  have hrM : Reduced M N o₁ := ⟨a1', b1', fun c hc => by rw [b2'', ← hoo.mem_iff]; exact ((a2'' c).1 hc).2.imp_left fun g => ⟨g, .inl ((a2'' c).1 hc).1⟩,
    fun c hc => by rw [a2'', ← hoo.mem_iff]; exact ((b2'' c).1 hc).2.imp_left fun g => ⟨g, .inl ((b2'' c).1 hc).1⟩⟩
  have e : formula t dims (M.map ρ) (N.map ρ) (o₁.map ρ) (fun σ => X (σ ∘ ρ)) (fun σ => Y (σ ∘ ρ)) =
      fun σ => formula t (dims ∘ ρ) L' R' o X Y (σ ∘ ρ) := by
    funext σ
    rw [formula_ren ρ hrM (fun c d hc hd hco hdo => hm c d ((a2'' c).1 hc).1 ((a2'' d).1 hd).1 (mt hoo.mem_iff.1 hco)
      (mt hoo.mem_iff.1 hdo)), formula_perm a1 pL pR hoo]
    rcases hc with hc | hc | ⟨rfl, hc⟩
    · exact .inl fun c h1 h2 => hc c ((a2 c).1 h1).1 ((b2 c).1 h2).1
    · refine .inr (eq_of_perm_one (pL.filter _) (a1.filter _) fun c h1 d h2 => ?_)
      rw [List.mem_filter, decide_eq_true_eq] at h1 h2
      obtain ⟨c1, c2⟩ := (a2 c).1 h1.1
      obtain ⟨d1, d2⟩ := (a2 d).1 h2.1
      exact hc c c1 d d1 (c2.resolve_right h1.2) (d2.resolve_right h2.2) h1.2 h2.2
    · have e : M = L₁ := (List.map_injective_iff.2 ρ.injective) (a3' (mt nL.1 hc))
      rw [a3 hc, e]
      exact .inr rfl
  rw [e, rep_ren] at w4
  refine ⟨w, w₂, _, ?_, ?_, w2, w4⟩
  · rw [hrun A h, x1, bind_ok, y1, bind_ok, w1]
  · rw [hrun' A h, x2, bind_ok, y2, bind_ok, w3]

end formula

/-- Two runs of the loop, the second with renamed letters, in other orders. -/
theorem fold_ren {A : Type} [Zero A] [Add A] [Mul A] [MulAdd A] (ρ : Equiv.Perm Char) {dims : Char → Nat}
    {inputs inputs₂ : List (List Char)} {out out₁ : List Char} {operands operands₂ : List (View A)} (P : Nat → Prop)
    (hop : ∀ n R, P n → inputs[n]? = some R → ∃ R₁ y y₂ G, inputs₂[n]? = some (R₁.map ρ) ∧ R.Perm R₁ ∧
      (R₁ = R ∨ ∀ c ∈ R, ∀ d ∈ R, ¬ Elsewhere inputs out n c → ¬ Elsewhere inputs out n d → c = d) ∧
      index operands n = .ok y ∧ index operands₂ n = .ok y₂ ∧ Rep y R (dims ∘ ρ) G ∧ Rep y₂ R₁ (dims ∘ ρ) G ∧ y.Wf ∧ y₂.Wf)
    (hout : out.Perm out₁)
    (hm : ∀ c d, Used inputs c → Used inputs d → c ∉ out → d ∉ out → c < d → ρ c < ρ d)
    (hdiag : NoEmptyDiagonal (dims ∘ ρ) inputs) {t : Nat → SumTree} (rest : List (List Char)) :
    ∀ (first : Bool) (calls calls₂ : List TwoCall) (L L₁ : List Char) (x x₂ : View A) (F : (Char → Nat) → A) (al al₂ : Alloc A),
      List.Forall₂ (fun R n => inputs[n]? = some R) rest (calls.map TwoCall.operand) →
      calls₂.map TwoCall.operand = calls.map TwoCall.operand → (∀ n ∈ calls.map TwoCall.operand, P n) →
      Linked (dims ∘ ρ) inputs L calls out → Linked dims inputs₂ (L₁.map ρ) calls₂ (out₁.map ρ) →
      Settled first L rest out → L.Perm L₁ → (first = true → L₁ = L) →
      (L₁ = L ∨ ∀ c ∈ L, ∀ d ∈ L, c ∉ rest.flatten ++ out → d ∉ rest.flatten ++ out → c = d) →
      (∀ m S, inputs[m]? = some S → m ∉ calls.map TwoCall.operand → ∀ c ∈ S, c ∈ rest.flatten ++ out → c ∈ L) →
      (∀ c ∈ L, Used inputs c) → (L.Nodup ∨ ∀ c ∈ L, dims (ρ c) ≠ 0) →
      Rep x L (dims ∘ ρ) F → Rep x₂ L₁ (dims ∘ ρ) F → x.Wf → x₂.Wf →
      (∀ p n, al.sumOrder p n = t n) → (∀ p n, al₂.sumOrder p n = t n) →
      ∃ w w₂ H, foldCalls operands calls al x = .ok w ∧ foldCalls operands₂ calls₂ al₂ x₂ = .ok w₂ ∧
        Rep w out (dims ∘ ρ) H ∧ Rep w₂ out₁ (dims ∘ ρ) H := by
  have m : ∀ (X : List Char) c, ρ c ∈ X.map ρ ↔ c ∈ X := fun X c => List.mem_map_of_injective ρ.injective
  induction rest with
  | nil =>
    intro first calls calls₂ L L₁ x x₂ F al al₂ hf he _ hl hl₂ _ _ _ _ _ _ _ hx hx₂ _ _ _ _
    cases calls with
    | cons c cs => cases hf
    | nil =>
      cases calls₂ with
      | cons c cs => simp at he
      | nil =>
        change L = out at hl
        change L₁.map ρ = out₁.map ρ at hl₂
        obtain rfl := (List.map_injective_iff.2 ρ.injective) hl₂
        subst hl
        exact ⟨x, x₂, F, rfl, rfl, hx, hx₂⟩
  | cons R rest ih =>
    intro first calls calls₂ L L₁ x x₂ F al al₂ hf he hP hl hl₂ hset hLp h1 hLs hinv hused hp hx hx₂ wx wx₂ ht ht₂
    cases calls with
    | nil => cases hf
    | cons c cs =>
    cases calls₂ with
    | nil => simp at he
    | cons c₂ cs₂ =>
    rw [List.map_cons, List.map_cons] at he
    obtain ⟨he1, he2⟩ := List.cons.inj he
    obtain ⟨hR, hf⟩ := List.forall₂_cons.1 (by simpa only [List.map_cons] using hf)
    obtain ⟨R₁, y, y₂, G, q1, hRp, hRs, y1, y1', y2, y2', y3, y3'⟩ := hop _ _ (hP _ (by simp)) hR
    obtain ⟨R', o, r1, ho, r2, r3, r4⟩ := hl
    obtain ⟨R'', o₂, s1, ho₂, s2, s3, s4⟩ := hl₂
    rw [hR] at r1
    cases r1
    rw [he1, q1] at s1
    cases s1
    obtain ⟨o₁, rfl⟩ := exists_unren ρ o₂
    have later : ∀ x, (∃ d ∈ cs, ∃ S, inputs[d.operand]? = some S ∧ x ∈ S) ↔ x ∈ rest.flatten := by
      intro x
      rw [← mem_operands hf x]
      simp
    have later₂ : ∀ x, (∃ d ∈ cs₂, ∃ S, inputs₂[d.operand]? = some S ∧ ρ x ∈ S) ↔ x ∈ rest.flatten := by
      intro x
      have e : (∃ d ∈ cs₂, ∃ S, inputs₂[d.operand]? = some S ∧ ρ x ∈ S) ↔
          ∃ n ∈ cs.map TwoCall.operand, ∃ S, inputs₂[n]? = some S ∧ ρ x ∈ S := by
        rw [← he2]
        simp
      rw [e, ← mem_operands hf x]
      refine exists_congr fun n => and_congr_right fun hn => ?_
      obtain ⟨S, hS⟩ : ∃ S, inputs[n]? = some S := by
        obtain ⟨i, hi, rfl⟩ := List.getElem_of_mem hn
        exact ⟨_, (List.forall₂_iff_get.1 hf).2 i (by rw [hf.length_eq]; exact hi) hi⟩
      obtain ⟨S₁, -, -, -, g1, g2, -⟩ := hop n S (hP n (by simp only [List.map_cons, List.mem_cons]; exact .inr hn)) hS
      rw [g1, hS]
      simp only [Option.some.injEq, exists_eq_left', m, g2.mem_iff]
    have mo : ∀ x, x ∈ o ↔ (x ∈ L ∨ x ∈ R) ∧ x ∈ rest.flatten ++ out := fun x => by
      rw [r3, later, List.mem_append, or_comm (a := x ∈ out)]
    have mo₂ : ∀ x, x ∈ o₁ ↔ (x ∈ L₁ ∨ x ∈ R₁) ∧ x ∈ rest.flatten ++ out := fun x => by
      rw [← m o₁, s3, later₂, List.mem_append, or_comm (b := x ∈ out), m, m, m, hout.mem_iff]
    have n₁ : o₁.Nodup := ho₂.1.of_map
    have hoo : o.Perm o₁ := perm_of_nodup ho.1 n₁ fun x => by rw [mo, mo₂, hLp.mem_iff, hRp.mem_iff]
    have nL : ∀ c ∈ L, c ∉ o → c ∉ rest.flatten ++ out := fun c hc hco hk => hco ((mo c).2 ⟨.inl hc, hk⟩)
    have nR : ∀ c ∈ R, c ∉ o → c ∉ rest.flatten ++ out := fun c hc hco hk => hco ((mo c).2 ⟨.inr hc, hk⟩)
    have hRi : R ∈ inputs := List.mem_of_getElem? hR
    have alone : ∀ d ∈ R, d ∉ L → d ∉ o → ¬ Elsewhere inputs out c.operand d := by
      rintro d d1 d2 d3 (d4 | ⟨j, S, j1, j2, j3⟩)
      · exact nR d d1 d3 (List.mem_append_right _ d4)
      · by_cases hj : j ∈ cs.map TwoCall.operand
        · exact nR d d1 d3 (List.mem_append_left _ ((mem_operands hf d).1 ⟨j, hj, S, j2, j3⟩))
        · exact d2 (hinv j S j2 (by simp only [List.map_cons, List.mem_cons, not_or]; exact ⟨j1, hj⟩) d j3 (by
            rw [List.flatten_cons, List.append_assoc]
            exact List.mem_append_left _ d1))
    obtain ⟨z, z₂, H, z1, z2, z3, z4⟩ := pair_ren ρ ho hLp hRp hoo
      (hLs.imp_right fun g d d1 e e1 d2 e2 d3 e3 => g d d1 e e1
        (by
          rw [List.flatten_cons, List.append_assoc, List.mem_append]
          exact fun hx => hx.elim d2 (nL d d1 d3))
        (by
          rw [List.flatten_cons, List.append_assoc, List.mem_append]
          exact fun hx => hx.elim e2 (nL e e1 e3)))
      (hRs.imp_right fun g d d1 e e1 d2 e2 d3 e3 => g d d1 e e1 (alone d d1 d2 d3) (alone e e1 e2 e3))
      (by
        rcases hset.1 with g | g | g
        · exact .inl fun d d1 d2 d3 => g d d1 d2 ((mo d).1 d3).2
        · exact .inr (.inl fun d d1 e e1 d2 e2 d3 e3 => g d d1 e e1 d2 e2 (nL d d1 d3) (nL e e1 e3))
        · refine .inr (.inr ⟨h1 g.1, ?_⟩)
          rintro (hN | ⟨d, d1, d2, d3⟩)
          · exact hN g.2.1
          · exact nL d d1 d3 ((g.2.2 d d1).resolve_left d2))
      (fun d e d1 e1 d2 e2 => hm d e (hused d d1) (hused e e1) (fun hd => nL d d1 d2 (List.mem_append_right _ hd))
        (fun hd => nL e e1 e2 (List.mem_append_right _ hd)))
      hp (hdiag R hRi) c.order c₂.order ht ht₂ hx hx₂ y2 y2' wx wx₂ y3 y3'
    obtain ⟨w, w₂, K, w1, w2, w3, w4⟩ := ih false cs cs₂ o o₁ z z₂ H (al.sub 1) (al₂.sub 1) hf he2
      (fun n hn => hP n (by simp only [List.map_cons, List.mem_cons]; exact .inr hn)) r4 s4
      (settled_congr (fun c => by
        rw [mo, List.mem_filter, List.mem_append]
        simp) hset.2) hoo (by simp) (.inr fun d d1 _ _ d2 => absurd ((mo d).1 d1).2 d2)
      (fun j S j1 j2 d d1 d2 => (mo d).2 ⟨by
        by_cases hj : j = c.operand
        · subst hj
          rw [hR] at j1
          cases j1
          exact .inr d1
        · exact .inl (hinv j S j1 (by simp only [List.map_cons, List.mem_cons, not_or]; exact ⟨hj, j2⟩) d d1 (by
            rw [List.flatten_cons, List.append_assoc]
            exact List.mem_append_right _ d2)), d2⟩)
      (fun d hd => ((mo d).1 hd).1.elim (hused d) fun hdR => used_iff.2 (List.mem_flatten.2 ⟨R, hRi, hdR⟩))
      (.inl ho.1) z3 z4 (z3.wf ho.1) (z4.wf n₁) (fun p n => ht (1 :: p) n) (fun p n => ht₂ (1 :: p) n)
    refine ⟨w, w₂, K, ?_, ?_, w3, w4⟩
    · simp only [foldCalls, y1, bind_ok, r2, z1, w1]
    · simp only [foldCalls, he1, y1', bind_ok, s2, z2, w2]

section
variable {A : Type} [Zero A] [Add A] [Mul A] [MulAdd A] {dims dims' : Char → Nat}
  {inputs inputs' : List (List Char)} {out out' : List Char} {s s' : String} {operands operands' : List (View A)}
  {t : Nat → SumTree} {al al' : Alloc A}

/-- What the two lists of operands have in common, for `fold_ren`. -/
abbrev Renamed (π : Equiv.Perm Char) (dims : Char → Nat) (inputs inputs' : List (List Char)) (out : List Char)
    (operands operands' : List (View A)) : Prop :=
  ∀ n R, inputs[n]? = some R → ∃ R₁ y y₂ G, inputs'[n]? = some (R₁.map π) ∧ R.Perm R₁ ∧
    (R₁ = R ∨ ∀ c ∈ R, ∀ d ∈ R, ¬ Elsewhere inputs out n c → ¬ Elsewhere inputs out n d → c = d) ∧
    index operands n = .ok y ∧ index operands' n = .ok y₂ ∧ Rep y R (dims ∘ π) G ∧ Rep y₂ R₁ (dims ∘ π) G ∧ y.Wf ∧ y₂.Wf

/-- Two calls side by side, the second renamed. -/
theorem einsums_ren (π : Equiv.Perm Char) {L L₁ out₁ : List Char} {rest rest' : List (List Char)}
    (hd : Denotes s (L :: rest) out) (hd' : Denotes s' (L₁.map π :: rest') (out₁.map π)) (hl : rest'.length = rest.length)
    (hs : Sized (dims' ∘ π) (L :: rest) (operands.map View.shape))
    (hs' : Sized dims' (L₁.map π :: rest') (operands'.map View.shape))
    (hop : Renamed π dims' (L :: rest) (L₁.map π :: rest') out operands operands') (hout : out.Perm out₁)
    (hm : ∀ c d, Used (L :: rest) c → Used (L :: rest) d → c ∉ out → d ∉ out → c < d → π c < π d)
    (hn : NoEmptyDiagonal (dims' ∘ π) (L :: rest)) {b : Bool} (hset : Settled b L rest out) (hb : b = true → L₁ = L)
    (ht : ∀ p n, al.sumOrder p n = t n) (ht' : ∀ p n, al'.sumOrder p n = t n) (h h' : HashOrd) :
    ∃ r q H, einsum h al s operands = .ok (.ok r) ∧ einsum h' al' s' operands' = .ok (.ok q) ∧ Rep r out (dims' ∘ π) H ∧
      Rep q out₁ (dims' ∘ π) H := by
  obtain ⟨L₁', x, x₂, F, e0, hLp, hLs, x1, x1', x2, x2', x3, x3'⟩ := hop 0 L rfl
  obtain rfl : L₁ = L₁' := (List.map_injective_iff.2 π.injective) (by simpa using e0)
  -- letters of the first operand that are nowhere else
  have alone : ∀ c ∈ L, c ∉ rest.flatten ++ out → ¬ Elsewhere (L :: rest) out 0 c := by
    rintro c - c2 (c3 | ⟨j, S, j1, j2, j3⟩)
    · exact c2 (List.mem_append_right _ c3)
    · obtain ⟨j, rfl⟩ := Nat.exists_eq_succ_of_ne_zero j1
      rw [List.getElem?_cons_succ] at j2
      exact c2 (List.mem_append_left _ (List.mem_flatten.2 ⟨S, List.mem_of_getElem? j2, j3⟩))
  cases rest with
  | nil =>
    obtain rfl := List.length_eq_zero_iff.1 hl
    obtain ⟨v, rfl⟩ : ∃ v, operands = [v] := by
      have := hs.length_eq
      exact List.length_eq_one_iff.1 (by simpa using this.symm)
    obtain ⟨v₂, rfl⟩ : ∃ v, operands' = [v] := by
      have := hs'.length_eq
      exact List.length_eq_one_iff.1 (by simpa using this.symm)
    cases x1
    cases x1'
    obtain ⟨r, q, H, h1, h2, h3, h4⟩ := one_ren π hd.outputOk hLp hout
      (fresh_same hLp (hLs.imp_right fun g c c1 d d1 c2 d2 => g c c1 d d1 (alone c c1 (by simpa using c2))
        (alone d d1 (by simpa using d2)))) (hn L (by simp)) (h.sub 1) (h'.sub 1) ht ht' x2 x3 x2' x3'
    refine ⟨r, q, H, ?_, ?_, h3, h4⟩
    · rw [C84_einsum hd hs, h1]
      rfl
    · rw [C84_einsum hd' hs', h2]
      rfl
  | cons R rest =>
    obtain ⟨X, calls, a1, a2, a3, a4⟩ := C83_einsum h s _ out (dims' ∘ π) hd (by simp)
    obtain ⟨X₂, calls₂, b1, b2, b3, b4⟩ := C83_einsum h' s' _ (out₁.map π) dims' hd' (by simp [hl])
    cases a1
    cases b1
    rw [List.length_cons, List.range_succ_eq_map] at a2 b2
    have a2' := (List.cons.inj a2).2
    have b2' := (List.cons.inj b2).2
    have hf : List.Forall₂ (fun S n => (L :: R :: rest)[n]? = some S) (R :: rest) (calls.map TwoCall.operand) := by
      rw [a2']
      refine List.forall₂_iff_get.2 ⟨by simp, fun i h1 h2 => ?_⟩
      simp only [List.length_cons] at h1
      simp only [List.get_eq_getElem, List.getElem_map, List.getElem_range, List.getElem?_cons_succ]
      exact List.getElem?_eq_getElem (by simpa using h1)
    obtain ⟨w, w₂, H, w1, w2, w3, w4⟩ := fold_ren π (fun _ => True) (fun n R _ => hop n R) hout hm hn (R :: rest) b calls calls₂ L L₁ x x₂ F al al' hf
      (by rw [a2', b2', hl]) (fun _ _ => trivial) a3 b3 hset hLp hb
      (hLs.imp_right fun g c c1 d d1 c2 d2 => g c c1 d d1 (alone c c1 c2) (alone d d1 d2))
      (fun j S j1 j2 c c1 _ => by
        rw [a2'] at j2
        cases j with
        | zero =>
          cases j1
          exact c1
        | succ j =>
          refine absurd (List.mem_map.2 ⟨j, ?_, rfl⟩) j2
          rw [List.getElem?_cons_succ] at j1
          exact List.mem_range.2 (List.getElem?_eq_some_iff.1 j1).1)
      (fun c hc => used_iff.2 (by simp [hc])) (hn L (by simp)) x2 x2' x3 x3' ht ht'
    refine ⟨w, w₂, H, ?_, ?_, w3, w4⟩
    · rw [a4 A al operands hs, x1, bind_ok, w1]
      rfl
    · rw [b4 A al' operands' hs', x1', bind_ok, w2]
      rfl

/-- Two paths side by side, the second renamed. -/
theorem paths_ren {B B' : Type} (π : Equiv.Perm Char) {out₁ : List Char} (ops : List (View B)) (ops' : List (View B'))
    (hd : Denotes s inputs out) (hd' : Denotes s' inputs' (out₁.map π)) (hl : inputs'.length = inputs.length)
    (hs : Sized (dims' ∘ π) inputs (ops.map View.shape)) (hs' : Sized dims' inputs' (ops'.map View.shape))
    (h2 : 2 ≤ inputs.length) (m : OptimizationMethod) (h h' : HashOrd) (p p' : EinsumPath)
    (hp : einsumPath h s ops m = .ok (.ok p)) (hp' : einsumPath h' s' ops' m = .ok (.ok p'))
    (hop : Renamed π dims' inputs inputs' out operands operands') (hout : out.Perm out₁)
    (hm : ∀ c d, Used inputs c → Used inputs d → c ∉ out → d ∉ out → c < d → π c < π d)
    (hn : NoEmptyDiagonal (dims' ∘ π) inputs) {L : List Char} {rest : List (List Char)}
    (hpick : pick inputs [] (operandOrder m inputs.length) = L :: rest) {b : Bool} (hset : Settled b L rest out)
    (hb : b = true → (pick inputs' [] (operandOrder m inputs.length)).head? = some (L.map π))
    (ht : ∀ p n, al.sumOrder p n = t n) (ht' : ∀ p n, al'.sumOrder p n = t n) :
    ∃ r q H, p.contractOperands al operands = .ok r ∧ p'.contractOperands al' operands' = .ok q ∧ Rep r out (dims' ∘ π) H ∧
      Rep q out₁ (dims' ∘ π) H := by
  obtain ⟨n, X, calls, a1, a2, a3, a4⟩ := C83_path h s ops inputs out _ hd hs h2 m p hp
  obtain ⟨n₂, X₂, calls₂, b1, b2, b3, b4⟩ := C83_path h' s' ops' inputs' _ dims' hd' hs' (hl ▸ h2) m p' hp'
  have hperm : (operandOrder m inputs.length).Perm (List.range inputs.length) := by
    cases m <;> first | exact .refl _ | exact List.reverse_perm _
  have hpf : List.Forall₂ (fun R n => inputs[n]? = some R) (pick inputs [] (operandOrder m inputs.length))
      (operandOrder m inputs.length) := by
    rw [pick, List.forall₂_map_left_iff, List.forall₂_same]
    intro i hi
    have : i < inputs.length := by simpa using hperm.mem_iff.1 hi
    simp [this]
  have hnd : (n :: calls.map TwoCall.operand).Nodup := by
    rw [a2, hperm.nodup_iff]
    exact List.nodup_range
  have hall : ∀ j S, inputs[j]? = some S → j ∈ n :: calls.map TwoCall.operand := fun j S hj => by
    rw [a2, hperm.mem_iff, List.mem_range]
    exact (List.getElem?_eq_some_iff.1 hj).1
  rw [hpick, ← a2] at hpf
  obtain ⟨e1, hf⟩ := List.forall₂_cons.1 hpf
  rw [hl] at b2
  obtain ⟨en, e2⟩ := List.cons.inj (a2.trans b2.symm)
  subst en
  rw [e1] at a1
  cases a1
  obtain ⟨L₁, x, x₂, F, e0, hLp, hLs, x1, x1', x2, x2', x3, x3'⟩ := hop n L e1
  rw [e0] at b1
  cases b1
  have hb' : b = true → L₁ = L := fun e => by
    have := hb e
    rw [pick, ← a2, List.map_cons, List.head?_cons] at this
    simp only [List.getD_eq_getElem?_getD, e0, Option.getD_some, Option.some.injEq] at this
    exact (List.map_injective_iff.2 π.injective) this
  have hmL := List.mem_of_getElem? e1
  have alone : ∀ c ∈ L, c ∉ rest.flatten ++ out → ¬ Elsewhere inputs out n c := by
    rintro c - c2 (c3 | ⟨j, S, j1, j2, j3⟩)
    · exact c2 (List.mem_append_right _ c3)
    · have := (List.mem_cons.1 (hall j S j2)).resolve_left j1
      exact c2 (List.mem_append_left _ ((mem_operands hf c).1 ⟨j, this, S, j2, j3⟩))
  obtain ⟨w, w₂, H, w1, w2, w3, w4⟩ := fold_ren π (fun _ => True) (fun n R _ => hop n R) hout hm hn rest b calls calls₂ L L₁ x x₂ F al al' hf
    e2.symm (fun _ _ => trivial) a3 b3 hset hLp hb'
    (hLs.imp_right fun g c c1 d d1 c2 d2 => g c c1 d d1 (alone c c1 c2) (alone d d1 d2))
    (fun j S j1 j2 c c1 _ => by
      obtain rfl := (List.mem_cons.1 (hall j S j1)).resolve_right j2
      rw [e1] at j1
      cases j1
      exact c1)
    (fun c hc => used_iff.2 (List.mem_flatten.2 ⟨L, hmL, hc⟩)) (hn L hmL) x2 x2' x3 x3' ht ht'
  refine ⟨w, w₂, H, ?_, ?_, w3, w4⟩
  · rw [a4 A al operands, x1, bind_ok, w1]
  · rw [b4 A al' operands', x1', bind_ok, w2]

/-- A renaming of finitely many letters as a permutation of all letters. -/
theorem exists_extending (ρ : Char → Char) (hinj : ∀ c d, Used inputs c → Used inputs d → ρ c = ρ d → c = d) :
    ∃ π : Equiv.Perm Char, ∀ c, Used inputs c → π c = ρ c := by
  obtain ⟨π, hπ⟩ := Equiv.Perm.exists_extending_pair (α := inputs.flatten.toFinset) (fun c => c.1) (fun c => ρ c.1)
    Subtype.val_injective (fun c d e => Subtype.ext (hinj c.1 d.1 (used_iff.2 (List.mem_toFinset.1 c.2))
      (used_iff.2 (List.mem_toFinset.1 d.2)) e))
  exact ⟨π, fun c hc => hπ ⟨c, List.mem_toFinset.2 (used_iff.1 hc)⟩⟩

omit [Add A] [Mul A] [MulAdd A] in
theorem renamed_of {ρ : Char → Char} {π : Equiv.Perm Char} (hπ : ∀ c, Used inputs c → π c = ρ c)
    (hs : Sized (dims' ∘ π) inputs (operands.map View.shape)) (hw : ∀ v ∈ operands, v.Wf)
    (hl : operands'.length = operands.length) (hl' : inputs'.length = inputs.length)
    (hre : ∀ (k : Nat) ix v ix' w, inputs[k]? = some ix → operands[k]? = some v → inputs'[k]? = some ix' →
      operands'[k]? = some w → Relabels ρ dims' ix v ix' w ∧ (ix' = ix.map ρ ∨
        ∀ c ∈ ix, ∀ d ∈ ix, ¬ Elsewhere inputs out k c → ¬ Elsewhere inputs out k d → c = d)) :
    Renamed π dims' inputs inputs' out operands operands' := by
  intro n R hR
  obtain ⟨y, G, y1, y2, y3⟩ := operand_rep hs hw n R hR
  have hlen : inputs.length = operands.length := by simpa using hs.length_eq
  have hn : n < operands.length := hlen ▸ (List.getElem?_eq_some_iff.1 hR).1
  have hn' : n < operands'.length := hl ▸ hn
  have hn'' : n < inputs'.length := by omega
  obtain rfl : operands[n] = y := by
    rw [index_getElem hn] at y1
    exact Except.ok.inj y1
  obtain ⟨⟨s1, s2, s3, s4⟩, s5⟩ := hre n R operands[n] inputs'[n] operands'[n] hR (List.getElem?_eq_getElem hn)
    (List.getElem?_eq_getElem hn'') (List.getElem?_eq_getElem hn')
  have hu : ∀ c ∈ R, π c = ρ c := fun c hc => hπ c (used_iff.2 (List.mem_flatten.2 ⟨R, List.mem_of_getElem? hR, hc⟩))
  have eρ : R.map ρ = R.map π := List.map_congr_left fun c hc => (hu c hc).symm
  obtain ⟨R₁, hR₁⟩ := exists_unren π inputs'[n]
  rw [hR₁, eρ] at s1
  have hp : R.Perm R₁ := by
    have := s1.map π.symm
    simp only [List.map_map, Equiv.symm_comp_self, List.map_id] at this
    exact this.symm
  refine ⟨R₁, _, operands'[n], G, by rw [List.getElem?_eq_getElem hn'', hR₁], hp, s5.imp_left fun e => ?_, y1, index_getElem hn', y2,
    (rep_ren π).1 ⟨?_, ?_, fun σ hσ => ?_⟩, y3, s2⟩
  · rw [hR₁, eρ] at e
    exact (List.map_injective_iff.2 π.injective) e
  · rw [s3, hR₁]
  · rw [s2.1, s3, List.length_map, hR₁]
  · rw [hR₁] at s4
    have e : (R.map fun c => σ (ρ c)) = R.map (σ ∘ π) := List.map_congr_left fun c hc => by simp [hu c hc]
    rw [s4 σ hσ, e, y2.get]
    intro c hc
    exact hσ (π c) (List.mem_map_of_mem (hp.mem_iff.1 hc))

omit [Zero A] [Add A] [Mul A] [MulAdd A] in
theorem relabels_of {ρ : Char → Char} {π : Equiv.Perm Char} {out₁ : List Char} {r q : View A} {H : (Char → Nat) → A}
    (hπ : ∀ c ∈ out, π c = ρ c) (hn : out.Nodup) (hp : out.Perm out₁) (h : Rep r out (dims' ∘ π) H) (h' : Rep q out₁ (dims' ∘ π) H) :
    Relabels ρ dims' out r (out₁.map π) q := by
  have e : out.map ρ = out.map π := List.map_congr_left fun c hc => (hπ c hc).symm
  have h'' := (rep_ren π).2 h'
  refine ⟨by rw [e]; exact hp.symm.map π, h'.wf (hp.nodup_iff.1 hn), h''.shape, fun σ hσ => ?_⟩
  have e' : (out.map fun c => σ (ρ c)) = out.map (σ ∘ π) := List.map_congr_left fun c hc => by simp [hπ c hc]
  rw [h''.get σ hσ, e', h.get]
  intro c hc
  exact hσ (π c) (List.mem_map_of_mem (hp.mem_iff.1 hc))

theorem sized_ren {shapes : List (List Nat)} {π : Equiv.Perm Char} (hs : Sized dims inputs shapes)
    (hd : ∀ c, Used inputs c → dims' (π c) = dims c) : Sized (dims' ∘ π) inputs shapes := by
  refine List.forall₂_iff_get.2 ⟨hs.length_eq, fun n h1 h2 => ?_⟩
  rw [(List.forall₂_iff_get.1 hs).2 n h1 h2]
  exact List.map_congr_left fun c hc => (hd c (used_iff.2 (List.mem_flatten.2 ⟨_, List.get_mem _ _, hc⟩))).symm

theorem diagonal_ren {π : Equiv.Perm Char} (hn : NoEmptyDiagonal dims inputs)
    (hd : ∀ c, Used inputs c → dims' (π c) = dims c) : NoEmptyDiagonal (dims' ∘ π) inputs := fun ix hix =>
  (hn ix hix).imp_right fun g c hc => by
    show dims' (π c) ≠ 0
    rw [hd c (used_iff.2 (List.mem_flatten.2 ⟨ix, hix, hc⟩))]
    exact g c hc

end

/-! ## Operands exchanged -/

section
variable {A : Type} [Zero A] [Add A] [Mul A] [MulAdd A] {dims : Char → Nat} {L R o : List Char} {F G : (Char → Nat) → A}
  {t : Nat → SumTree} {al al' : Alloc A}

theorem dot_swap (hmul : ∀ a b : A, a * b = b * a) (hfma : ∀ a b c : A, mulAdd a b c = mulAdd b a c) (ps : List (A × A)) (t : SumTree) :
    t.dot (ps.map Prod.swap) = t.dot ps := by
  have e : ∀ i, (ps.map Prod.swap).getD i (0, 0) = (ps.getD i (0, 0)).swap := fun i => by
    simp only [List.getD_eq_getElem?_getD, List.getElem?_map]
    cases ps[i]? <;> rfl
  induction t with
  | zero => rfl
  | leaf i => rw [SumTree.dot, SumTree.dot, e, Prod.fst_swap, Prod.snd_swap, hmul]
  | add l r hl hr => rw [SumTree.dot, SumTree.dot, hl, hr]
  | fused i t ih => rw [SumTree.dot, SumTree.dot, e, Prod.fst_swap, Prod.snd_swap, hfma, ih]

theorem product_swap (hmul : ∀ a b : A, a * b = b * a) (hfma : ∀ a b c : A, mulAdd a b c = mulAdd b a c) (t : SumTree) (C : List Char)
    (σ : Char → Nat) : product t dims C G F σ = product t dims C F G σ := by
  unfold product
  rw [← dot_swap hmul hfma, List.map_map]
  rfl

theorem formula_swap (hmul : ∀ a b : A, a * b = b * a) (hfma : ∀ a b c : A, mulAdd a b c = mulAdd b a c) (hr : Reduced L R o)
    (hc : (∀ c ∈ L, c ∈ R → c ∉ o) ∨ (L.filter fun c => c ∉ o) = R.filter fun c => c ∉ o) (t : Nat → SumTree) :
    formula t dims R L o G F = formula t dims L R o F G := by
  have e : contracted R L o = contracted L R o := by
    unfold contracted
    by_cases h : ∀ c ∈ L, c ∈ R → c ∉ o
    · rw [if_pos h, if_pos fun c hc hc' => h c hc' hc]
      refine eq_of_sorted_of_mem (sortChars_strict (hr.right.filter _)) (sortChars_strict (hr.left.filter _)) fun c => ?_
      rw [(sortChars_perm _).mem_iff, (sortChars_perm _).mem_iff, List.mem_filter, List.mem_filter, decide_eq_true_eq,
        decide_eq_true_eq, and_comm]
    · rw [if_neg h, if_neg fun g => h fun c hc hc' => g c hc' hc, hc.resolve_left h]
  funext σ
  unfold formula
  rw [e, product_swap hmul hfma, hmul (G σ) (F σ)]
  simp only [and_comm (a := ∀ c ∈ R, c ∈ L ∧ c ∈ o)]
  by_cases hL : L = [] <;> by_cases hR : R = [] <;> simp [hL, hR]

/-- Two calls for two operands, the second with the operands exchanged. -/
theorem pair_swap {o₁ : List Char} (hmul : ∀ a b : A, a * b = b * a) (hfma : ∀ a b c : A, mulAdd a b c = mulAdd b a c)
    (ho : OutputOk [L, R] o) (hoo : o.Perm o₁)
    (hc : (∀ c ∈ L, c ∈ R → c ∉ o) ∨ (∀ c ∈ L, ∀ d ∈ L, c ∈ R → d ∈ R → c ∉ o → d ∉ o → c = d) ∨
      ¬ NeedsSimplification L R o ∧ ¬ NeedsSimplification R L o ∧ (L.filter fun c => c ∉ o) = R.filter fun c => c ∉ o)
    (hpL : L.Nodup ∨ ∀ c ∈ L, dims c ≠ 0) (hpR : R.Nodup ∨ ∀ c ∈ R, dims c ≠ 0) (h h₂ : HashOrd)
    (ht : ∀ p n, al.sumOrder p n = t n) (ht' : ∀ p n, al'.sumOrder p n = t n)
    {l l₂ r r₂ : View A} (hl : Rep l L dims F) (hl₂ : Rep l₂ L dims F) (hr : Rep r R dims G)
    (hr₂ : Rep r₂ R dims G) (wl : l.Wf) (wl₂ : l₂.Wf) (wr : r.Wf) (wr₂ : r₂.Wf) :
    ∃ w w₂ H, (callSC [L, R] o dims).contractOperands h al [l, r] = .ok w ∧
      (callSC [R, L] o₁ dims).contractOperands h₂ al' [r₂, l₂] = .ok w₂ ∧ Rep w o dims H ∧ Rep w₂ o₁ dims H := by
  have ho₂ : OutputOk [R, L] o₁ := ⟨hoo.nodup_iff.1 ho.1, fun c hc => used_iff.2 (by
    have := used_iff.1 (ho.2 c (hoo.mem_iff.2 hc))
    simpa [or_comm] using this)⟩
  have nL : NeedsSimplification L R o₁ ↔ NeedsSimplification L R o := by
    unfold NeedsSimplification
    simp only [hoo.mem_iff]
  have nR : NeedsSimplification R L o₁ ↔ NeedsSimplification R L o := by
    unfold NeedsSimplification
    simp only [hoo.mem_iff]
  obtain ⟨L', R', k, a1, a2, a3, b1, b2, b3, ho', hr', hrun⟩ := pair_run (dims := dims) ho h
  obtain ⟨N, M, k₂, b1', b2', b3', a1', a2', a3', ho₂', hr₂', hrun'⟩ := pair_run (dims := dims) ho₂ h₂
  have pL : L'.Perm M := perm_of_nodup a1 a1' fun c => by rw [a2, a2', hoo.mem_iff]
  have pR : R'.Perm N := perm_of_nodup b1 b1' fun c => by rw [b2, b2', hoo.mem_iff]
  have oL : OutputOk [L] L' := ⟨a1, fun c hc => used_iff.2 (by simpa using ((a2 c).1 hc).1)⟩
  have oR : OutputOk [R] R' := ⟨b1, fun c hc => used_iff.2 (by simpa using ((b2 c).1 hc).1)⟩
  obtain ⟨x, x₂, X, x1, x2, x3, x4⟩ : ∃ x x₂ X,
      (if NeedsSimplification L R o then (callSC [L] L' dims).contractOperands h ((al.sub 0).sub 0) [l] else .ok l) = .ok x ∧
      (if NeedsSimplification L R o₁ then (callSC [L] M dims).contractOperands h ((al'.sub 0).sub 1) [l₂] else .ok l₂) = .ok x₂ ∧
      Rep x L' dims X ∧ Rep x₂ M dims X := by
    by_cases hN : NeedsSimplification L R o
    · rw [if_pos hN, if_pos (nL.2 hN)]
      exact one_two (f := fun _ i => i) oL pL (fun _ _ _ => ⟨rfl, fun _ => rfl⟩) hpL hpL h h (al := (al.sub 0).sub 0)
        (al₂ := (al'.sub 0).sub 1) (fun p n => ht (0 :: 0 :: p) n) (fun p n => ht' (0 :: 1 :: p) n) hl wl hl₂ wl₂
    · rw [if_neg hN, if_neg (mt nL.1 hN), a3 hN, a3' (mt nL.1 hN)]
      exact ⟨l, l₂, F, rfl, rfl, hl, hl₂⟩
  obtain ⟨y, y₂, Y, y1, y2, y3, y4⟩ : ∃ y y₂ Y,
      (if NeedsSimplification R L o then (callSC [R] R' dims).contractOperands h ((al.sub 0).sub 1) [r] else .ok r) = .ok y ∧
      (if NeedsSimplification R L o₁ then (callSC [R] N dims).contractOperands h ((al'.sub 0).sub 0) [r₂] else .ok r₂) = .ok y₂ ∧
      Rep y R' dims Y ∧ Rep y₂ N dims Y := by
    by_cases hN : NeedsSimplification R L o
    · rw [if_pos hN, if_pos (nR.2 hN)]
      exact one_two (f := fun _ i => i) oR pR (fun _ _ _ => ⟨rfl, fun _ => rfl⟩) hpR hpR h h (al := (al.sub 0).sub 1)
        (al₂ := (al'.sub 0).sub 0) (fun p n => ht (0 :: 1 :: p) n) (fun p n => ht' (0 :: 0 :: p) n) hr wr hr₂ wr₂
    · rw [if_neg hN, if_neg (mt nR.1 hN), b3 hN, b3' (mt nR.1 hN)]
      exact ⟨r, r₂, G, rfl, rfl, hr, hr₂⟩
  obtain ⟨w, w1, w2⟩ := reduced_formula ho' hr' k ht x3 y3
  obtain ⟨w₂, w3, w4⟩ := reduced_formula ho₂' hr₂' k₂ ht' y4 x4
  have hc' : (∀ c ∈ L', c ∈ R' → c ∉ o) ∨ (R'.filter fun c => c ∉ o) = N.filter (fun c => c ∉ o) ∧
      (L'.filter fun c => c ∉ o) = R'.filter fun c => c ∉ o := by
    rcases hc with hc | hc | ⟨c1, c2, c3⟩
    · exact .inl fun c h1 h2 => hc c ((a2 c).1 h1).1 ((b2 c).1 h2).1
    · have p : (L'.filter fun c => c ∉ o).Perm (R'.filter fun c => c ∉ o) := by
        refine perm_of_nodup (a1.filter _) (b1.filter _) fun c => ?_
        rw [List.mem_filter, List.mem_filter, decide_eq_true_eq, a2, b2]
        exact ⟨fun g => ⟨⟨g.1.2.resolve_right g.2, .inl g.1.1⟩, g.2⟩, fun g => ⟨⟨g.1.2.resolve_right g.2, .inl g.1.1⟩, g.2⟩⟩
      have one : ∀ c ∈ L'.filter (fun c => c ∉ o), ∀ d ∈ L'.filter (fun c => c ∉ o), c = d := by
        intro c h1 d h2
        rw [List.mem_filter, decide_eq_true_eq] at h1 h2
        obtain ⟨c1, c2⟩ := (a2 c).1 h1.1
        obtain ⟨d1, d2⟩ := (a2 d).1 h2.1
        exact hc c c1 d d1 (c2.resolve_right h1.2) (d2.resolve_right h2.2) h1.2 h2.2
      exact .inr ⟨eq_of_perm_one (pR.filter _) (b1.filter _) fun c h1 d h2 => one c (p.mem_iff.2 h1) d (p.mem_iff.2 h2),
        eq_of_perm_one p (a1.filter _) one⟩
    · rw [a3 c1, b3 c2, b3' (mt nR.1 c2)]
      exact .inr ⟨rfl, c3⟩
  have e : formula t dims N M o₁ Y X = formula t dims L' R' o X Y := by
    rw [formula_perm b1 pR pL hoo, formula_swap hmul hfma hr' (hc'.imp_right And.right)]
    exact hc'.imp (fun g c c1 c2 => g c c2 c1) And.left
  rw [e] at w4
  refine ⟨w, w₂, _, ?_, ?_, w2, w4⟩
  · rw [hrun A h, x1, bind_ok, y1, bind_ok, w1]
  · rw [hrun' A h, y2, bind_ok, x2, bind_ok, w3]

end

variable {A : Type} [Zero A] [Add A] [Mul A] [MulAdd A]

/-- C101: letters renamed, axes of operands permuted together with their letters, letters of the output permuted: the same
elements at the permuted places, without any law for the elements. -/
theorem C101_einsum (ρ : Char → Char) (h h' : HashOrd) (al al' : Alloc A) (t : Nat → SumTree)
    (ht : ∀ p n, al.sumOrder p n = t n) (ht' : ∀ p n, al'.sumOrder p n = t n) (s s' : String)
    (operands operands' : List (View A)) (L : List Char) (rest inputs' : List (List Char)) (out out' : List Char)
    (dims dims' : Char → Nat) (hd : Denotes s (L :: rest) out) (hd' : Denotes s' inputs' out')
    (hs : Sized dims (L :: rest) (operands.map View.shape)) (hw : ∀ v ∈ operands, v.Wf)
    (hinj : ∀ c d, Used (L :: rest) c → Used (L :: rest) d → ρ c = ρ d → c = d)
    (hdims : ∀ c, Used (L :: rest) c → dims' (ρ c) = dims c)
    (hl : operands'.length = operands.length) (hl' : inputs'.length = (L :: rest).length)
    (hre : ∀ (k : Nat) ix v ix' w, (L :: rest)[k]? = some ix → operands[k]? = some v → inputs'[k]? = some ix' →
      operands'[k]? = some w → Relabels ρ dims' ix v ix' w ∧ (ix' = ix.map ρ ∨
        ∀ c ∈ ix, ∀ d ∈ ix, ¬ Elsewhere (L :: rest) out k c → ¬ Elsewhere (L :: rest) out k d → c = d))
    (hout : out'.Perm (out.map ρ))
    (hm : ∀ c d, Used (L :: rest) c → Used (L :: rest) d → c ∉ out → d ∉ out → c < d → ρ c < ρ d)
    (hn : NoEmptyDiagonal dims (L :: rest)) (b : Bool) (hset : Settled b L rest out)
    (hb : b = true → inputs'[0]? = some (L.map ρ)) :
    ∃ r q, einsum h al s operands = .ok (.ok r) ∧ einsum h' al' s' operands' = .ok (.ok q) ∧
      Relabels ρ dims' out r out' q := by
  obtain ⟨π, hπ⟩ := exists_extending ρ hinj
  have hdims' : ∀ c, Used (L :: rest) c → dims' (π c) = dims c := fun c hc => by rw [hπ c hc, hdims c hc]
  have hlen : (L :: rest).length = operands.length := by simpa using hs.length_eq
  have hs₁ := sized_ren hs hdims'
  obtain ⟨-, hs'⟩ := described (dims := dims') hlen hl hl' fun k ix v ix' w e1 e2 e3 e4 =>
    ⟨(hre k ix v ix' w e1 e2 e3 e4).1.2.1, (hre k ix v ix' w e1 e2 e3 e4).1.2.2.1⟩
  have hop := renamed_of hπ hs₁ hw hl hl' hre
  have hπo : ∀ c ∈ out, π c = ρ c := fun c hc => hπ c (hd.outputOk.2 c hc)
  have hπL : L.map π = L.map ρ := List.map_congr_left fun c hc => hπ c (used_iff.2 (by simp [hc]))
  obtain ⟨out₁, rfl⟩ := exists_unren π out'
  have hout₁ : out.Perm out₁ := by
    rw [← List.map_congr_left hπo] at hout
    have := hout.map π.symm
    simp only [List.map_map, Equiv.symm_comp_self, List.map_id] at this
    exact this.symm
  obtain ⟨L', rest', rfl⟩ : ∃ L' rest', inputs' = L' :: rest' := List.exists_cons_of_length_eq_add_one hl'
  obtain ⟨L₁, rfl⟩ := exists_unren π L'
  obtain ⟨r, q, H, h1, h2, h3, h4⟩ := einsums_ren (al := al) (al' := al') π hd hd' (by simpa using hl') hs₁ hs' hop hout₁
    (fun c d hc hd' => by rw [hπ c hc, hπ d hd']; exact hm c d hc hd') (diagonal_ren hn hdims') hset
    (fun e => (List.map_injective_iff.2 π.injective) (by rw [hπL]; simpa using hb e)) ht ht' h h'
  exact ⟨r, q, h1, h2, relabels_of hπo hd.outputOk.1 hout₁ h3 h4⟩

/-- C101 for compiled paths. -/
theorem C101_path {B B' : Type} (ρ : Char → Char) (h h' : HashOrd) (al al' : Alloc A) (t : Nat → SumTree)
    (ht : ∀ p n, al.sumOrder p n = t n) (ht' : ∀ p n, al'.sumOrder p n = t n) (s s' : String)
    (ops : List (View B)) (ops' : List (View B')) (operands operands' : List (View A)) (inputs inputs' : List (List Char))
    (out out' : List Char) (dims dims' : Char → Nat) (hd : Denotes s inputs out) (hd' : Denotes s' inputs' out')
    (h2 : 2 ≤ inputs.length) (m : OptimizationMethod) (p p' : EinsumPath)
    (hp : einsumPath h s ops m = .ok (.ok p)) (hp' : einsumPath h' s' ops' m = .ok (.ok p'))
    (hsh : ops.map View.shape = operands.map View.shape) (hsh' : ops'.map View.shape = operands'.map View.shape)
    (hs : Sized dims inputs (operands.map View.shape)) (hw : ∀ v ∈ operands, v.Wf)
    (hinj : ∀ c d, Used inputs c → Used inputs d → ρ c = ρ d → c = d)
    (hdims : ∀ c, Used inputs c → dims' (ρ c) = dims c)
    (hl : operands'.length = operands.length) (hl' : inputs'.length = inputs.length)
    (hre : ∀ (k : Nat) ix v ix' w, inputs[k]? = some ix → operands[k]? = some v → inputs'[k]? = some ix' →
      operands'[k]? = some w → Relabels ρ dims' ix v ix' w ∧ (ix' = ix.map ρ ∨
        ∀ c ∈ ix, ∀ d ∈ ix, ¬ Elsewhere inputs out k c → ¬ Elsewhere inputs out k d → c = d))
    (hout : out'.Perm (out.map ρ))
    (hm : ∀ c d, Used inputs c → Used inputs d → c ∉ out → d ∉ out → c < d → ρ c < ρ d)
    (hn : NoEmptyDiagonal dims inputs) (L : List Char) (rest : List (List Char))
    (hpick : pick inputs [] (operandOrder m inputs.length) = L :: rest) (b : Bool) (hset : Settled b L rest out)
    (hb : b = true → (pick inputs' [] (operandOrder m inputs.length)).head? = some (L.map ρ)) :
    ∃ r q, p.contractOperands al operands = .ok r ∧ p'.contractOperands al' operands' = .ok q ∧
      Relabels ρ dims' out r out' q := by
  obtain ⟨π, hπ⟩ := exists_extending ρ hinj
  have hdims' : ∀ c, Used inputs c → dims' (π c) = dims c := fun c hc => by rw [hπ c hc, hdims c hc]
  have hlen : inputs.length = operands.length := by simpa using hs.length_eq
  have hs₁ := sized_ren hs hdims'
  obtain ⟨-, hs'⟩ := described (dims := dims') hlen hl hl' fun k ix v ix' w e1 e2 e3 e4 =>
    ⟨(hre k ix v ix' w e1 e2 e3 e4).1.2.1, (hre k ix v ix' w e1 e2 e3 e4).1.2.2.1⟩
  have hop := renamed_of hπ hs₁ hw hl hl' hre
  have hπo : ∀ c ∈ out, π c = ρ c := fun c hc => hπ c (hd.outputOk.2 c hc)
  have hL : L ∈ inputs := by
    have : L ∈ pick inputs [] (operandOrder m inputs.length) := by rw [hpick]; simp
    rw [pick, List.mem_map] at this
    obtain ⟨i, hi, rfl⟩ := this
    have hperm : (operandOrder m inputs.length).Perm (List.range inputs.length) := by
      cases m <;> first | exact .refl _ | exact List.reverse_perm _
    have : i < inputs.length := by simpa using hperm.mem_iff.1 hi
    simp [this]
  have hπL : L.map π = L.map ρ := List.map_congr_left fun c hc => hπ c (used_iff.2 (List.mem_flatten.2 ⟨L, hL, hc⟩))
  obtain ⟨out₁, rfl⟩ := exists_unren π out'
  have hout₁ : out.Perm out₁ := by
    rw [← List.map_congr_left hπo] at hout
    have := hout.map π.symm
    simp only [List.map_map, Equiv.symm_comp_self, List.map_id] at this
    exact this.symm
  obtain ⟨r, q, H, h1, h2, h3, h4⟩ := paths_ren (al := al) (al' := al') π ops ops' hd hd' hl' (hsh ▸ hs₁) (hsh' ▸ hs') h2 m h h' p p'
    hp hp' hop hout₁ (fun c d hc hd' => by rw [hπ c hc, hπ d hd']; exact hm c d hc hd') (diagonal_ren hn hdims') hpick hset
    (fun e => by rw [hπL]; exact hb e) ht ht'
  exact ⟨r, q, h1, h2, relabels_of hπo hd.outputOk.1 hout₁ h3 h4⟩

/-- C101, the first two operands exchanged: `einsum` gives the same array with the same bits if `*` commutes, and either the
letters that the first two operands share are contracted in the first step, or one letter at most is contracted there, or neither
operand has to be simplified and the contracted letters are in the same order in both. -/
theorem C101_swap (hmul : ∀ a b : A, a * b = b * a) (hfma : ∀ a b c : A, mulAdd a b c = mulAdd b a c) (h h' : HashOrd)
    (al al' : Alloc A) (t : Nat → SumTree) (ht : ∀ p n, al.sumOrder p n = t n) (ht' : ∀ p n, al'.sumOrder p n = t n)
    (s s' : String) (x y : View A) (operands : List (View A)) (L R : List Char) (rest : List (List Char)) (out : List Char)
    (dims : Char → Nat) (hd : Denotes s (L :: R :: rest) out) (hd' : Denotes s' (R :: L :: rest) out)
    (hs : Sized dims (L :: R :: rest) ((x :: y :: operands).map View.shape)) (hw : ∀ v ∈ x :: y :: operands, v.Wf)
    (hn : NoEmptyDiagonal dims (L :: R :: rest))
    (hc : (∀ c ∈ L, c ∈ R → c ∉ rest.flatten ++ out) ∨
      (∀ c ∈ L, ∀ d ∈ L, c ∈ R → d ∈ R → c ∉ rest.flatten ++ out → d ∉ rest.flatten ++ out → c = d) ∨
      (L.Nodup ∧ R.Nodup ∧ (∀ c ∈ L, c ∈ R ∨ c ∈ rest.flatten ++ out) ∧ (∀ c ∈ R, c ∈ L ∨ c ∈ rest.flatten ++ out) ∧
        (L.filter fun c => c ∉ rest.flatten ++ out) = R.filter fun c => c ∉ rest.flatten ++ out))
    (hset : Settled false ((L ++ R).filter fun c => c ∈ rest.flatten ++ out) rest out) :
    ∃ r q, einsum h al s (x :: y :: operands) = .ok (.ok r) ∧ einsum h' al' s' (y :: x :: operands) = .ok (.ok q) ∧
      SameArray r q := by
  have hs' : Sized dims (R :: L :: rest) ((y :: x :: operands).map View.shape) := by
    obtain ⟨h1, h2⟩ := List.forall₂_cons.1 hs
    obtain ⟨h2, h3⟩ := List.forall₂_cons.1 h2
    exact .cons h2 (.cons h1 h3)
  obtain ⟨X, calls, a1, a2, a3, a4⟩ := C83_einsum h s _ out dims hd (by simp)
  obtain ⟨X₂, calls₂, b1, b2, b3, b4⟩ := C83_einsum h' s' _ out dims hd' (by simp)
  cases a1
  cases b1
  rw [List.length_cons, List.range_succ_eq_map, List.length_cons, List.range_succ_eq_map] at a2 b2
  cases calls with
  | nil => simp at a2
  | cons c cs =>
  cases calls₂ with
  | nil => simp at b2
  | cons c₂ cs₂ =>
  simp only [List.map_cons, List.cons.injEq, true_and, List.map_map] at a2 b2
  obtain ⟨ca, a2⟩ := a2
  obtain ⟨cb, b2⟩ := b2
  have hf : List.Forall₂ (fun S n => (L :: R :: rest)[n]? = some S) rest (cs.map TwoCall.operand) := by
    rw [a2]
    refine List.forall₂_iff_get.2 ⟨by simp, fun i h1 h2 => ?_⟩
    simp only [List.get_eq_getElem, List.getElem_map, List.getElem_range, Function.comp]
    exact List.getElem?_eq_getElem (by simpa using h1)
  have hP : ∀ n ∈ cs.map TwoCall.operand, 2 ≤ n := by
    rw [a2]
    simp
  have same : ∀ n, 2 ≤ n → (R :: L :: rest)[n]? = (L :: R :: rest)[n]? := fun n hn => by
    obtain ⟨n, rfl⟩ := Nat.exists_eq_add_of_le' hn
    rfl
  have same' : ∀ n, 2 ≤ n → index (y :: x :: operands) n = index (x :: y :: operands) n := fun n hn => by
    obtain ⟨n, rfl⟩ := Nat.exists_eq_add_of_le' hn
    rfl
  obtain ⟨R', o, r1, ho, r2, r3, r4⟩ := a3
  obtain ⟨L', o₁, s1, ho₁, s2, s3, s4⟩ := b3
  rw [ca] at r1
  rw [cb] at s1
  cases r1
  cases s1
  have mo : ∀ z, z ∈ o ↔ (z ∈ L ∨ z ∈ R) ∧ z ∈ rest.flatten ++ out := fun z => by
    rw [r3, List.mem_append, or_comm (a := z ∈ out), ← mem_operands hf z]
    simp
  have mo₁ : ∀ z, z ∈ o₁ ↔ (z ∈ R ∨ z ∈ L) ∧ z ∈ rest.flatten ++ out := fun z => by
    have e : (∃ d ∈ cs₂, ∃ S, (R :: L :: rest)[d.operand]? = some S ∧ z ∈ S) ↔
        ∃ n ∈ cs.map TwoCall.operand, ∃ S, (L :: R :: rest)[n]? = some S ∧ z ∈ S := by
      rw [a2, ← b2]
      simp only [List.mem_map, exists_exists_and_eq_and]
      refine exists_congr fun d => and_congr_right fun hd => ?_
      rw [same]
      refine hP _ ?_
      rw [a2, ← b2]
      exact List.mem_map_of_mem hd
    rw [s3, e, mem_operands hf z, List.mem_append, or_comm (a := z ∈ out)]
  have hoo : o.Perm o₁ := perm_of_nodup ho.1 ho₁.1 fun z => by rw [mo, mo₁, or_comm]
  have nL : ∀ c ∈ L, c ∉ o → c ∉ rest.flatten ++ out := fun c hc hco hk => hco ((mo c).2 ⟨.inl hc, hk⟩)
  have nR : ∀ c ∈ R, c ∉ o → c ∉ rest.flatten ++ out := fun c hc hco hk => hco ((mo c).2 ⟨.inr hc, hk⟩)
  have eL : (L.filter fun c => c ∉ o) = L.filter fun c => c ∉ rest.flatten ++ out :=
    List.filter_congr fun c hc => by simp only [decide_eq_decide, mo]; exact ⟨fun g hk => g ⟨.inl hc, hk⟩, fun g hk => g hk.2⟩
  have eR : (R.filter fun c => c ∉ o) = R.filter fun c => c ∉ rest.flatten ++ out :=
    List.filter_congr fun c hc => by simp only [decide_eq_decide, mo]; exact ⟨fun g hk => g ⟨.inr hc, hk⟩, fun g hk => g hk.2⟩
  obtain ⟨x', F, x1, x2, x3⟩ := operand_rep hs hw 0 L rfl
  obtain ⟨y', G, y1, y2, y3⟩ := operand_rep hs hw 1 R rfl
  cases x1
  cases y1
  obtain ⟨z, z₂, H, z1, z2, z3, z4⟩ := pair_swap (al := al) (al' := al') hmul hfma ho hoo
    (by
      rcases hc with g | g | ⟨g1, g2, g3, g4, g5⟩
      · exact .inl fun d d1 d2 d3 => g d d1 d2 ((mo d).1 d3).2
      · exact .inr (.inl fun d d1 e e1 d2 e2 d3 e3 => g d d1 e e1 d2 e2 (nL d d1 d3) (nL e e1 e3))
      · refine .inr (.inr ⟨?_, ?_, by rw [eL, eR, g5]⟩)
        · rintro (hN | ⟨d, d1, d2, d3⟩)
          · exact hN g1
          · exact nL d d1 d3 ((g3 d d1).resolve_left d2)
        · rintro (hN | ⟨d, d1, d2, d3⟩)
          · exact hN g2
          · exact nR d d1 d3 ((g4 d d1).resolve_left d2))
    (hn L (by simp)) (hn R (by simp)) c.order c₂.order ht ht' x2 x2 y2 y2 x3 x3 y3 y3
  obtain ⟨w, w₂, K, w1, w2, w3, w4⟩ := fold_ren (Equiv.refl Char) (dims := dims) (inputs := L :: R :: rest)
    (inputs₂ := R :: L :: rest) (out := out) (out₁ := out) (operands := x :: y :: operands) (operands₂ := y :: x :: operands)
    (fun n => 2 ≤ n)
    (fun n S hP hS => by
      obtain ⟨v, G, v1, v2, v3⟩ := operand_rep hs hw n S hS
      exact ⟨S, v, v, G, by rw [same n hP, hS]; simp, .refl _, .inl rfl, v1, by rw [same' n hP, v1], v2, v2, v3, v3⟩)
    (.refl _) (fun _ _ _ _ _ _ => id) hn rest false cs cs₂ o o₁ z z₂ H (al.sub 1) (al'.sub 1) hf (by rw [a2, b2]) hP r4
    (by simpa using s4)
    (settled_congr (fun c => by
        rw [mo, List.mem_filter, List.mem_append]
        simp) hset) hoo (by simp) (.inr fun d d1 _ _ d2 => absurd ((mo d).1 d1).2 d2)
    (fun j S j1 j2 d d1 d2 => (mo d).2 ⟨by
      rcases j with _ | _ | j
      · cases j1
        exact .inl d1
      · cases j1
        exact .inr d1
      · refine absurd ?_ j2
        rw [a2]
        refine List.mem_map.2 ⟨j, List.mem_range.2 ?_, rfl⟩
        exact (List.getElem?_eq_some_iff.1 (show rest[j]? = some S from j1)).1, d2⟩)
    (fun d hd => used_iff.2 (by
      rcases ((mo d).1 hd).1 with g | g <;> simp [g]))
    (.inl ho.1) z3 z4 (z3.wf ho.1) (z4.wf ho₁.1) (fun p n => ht (1 :: p) n) (fun p n => ht' (1 :: p) n)
  refine ⟨w, w₂, ?_, ?_, same_of_rep hd.outputOk.1 w3 w4⟩
  · rw [a4 A al _ hs]
    simp only [foldCalls, ca]
    change (((c.contraction.contractOperands c.order _ _) >>= _) >>= _) = _
    rw [r2, z1, bind_ok, w1]
    rfl
  · rw [b4 A al' _ hs']
    simp only [foldCalls, cb]
    change (((c₂.contraction.contractOperands c₂.order _ _) >>= _) >>= _) = _
    rw [s2, z2, bind_ok, w2]
    rfl

/-- C101, the letters of the output permuted: the result is permuted in the same way. -/
theorem C101_output (h h' : HashOrd) (al al' : Alloc A) (t : Nat → SumTree) (ht : ∀ p n, al.sumOrder p n = t n)
    (ht' : ∀ p n, al'.sumOrder p n = t n) (s s' : String) (operands : List (View A)) (L : List Char) (rest : List (List Char))
    (out out' : List Char) (dims : Char → Nat) (hd : Denotes s (L :: rest) out) (hd' : Denotes s' (L :: rest) out')
    (hs : Sized dims (L :: rest) (operands.map View.shape)) (hw : ∀ v ∈ operands, v.Wf) (hout : out'.Perm out)
    (hn : NoEmptyDiagonal dims (L :: rest)) (hset : Settled true L rest out) :
    ∃ r q, einsum h al s operands = .ok (.ok r) ∧ einsum h' al' s' operands = .ok (.ok q) ∧ q.Wf ∧ q.shape = out'.map dims ∧
      ∀ σ, InRange dims out' σ → q.read (out'.map σ) = r.read (out.map σ) := by
  obtain ⟨r, q, h1, h2, -, h3, h4, h5⟩ := C101_einsum id h h' al al' t ht ht' s s' operands operands L rest (L :: rest) out out'
    dims dims hd hd' hs hw (fun _ _ _ _ => id) (fun _ _ => rfl) rfl rfl
    (fun k ix v ix' w e1 e2 e3 e4 => by
      rw [e1] at e3
      cases e3
      rw [e2] at e4
      cases e4
      have hsh : v.shape = ix.map dims := by
        obtain ⟨k1, rfl⟩ := List.getElem?_eq_some_iff.1 e1
        obtain ⟨k2, rfl⟩ := List.getElem?_eq_some_iff.1 e2
        simpa using (List.forall₂_iff_get.1 hs).2 k k1 (by simpa using k2)
      exact ⟨⟨by simp, hw v (List.mem_of_getElem? e2), hsh, fun σ _ => rfl⟩, .inl (by simp)⟩)
    (by simpa using hout) (fun _ _ _ _ _ _ => id) hn true hset (by simp)
  exact ⟨r, q, h1, h2, h3, h4, h5⟩

/-- C101, the letters renamed: the same array is returned. -/
theorem C101_rename (ρ : Char → Char) (h h' : HashOrd) (al al' : Alloc A) (t : Nat → SumTree)
    (ht : ∀ p n, al.sumOrder p n = t n) (ht' : ∀ p n, al'.sumOrder p n = t n) (s s' : String) (operands : List (View A))
    (L : List Char) (rest : List (List Char)) (out : List Char) (dims : Char → Nat) (hd : Denotes s (L :: rest) out)
    (hd' : Denotes s' ((L :: rest).map (List.map ρ)) (out.map ρ)) (hs : Sized dims (L :: rest) (operands.map View.shape))
    (hw : ∀ v ∈ operands, v.Wf) (hinj : ∀ c d, Used (L :: rest) c → Used (L :: rest) d → ρ c = ρ d → c = d)
    (hm : ∀ c d, Used (L :: rest) c → Used (L :: rest) d → c ∉ out → d ∉ out → c < d → ρ c < ρ d)
    (hn : NoEmptyDiagonal dims (L :: rest)) (hset : Settled true L rest out) :
    ∃ r q, einsum h al s operands = .ok (.ok r) ∧ einsum h' al' s' operands = .ok (.ok q) ∧ SameArray r q := by
  obtain ⟨π, hπ⟩ := exists_extending ρ hinj
  have ho : out.map ρ = out.map π := List.map_congr_left fun c hc => (hπ c (hd.outputOk.2 c hc)).symm
  have hix : ∀ ix ∈ L :: rest, ix.map ρ = ix.map π := fun ix hix =>
    List.map_congr_left fun c hc => (hπ c (used_iff.2 (List.mem_flatten.2 ⟨ix, hix, hc⟩))).symm
  rw [List.map_congr_left hix, ho, List.map_cons] at hd'
  have e : (dims ∘ π.symm) ∘ π = dims := by
    funext c
    simp
  have hs' : Sized (dims ∘ π.symm) (L.map π :: rest.map (List.map π)) (operands.map View.shape) := by
    rw [← List.map_cons, Sized, List.forall₂_map_left_iff]
    refine hs.imp fun ix sh hsh => ?_
    rw [hsh, List.map_map, e]
  obtain ⟨r, q, H, h1, h2, h3, h4⟩ := einsums_ren (al := al) (al' := al') (dims' := dims ∘ π.symm) (b := true) π hd hd'
    (by simp) (by rw [e]; exact hs) hs'
    (fun n R hR => by
      obtain ⟨y, G, y1, y2, y3⟩ := operand_rep hs hw n R hR
      refine ⟨R, y, y, G, by rw [← List.map_cons, List.getElem?_map, hR]; rfl, .refl _, .inl rfl, y1, y1, ?_, ?_, y3, y3⟩ <;>
        rw [e] <;> exact y2)
    (.refl _) (fun c d hc hd => by rw [hπ c hc, hπ d hd]; exact hm c d hc hd) (by rw [e]; exact hn) hset (fun _ => rfl) ht ht' h h'
  exact ⟨r, q, h1, h2, same_of_rep hd.outputOk.1 h3 h4⟩

/-! ## Findings and examples -/

namespace Ex

/-- The matrix `[[9, 9], [-9, -9]]`. -/
def m101 : View Sat := ⟨[⟨9, by decide⟩, ⟨9, by decide⟩, ⟨-9, by decide⟩, ⟨-9, by decide⟩], 0, [2, 2], [2, 1]⟩

/-- A matrix of ones. -/
def n101 : View Sat := ⟨[1, 1, 1, 1], 0, [2, 2], [2, 1]⟩

/-- `m101` with its axes exchanged. -/
def t101 : View Sat := ⟨[⟨9, by decide⟩, ⟨9, by decide⟩, ⟨-9, by decide⟩, ⟨-9, by decide⟩], 0, [2, 2], [1, 2]⟩

theorem wf_m101 : m101.Wf := (elements_of (t := m101.elem) rfl (by decide +kernel)).1
theorem wf_n101 : n101.Wf := (elements_of (t := n101.elem) rfl (by decide +kernel)).1
theorem wf_t101 : t101.Wf := (elements_of (t := t101.elem) rfl (by decide +kernel)).1

theorem denotes_ij101 : Denotes "ij,ij->" [['i', 'j'], ['i', 'j']] [] :=
  .inl ⟨by decide, ⟨by simp, by simp [Letter], by simp [Letter]⟩, by simp [OutputOk]⟩

theorem denotes_ji101 : Denotes "ji,ji->" [['j', 'i'], ['j', 'i']] [] :=
  .inl ⟨by decide, ⟨by simp, by simp [Letter], by simp [Letter]⟩, by simp [OutputOk]⟩

theorem denotes_x101 : Denotes "xij,xji->x" [['x', 'i', 'j'], ['x', 'j', 'i']] ['x'] :=
  .inl ⟨by decide, ⟨by simp, by simp [Letter], by simp [Letter]⟩, by simp [OutputOk, Used]⟩

theorem denotes_y101 : Denotes "xji,xij->x" [['x', 'j', 'i'], ['x', 'i', 'j']] ['x'] :=
  .inl ⟨by decide, ⟨by simp, by simp [Letter], by simp [Letter]⟩, by simp [OutputOk, Used]⟩

end Ex

/-- What a reduced call for two operands has at an assignment of its letters. -/
theorem Ex.reads101 {s : String} {L R o : List Char} {v w : View A} {dims : Char → Nat} (hd : Denotes s [L, R] o)
    (hr : Reduced L R o) (hs : Sized dims [L, R] ([v, w].map View.shape)) (wv : v.Wf) (ww : w.Wf) (h : HashOrd) {al : Alloc A}
    {t : Nat → SumTree} (ht : ∀ p n, al.sumOrder p n = t n) (σ : Char → Nat)
    (hσ : InRange dims o σ) : ∃ r, einsum h al s [v, w] = .ok (.ok r) ∧
      r.read (o.map σ) = .ok (formula t dims L R o (fun σ => v.elem (L.map σ)) (fun σ => w.elem (R.map σ)) σ) := by
  obtain ⟨h1, h2⟩ := List.forall₂_cons.1 hs
  obtain ⟨h2, -⟩ := List.forall₂_cons.1 h2
  obtain ⟨r, r1, r2⟩ := reduced_formula hd.outputOk hr (h.sub 1) ht (rep_of wv.elements h1) (rep_of ww.elements h2)
  exact ⟨r, by rw [C84_einsum hd hs, r1]; rfl, r2.get σ hσ⟩

/-- C101: letters matter beyond their pattern. `ij,ij->` and `ji,ji->` of the same two arrays of saturating numbers give -9 and 0,
for all hash orders: contracted letters are added in alphabetical order. -/
theorem C101_letters_matter (h h' : HashOrd) : ∃ r q : View Sat,
    einsum h (Alloc.rowMajor Sat) "ij,ij->" [Ex.m101, Ex.n101] = .ok (.ok r) ∧
    einsum h' (Alloc.rowMajor Sat) "ji,ji->" [Ex.m101, Ex.n101] = .ok (.ok q) ∧
    r.read [] = .ok ⟨-9, by decide⟩ ∧ q.read [] = .ok 0 := by
  have hij : contracted ['i', 'j'] ['i', 'j'] [] = ['i', 'j'] := by
    rw [contracted, if_pos (by decide)]
    exact eq_of_sorted_of_mem (sortChars_strict (by decide)) (by decide) fun c => by
      rw [(sortChars_perm _).mem_iff]
      simp
  have hji : contracted ['j', 'i'] ['j', 'i'] [] = ['i', 'j'] := by
    rw [contracted, if_pos (by decide)]
    exact eq_of_sorted_of_mem (sortChars_strict (by decide)) (by decide) fun c => by
      rw [(sortChars_perm _).mem_iff]
      simp [or_comm]
  obtain ⟨r, r1, r2⟩ := Ex.reads101 (dims := Ex.dims43) (al := Alloc.rowMajor Sat) (t := SumTree.sequential) Ex.denotes_ij101
    ⟨by decide, by decide, by decide, by decide⟩ (.cons (by decide) (.cons (by decide) .nil)) Ex.wf_m101 Ex.wf_n101 h
    (fun _ _ => rfl) (fun _ => 0) (by simp [InRange])
  obtain ⟨q, q1, q2⟩ := Ex.reads101 (dims := Ex.dims43) (al := Alloc.rowMajor Sat) (t := SumTree.sequential) Ex.denotes_ji101
    ⟨by decide, by decide, by decide, by decide⟩ (.cons (by decide) (.cons (by decide) .nil)) Ex.wf_m101 Ex.wf_n101 h'
    (fun _ _ => rfl) (fun _ => 0) (by simp [InRange])
  refine ⟨r, q, r1, q1, r2.trans ?_, q2.trans ?_⟩
  · rw [formula, hij]
    rfl
  · rw [formula, hji]
    rfl

/-- C101: exchanging the operands of `xij,xji->x` changes the result from -9 to 0, for all hash orders, although the
multiplication of saturating numbers commutes (`C43_laws`). -/
theorem C101_swap_differs (h h' : HashOrd) : ∃ r q : View Sat,
    einsum h (Alloc.rowMajor Sat) "xij,xji->x" [Ex.c86, Ex.b43] = .ok (.ok r) ∧
    einsum h' (Alloc.rowMajor Sat) "xji,xij->x" [Ex.b43, Ex.c86] = .ok (.ok q) ∧
    r.read [0] = .ok ⟨-9, by decide⟩ ∧ q.read [0] = .ok 0 := by
  obtain ⟨r, r1, r2⟩ := Ex.reads101 (dims := Ex.dims43) (al := Alloc.rowMajor Sat) (t := SumTree.sequential) Ex.denotes_x101
    ⟨by decide, by decide, by decide, by decide⟩ (.cons (by decide) (.cons (by decide) .nil)) (Ex.wf86 Ex.c86 (by simp))
    (Ex.wf86 Ex.b43 (by simp)) h (fun _ _ => rfl) (fun _ => 0) (by simp [InRange, Ex.dims43])
  obtain ⟨q, q1, q2⟩ := Ex.reads101 (dims := Ex.dims43) (al := Alloc.rowMajor Sat) (t := SumTree.sequential) Ex.denotes_y101
    ⟨by decide, by decide, by decide, by decide⟩ (.cons (by decide) (.cons (by decide) .nil)) (Ex.wf86 Ex.b43 (by simp))
    (Ex.wf86 Ex.c86 (by simp)) h' (fun _ _ => rfl) (fun _ => 0) (by simp [InRange, Ex.dims43])
  exact ⟨r, q, r1, q1, r2.trans rfl, q2.trans rfl⟩

/-- The renaming of the example below. -/
def Ex.ren101 (c : Char) : Char := if c = 'i' then 'd' else if c = 'j' then 'b' else if c = 'k' then 'c' else 'a'

theorem Ex.denotes_chain101 : Denotes "ij,jk,kl->il" [['i', 'j'], ['j', 'k'], ['k', 'l']] ['i', 'l'] :=
  .inl ⟨by decide, ⟨by simp, by simp [Letter], by simp [Letter]⟩, by simp [OutputOk, Used]⟩

theorem Ex.denotes_ren101 : Denotes "bd,bc,ca->ad" [['b', 'd'], ['b', 'c'], ['c', 'a']] ['a', 'd'] :=
  .inl ⟨by decide, ⟨by simp, by simp [Letter], by simp [Letter]⟩, by simp [OutputOk, Used]⟩

theorem Ex.used101 {c : Char} (h : Used [['i', 'j'], ['j', 'k'], ['k', 'l']] c) : c ∈ ['i', 'j', 'k', 'l'] := by
  have := used_iff.1 h
  simp only [List.flatten_cons, List.flatten_nil, List.cons_append, List.nil_append, List.mem_cons, List.not_mem_nil, or_false] at this ⊢
  rcases this with rfl | rfl | rfl | rfl | rfl | rfl <;> simp

/-- A chain of three matrices: the first is transposed, all letters are renamed, and the output is transposed. -/
example (h h' : HashOrd) : ∃ r q, einsum h (Alloc.rowMajor Sat) "ij,jk,kl->il" [Ex.m101, Ex.n101, Ex.m101] = .ok (.ok r) ∧
    einsum h' (Alloc.rowMajor Sat) "bd,bc,ca->ad" [Ex.t101, Ex.n101, Ex.m101] = .ok (.ok q) ∧
    Relabels Ex.ren101 (fun _ => 2) ['i', 'l'] r ['a', 'd'] q := by
  refine C101_einsum Ex.ren101 h h' _ _ SumTree.sequential (fun _ _ => rfl) (fun _ _ => rfl) _ _ _ _ ['i', 'j']
    [['j', 'k'], ['k', 'l']] [['b', 'd'], ['b', 'c'], ['c', 'a']] ['i', 'l'] ['a', 'd'] (fun _ => 2) (fun _ => 2) Ex.denotes_chain101
    Ex.denotes_ren101 (.cons rfl (.cons rfl (.cons rfl .nil))) ?_ ?_ (fun _ _ => rfl) rfl rfl ?_ (by decide) ?_
    (by intro ix hix; exact .inr fun _ _ => two_ne_zero) false (by decide) (by decide)
  · simp only [List.mem_cons, List.not_mem_nil, or_false]
    rintro v (rfl | rfl | rfl)
    exacts [Ex.wf_m101, Ex.wf_n101, Ex.wf_m101]
  · intro c d hc hd
    have h2 := Ex.used101 hd
    clear hd
    revert d
    have h1 := Ex.used101 hc
    clear hc
    revert c
    decide
  · intro k ix v ix' w e1 e2 e3 e4
    have two : ∀ n < 2, n = 0 ∨ n = 1 := by omega
    match k with
    | 0 =>
      cases e1; cases e2; cases e3; cases e4
      refine ⟨⟨by decide, Ex.wf_t101, rfl, fun σ hσ => ?_⟩, .inr fun c hc _ _ hx => absurd ?_ hx⟩
      swap
      · simp only [List.mem_cons, List.not_mem_nil, or_false] at hc
        rcases hc with rfl | rfl
        exacts [.inl (by decide), .inr ⟨1, ['j', 'k'], by decide, rfl, by decide⟩]
      change Ex.t101.read [σ 'b', σ 'd'] = Ex.m101.read [σ 'd', σ 'b']
      rcases two _ (hσ 'b' (by simp)) with h1 | h1 <;> rcases two _ (hσ 'd' (by simp)) with h2 | h2 <;> rw [h1, h2] <;> rfl
    | 1 =>
      cases e1; cases e2; cases e3; cases e4
      exact ⟨⟨by decide, Ex.wf_n101, rfl, fun σ hσ => rfl⟩, .inl rfl⟩
    | 2 =>
      cases e1; cases e2; cases e3; cases e4
      exact ⟨⟨by decide, Ex.wf_m101, rfl, fun σ hσ => rfl⟩, .inl rfl⟩
    | k + 3 => simp at e1
  · intro c d hc hd
    have h2 := Ex.used101 hd
    clear hd
    revert d
    have h1 := Ex.used101 hc
    clear hc
    revert c
    decide

/-- The same matrices with two compiled paths that take the operands in reverse order. -/
example (h h' : HashOrd) : ∃ p p' r q, einsumPath h "ij,jk,kl->il" [Ex.m101, Ex.n101, Ex.m101] .reverse = .ok (.ok p) ∧
    einsumPath h' "ij,jk,kl->li" [Ex.m101, Ex.n101, Ex.m101] .reverse = .ok (.ok p') ∧
    p.contractOperands (Alloc.rowMajor Sat) [Ex.m101, Ex.n101, Ex.m101] = .ok r ∧
    p'.contractOperands (Alloc.rowMajor Sat) [Ex.m101, Ex.n101, Ex.m101] = .ok q ∧
    Relabels id (fun _ => 2) ['i', 'l'] r ['l', 'i'] q := by
  have hs : Sized (fun _ => 2) [['i', 'j'], ['j', 'k'], ['k', 'l']] ([Ex.m101, Ex.n101, Ex.m101].map View.shape) :=
    .cons rfl (.cons rfl (.cons rfl .nil))
  have hd' : Denotes "ij,jk,kl->li" [['i', 'j'], ['j', 'k'], ['k', 'l']] ['l', 'i'] :=
    .inl ⟨by decide, ⟨by simp, by simp [Letter], by simp [Letter]⟩, by simp [OutputOk, Used]⟩
  obtain ⟨p, hp, -⟩ := einsumPath_ok (operands := [Ex.m101, Ex.n101, Ex.m101]) Ex.denotes_chain101 hs h (.inr rfl)
  obtain ⟨p', hp', -⟩ := einsumPath_ok (operands := [Ex.m101, Ex.n101, Ex.m101]) hd' hs h' (.inr rfl)
  obtain ⟨r, q, h1, h2, h3⟩ := C101_path id h h' (Alloc.rowMajor Sat) (Alloc.rowMajor Sat) SumTree.sequential (fun _ _ => rfl)
    (fun _ _ => rfl) _ _ [Ex.m101, Ex.n101, Ex.m101] [Ex.m101, Ex.n101, Ex.m101] [Ex.m101, Ex.n101, Ex.m101]
    [Ex.m101, Ex.n101, Ex.m101] _ _ _ _ (fun _ => 2) (fun _ => 2) Ex.denotes_chain101 hd' (by decide) .reverse p p' hp hp' rfl rfl hs
    (by
      simp only [List.mem_cons, List.not_mem_nil, or_false]
      rintro v (rfl | rfl | rfl)
      exacts [Ex.wf_m101, Ex.wf_n101, Ex.wf_m101])
    (fun _ _ _ _ => id) (fun _ _ => rfl) rfl rfl
    (fun k ix v ix' w e1 e2 e3 e4 => by
      match k with
      | 0 =>
        cases e1; cases e2; cases e3; cases e4
        exact ⟨⟨by decide, Ex.wf_m101, rfl, fun σ hσ => rfl⟩, .inl rfl⟩
      | 1 =>
        cases e1; cases e2; cases e3; cases e4
        exact ⟨⟨by decide, Ex.wf_n101, rfl, fun σ hσ => rfl⟩, .inl rfl⟩
      | 2 =>
        cases e1; cases e2; cases e3; cases e4
        exact ⟨⟨by decide, Ex.wf_m101, rfl, fun σ hσ => rfl⟩, .inl rfl⟩
      | k + 3 => simp at e1)
    (by decide) (fun _ _ _ _ _ _ => id) (by intro ix hix; exact .inr fun _ _ => two_ne_zero) ['k', 'l'] [['j', 'k'], ['i', 'j']] rfl
    true (by decide) (fun _ => rfl)
  exact ⟨p, p', r, q, hp, hp', h1, h2, h3⟩

/-- The operands of a product of matrices exchanged, and those of a batch with two contracted letters in the same order. -/
example (h h' : HashOrd) : ∃ r q, einsum h (Alloc.rowMajor Sat) "xij,xij->x" [Ex.c86, Ex.b43] = .ok (.ok r) ∧
    einsum h' (Alloc.rowMajor Sat) "xij,xij->x" [Ex.b43, Ex.c86] = .ok (.ok q) ∧ SameArray r q := by
  have hd : Denotes "xij,xij->x" [['x', 'i', 'j'], ['x', 'i', 'j']] ['x'] :=
    .inl ⟨by decide, ⟨by simp, by simp [Letter], by simp [Letter]⟩, by simp [OutputOk, Used]⟩
  refine C101_swap (fun a b => (C43_laws a b).2.2.1) (fun a b c => ?_) h h' _ _ SumTree.sequential (fun _ _ => rfl) (fun _ _ => rfl) _ _ _ _
    [] ['x', 'i', 'j'] ['x', 'i', 'j'] [] ['x'] Ex.dims43 hd hd (.cons (by decide) (.cons (by decide) .nil)) ?_ ?_ (by decide) trivial
  · change a * b + c = b * a + c
    rw [(C43_laws a b).2.2.1]
  · intro v hv
    refine Ex.wf86 v ?_
    simp only [List.mem_cons, List.not_mem_nil, or_false] at hv ⊢
    exact hv.imp_right .inl
  · intro ix hix
    exact .inl (by revert ix; decide)

example (h h' : HashOrd) : ∃ r q, einsum h (Alloc.rowMajor Sat) "ij,jk,kl->il" [Ex.m101, Ex.n101, Ex.t101] = .ok (.ok r) ∧
    einsum h' (Alloc.rowMajor Sat) "jk,ij,kl->il" [Ex.n101, Ex.m101, Ex.t101] = .ok (.ok q) ∧ SameArray r q := by
  have hd : Denotes "jk,ij,kl->il" [['j', 'k'], ['i', 'j'], ['k', 'l']] ['i', 'l'] :=
    .inl ⟨by decide, ⟨by simp, by simp [Letter], by simp [Letter]⟩, by simp [OutputOk, Used]⟩
  refine C101_swap (fun a b => (C43_laws a b).2.2.1) (fun a b c => ?_) h h' _ _ SumTree.sequential (fun _ _ => rfl) (fun _ _ => rfl) _ _ _ _
    _ ['i', 'j'] ['j', 'k'] [['k', 'l']] ['i', 'l'] (fun _ => 2) Ex.denotes_chain101 hd
    (.cons (by decide) (.cons (by decide) (.cons (by decide) .nil))) ?_ (fun _ _ => .inr fun _ _ => two_ne_zero) (by decide) (by decide)
  · change a * b + c = b * a + c
    rw [(C43_laws a b).2.2.1]
  · simp only [List.mem_cons, List.not_mem_nil, or_false]
    rintro v (rfl | rfl | rfl)
    exacts [Ex.wf_m101, Ex.wf_n101, Ex.wf_t101]

/-- Two summed letters, renamed in their alphabetical order. -/
example (h h' : HashOrd) : ∃ r q, einsum h (Alloc.rowMajor Sat) "ij,ij->" [Ex.m101, Ex.n101] = .ok (.ok r) ∧
    einsum h' (Alloc.rowMajor Sat) "pq,pq->" [Ex.m101, Ex.n101] = .ok (.ok q) ∧ SameArray r q := by
  have hd : Denotes "pq,pq->" [['p', 'q'], ['p', 'q']] [] :=
    .inl ⟨by decide, ⟨by simp, by simp [Letter], by simp [Letter]⟩, by simp [OutputOk]⟩
  have used : ∀ {c}, Used [['i', 'j'], ['i', 'j']] c → c ∈ ['i', 'j'] := fun h => by
    have := used_iff.1 h
    simp only [List.flatten_cons, List.flatten_nil, List.cons_append, List.nil_append, List.mem_cons, List.not_mem_nil, or_false] at this ⊢
    rcases this with rfl | rfl | rfl | rfl <;> simp
  refine C101_rename (fun c => if c = 'i' then 'p' else 'q') h h' _ _ SumTree.sequential (fun _ _ => rfl) (fun _ _ => rfl) _ _ _
    ['i', 'j'] [['i', 'j']] [] Ex.dims43 Ex.denotes_ij101 hd (.cons (by decide) (.cons (by decide) .nil)) ?_ ?_ ?_ ?_ (by decide)
  · simp only [List.mem_cons, List.not_mem_nil, or_false]
    rintro v (rfl | rfl)
    exacts [Ex.wf_m101, Ex.wf_n101]
  · intro c d hc hd
    have h2 := used hd
    clear hd
    revert d
    have h1 := used hc
    clear hc
    revert c
    decide
  · intro c d hc hd
    have h2 := used hd
    clear hd
    revert d
    have h1 := used hc
    clear hc
    revert c
    decide
  · intro ix hix
    exact .inl (by revert ix; decide)

/-- A product of matrices and its transpose. -/
example (h h' : HashOrd) : ∃ r q, einsum h (Alloc.rowMajor Sat) "ij,jk,kl->il" [Ex.m101, Ex.n101, Ex.m101] = .ok (.ok r) ∧
    einsum h' (Alloc.rowMajor Sat) "ij,jk,kl->li" [Ex.m101, Ex.n101, Ex.m101] = .ok (.ok q) ∧
    q.Wf ∧ q.shape = [2, 2] ∧ ∀ i < 2, ∀ l < 2, q.read [l, i] = r.read [i, l] := by
  have hd' : Denotes "ij,jk,kl->li" [['i', 'j'], ['j', 'k'], ['k', 'l']] ['l', 'i'] :=
    .inl ⟨by decide, ⟨by simp, by simp [Letter], by simp [Letter]⟩, by simp [OutputOk, Used]⟩
  obtain ⟨r, q, h1, h2, h3, h4, h5⟩ := C101_output h h' (Alloc.rowMajor Sat) (Alloc.rowMajor Sat) SumTree.sequential (fun _ _ => rfl)
    (fun _ _ => rfl) _ _ [Ex.m101, Ex.n101, Ex.m101] ['i', 'j'] [['j', 'k'], ['k', 'l']] ['i', 'l'] ['l', 'i'] (fun _ => 2)
    Ex.denotes_chain101 hd' (.cons rfl (.cons rfl (.cons rfl .nil)))
    (by
      simp only [List.mem_cons, List.not_mem_nil, or_false]
      rintro v (rfl | rfl | rfl)
      exacts [Ex.wf_m101, Ex.wf_n101, Ex.wf_m101])
    (by decide) (fun _ _ => .inr fun _ _ => two_ne_zero) (by decide)
  refine ⟨r, q, h1, h2, h3, h4, fun i hi l hl => ?_⟩
  have := h5 (fun c => if c = 'i' then i else l) (fun c _ => by
    change (if c = 'i' then i else l) < 2
    split
    exacts [hi, hl])
  simpa using this

end Einsum
