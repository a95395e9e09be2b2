import Verif.Spec
import Verif.Proofs.Index
import Mathlib.Algebra.BigOperators.Ring.Finset
import Mathlib.Algebra.BigOperators.Intervals
import Mathlib.Tactic.Ring

/-! # Sums over label values -/

namespace Einsum

open Spec Function

variable {ι A : Type} [DecidableEq ι]

/-- `f` depends only on the values of the labels `L`. -/
def DependsOn (f : (ι → Nat) → A) (L : List ι) : Prop :=
  ∀ σ σ', (∀ c ∈ L, σ c = σ' c) → f σ = f σ'

omit [DecidableEq ι] in
theorem DependsOn.mono {f : (ι → Nat) → A} {L L' : List ι} (h : DependsOn f L) (hs : ∀ c ∈ L, c ∈ L') :
    DependsOn f L' := fun σ σ' h' => h σ σ' fun c hc => h' c (hs c hc)

omit [DecidableEq ι] in
theorem dependsOn_map (T : List Nat → A) (L : List ι) : DependsOn (fun σ => T (L.map σ)) L := by
  intro σ σ' h
  simp only
  rw [List.map_congr_left h]

omit [DecidableEq ι] in
theorem DependsOn.mul [Mul A] {f g : (ι → Nat) → A} {L L' : List ι} (hf : DependsOn f L)
    (hg : DependsOn g L') : DependsOn (fun σ => f σ * g σ) (L ++ L') := by
  intro σ σ' h
  simp only
  rw [hf σ σ' fun c hc => h c (by simp [hc]), hg σ σ' fun c hc => h c (by simp [hc])]

section
variable [AddCommMonoid A] {dims : ι → Nat}

@[simp] theorem sumOver_nil (f : (ι → Nat) → A) : sumOver dims [] f = f := rfl

theorem sumOver_cons (c : ι) (cs : List ι) (f : (ι → Nat) → A) (σ : ι → Nat) :
    sumOver dims (c :: cs) f σ = ∑ v ∈ Finset.range (dims c), sumOver dims cs f (update σ c v) := rfl

/-- Only the values of `f` reached by the sum matter. -/
theorem sumOver_congr {cs : List ι} {f g : (ι → Nat) → A} {σ : ι → Nat}
    (h : ∀ σ', (∀ c, c ∉ cs → σ' c = σ c) → InRange dims cs σ' → f σ' = g σ') :
    sumOver dims cs f σ = sumOver dims cs g σ := by
  induction cs generalizing σ with
  | nil => exact h σ (fun _ _ => rfl) (by simp [InRange])
  | cons c cs ih =>
    rw [sumOver_cons, sumOver_cons]
    apply Finset.sum_congr rfl
    intro v hv
    have hv : v < dims c := by simpa using hv
    apply ih
    intro σ' h1 h2
    apply h
    · intro d hd
      simp only [List.mem_cons, not_or] at hd
      rw [h1 d hd.2, update_of_ne hd.1]
    · intro d hd
      by_cases hd' : d ∈ cs
      · exact h2 d hd'
      · have : d = c := by simpa [hd'] using hd
        subst this
        rw [h1 d hd', update_self]; exact hv

theorem sumOver_append (a b : List ι) (f : (ι → Nat) → A) :
    sumOver dims (a ++ b) f = sumOver dims a (sumOver dims b f) := by
  induction a with
  | nil => rfl
  | cons c a ih => funext σ; simp [sumOver_cons, ih]

theorem sumOver_perm {a b : List ι} (h : a.Perm b) (f : (ι → Nat) → A) :
    sumOver dims a f = sumOver dims b f := by
  induction h with
  | nil => rfl
  | cons c _ ih => funext σ; simp [sumOver_cons, ih]
  | swap c d l =>
    funext σ
    by_cases hcd : c = d
    · rw [hcd]
    · simp only [sumOver_cons]
      rw [Finset.sum_comm]
      apply Finset.sum_congr rfl; intro v _
      apply Finset.sum_congr rfl; intro w _
      rw [update_comm hcd]
  | trans _ _ h1 h2 => rw [h1, h2]

theorem sumOver_add (cs : List ι) (f g : (ι → Nat) → A) (σ : ι → Nat) :
    sumOver dims cs (fun σ => f σ + g σ) σ = sumOver dims cs f σ + sumOver dims cs g σ := by
  induction cs generalizing σ with
  | nil => rfl
  | cons c cs ih => simp only [sumOver_cons, ih, Finset.sum_add_distrib]

theorem sumOver_zero (cs : List ι) (σ : ι → Nat) : sumOver dims cs (fun _ => (0 : A)) σ = 0 := by
  induction cs generalizing σ with
  | nil => rfl
  | cons c cs ih => simp only [sumOver_cons, ih, Finset.sum_const_zero]

/-- If some summed label has length zero the sum is empty. -/
theorem sumOver_empty {cs : List ι} {c : ι} (hc : c ∈ cs) (h0 : dims c = 0) (f : (ι → Nat) → A)
    (σ : ι → Nat) : sumOver dims cs f σ = 0 := by
  induction cs generalizing σ with
  | nil => simp at hc
  | cons d cs ih =>
    rw [sumOver_cons]
    rcases List.mem_cons.1 hc with h | h
    · subst h; simp [h0]
    · simp [ih h]

theorem sumOver_map {B : Type} [AddCommMonoid B] (φ : A → B) (h0 : φ 0 = 0)
    (hadd : ∀ x y, φ (x + y) = φ x + φ y) (cs : List ι) (f : (ι → Nat) → A) (σ : ι → Nat) :
    φ (sumOver dims cs f σ) = sumOver dims cs (fun σ => φ (f σ)) σ := by
  induction cs generalizing σ with
  | nil => rfl
  | cons c cs ih =>
    rw [sumOver_cons, sumOver_cons]
    simp only [← ih]
    exact map_sum (⟨⟨φ, h0⟩, hadd⟩ : A →+ B) _ _

theorem DependsOn.sumOver {f : (ι → Nat) → A} {L cs L' : List ι} (h : DependsOn f L)
    (hs : ∀ c ∈ L, c ∈ L' ∨ c ∈ cs) : DependsOn (Spec.sumOver dims cs f) L' := by
  induction cs generalizing L' with
  | nil => exact h.mono fun c hc => by simpa using hs c hc
  | cons d cs ih =>
    intro σ σ' h'
    rw [sumOver_cons, sumOver_cons]
    apply Finset.sum_congr rfl
    intro v _
    apply ih (L' := d :: L') (by
      intro c hc
      rcases hs c hc with h1 | h1
      · simp [h1]
      · rcases List.mem_cons.1 h1 with h2 | h2 <;> simp [h2])
    intro c hc
    by_cases hcd : c = d
    · subst hcd; simp
    · rw [update_of_ne hcd, update_of_ne hcd]
      exact h' c (by simpa [hcd] using hc)

/-- A sum over row-major positions of a block of axes is a sum over their labels. -/
theorem sum_unravel {C : List ι} (hn : C.Nodup) (H : List Nat → A) (σ : ι → Nat) :
    ∑ x ∈ Finset.range (C.map dims).prod, H (unravel (C.map dims) x) =
      sumOver dims C (fun σ' => H (C.map σ')) σ := by
  induction C generalizing H σ with
  | nil => simp [unravel, one_nsmul]
  | cons c C ih =>
    have hsplit : ∀ (d p : Nat) (g : Nat → A), ∑ x ∈ Finset.range (d * p), g x =
        ∑ i ∈ Finset.range d, ∑ j ∈ Finset.range p, g (i * p + j) := by
      intro d p g
      induction d with
      | zero => simp
      | succ d ihd => rw [Nat.succ_mul, Finset.sum_range_add, ihd, Finset.sum_range_succ]
    rw [List.map_cons, List.prod_cons, hsplit, sumOver_cons]
    apply Finset.sum_congr rfl
    intro v _
    have hc := (List.nodup_cons.1 hn).1
    rw [sumOver_congr (g := fun σ' => H (v :: C.map σ'))]
    · rw [← ih (List.nodup_cons.1 hn).2 (fun l => H (v :: l)) (update σ c v)]
      apply Finset.sum_congr rfl
      intro x hx
      have hx : x < (C.map dims).prod := by simpa using hx
      simp only [unravel]
      rw [Nat.mul_comm, Nat.mul_add_div (by omega), Nat.div_eq_of_lt hx, Nat.add_zero,
        Nat.mul_add_mod, Nat.mod_eq_of_lt hx]
    · intro σ' h1 _
      simp only [List.map_cons]
      rw [h1 c hc, update_self]

end

section
variable [Semiring A] {dims : ι → Nat}

/-- A factor not depending on the summed labels can be pulled out. -/
theorem sumOver_mul_left {cs L : List ι} {f g : (ι → Nat) → A} (hg : DependsOn g L)
    (hd : ∀ c ∈ L, c ∉ cs) (σ : ι → Nat) :
    sumOver dims cs (fun σ => g σ * f σ) σ = g σ * sumOver dims cs f σ := by
  rw [sumOver_congr (g := fun σ' => g σ * f σ')]
  · have := sumOver_map (dims := dims) (fun x : A => g σ * x) (by simp) (by intros; exact mul_add _ _ _) cs f σ
    exact this.symm
  · intro σ' h1 _
    rw [hg σ' σ fun c hc => h1 c (hd c hc)]

theorem sumOver_mul_right {cs L : List ι} {f g : (ι → Nat) → A} (hg : DependsOn g L)
    (hd : ∀ c ∈ L, c ∉ cs) (σ : ι → Nat) :
    sumOver dims cs (fun σ => f σ * g σ) σ = sumOver dims cs f σ * g σ := by
  rw [sumOver_congr (g := fun σ' => f σ' * g σ)]
  · have := sumOver_map (dims := dims) (fun x : A => x * g σ) (by simp) (by intros; exact add_mul _ _ _) cs f σ
    exact this.symm
  · intro σ' h1 _
    rw [hg σ' σ fun c hc => h1 c (hd c hc)]

/-- The product in the order used by a step: swapped or not. -/
def mulAs (sw : Bool) (x y : A) : A := cond sw (y * x) (x * y)

omit [DecidableEq ι] in
theorem mulAs_comm {A : Type} [CommSemiring A] (sw : Bool) (x y : A) : mulAs sw x y = x * y := by
  cases sw
  · rfl
  · exact mul_comm _ _

end

/-! ## Assignments from index tuples -/

/-- The label values given by an index tuple. -/
def assign (L : List ι) (idx : List Nat) (c : ι) : Nat := idx.getD (pos c L) 0

theorem map_assign {L : List ι} (hn : L.Nodup) {idx : List Nat} (hl : idx.length = L.length) :
    L.map (assign L idx) = idx := by
  apply List.ext_getElem
  · simp [hl]
  · intro i h1 h2
    simp only [List.getElem_map, assign]
    rw [pos_getElem hn (by simpa using h1)]
    simp [h2]

theorem assign_map {L : List ι} {σ : ι → Nat} {c : ι} (hc : c ∈ L) : assign L (L.map σ) c = σ c := by
  rw [assign, List.getD_eq_getElem?_getD, List.getElem?_map, getElem?_pos hc]; rfl

theorem inRange_assign {L : List ι} {dims : ι → Nat} (hn : L.Nodup) {idx : List Nat}
    (h : InB (L.map dims) idx) : InRange dims L (assign L idx) := by
  have hl : idx.length = L.length := by simpa using h.length_eq
  have : InB (L.map dims) (L.map (assign L idx)) := by rw [map_assign hn hl]; exact h
  have key : ∀ l : List ι, InB (l.map dims) (l.map (assign L idx)) → ∀ c ∈ l, assign L idx c < dims c := by
    intro l
    induction l with
    | nil => simp
    | cons a l ih =>
      intro h c hc
      rcases List.mem_cons.1 hc with rfl | hc
      · exact h.1
      · exact ih h.2 c hc
  exact key L this

omit [DecidableEq ι] in
theorem inB_of_inRange {L : List ι} {dims σ : ι → Nat} (h : InRange dims L σ) :
    InB (L.map dims) (L.map σ) := by
  induction L with
  | nil => simp
  | cons a l ih =>
    simp only [List.map_cons, InB_cons]
    exact ⟨h a (by simp), ih fun c hc => h c (by simp [hc])⟩

end Einsum
