import Verif.Props.Reproducible
import Verif.Props.Backward
import Verif.Props.Trees
import Verif.Props.Linear
import Mathlib.Data.Nat.Log

/-!
# Property C87: rounding errors add up along the path
-/

namespace Einsum

open Spec Function

theorem depth_le (t : SumTree) : depth t ≤ t.leaves.length - 1 := by
  induction t with
  | zero => simp [depth]
  | leaf i => simp [depth]
  | add l r ihl ihr =>
    simp only [depth, SumTree.leaves, List.length_append]
    split
    · omega
    · split
      · omega
      · have h1 := List.length_pos_iff.2 ‹¬ l.leaves = []›
        have h2 := List.length_pos_iff.2 ‹¬ r.leaves = []›
        omega
  | fused i t ih =>
    simp only [depth, SumTree.leaves, List.length_cons]
    split
    · omega
    · have h1 := List.length_pos_iff.2 ‹¬ t.leaves = []›
      omega

theorem sum_of_mem {a b : List Char} (ha : a.Nodup) (hb : b.Nodup) (h : ∀ c, c ∈ a ↔ c ∈ b) (f : Char → Nat) :
    (a.map f).sum = (b.map f).sum := ((perm_of_nodup ha hb h).map f).sum_eq

theorem prod_of_mem {a b : List Char} (ha : a.Nodup) (hb : b.Nodup) (h : ∀ c, c ∈ a ↔ c ∈ b) (f : Char → Nat) :
    (a.map f).prod = (b.map f).prod := ((perm_of_nodup ha hb h).map f).prod_eq

theorem roundings_congr {d : Nat → Nat} {dims : Char → Nat} {L L₂ : List Char} {rest : List (List Char)} {out : List Char}
    (h : ∀ c, c ∈ L ↔ c ∈ L₂) : roundings d dims L rest out = roundings d dims L₂ rest out := by
  induction rest generalizing L L₂ with
  | nil => exact sum_of_mem (L.nodup_dedup.filter _) (L₂.nodup_dedup.filter _) (fun c => by simp [h]) _
  | cons R rest ih =>
    simp only [roundings]
    rw [sum_of_mem (L.nodup_dedup.filter _) (L₂.nodup_dedup.filter fun c => c ∉ R ++ (rest.flatten ++ out))
        (fun c => by simp [h]),
      sum_of_mem (a := R.dedup.filter fun c => c ∉ L ++ (rest.flatten ++ out)) (R.nodup_dedup.filter _)
        (R.nodup_dedup.filter fun c => c ∉ L₂ ++ (rest.flatten ++ out)) (fun c => by simp [h]),
      prod_of_mem (L.nodup_dedup.filter _) (L₂.nodup_dedup.filter fun c => c ∈ R ∧ c ∉ rest.flatten ++ out)
        (fun c => by simp [h]),
      ih (L := (L ++ R).filter fun c => c ∈ rest.flatten ++ out) (L₂ := (L₂ ++ R).filter fun c => c ∈ rest.flatten ++ out)
        (fun c => by simp [h])]

/-! ## Grades -/

/-- How many roundings lie behind a number: none behind a zero that was never anything else. -/
inductive Grade where
  | exact
  | upto (n : Nat)

namespace Grade

instance : Zero Grade := ⟨exact⟩

instance : Add Grade := ⟨fun
  | exact, b => b
  | a, exact => a
  | upto m, upto n => upto (max m n + 1)⟩

instance : Mul Grade := ⟨fun
  | upto m, upto n => upto (m + n + 1)
  | _, _ => exact⟩

instance : MulAdd Grade := ⟨fun a b c => a * b + c⟩

def Within (k : Nat) : Grade → Prop
  | exact => True
  | upto n => n ≤ k

theorem Within.mono {k l : Nat} {a : Grade} (h : Within k a) (hl : k ≤ l) : Within l a := by
  cases a with
  | exact => trivial
  | upto n => exact le_trans h hl

theorem zero_add (a : Grade) : 0 + a = a := by cases a <;> rfl

theorem add_zero (a : Grade) : a + 0 = a := by cases a <;> rfl

theorem Within.add {k : Nat} {a b : Grade} (ha : Within k a) (hb : Within k b) : Within (k + 1) (a + b) := by
  cases a with
  | exact => exact Within.mono (a := 0 + b) (by rwa [zero_add]) (by omega)
  | upto m =>
    cases b with
    | exact => exact ha.mono (by omega)
    | upto n =>
      have h1 : m ≤ k := ha
      have h2 : n ≤ k := hb
      show max m n + 1 ≤ k + 1
      omega

theorem Within.mul {k l : Nat} {a b : Grade} (ha : Within k a) (hb : Within l b) : Within (k + l + 1) (a * b) := by
  cases a with
  | exact => trivial
  | upto m =>
    cases b with
    | exact => trivial
    | upto n =>
      have h1 : m ≤ k := ha
      have h2 : n ≤ l := hb
      show m + n + 1 ≤ k + l + 1
      omega

theorem sum_empty (xs : List Grade) (t : SumTree) (h : t.leaves = []) : t.sum xs = 0 := by
  induction t with
  | zero => rfl
  | leaf i => simp [SumTree.leaves] at h
  | add l r ihl ihr =>
    simp only [SumTree.leaves, List.append_eq_nil_iff] at h
    rw [SumTree.sum, ihl h.1, ihr h.2, zero_add]
  | fused i t => simp [SumTree.leaves] at h

theorem dot_empty (ps : List (Grade × Grade)) (t : SumTree) (h : t.leaves = []) : t.dot ps = 0 := by
  induction t with
  | zero => rfl
  | leaf i => simp [SumTree.leaves] at h
  | add l r ihl ihr =>
    simp only [SumTree.leaves, List.append_eq_nil_iff] at h
    rw [SumTree.dot, ihl h.1, ihr h.2, zero_add]
  | fused i t => simp [SumTree.leaves] at h

theorem getD_within {k : Nat} {xs : List Grade} (h : ∀ x ∈ xs, Within k x) (i : Nat) : Within k (xs.getD i 0) := by
  rw [List.getD_eq_getElem?_getD]
  cases e : xs[i]? with
  | none => trivial
  | some x => exact h x (List.mem_of_getElem? e)

theorem sum_within {k : Nat} {xs : List Grade} (h : ∀ x ∈ xs, Within k x) (t : SumTree) :
    Within (k + depth t) (t.sum xs) := by
  induction t with
  | zero => trivial
  | leaf i => exact getD_within h i
  | add l r ihl ihr =>
    simp only [depth, SumTree.sum]
    split
    · rw [sum_empty xs l ‹_›, zero_add]
      exact ihr
    · split
      · rw [sum_empty xs r ‹_›, add_zero]
        exact ihl
      · exact Within.add (k := k + max (depth l) (depth r)) (ihl.mono (by omega)) (ihr.mono (by omega))
  | fused i t ih =>
    simp only [depth, SumTree.sum]
    split
    · rw [sum_empty xs t ‹_›, add_zero]
      exact getD_within h i
    · exact Within.add (k := k + depth t) ((getD_within h i).mono (by omega)) ih

theorem getD_mul_within {k l : Nat} {ps : List (Grade × Grade)} (h : ∀ p ∈ ps, Within k p.1 ∧ Within l p.2) (i : Nat) :
    Within (k + l + 1) ((ps.getD i (0, 0)).1 * (ps.getD i (0, 0)).2) := by
  rw [List.getD_eq_getElem?_getD]
  cases e : ps[i]? with
  | none => trivial
  | some x => exact (h x (List.mem_of_getElem? e)).1.mul (h x (List.mem_of_getElem? e)).2

theorem dot_within {k l : Nat} {ps : List (Grade × Grade)} (h : ∀ p ∈ ps, Within k p.1 ∧ Within l p.2) (t : SumTree) :
    Within (k + l + 1 + depth t) (t.dot ps) := by
  induction t with
  | zero => trivial
  | leaf i => exact getD_mul_within h i
  | add a b iha ihb =>
    simp only [depth, SumTree.dot]
    split
    · rw [dot_empty ps a ‹_›, zero_add]
      exact ihb
    · split
      · rw [dot_empty ps b ‹_›, add_zero]
        exact iha
      · exact Within.add (k := k + l + 1 + max (depth a) (depth b)) (iha.mono (by omega)) (ihb.mono (by omega))
  | fused i t ih =>
    simp only [depth, SumTree.dot]
    show Within _ ((ps.getD i (0, 0)).1 * (ps.getD i (0, 0)).2 + t.dot ps)
    split
    · rw [dot_empty ps t ‹_›, add_zero]
      exact getD_mul_within h i
    · exact Within.add (k := k + l + 1 + depth t) ((getD_mul_within h i).mono (by omega)) ih

end Grade

open Grade

/-! ## The grade of an expression bounds its error -/

section
variable {F K : Type} [Zero F] [Add F] [Mul F] [MulAdd F] [Field K] [LinearOrder K] [IsStrictOrderedRing K]

/-- `v` approximates `x` as well as the grade says; `m` bounds `x`. -/
def Graded (u : K) (g : Grade) (v x m : K) : Prop :=
  |x| ≤ m ∧ match g with
    | .exact => v = 0 ∧ x = 0 ∧ m = 0
    | .upto n => |v - x| ≤ ((1 + u) ^ n - 1) * m

theorem Graded.add {u : K} (hu : 0 ≤ u) {g g' : Grade} {v w x y m n z : K} (ha : Graded u g v x m) (hb : Graded u g' w y n)
    (h : |z - (v + w)| ≤ u * |v + w|) (h0 : v = 0 → z = w) (h0' : w = 0 → z = v) : Graded u (g + g') z (x + y) (m + n) := by
  obtain ⟨xa, ha⟩ := ha
  obtain ⟨xb, hb⟩ := hb
  refine ⟨(abs_add_le _ _).trans (add_le_add xa xb), ?_⟩
  cases g with
  | exact =>
    obtain ⟨va, xa0, ma⟩ := ha
    change match 0 + g' with | .exact => _ | .upto n => _
    rw [h0 va, xa0, ma, Grade.zero_add]
    simp only [_root_.zero_add]
    exact hb
  | upto a =>
    cases g' with
    | exact =>
      obtain ⟨vb, xb0, mb⟩ := hb
      show |z - (x + y)| ≤ ((1 + u) ^ a - 1) * (m + n)
      rw [h0' vb, xb0, mb]
      simp only [_root_.add_zero]
      exact ha
    | upto b =>
      show |z - (x + y)| ≤ ((1 + u) ^ (max a b + 1) - 1) * (m + n)
      refine add_bound hu ha hb xa xb h ?_ ?_
      · rw [← pow_succ']
        exact pow_bound_mono hu (by omega)
      · rw [← pow_succ']
        exact pow_bound_mono hu (by omega)

theorem Graded.mul {u : K} (hu : 0 ≤ u) {g g' : Grade} {v w x y m n z : K} (ha : Graded u g v x m) (hb : Graded u g' w y n)
    (h : |z - v * w| ≤ u * |v * w|) : Graded u (g * g') z (x * y) (m * n) := by
  obtain ⟨xa, ha⟩ := ha
  obtain ⟨xb, hb⟩ := hb
  refine ⟨by rw [abs_mul]; exact mul_le_mul xa xb (abs_nonneg _) ((abs_nonneg _).trans xa), ?_⟩
  cases g with
  | exact =>
    obtain ⟨va, xa0, ma⟩ := ha
    show z = 0 ∧ x * y = 0 ∧ m * n = 0
    rw [va] at h
    simp only [zero_mul, abs_zero, mul_zero, sub_zero] at h
    exact ⟨abs_nonpos_iff.1 h, by rw [xa0, zero_mul], by rw [ma, zero_mul]⟩
  | upto a =>
    cases g' with
    | exact =>
      obtain ⟨vb, xb0, mb⟩ := hb
      show z = 0 ∧ x * y = 0 ∧ m * n = 0
      rw [vb] at h
      simp only [abs_zero, mul_zero, sub_zero] at h
      exact ⟨abs_nonpos_iff.1 h, by rw [xb0, mul_zero], by rw [mb, mul_zero]⟩
    | upto b =>
      show |z - x * y| ≤ ((1 + u) ^ (a + b + 1) - 1) * (m * n)
      refine mul_bound hu ha hb xa xb h ?_
      rw [← pow_add, ← pow_succ']

theorem Graded.mulAdd {u : K} (hu : 0 ≤ u) {g g' g'' : Grade} {v w t x y s m n o z : K} (ha : Graded u g v x m)
    (hb : Graded u g' w y n) (hc : Graded u g'' t s o) (h : |z - (v * w + t)| ≤ u * |v * w + t|)
    (h0 : v * w = 0 → z = t) : Graded u (g * g' + g'') z (x * y + s) (m * n + o) := by
  by_cases ht : t = 0
  · have hz : Graded u (g * g') z (x * y) (m * n) := ha.mul hu hb (by rw [ht, _root_.add_zero] at h; exact h)
    refine hz.add hu hc ?_ (fun h' => ?_) fun _ => rfl
    · rw [ht]; simp; positivity
    · rw [ht, h']
  · have hw : Graded u (g * g') (v * w) (x * y) (m * n) := ha.mul hu hb (by rw [sub_self, abs_zero]; positivity)
    exact hw.add hu hc h h0 fun h' => absurd h' ht

theorem expr_graded {val : F → K} {u : K} (hr : Rounded val u) (e : Expr F) :
    Graded u (e.eval fun _ => Grade.upto 0) (val (e.eval id)) (e.eval val) (e.eval fun a => |val a|) := by
  have hu := hr.nonneg
  induction e with
  | var a => exact ⟨le_rfl, by simp [Expr.eval]⟩
  | zero => exact ⟨by simp [Expr.eval], hr.zero, rfl, rfl⟩
  | add a b iha ihb => exact iha.add hu ihb (hr.add _ _) (hr.zero_add _ _) (hr.add_zero _ _)
  | mul a b iha ihb => exact iha.mul hu ihb (hr.mul _ _)
  | mulAdd a b c iha ihb ihc =>
    rcases hr.mulAdd (a.eval id) (b.eval id) (c.eval id) with h | ⟨h1, h2⟩
    · have := (iha.mul hu ihb (hr.mul _ _)).add hu ihc (hr.add _ _) (hr.zero_add _ _) (hr.add_zero _ _)
      rw [← h] at this
      exact this
    · exact iha.mulAdd hu ihb ihc h1 h2

theorem within_error {val : F → K} {u : K} (hr : Rounded val u) (e : Expr F) {k : Nat}
    (hk : Within k (e.eval fun _ => Grade.upto 0)) :
    |val (e.eval id) - e.eval val| ≤ ((1 + u) ^ k - 1) * e.eval fun a => |val a| := by
  have h := expr_graded hr e
  obtain ⟨h0, h⟩ := h
  cases hg : (e.eval fun _ => Grade.upto 0) with
  | exact =>
    rw [hg] at h
    obtain ⟨h1, h2, h3⟩ := h
    rw [h1, h2, h3]
    simp
  | upto n =>
    rw [hg] at h hk
    exact h.trans (mul_le_mul_of_nonneg_right (sub_le_sub_right (pow_bound_mono hr.nonneg hk) 1) ((abs_nonneg _).trans h0))

theorem formal_graded {val : F → K} {u : K} (hr : Rounded val u) {dims : Char → Nat} {inputs : List (List Char)}
    {ts : List (List Nat → F)} {out : List Char} {σ : Char → Nat} {e : Expr F}
    (he : ∀ (S : Type) [CommSemiring S] (f : F → S),
      e.eval f = Spec.einsum dims inputs (ts.map fun t idx => f (t idx)) out σ) {k : Nat}
    (hk : Within k (e.eval fun _ => Grade.upto 0)) :
    |val (e.eval id) - Spec.einsum dims inputs (ts.map fun t idx => val (t idx)) out σ| ≤
      ((1 + u) ^ k - 1) * Spec.einsum dims inputs (ts.map fun t idx => |val (t idx)|) out σ := by
  rw [← he K val, ← he K (fun a => |val a|)]
  exact within_error hr e hk

end

/-! ## The grades of a run -/

section
variable {L R o : List Char} {dims : Char → Nat} {F G : (Char → Nat) → Grade} {d : Nat → Nat}

theorem sums_within {a b : List Char} {al : Alloc Grade} (hd : ∀ p n, depth (al.sumOrder p n) ≤ d n) {k : Nat}
    (h : ∀ σ, InRange dims (a ++ b) σ → Within k (F σ)) (σ : Char → Nat) (hσ : InRange dims a σ) :
    Within (k + (b.map fun c => d (dims c)).sum) (sums dims a b al F σ) := by
  induction b generalizing al F k with
  | nil => exact h σ (by simpa using hσ)
  | cons c b ih =>
    have := ih (al := al.sub 1) (k := k + d (dims c)) (F := fun σ =>
      (al.sumOrder (0 :: (a ++ b).map σ) (dims c)).sum ((List.range (dims c)).map fun k => F (update σ c k)))
      (fun p n => hd (1 :: p) n) (fun τ hτ => by
        refine (sum_within (k := k) (fun x hx => ?_) _).mono (Nat.add_le_add_left (hd _ _) _)
        obtain ⟨i, hi, rfl⟩ := List.mem_map.1 hx
        refine h _ fun e he => ?_
        by_cases hec : e = c
        · subst hec
          rw [update_self]
          exact List.mem_range.1 hi
        · rw [update_of_ne hec]
          refine hτ e ?_
          simp only [List.mem_append, List.mem_cons] at he ⊢
          tauto)
    rw [List.map_cons, List.sum_cons, ← add_assoc]
    exact this

theorem one_within (ho : OutputOk [L] o) (hp : L.Nodup ∨ ∀ c ∈ L, dims c ≠ 0) (h : HashOrd) {al : Alloc Grade}
    (hd : ∀ p n, depth (al.sumOrder p n) ≤ d n) {v : View Grade} (hv : Rep v L dims F) (wv : v.Wf) {k : Nat}
    (hF : ∀ σ, InRange dims L σ → Within k (F σ)) :
    ∃ w H, (callSC [L] o dims).contractOperands h al [v] = .ok w ∧ Rep w o dims H ∧
      ∀ σ, InRange dims o σ → Within (k + ((L.dedup.filter fun c => c ∉ o).map fun c => d (dims c)).sum) (H σ) := by
  obtain ⟨p, p1, p2⟩ := singletonT (callSC_valid (dims := dims) ho) (L := L) rfl
  obtain ⟨w, w1, w2⟩ := p2 Grade al v _ hv wv (hp.imp_right prod_dims_pos)
  refine ⟨w, _, by rw [one_run ho p1, w1], w2, fun σ hσ => ?_⟩
  rw [← sum_of_mem (nodup_fresh (seen := o) (L := L)) (L.nodup_dedup.filter _) (fun c => by simp [mem_fresh])]
  refine sums_within (by split <;> intro p n <;> simp [Alloc.sub, hd]) (fun τ hτ => hF τ fun c hc => hτ c ?_) σ hσ
  rw [List.mem_append]
  exact (em (c ∈ o)).imp_right fun hco => mem_fresh.2 ⟨hc, hco⟩

theorem product_within {t : SumTree} {C : List Char} {σ : Char → Nat} (hn : C.Nodup) {k l : Nat}
    (h : ∀ τ, (∀ c ∈ C, τ c < dims c) → (∀ c, c ∉ C → τ c = σ c) → Within k (F τ) ∧ Within l (G τ)) :
    Within (k + l + 1 + depth t) (product t dims C F G σ) := by
  refine dot_within (fun p hp => ?_) t
  obtain ⟨τ, hτ, rfl⟩ := List.mem_map.1 hp
  obtain ⟨h1, h2⟩ := mem_cells hτ hn
  exact h τ h2 h1

theorem reduced_within (ho : OutputOk [L, R] o) (hr : Reduced L R o) (h : HashOrd) {al : Alloc Grade}
    (hd : ∀ p n, depth (al.sumOrder p n) ≤ d n) {l r : View Grade} (hl : Rep l L dims F) (hr' : Rep r R dims G) {k m : Nat}
    (hF : ∀ σ, InRange dims L σ → Within k (F σ)) (hG : ∀ σ, InRange dims R σ → Within m (G σ)) :
    ∃ w H, (callSC [L, R] o dims).contractOperands h al [l, r] = .ok w ∧ Rep w o dims H ∧
      ∀ σ, InRange dims o σ → Within (k + m + 1 + d ((L.filter fun c => c ∉ o).map dims).prod) (H σ) := by
  have el := (hl.holds hr.left).elements
  have er := (hr'.holds hr.right).elements
  have aL : ∀ σ, InRange dims L σ → Within k (F (assign L (L.map σ))) := fun σ hσ => by
    rw [hl.agree_assign hσ]; exact hF σ hσ
  have aR : ∀ σ, InRange dims R σ → Within m (G (assign R (R.map σ))) := fun σ hσ => by
    rw [hr'.agree_assign hσ]; exact hG σ hσ
  -- the products for a list of contracted letters
  have fin : ∀ {C : List Char} {t : SumTree} {σ : Char → Nat}, C.Nodup → (∀ c, c ∈ C ↔ c ∈ L.filter fun c => c ∉ o) →
      depth t ≤ d (C.map dims).prod → InRange dims o σ →
      Within (k + m + 1 + d ((L.filter fun c => c ∉ o).map dims).prod)
        (product t dims C (fun τ => F (assign L (L.map τ))) (fun τ => G (assign R (R.map τ))) σ) := by
    intro C t σ hn hC ht hσ
    rw [← prod_of_mem hn (hr.left.filter _) hC]
    refine (product_within hn fun τ t1 t2 => ?_).mono (Nat.add_le_add_left ht _)
    have hτ : ∀ c, (c ∈ o ∨ c ∈ C) → τ c < dims c := by
      intro c hc
      by_cases hcC : c ∈ C
      · exact t1 c hcC
      · rw [t2 c hcC]
        exact hσ c (hc.resolve_right hcC)
    refine ⟨aL τ fun c hc => hτ c ?_, aR τ fun c hc => hτ c ?_⟩
    · rw [hC]
      exact (em (c ∈ o)).imp_right fun hco => List.mem_filter.2 ⟨hc, by simpa using hco⟩
    · rw [hC]
      exact (em (c ∈ o)).imp_right fun hco => List.mem_filter.2 ⟨(hr.rightNeeded c hc).resolve_right hco, by simpa using hco⟩
  by_cases c1 : (∀ c ∈ L, c ∈ R ∧ c ∈ o) ∧ ∀ c ∈ R, c ∈ L ∧ c ∈ o
  · obtain ⟨w, w1, w2⟩ := C84_product ho hr c1.1 c1.2 h al el er hl.shape hr'.shape
    exact ⟨w, _, w1, w2, fun σ hσ => ((aL σ fun c hc => hσ c (c1.1 c hc).2).mul
      (aR σ fun c hc => hσ c (c1.2 c hc).2)).mono (by omega)⟩
  by_cases c2 : L = []
  · subst c2
    have c3 : R ≠ [] := by rintro rfl; simp at c1
    obtain ⟨w, w1, w2⟩ := C84_scalar_left ho hr c3 h al el er hl.shape hr'.shape
    refine ⟨w, _, w1, w2, fun σ hσ => ((aR σ fun c hc => hσ c ?_).mul (aL σ (by simp [InRange]))).mono (by omega)⟩
    exact (hr.rightNeeded c hc).resolve_left (by simp)
  by_cases c3 : R = []
  · subst c3
    obtain ⟨w, w1, w2⟩ := C84_scalar_right ho hr c2 h al el er hl.shape hr'.shape
    refine ⟨w, _, w1, w2, fun σ hσ => ((aL σ fun c hc => hσ c ?_).mul (aR σ (by simp [InRange]))).mono (by omega)⟩
    exact (hr.leftNeeded c hc).resolve_left (by simp)
  by_cases c4 : ∀ c ∈ L, c ∈ R → c ∉ o
  · -- alphabetical order of the contracted letters
    obtain ⟨C, C1, C2⟩ : ∃ C : List Char, C.Pairwise (· < ·) ∧ ∀ c, c ∈ C ↔ c ∈ L ∧ c ∈ R := by
      obtain ⟨D, ⟨d1, d2, d3, d4, d5, d6, d7⟩, -⟩ := tensordotGeneral_new (callSC_valid (dims := dims) ho) rfl hr.left hr.right
        hr.leftNeeded hr.rightNeeded c4
      exact ⟨D, d1, fun c => ⟨fun hc => ⟨d4 c hc, d5 c hc⟩, fun hc => (d3 c).2 ⟨.inl hc.1, c4 c hc.1 hc.2⟩⟩⟩
    obtain ⟨w, w1, w2⟩ := C84_contraction ho hr c2 c3 c4 C C1 C2 h al el er hl.shape hr'.shape
    refine ⟨w, _, w1, w2, fun σ hσ => fin (C1.imp fun h => ne_of_lt h) (fun c => ?_) (hd _ _) hσ⟩
    rw [C2, List.mem_filter]
    have h1 := hr.leftNeeded c
    have h2 := c4 c
    simp only [decide_eq_true_eq]
    tauto
  · have c4' : ∃ c ∈ L, c ∈ R ∧ c ∈ o := by
      by_contra hx
      exact c4 fun c hc hc' hco => hx ⟨c, hc, hc', hco⟩
    have c5 : (∃ c ∈ L, ¬ (c ∈ R ∧ c ∈ o)) ∨ ∃ c ∈ R, ¬ (c ∈ L ∧ c ∈ o) := by
      by_contra hx
      simp only [not_or, not_exists, not_and] at hx
      exact c1 ⟨fun c hc => by have := hx.1 c hc; tauto, fun c hc => by have := hx.2 c hc; tauto⟩
    obtain ⟨w, w1, w2⟩ := C84_stack ho hr c4' c5 h al el er hl.shape hr'.shape
    exact ⟨w, _, w1, w2, fun σ hσ => fin (hr.left.filter _) (fun c => Iff.rfl) (hd _ _) hσ⟩

theorem pair_within (ho : OutputOk [L, R] o) (hpL : L.Nodup ∨ ∀ c ∈ L, dims c ≠ 0) (hpR : R.Nodup ∨ ∀ c ∈ R, dims c ≠ 0)
    (h : HashOrd) {al : Alloc Grade} (hd : ∀ p n, depth (al.sumOrder p n) ≤ d n) {l r : View Grade} (hl : Rep l L dims F)
    (hr : Rep r R dims G) (wl : l.Wf) (wr : r.Wf) {k m : Nat}
    (hF : ∀ σ, InRange dims L σ → Within k (F σ)) (hG : ∀ σ, InRange dims R σ → Within m (G σ)) :
    ∃ w H, (callSC [L, R] o dims).contractOperands h al [l, r] = .ok w ∧ Rep w o dims H ∧
      ∀ σ, InRange dims o σ → Within (k + m +
        (((L.dedup.filter fun c => c ∉ R ++ o).map fun c => d (dims c)).sum +
        ((R.dedup.filter fun c => c ∉ L ++ o).map fun c => d (dims c)).sum + 1 +
        d ((L.dedup.filter fun c => c ∈ R ∧ c ∉ o).map dims).prod)) (H σ) := by
  obtain ⟨L', R', k', a1, a2, a3, b1, b2, b3, ho', hr', hrun⟩ := pair_run (dims := dims) ho h
  have oL : OutputOk [L] L' := ⟨a1, fun c hc => used_iff.2 (by simpa using ((a2 c).1 hc).1)⟩
  have oR : OutputOk [R] R' := ⟨b1, fun c hc => used_iff.2 (by simpa using ((b2 c).1 hc).1)⟩
  obtain ⟨x, X, x1, x2, x3⟩ : ∃ x X,
      (if NeedsSimplification L R o then (callSC [L] L' dims).contractOperands h ((al.sub 0).sub 0) [l] else .ok l) = .ok x ∧
      Rep x L' dims X ∧ ∀ σ, InRange dims L' σ →
        Within (k + ((L.dedup.filter fun c => c ∉ R ++ o).map fun c => d (dims c)).sum) (X σ) := by
    by_cases hN : NeedsSimplification L R o
    · rw [if_pos hN]
      obtain ⟨x, X, x1, x2, x3⟩ := one_within oL hpL h (al := (al.sub 0).sub 0) (fun p n => hd (0 :: 0 :: p) n) hl wl hF
      refine ⟨x, X, x1, x2, fun σ hσ => (x3 σ hσ).mono (le_of_eq ?_)⟩
      rw [sum_of_mem (L.nodup_dedup.filter fun c => c ∉ L') (L.nodup_dedup.filter fun c => c ∉ R ++ o) fun c => by
        simp only [List.mem_filter, List.mem_dedup, decide_eq_true_eq, a2, List.mem_append]
        exact and_congr_right fun hc => by simp [hc]]
    · rw [if_neg hN, a3 hN]
      exact ⟨l, F, rfl, hl, fun σ hσ => (hF σ hσ).mono (by omega)⟩
  obtain ⟨y, Y, y1, y2, y3⟩ : ∃ y Y,
      (if NeedsSimplification R L o then (callSC [R] R' dims).contractOperands h ((al.sub 0).sub 1) [r] else .ok r) = .ok y ∧
      Rep y R' dims Y ∧ ∀ σ, InRange dims R' σ →
        Within (m + ((R.dedup.filter fun c => c ∉ L ++ o).map fun c => d (dims c)).sum) (Y σ) := by
    by_cases hN : NeedsSimplification R L o
    · rw [if_pos hN]
      obtain ⟨y, Y, y1, y2, y3⟩ := one_within oR hpR h (al := (al.sub 0).sub 1) (fun p n => hd (0 :: 1 :: p) n) hr wr hG
      refine ⟨y, Y, y1, y2, fun σ hσ => (y3 σ hσ).mono (le_of_eq ?_)⟩
      rw [sum_of_mem (R.nodup_dedup.filter fun c => c ∉ R') (R.nodup_dedup.filter fun c => c ∉ L ++ o) fun c => by
        simp only [List.mem_filter, List.mem_dedup, decide_eq_true_eq, b2, List.mem_append]
        exact and_congr_right fun hc => by simp [hc]]
    · rw [if_neg hN, b3 hN]
      exact ⟨r, G, rfl, hr, fun σ hσ => (hG σ hσ).mono (by omega)⟩
  obtain ⟨w, H, w1, w2, w3⟩ := reduced_within ho' hr' k' hd x2 y2 x3 y3
  refine ⟨w, H, by rw [hrun Grade h, x1, bind_ok, y1, bind_ok, w1], w2, fun σ hσ => (w3 σ hσ).mono (le_of_eq ?_)⟩
  rw [prod_of_mem (a1.filter fun c => c ∉ o) (L.nodup_dedup.filter fun c => c ∈ R ∧ c ∉ o) fun c => by
    simp only [List.mem_filter, List.mem_dedup, decide_eq_true_eq, a2, and_assoc]
    exact and_congr_right fun hc => and_congr_left fun ho => by simp [ho]]
  clear * -
  omega

end

theorem fold_within {dims : Char → Nat} {inputs : List (List Char)} {out : List Char} {d : Nat → Nat}
    {operands : List (View Grade)} (hop : ∀ n R, inputs[n]? = some R → ∃ y G, index operands n = .ok y ∧ Rep y R dims G ∧ y.Wf ∧
      ∀ σ, InRange dims R σ → Within 0 (G σ))
    (hdiag : NoEmptyDiagonal dims inputs) (rest : List (List Char)) :
    ∀ (calls : List TwoCall) (L : List Char) (x : View Grade) (F : (Char → Nat) → Grade) (al : Alloc Grade) (k : Nat),
      List.Forall₂ (fun R n => inputs[n]? = some R) rest (calls.map TwoCall.operand) →
      Linked dims inputs L calls out → (L.Nodup ∨ ∀ c ∈ L, dims c ≠ 0) → Rep x L dims F → x.Wf →
      (∀ p n, depth (al.sumOrder p n) ≤ d n) → (∀ σ, InRange dims L σ → Within k (F σ)) →
      ∃ w H, foldCalls operands calls al x = .ok w ∧ Rep w out dims H ∧
        ∀ σ, InRange dims out σ → Within (k + roundings d dims L rest out) (H σ) := by
  induction rest with
  | nil =>
    intro calls L x F al k hf hl _ hx _ _ hF
    cases calls with
    | cons c cs => cases hf
    | nil =>
      change L = out at hl
      subst hl
      exact ⟨x, F, rfl, hx, fun σ hσ => (hF σ hσ).mono (by omega)⟩
  | cons R rest ih =>
    intro calls L x F al k hf hl hp hx wx hd hF
    cases calls with
    | nil => cases hf
    | cons c cs =>
    obtain ⟨hR, hf⟩ := List.forall₂_cons.1 (by simpa only [List.map_cons] using hf)
    obtain ⟨R', o, r1, ho, r2, r3, r4⟩ := hl
    rw [hR] at r1
    cases r1
    have mo : ∀ x, x ∈ o ↔ (x ∈ L ∨ x ∈ R) ∧ x ∈ rest.flatten ++ out := fun x => by
      have : (∃ d ∈ cs, ∃ S, inputs[d.operand]? = some S ∧ x ∈ S) ↔ x ∈ rest.flatten := by
        rw [← mem_operands hf x]
        simp
      rw [r3, this, List.mem_append, or_comm (a := x ∈ out)]
    obtain ⟨y, G, y1, y2, y3, y4⟩ := hop _ _ hR
    have hRi : R ∈ inputs := List.mem_of_getElem? hR
    obtain ⟨z, H, z1, z2, z3⟩ := pair_within ho hp (hdiag R hRi) c.order hd hx y2 wx y3 hF y4
    obtain ⟨w, J, w1, w2, w3⟩ := ih cs o z H (al.sub 1) _ hf r4 (.inl ho.1) z2 (z2.wf ho.1) (fun p n => hd (1 :: p) n) z3
    refine ⟨w, J, by simp only [foldCalls, y1, bind_ok, r2, z1, w1], w2, fun σ hσ => (w3 σ hσ).mono (le_of_eq ?_)⟩
    rw [roundings_congr (L := o) (L₂ := (L ++ R).filter fun c => c ∈ rest.flatten ++ out) fun c => by
        rw [mo, List.mem_filter, List.mem_append (s := L), decide_eq_true_eq],
      sum_of_mem (L.nodup_dedup.filter fun c => c ∉ R ++ o) (L.nodup_dedup.filter fun c => c ∉ R ++ (rest.flatten ++ out))
        fun c => by
          simp only [List.mem_filter, List.mem_dedup, decide_eq_true_eq, List.mem_append (s := R), mo]
          exact and_congr_right fun hc => by simp [hc],
      sum_of_mem (R.nodup_dedup.filter fun c => c ∉ L ++ o) (R.nodup_dedup.filter fun c => c ∉ L ++ (rest.flatten ++ out))
        fun c => by
          simp only [List.mem_filter, List.mem_dedup, decide_eq_true_eq, List.mem_append (s := L), mo]
          exact and_congr_right fun hc => by simp [hc],
      prod_of_mem (L.nodup_dedup.filter fun c => c ∈ R ∧ c ∉ o)
        (L.nodup_dedup.filter fun c => c ∈ R ∧ c ∉ rest.flatten ++ out)
        fun c => by
          simp only [List.mem_filter, List.mem_dedup, decide_eq_true_eq, mo]
          exact and_congr_right fun hc => by simp [hc]]
    simp only [roundings]
    clear * -
    omega

/-! ## C87 -/

section
variable {V : Type} {dims : Char → Nat} {inputs : List (List Char)} {out : List Char} {s : String} {operands : List (View V)}
  {d : Nat → Nat} {al : Alloc Grade}

/-- The operands have grade 0. -/
theorem operand_within (hs : Sized dims inputs (operands.map View.shape)) (hw : ∀ v ∈ operands, v.Wf) (n : Nat) (R : List Char)
    (hn : inputs[n]? = some R) : ∃ y G, index (operands.map (View.map fun _ => Grade.upto 0)) n = .ok y ∧ Rep y R dims G ∧ y.Wf ∧
      ∀ σ, InRange dims R σ → Within 0 (G σ) := by
  have hs' : Sized dims inputs ((operands.map (View.map fun _ => Grade.upto 0)).map View.shape) := by
    rw [map_shapes]; exact hs
  obtain ⟨y, G, y1, y2, y3⟩ := operand_rep hs' (fun v hv => by
    obtain ⟨w, hw', rfl⟩ := List.mem_map.1 hv
    exact (hw w hw').map _) n R hn
  refine ⟨y, G, y1, y2, y3, fun σ hσ => ?_⟩
  have g := index_eq_ok.1 y1
  rw [List.getElem?_map] at g
  obtain ⟨x, -, rfl⟩ := Option.map_eq_some_iff.1 g
  have := y2.get σ hσ
  rw [View.read_map] at this
  cases hx : x.read (R.map σ) with
  | error e => rw [hx] at this; cases this
  | ok z =>
    rw [hx] at this
    rw [← Except.ok.inj this]
    exact le_refl 0

theorem einsum_within {L : List Char} {rest : List (List Char)} (hden : Denotes s (L :: rest) out)
    (hs : Sized dims (L :: rest) (operands.map View.shape)) (hw : ∀ v ∈ operands, v.Wf)
    (hn : NoEmptyDiagonal dims (L :: rest)) (hd : ∀ p n, depth (al.sumOrder p n) ≤ d n) (h : HashOrd) :
    ∃ w H, einsum h al s (operands.map (View.map fun _ => Grade.upto 0)) = .ok (.ok w) ∧ Rep w out dims H ∧
      ∀ σ, InRange dims out σ → Within (roundings d dims L rest out) (H σ) := by
  have hs' : Sized dims (L :: rest) ((operands.map (View.map fun _ => Grade.upto 0)).map View.shape) := by
    rw [map_shapes]; exact hs
  have hop := operand_within hs hw
  obtain ⟨x, F, x1, x2, x3, x4⟩ := hop 0 L rfl
  cases rest with
  | nil =>
    obtain ⟨v, rfl⟩ : ∃ v, operands = [v] := by
      have := hs.length_eq
      exact List.length_eq_one_iff.1 (by simpa using this.symm)
    cases x1
    obtain ⟨r, H, h1, h2, h3⟩ := one_within hden.outputOk (hn L (by simp)) (h.sub 1) hd x2 x3 x4
    refine ⟨r, H, ?_, h2, fun σ hσ => (h3 σ hσ).mono (le_of_eq (Nat.zero_add _))⟩
    rw [C84_einsum hden hs']
    exact congrArg (Except.map Except.ok) h1
  | cons R rest =>
    obtain ⟨X, calls, a1, a2, a3, a4⟩ := C83_einsum h s _ out dims hden (by simp)
    cases a1
    rw [List.length_cons, List.range_succ_eq_map] at a2
    have a2' := (List.cons.inj a2).2
    have hf : List.Forall₂ (fun S n => (L :: R :: rest)[n]? = some S) (R :: rest) (calls.map TwoCall.operand) := by
      rw [a2']
      refine List.forall₂_iff_get.2 ⟨by simp, fun i h1 h2 => ?_⟩
      simp only [List.length_cons] at h1
      simp only [List.get_eq_getElem, List.getElem_map, List.getElem_range, List.getElem?_cons_succ]
      exact List.getElem?_eq_getElem (by simpa using h1)
    obtain ⟨w, H, w1, w2, w3⟩ := fold_within hop hn (R :: rest) calls L x F al 0 hf a3 (hn L (by simp)) x2 x3 hd x4
    refine ⟨w, H, ?_, w2, fun σ hσ => (w3 σ hσ).mono (le_of_eq (Nat.zero_add _))⟩
    rw [a4 Grade al _ hs', x1, bind_ok, w1]
    rfl

/-- A compiled path for one operand. -/
theorem path_single {B : Type} {ops : List (View B)} {L : List Char} (hden : Denotes s [L] out)
    (hs : Sized dims [L] (ops.map View.shape)) {m : OptimizationMethod} (hm : m = .naive ∨ m = .reverse) {h : HashOrd}
    {p : EinsumPath} (hp : einsumPath h s ops m = .ok (.ok p)) (k : HashOrd) {A : Type} [Zero A] [Add A] [Mul A] [MulAdd A]
    (al : Alloc A) (v : View A) : p.contractOperands al [v] = (callSC [L] out dims).contractOperands k al [v] := by
  obtain ⟨sc, or, g1, g2, g3⟩ := einsumPath_inv hp
  rw [validateAndSize_ok _ hden hs] at g1
  cases g1
  have e : generatePath ((h.sub 0).sub 1) (callSC [L] out dims) [0] = .ok or := by
    rcases hm with rfl | rfl <;> exact g2
  have p1 : generatePermutedContraction (((h.sub 0).sub 1).sub 0) (callSC [L] out dims) [0] = .ok (callSC [L] out dims) := by
    show unwrapR ((callSC [L] out dims).subset _ [L] out) = _
    rw [subset_callSC _ (fun _ h => h) hden.outputOk]
    rfl
  unfold generatePath at e
  rw [p1, bind_ok] at e
  cases e
  obtain ⟨c, c1, c2⟩ := bind_eq_ok.1 g3
  cases c2
  rw [one_run hden.outputOk c1]
  rfl

theorem path_within {B : Type} {ops : List (View B)} (hden : Denotes s inputs out)
    (hs : Sized dims inputs (ops.map View.shape)) {m : OptimizationMethod} {h : HashOrd}
    {p : EinsumPath} (hp : einsumPath h s ops m = .ok (.ok p)) (hs' : Sized dims inputs (operands.map View.shape))
    (hw : ∀ v ∈ operands, v.Wf) (hn : NoEmptyDiagonal dims inputs) (hd : ∀ p n, depth (al.sumOrder p n) ≤ d n)
    {L : List Char} {rest : List (List Char)} (hm : m = .naive ∧ inputs = L :: rest ∨ m = .reverse ∧ inputs.reverse = L :: rest) :
    ∃ w H, p.contractOperands al (operands.map (View.map fun _ => Grade.upto 0)) = .ok w ∧ Rep w out dims H ∧
      ∀ σ, InRange dims out σ → Within (roundings d dims L rest out) (H σ) := by
  have hop := operand_within hs' hw
  have hpick : pick inputs [] (operandOrder m inputs.length) = L :: rest := by
    rcases hm with ⟨rfl, e⟩ | ⟨rfl, e⟩
    · exact (pick_range inputs []).trans e
    · rw [← e]
      show (List.range inputs.length).reverse.map _ = _
      rw [List.map_reverse]
      exact congrArg List.reverse (pick_range inputs [])
  have hlen : inputs.length = (L :: rest).length := by
    rcases hm with ⟨-, e⟩ | ⟨-, e⟩
    · rw [e]
    · rw [← e, List.length_reverse]
  cases rest with
  | nil =>
    obtain ⟨L', rfl⟩ := List.length_eq_one_iff.1 hlen
    obtain rfl : L' = L := by
      rcases hm with ⟨-, e⟩ | ⟨-, e⟩
      · exact (List.cons.inj e).1
      · exact (by simpa using e)
    obtain ⟨x, F, x1, x2, x3, x4⟩ := hop 0 L' rfl
    obtain ⟨v, rfl⟩ : ∃ v, operands = [v] := by
      have := hs'.length_eq
      exact List.length_eq_one_iff.1 (by simpa using this.symm)
    cases x1
    obtain ⟨r, H, h1, h2, h3⟩ := one_within hden.outputOk (hn L' (by simp)) h hd x2 x3 x4
    refine ⟨r, H, ?_, h2, fun σ hσ => (h3 σ hσ).mono (le_of_eq (Nat.zero_add _))⟩
    exact (path_single hden hs (hm.imp And.left And.left) hp h al _).trans h1
  | cons R rest =>
    obtain ⟨n, X, calls, a1, a2, a3, a4⟩ := C83_path h s ops inputs out dims hden hs (by simp [hlen]) m p hp
    have hperm : (operandOrder m inputs.length).Perm (List.range inputs.length) := by
      cases m <;> first | exact .refl _ | exact List.reverse_perm _
    have hpf : List.Forall₂ (fun R n => inputs[n]? = some R) (pick inputs [] (operandOrder m inputs.length))
        (operandOrder m inputs.length) := by
      rw [pick, List.forall₂_map_left_iff, List.forall₂_same]
      intro i hi
      have : i < inputs.length := by simpa using hperm.mem_iff.1 hi
      simp [this]
    rw [hpick, ← a2] at hpf
    obtain ⟨e1, hf⟩ := List.forall₂_cons.1 hpf
    rw [e1] at a1
    cases a1
    obtain ⟨x, F, x1, x2, x3, x4⟩ := hop n L e1
    obtain ⟨w, H, w1, w2, w3⟩ := fold_within hop hn (R :: rest) calls L x F al 0 hf a3 (hn L (List.mem_of_getElem? e1)) x2 x3 hd x4
    refine ⟨w, H, ?_, w2, fun σ hσ => (w3 σ hσ).mono (le_of_eq (Nat.zero_add _))⟩
    rw [a4 Grade al _, x1, bind_ok, w1]

end

section
variable {F K : Type} [Zero F] [Add F] [Mul F] [MulAdd F] [Field K] [LinearOrder K] [IsStrictOrderedRing K]

/-- C87: if `n` numbers are added in at most `d n` roundings one after the other, then the error is bounded by the roundings
of the steps. -/
theorem C87_error {val : F → K} {u : K} (hr : Rounded val u) (h : HashOrd) (al : UniformAlloc) (s : String)
    (operands : List (View F)) (L : List Char) (rest : List (List Char)) (out : List Char) (dims : Char → Nat)
    (ts : List (List Nat → F)) (hc : Call s operands (L :: rest) out dims ts) (hn : NoEmptyDiagonal dims (L :: rest))
    (d : Nat → Nat) (hd : ∀ p n, depth ((al.alloc F).sumOrder p n) ≤ d n) :
    ∃ r, einsum h (al.alloc F) s operands = .ok (.ok r) ∧ r.Wf ∧ r.shape = out.map dims ∧
      ∀ σ, InRange dims out σ → ∃ y, r.read (out.map σ) = .ok y ∧
        |val y - Spec.einsum dims (L :: rest) (ts.map fun t idx => val (t idx)) out σ| ≤
          ((1 + u) ^ roundings d dims L rest out - 1) *
            Spec.einsum dims (L :: rest) (ts.map fun t idx => |val (t idx)|) out σ := by
  obtain ⟨R, ⟨h1, h2, h3⟩, h4⟩ := C52_uniform h al s operands (L :: rest) out dims ts hc hn
  obtain ⟨w, H, w1, w2, w3⟩ := einsum_within (al := al.alloc Grade) hc.denotes hc.sized (wf_of_elements hc.elements) hn
    (fun p n => by rw [al.sumOrder_eq F]; exact hd p n) h
  rw [h4] at w1
  cases w1
  have := h4 F id
  rw [map_map_id] at this
  refine ⟨_, this, h1.map _, h2, fun σ hσ => ?_⟩
  obtain ⟨e, e1, e2⟩ := h3 σ hσ
  refine ⟨e.eval id, by rw [View.read_map, e1]; rfl, formal_graded hr e2 ?_⟩
  have g := w2.get σ hσ
  rw [View.read_map, e1] at g
  rw [Except.ok.inj g]
  exact w3 σ hσ

/-- C87 for compiled paths: the roundings are counted in the order in which the path takes the operands. -/
theorem C87_path {val : F → K} {u : K} (hr : Rounded val u) (h : HashOrd) (al : UniformAlloc) (s : String)
    (operands : List (View F)) (inputs : List (List Char)) (out : List Char) (dims : Char → Nat)
    (ts : List (List Nat → F)) (m : OptimizationMethod) (L : List Char) (rest : List (List Char))
    (hm : m = .naive ∧ inputs = L :: rest ∨ m = .reverse ∧ inputs.reverse = L :: rest)
    (hc : Call s operands inputs out dims ts) (hn : NoEmptyDiagonal dims inputs)
    (d : Nat → Nat) (hd : ∀ p n, depth ((al.alloc F).sumOrder p n) ≤ d n) :
    ∃ p r, einsumPath h s operands m = .ok (.ok p) ∧ p.contractOperands (al.alloc F) operands = .ok r ∧
      r.Wf ∧ r.shape = out.map dims ∧
      ∀ σ, InRange dims out σ → ∃ y, r.read (out.map σ) = .ok y ∧
        |val y - Spec.einsum dims inputs (ts.map fun t idx => val (t idx)) out σ| ≤
          ((1 + u) ^ roundings d dims L rest out - 1) *
            Spec.einsum dims inputs (ts.map fun t idx => |val (t idx)|) out σ := by
  obtain ⟨p, p1, R, ⟨h1, h2, h3⟩, h4⟩ := C52_path h al s operands inputs out dims ts m (hm.imp And.left And.left) hc hn
  obtain ⟨w, H, w1, w2, w3⟩ := path_within (al := al.alloc Grade) hc.denotes hc.sized p1 hc.sized
    (wf_of_elements hc.elements) hn (fun p n => by rw [al.sumOrder_eq F]; exact hd p n) hm
  rw [h4] at w1
  cases w1
  have := h4 F id
  rw [map_map_id] at this
  refine ⟨p, _, p1, this, h1.map _, h2, fun σ hσ => ?_⟩
  obtain ⟨e, e1, e2⟩ := h3 σ hσ
  refine ⟨e.eval id, by rw [View.read_map, e1]; rfl, formal_graded hr e2 ?_⟩
  have g := w2.get σ hσ
  rw [View.read_map, e1] at g
  rw [Except.ok.inj g]
  exact w3 σ hσ

/-- C87 for `tensordot`: one rounding for the product and those of the sum. -/
theorem C87_tensordot {val : F → K} {u : K} (hr' : Rounded val u) (al : UniformAlloc) (l r : View F) (T U : List Nat → F)
    (la ra : List Nat) (hp : Paired l.shape r.shape la ra) (hl : Elements l T) (hr : Elements r U)
    (d : Nat → Nat) (hd : ∀ p n, depth ((al.alloc F).sumOrder p n) ≤ d n) :
    ∃ w, tensordot (al.alloc F) l r la ra = .ok w ∧ w.Wf ∧
      w.shape = lengths l.shape (kept l.shape.length la) ++ lengths r.shape (kept r.shape.length ra) ∧
      ∀ a b, InB (lengths l.shape (kept l.shape.length la)) a → InB (lengths r.shape (kept r.shape.length ra)) b →
        ∃ y, w.read (a ++ b) = .ok y ∧
          |val y - pairedSum l.shape r.shape la ra (fun i => val (T i)) (fun i => val (U i)) a b| ≤
            ((1 + u) ^ (1 + d (lengths l.shape la).prod) - 1) *
              pairedSum l.shape r.shape la ra (fun i => |val (T i)|) (fun i => |val (U i)|) a b := by
  obtain ⟨R, h1, h2, h3, h4⟩ := C59_uniform al l r T U la ra hp hl hr
  obtain ⟨w, w1, -, -, w4⟩ := C84_axes (l := l.map fun _ => Grade.upto 0) (r := r.map fun _ => Grade.upto 0) hp (al.alloc Grade)
    (hl.map fun _ => Grade.upto 0) (hr.map fun _ => Grade.upto 0)
  rw [h3] at w1
  cases w1
  have hw := h3 F id
  rw [View.map_id, View.map_id] at hw
  refine ⟨_, hw, h1.map _, h2, fun a b ha hb => ?_⟩
  obtain ⟨e, e1, he⟩ := h4 a b ha hb
  refine ⟨e.eval id, by rw [View.read_map, e1]; rfl, ?_⟩
  rw [← he K val, ← he K (fun a => |val a|)]
  have g := w4 a b ha hb
  rw [View.read_map, e1] at g
  refine within_error hr' e ?_
  rw [Except.ok.inj g]
  refine (dot_within (k := 0) (l := 0) (fun p hp => ?_) _).mono (k := 0 + 0 + 1 + _) ?_
  · obtain ⟨c, -, rfl⟩ := List.mem_map.1 hp
    exact ⟨le_rfl, le_rfl⟩
  · rw [al.sumOrder_eq F]
    exact Nat.add_le_add_left (hd _ _) _

omit [Zero F] [Add F] [Mul F] [MulAdd F] in
/-- C87: whatever the orders of the additions, `n - 1` roundings are enough to add `n` numbers. -/
theorem C87_any (al : Alloc F) (p : List Nat) (n : Nat) : depth (al.sumOrder p n) ≤ n - 1 := by
  have := depth_le (al.sumOrder p n)
  rwa [(al.sumOrder_perm p n).length_eq, List.length_range] at this

/-- C87: the backward error bounds of C82 with this exponent. -/
theorem C87_backward {val : F → K} {u : K} (hr : Rounded val u) (h : HashOrd) (al : UniformAlloc) (s : String)
    (operands : List (View F)) (L : List Char) (rest : List (List Char)) (out : List Char) (dims : Char → Nat)
    (ts : List (List Nat → F)) (hc : Call s operands (L :: rest) out dims ts) (hn : NoEmptyDiagonal dims (L :: rest))
    (d : Nat → Nat) (hd : ∀ p n, depth ((al.alloc F).sumOrder p n) ≤ d n) :
    ∃ r, einsum h (al.alloc F) s operands = .ok (.ok r) ∧ r.Wf ∧ r.shape = out.map dims ∧
      (∀ k ix t, (L :: rest)[k]? = some ix → ts[k]? = some t → (∀ c, Used (L :: rest) c → c ∈ ix ∨ c ∈ out) →
        ∀ σ, InRange dims out σ → ∃ y, r.read (out.map σ) = .ok y ∧ ∃ t' : List Nat → K,
          (∀ idx, |t' idx - val (t idx)| ≤ ((1 + u) ^ roundings d dims L rest out - 1) * |val (t idx)|) ∧
          val y = Spec.einsum dims (L :: rest) ((ts.map fun t idx => val (t idx)).set k t') out σ) ∧
      ∀ k ix t, (L :: rest)[k]? = some ix → ts[k]? = some t → (∀ c, Used (L :: rest) c → c ∈ ix) → ∃ t' : List Nat → K,
        (∀ idx, |t' idx - val (t idx)| ≤ ((1 + u) ^ roundings d dims L rest out - 1) * |val (t idx)|) ∧
        ∀ σ, InRange dims out σ → ∃ y, r.read (out.map σ) = .ok y ∧
          val y = Spec.einsum dims (L :: rest) ((ts.map fun t idx => val (t idx)).set k t') out σ := by
  obtain ⟨r, r1, r2, r3, r4⟩ := C87_error hr h al s operands L rest out dims ts hc hn d hd
  exact ⟨r, r1, r2, r3, fun k ix t hk ht hall σ hσ =>
      ErrorWithin.element (inputs := L :: rest) r4 (gamma_nonneg hr.nonneg _) hk ht hall hσ,
    fun k ix t hk ht hall =>
      ErrorWithin.whole (inputs := L :: rest) r4 (gamma_nonneg hr.nonneg _) hc.denotes.outputOk.2 hk ht hall⟩

end

/-! ## The size of the exponent -/

theorem sum_pred_lt {dims : Char → Nat} (l : List Char) (h : ∀ c ∈ l, dims c ≠ 0) :
    (l.map fun c => dims c - 1).sum + 1 ≤ (l.map dims).prod := by
  induction l with
  | nil => simp
  | cons c l ih =>
    have h1 := Nat.pos_of_ne_zero (h c (by simp))
    have h2 := ih fun e he => h e (by simp [he])
    simp only [List.map_cons, List.sum_cons, List.prod_cons]
    obtain ⟨x, hx⟩ := Nat.exists_eq_add_of_le h1
    obtain ⟨y, hy⟩ := Nat.exists_eq_add_of_le h2
    rw [hx, hy]
    have : (1 + x) * ((l.map fun c => dims c - 1).sum + 1 + y) = (l.map fun c => dims c - 1).sum + 1 + y +
      x * (l.map fun c => dims c - 1).sum + x + x * y := by ring
    rw [this]
    omega

theorem four_factors {a b c e : Nat} (ha : 1 ≤ a) (hb : 1 ≤ b) (hc : 1 ≤ c) (he : 1 ≤ e) :
    a + b + c + e ≤ a * (b * (c * e)) + 3 := by
  obtain ⟨a, rfl⟩ := Nat.exists_eq_add_of_le ha
  obtain ⟨b, rfl⟩ := Nat.exists_eq_add_of_le hb
  obtain ⟨c, rfl⟩ := Nat.exists_eq_add_of_le hc
  obtain ⟨e, rfl⟩ := Nat.exists_eq_add_of_le he
  ring_nf
  omega

theorem roundings_le {dims : Char → Nat} {out : List Char} (rest : List (List Char)) : ∀ (L : List Char),
    (∀ c ∈ L ++ rest.flatten, c ∉ out → dims c ≠ 0) →
    roundings (fun n => n - 1) dims L rest out + 1 ≤ rest.length + termCount dims (L :: rest) out := by
  induction rest with
  | nil =>
    intro L h
    have := sum_pred_lt (dims := dims) (L.dedup.filter fun c => c ∉ out) fun c hc => by
      simp only [List.mem_filter, List.mem_dedup, decide_eq_true_eq] at hc
      exact h c (by simp [hc.1]) hc.2
    simpa [roundings, termCount, summed] using this
  | cons R rest ih =>
    intro L h
    have h' := ih ((L ++ R).filter fun c => c ∈ rest.flatten ++ out) fun c hc => h c (by
      simp only [List.mem_append, List.mem_filter, List.flatten_cons] at hc ⊢
      tauto)
    have hA := sum_pred_lt (dims := dims) (L.dedup.filter fun c => c ∉ R ++ (rest.flatten ++ out)) fun c hc => by
      simp only [List.mem_filter, List.mem_dedup, decide_eq_true_eq, List.mem_append, not_or] at hc
      exact h c (by simp [hc.1]) hc.2.2.2
    have hB := sum_pred_lt (dims := dims) (R.dedup.filter fun c => c ∉ L ++ (rest.flatten ++ out)) fun c hc => by
      simp only [List.mem_filter, List.mem_dedup, decide_eq_true_eq, List.mem_append, not_or] at hc
      exact h c (by simp [hc.1]) hc.2.2.2
    have hC := sum_pred_lt (dims := dims) (L.dedup.filter fun c => c ∈ R ∧ c ∉ rest.flatten ++ out) fun c hc => by
      simp only [List.mem_filter, List.mem_dedup, decide_eq_true_eq, List.mem_append, not_or] at hc
      exact h c (by simp [hc.1]) hc.2.2.2
    have hE := sum_pred_lt (dims := dims) (summed (((L ++ R).filter fun c => c ∈ rest.flatten ++ out) :: rest) out)
      fun c hc => by
        obtain ⟨h1, h2⟩ := mem_summed.1 hc
        refine h c ?_ h2
        simp only [List.mem_append, List.mem_filter, List.flatten_cons] at h1 ⊢
        tauto
    have e : termCount dims (L :: R :: rest) out =
        ((L.dedup.filter fun c => c ∉ R ++ (rest.flatten ++ out)).map dims).prod *
        (((R.dedup.filter fun c => c ∉ L ++ (rest.flatten ++ out)).map dims).prod *
        (((L.dedup.filter fun c => c ∈ R ∧ c ∉ rest.flatten ++ out).map dims).prod *
        termCount dims (((L ++ R).filter fun c => c ∈ rest.flatten ++ out) :: rest) out)) := by
      unfold termCount
      rw [← List.prod_append, ← List.prod_append, ← List.prod_append, ← List.map_append, ← List.map_append, ← List.map_append]
      have n1 : (summed (((L ++ R).filter fun c => c ∈ rest.flatten ++ out) :: rest) out).Nodup := (List.nodup_dedup _).filter _
      have m1 : ∀ c, c ∈ summed (((L ++ R).filter fun c => c ∈ rest.flatten ++ out) :: rest) out ↔
          ((c ∈ L ∨ c ∈ R) ∧ (c ∈ rest.flatten ∨ c ∈ out) ∨ c ∈ rest.flatten) ∧ c ∉ out := fun c => by
        rw [mem_summed]
        simp only [List.flatten_cons, List.mem_append, List.mem_filter, decide_eq_true_eq]
      have m2 : ∀ c, c ∈ summed (L :: R :: rest) out ↔ (c ∈ L ∨ c ∈ R ∨ c ∈ rest.flatten) ∧ c ∉ out := fun c => by
        rw [mem_summed]
        simp only [List.flatten_cons, List.mem_append]
      generalize summed (((L ++ R).filter fun c => c ∈ rest.flatten ++ out) :: rest) out = S at n1 m1
      have n2 : (summed (L :: R :: rest) out).Nodup := (List.nodup_dedup _).filter _
      generalize summed (L :: R :: rest) out = T at n2 m2
      refine prod_of_mem n2 ?_ (fun c => ?_) dims
      · refine List.Nodup.append ((List.nodup_dedup _).filter _) (List.Nodup.append ((List.nodup_dedup _).filter _)
          (List.Nodup.append ((List.nodup_dedup _).filter _) n1 ?_) ?_) ?_
        all_goals
          intro c h1 h2
          simp only [List.mem_append, List.mem_filter, List.mem_dedup, decide_eq_true_eq, m1] at h1 h2
          clear * - h1 h2
          tauto
      · simp only [List.mem_append, List.mem_filter, List.mem_dedup, decide_eq_true_eq, m1, m2]
        clear * -
        by_cases c ∈ L <;> by_cases c ∈ R <;> by_cases c ∈ rest.flatten <;> by_cases c ∈ out <;> simp_all
    have h4 := four_factors (le_trans (by omega) hA) (le_trans (by omega) hB) (le_trans (by omega) hC)
      (le_trans (by omega) hE)
    rw [e]
    simp only [roundings, List.length_cons]
    unfold termCount at h' ⊢
    omega

/-- C87: the exponent is at most that of C53. -/
theorem C87_sharper (dims : Char → Nat) (L : List Char) (rest : List (List Char)) (out : List Char)
    (h : ∀ c ∈ summed (L :: rest) out, dims c ≠ 0) :
    roundings (fun n => n - 1) dims L rest out ≤ termCount dims (L :: rest) out + (L :: rest).length - 2 := by
  have := roundings_le (dims := dims) (out := out) rest L fun c hc ho => h c (mem_summed.2 ⟨by simpa using hc, ho⟩)
  simp only [List.length_cons]
  omega

theorem chain_roundings (d : Nat → Nat) (dims : Char → Nat) (a : Char) (l : List Char) : ∀ (b : Char), (a :: b :: l).Nodup →
    roundings d dims [a, b] (links (b :: l)) [a, (b :: l).getLast (by simp)] =
      (((b :: l).dropLast).map fun c => d (dims c) + 1).sum := by
  induction l with
  | nil =>
    intro b hn
    simp only [links, roundings, List.getLast_singleton, List.dropLast_singleton, List.map_nil, List.sum_nil]
    rw [List.filter_eq_nil_iff.2]
    · rfl
    · intro c hc
      have : c = a ∨ c = b := by simpa using List.mem_dedup.1 hc
      simp only [decide_eq_true_eq, not_not, List.mem_cons, List.not_mem_nil, or_false]
      exact this
  | cons e l ih =>
    intro b hn
    simp only [List.nodup_cons, List.mem_cons, not_or] at hn
    obtain ⟨⟨ab, ae, al⟩, ⟨be, bl⟩, el, hl⟩ := hn
    have hlast : (b :: e :: l).getLast (by simp) = (e :: l).getLast (by simp) := by simp
    have hb : b ∉ (links (e :: l)).flatten ++ [a, (e :: l).getLast (by simp)] := by
      intro hb
      rcases List.mem_append.1 hb with hb | hb
      · have := mem_links hb
        simp only [List.mem_cons] at this
        tauto
      · simp only [List.mem_cons, List.not_mem_nil, or_false] at hb
        rcases hb with hb | hb
        · exact ab hb.symm
        · have := List.getLast_mem (l := e :: l) (by simp)
          rw [← hb] at this
          simp only [List.mem_cons] at this
          tauto
    have he : e ∈ (links (e :: l)).flatten ++ [a, (e :: l).getLast (by simp)] := by
      cases l with
      | nil => simp
      | cons f l => simp [links]
    have ha : a ∈ (links (e :: l)).flatten ++ [a, (e :: l).getLast (by simp)] := by simp
    rw [hlast]
    show roundings d dims [a, b] ([b, e] :: links (e :: l)) _ = _
    simp only [roundings]
    generalize hX : (links (e :: l)).flatten ++ [a, (e :: l).getLast (by simp)] = X at ha hb he
    have d1 : [a, b].dedup = [a, b] := List.dedup_eq_self.2 (by simp [ab])
    have d2 : [b, e].dedup = [b, e] := List.dedup_eq_self.2 (by simp [be])
    have f1 : ([a, b].filter fun c => c ∉ [b, e] ++ X) = [] := by simp [ha]
    have f2 : ([b, e].filter fun c => c ∉ [a, b] ++ X) = [] := by simp [he]
    have f3 : ([a, b].filter fun c => c ∈ [b, e] ∧ c ∉ X) = [b] := by simp [ha, hb]
    rw [d1, d2, f1, f2, f3]
    rw [roundings_congr (L₂ := [a, e]) fun c => ?_, ih e (by simp only [List.nodup_cons, List.mem_cons]; tauto)]
    · simp
      omega
    · simp only [List.mem_filter, List.cons_append, List.nil_append, List.mem_cons, List.not_mem_nil, or_false, decide_eq_true_eq]
      constructor
      · rintro ⟨rfl | rfl | rfl | rfl, h⟩ <;> first | exact .inl rfl | exact .inr rfl | exact absurd h hb
      · rintro (rfl | rfl)
        · exact ⟨.inl rfl, ha⟩
        · exact ⟨.inr (.inr (.inr rfl)), he⟩

/-- C87: for a product of matrices each inner letter contributes its own length, not the product of the lengths. -/
theorem C87_chain (d : Nat → Nat) (dims : Char → Nat) (a b : Char) (l : List Char) (h : (a :: b :: l).Nodup) :
    roundings d dims [a, b] (links (b :: l)) [a, (b :: l).getLast (by simp)] =
      (((b :: l).dropLast).map fun c => d (dims c) + 1).sum :=
  chain_roundings d dims a l b h

/-- Pairwise summation of the numbers `lo`, ..., `lo + n - 1`. -/
def Spec.halves (lo n : Nat) : SumTree :=
  if n = 0 then .zero else if n = 1 then .leaf lo else .add (halves lo (n / 2)) (halves (lo + n / 2) (n - n / 2))
termination_by n
decreasing_by all_goals omega

theorem halves_leaves (lo n : Nat) : (halves lo n).leaves = List.range' lo n := by
  induction n using Nat.strong_induction_on generalizing lo with
  | _ n ih =>
    unfold halves
    split
    · subst n; rfl
    · split
      · subst n; rfl
      · rw [SumTree.leaves, ih _ (by omega), ih _ (by omega), List.range'_append_1]
        congr 1
        omega

/-- C87: with pairwise summation the roundings are logarithmic. -/
theorem C87_pairwise (lo n : Nat) : depth (halves lo n) ≤ Nat.clog 2 n := by
  induction n using Nat.strong_induction_on generalizing lo with
  | _ n ih =>
    unfold halves
    split
    · simp [depth]
    · split
      · simp [depth]
      · have h1 := ih (n / 2) (by omega) lo
        have h2 := ih (n - n / 2) (by omega) (lo + n / 2)
        have h3 : Nat.clog 2 (n / 2) ≤ Nat.clog 2 ((n + 2 - 1) / 2) := Nat.clog_mono_right 2 (by omega)
        have h4 : Nat.clog 2 (n - n / 2) ≤ Nat.clog 2 ((n + 2 - 1) / 2) := Nat.clog_mono_right 2 (by omega)
        rw [Nat.clog_of_two_le (by omega) (by omega), depth, if_neg, if_neg]
        · omega
        · rw [halves_leaves, ← List.length_eq_zero_iff, List.length_range']
          omega
        · rw [halves_leaves, ← List.length_eq_zero_iff, List.length_range']
          omega

/-! ## Examples -/

/-- Everything row-major, pairwise sums. -/
def Spec.UniformAlloc.pairwise : UniformAlloc where
  alloc := fun A => { Alloc.rowMajor A with
    sumOrder := fun _ n => halves 0 n
    sumOrder_perm := fun _ n => by rw [halves_leaves, List.range_eq_range'] }
  make_map := fun _ _ _ _ => rfl
  sumOrder_eq := fun _ _ _ _ => rfl

namespace Ex

theorem call_tree : Call "ij,jk,kl,lm->im" [m23, m32, m23, m32] [['i', 'j'], ['j', 'k'], ['k', 'l'], ['l', 'm']] ['i', 'm']
    treeDims [elems m23, elems m32, elems m23, elems m32] :=
  ⟨denotes_tree, sized_tree, .cons e23 (.cons e32 (.cons e23 (.cons e32 .nil)))⟩

end Ex

/-- A product of four matrices of floating-point numbers: 8 roundings, where C53 counts 20. -/
example : ∃ r, einsum HashOrd.reversed (Alloc.colMajor Fl) "ij,jk,kl,lm->im"
      ([Ex.m23, Ex.m32, Ex.m23, Ex.m32].map (View.map fun z : Int => Fl.mk ((z : ℚ) / 10))) = .ok (.ok r) ∧
    ∀ σ, InRange Ex.treeDims ['i', 'm'] σ → ∃ y, r.read [σ 'i', σ 'm'] = .ok y ∧
      |y.q - Spec.einsum Ex.treeDims [['i', 'j'], ['j', 'k'], ['k', 'l'], ['l', 'm']]
          ([Ex.elems Ex.m23, Ex.elems Ex.m32, Ex.elems Ex.m23, Ex.elems Ex.m32].map fun t idx => (t idx : ℚ) / 10) ['i', 'm'] σ| ≤
        ((1 + 2⁻¹ ^ 53) ^ 8 - 1) * Spec.einsum Ex.treeDims [['i', 'j'], ['j', 'k'], ['k', 'l'], ['l', 'm']]
          ([Ex.elems Ex.m23, Ex.elems Ex.m32, Ex.elems Ex.m23, Ex.elems Ex.m32].map fun t idx => |(t idx : ℚ) / 10|) ['i', 'm'] σ := by
  obtain ⟨r, h1, -, -, h2⟩ := C87_error Fl.rounded HashOrd.reversed UniformAlloc.colMajor "ij,jk,kl,lm->im" _ _ _ _ _ _
    (Ex.call_tree.map fun z : Int => Fl.mk ((z : ℚ) / 10)) Ex.ned_tree _ fun p n => C87_any _ p n
  exact ⟨r, h1, fun σ hσ => h2 σ hσ⟩

example : roundings (fun n => n - 1) Ex.treeDims ['i', 'j'] [['j', 'k'], ['k', 'l'], ['l', 'm']] ['i', 'm'] = 8 := by decide

example : termCount Ex.treeDims [['i', 'j'], ['j', 'k'], ['k', 'l'], ['l', 'm']] ['i', 'm'] + 4 - 2 = 20 := by decide

/-- In reverse order, with pairwise sums. -/
example : ∃ p r, einsumPath HashOrd.insertion "ij,jk,kl,lm->im"
      ([Ex.m23, Ex.m32, Ex.m23, Ex.m32].map (View.map fun z : Int => Fl.mk ((z : ℚ) / 10))) .reverse = .ok (.ok p) ∧
    p.contractOperands (UniformAlloc.pairwise.alloc Fl)
      ([Ex.m23, Ex.m32, Ex.m23, Ex.m32].map (View.map fun z : Int => Fl.mk ((z : ℚ) / 10))) = .ok r ∧
    ∀ σ, InRange Ex.treeDims ['i', 'm'] σ → ∃ y, r.read [σ 'i', σ 'm'] = .ok y ∧
      |y.q - Spec.einsum Ex.treeDims [['i', 'j'], ['j', 'k'], ['k', 'l'], ['l', 'm']]
          ([Ex.elems Ex.m23, Ex.elems Ex.m32, Ex.elems Ex.m23, Ex.elems Ex.m32].map fun t idx => (t idx : ℚ) / 10) ['i', 'm'] σ| ≤
        ((1 + 2⁻¹ ^ 53) ^ roundings (Nat.clog 2) Ex.treeDims ['l', 'm'] [['k', 'l'], ['j', 'k'], ['i', 'j']] ['i', 'm'] - 1) *
        Spec.einsum Ex.treeDims [['i', 'j'], ['j', 'k'], ['k', 'l'], ['l', 'm']]
          ([Ex.elems Ex.m23, Ex.elems Ex.m32, Ex.elems Ex.m23, Ex.elems Ex.m32].map fun t idx => |(t idx : ℚ) / 10|) ['i', 'm'] σ := by
  obtain ⟨p, r, h0, h1, -, -, h2⟩ := C87_path Fl.rounded HashOrd.insertion UniformAlloc.pairwise "ij,jk,kl,lm->im" _ _ _ _ _
    .reverse ['l', 'm'] [['k', 'l'], ['j', 'k'], ['i', 'j']] (.inr ⟨rfl, rfl⟩)
    (Ex.call_tree.map fun z : Int => Fl.mk ((z : ℚ) / 10)) Ex.ned_tree (Nat.clog 2) fun p n => C87_pairwise 0 n
  exact ⟨p, r, h0, h1, fun σ hσ => h2 σ hσ⟩

/-- Four matrices of size 100: 300 roundings, 24 with pairwise sums; the bound of C53 has 1000002. -/
example : roundings (fun n => n - 1) (fun _ => 100) ['i', 'j'] [['j', 'k'], ['k', 'l'], ['l', 'm']] ['i', 'm'] = 300 :=
  C87_chain _ _ 'i' 'j' ['k', 'l', 'm'] (by decide)

example : roundings (Nat.clog 2) (fun _ => 100) ['i', 'j'] [['j', 'k'], ['k', 'l'], ['l', 'm']] ['i', 'm'] = 24 := by
  have h : Nat.clog 2 100 = 7 := by decide
  have := C87_chain (Nat.clog 2) (fun _ => 100) 'i' 'j' ['k', 'l', 'm'] (by decide)
  rw [show (['i', 'm'] : List Char) = ['i', ['j', 'k', 'l', 'm'].getLast (by simp)] from rfl]
  refine this.trans ?_
  simp [h]

/-- A letter in one operand only and a contraction of two letters. -/
example : roundings (fun n => n - 1) (fun _ => 10) ['i', 'a'] [['j', 'k'], ['i', 'j', 'k']] [] =
    9 + 0 + 1 + 0 + (0 + 0 + 1 + 999) := by decide

example : roundings (fun n => n - 1) (fun _ => 10) ['i', 'a'] [['j', 'k'], ['i', 'j', 'k']] [] ≤ 10000 + 3 - 2 :=
  C87_sharper (fun _ => 10) ['i', 'a'] [['j', 'k'], ['i', 'j', 'k']] [] (by simp)

/-- The matrix-vector product is that of a matrix changed by three roundings. -/
example : ∃ r, einsum HashOrd.reversed (Alloc.fused Fl) "ij,j->i"
      ([Ex.m23, Ex.v3b].map (View.map fun z : Int => Fl.mk ((z : ℚ) / 10))) = .ok (.ok r) ∧ ∃ t' : List Nat → ℚ,
    (∀ idx, |t' idx - (Ex.elems Ex.m23 idx : ℚ) / 10| ≤ ((1 + 2⁻¹ ^ 53) ^ 3 - 1) * |(Ex.elems Ex.m23 idx : ℚ) / 10|) ∧
    ∀ σ, InRange Ex.dims ['i'] σ → ∃ y, r.read [σ 'i'] = .ok y ∧
      y.q = Spec.einsum Ex.dims [['i', 'j'], ['j']] [t', fun idx => (Ex.elems Ex.v3b idx : ℚ) / 10] ['i'] σ := by
  obtain ⟨r, h1, -, -, -, h2⟩ := C87_backward Fl.rounded HashOrd.reversed UniformAlloc.fused "ij,j->i" _ _ _ _ _ _
    (Ex.call_mvb.map fun z : Int => Fl.mk ((z : ℚ) / 10)) Ex.ned_mvb _ fun p n => C87_any _ p n
  exact ⟨r, h1, h2 0 ['i', 'j'] _ rfl rfl (by simp [Used])⟩

/-- Sums of six products: with pairwise sums three roundings after that of the product. -/
example : ∃ w, tensordot (UniformAlloc.pairwise.alloc Fl) (Ex.m332.map fun z : Int => Fl.mk ((z : ℚ) / 10))
    (Ex.m32.map fun z : Int => Fl.mk ((z : ℚ) / 10)) [2, 1] [1, 0] = .ok w ∧ ∃ y, w.read [1] = .ok y ∧
    |y.q - 56 / 100| ≤ ((1 + 2⁻¹ ^ 53) ^ 4 - 1) * (56 / 100) := by
  obtain ⟨w, h1, -, -, h2⟩ := C87_tensordot Fl.rounded UniformAlloc.pairwise _ _ _ _ [2, 1] [1, 0] Ex.paired
    (Ex.e332.map fun z : Int => Fl.mk ((z : ℚ) / 10)) (Ex.e32.map fun z : Int => Fl.mk ((z : ℚ) / 10)) (Nat.clog 2)
    fun p n => C87_pairwise 0 n
  obtain ⟨y, y1, y2⟩ := h2 [1] [] (by decide) (by decide)
  have e : pairedSum Ex.m332.shape Ex.m32.shape [2, 1] [1, 0] (fun i => (Ex.elems Ex.m332 i : ℚ) / 10)
      (fun i => (Ex.elems Ex.m32 i : ℚ) / 10) [1] [] = 56 / 100 := by
    decide +kernel
  have e' : pairedSum Ex.m332.shape Ex.m32.shape [2, 1] [1, 0] (fun i => |(Ex.elems Ex.m332 i : ℚ) / 10|)
      (fun i => |(Ex.elems Ex.m32 i : ℚ) / 10|) [1] [] = 56 / 100 := by
    decide +kernel
  have h6 : Nat.clog 2 6 = 3 := by decide
  refine ⟨w, h1, y, y1, ?_⟩
  have y3 : |y.q - pairedSum Ex.m332.shape Ex.m32.shape [2, 1] [1, 0] (fun i => (Ex.elems Ex.m332 i : ℚ) / 10)
      (fun i => (Ex.elems Ex.m32 i : ℚ) / 10) [1] []| ≤ ((1 + 2⁻¹ ^ 53) ^ (1 + Nat.clog 2 6) - 1) *
        pairedSum Ex.m332.shape Ex.m32.shape [2, 1] [1, 0] (fun i => |(Ex.elems Ex.m332 i : ℚ) / 10|)
      (fun i => |(Ex.elems Ex.m32 i : ℚ) / 10|) [1] [] := y2
  rwa [e, e', h6] at y3

end Einsum
