import Verif.Props.SignedZero
import Mathlib.Algebra.Order.BigOperators.Group.Finset

/-!
# Which elements an output element is computed from (C68)
-/

namespace Einsum

open Spec Function

/-! ## Occurrence in expressions -/

theorem Spec.Expr.eval_congr {V A : Type} [Zero A] [Add A] [Mul A] [MulAdd A] {f g : V → A} {e : Expr V}
    (h : ∀ x, e.Has x → f x = g x) : e.eval f = e.eval g := by
  induction e with
  | var x => exact h x rfl
  | zero => rfl
  | add a b iha ihb =>
    rw [Expr.eval, Expr.eval, iha fun x hx => h x (.inl hx), ihb fun x hx => h x (.inr hx)]
  | mul a b iha ihb =>
    rw [Expr.eval, Expr.eval, iha fun x hx => h x (.inl hx), ihb fun x hx => h x (.inr hx)]
  | mulAdd a b c iha ihb ihc =>
    rw [Expr.eval, Expr.eval, iha fun x hx => h x (.inl hx), ihb fun x hx => h x (.inr (.inl hx)),
      ihc fun x hx => h x (.inr (.inr hx))]

/-- All elements 1, but `x` is 2. -/
def twice {V : Type} [DecidableEq V] (x y : V) : ℕ := if y = x then 2 else 1

theorem one_le_twice {V : Type} [DecidableEq V] (x y : V) : 1 ≤ twice x y := by unfold twice; split <;> omega

theorem Spec.Expr.IsP.has_iff {V : Type} [DecidableEq V] {e : Expr V} (he : e.IsP) (x : V) :
    e.Has x ↔ e.eval (fun _ => 1) < e.eval (twice x) := by
  constructor
  · exact he.lt (fun _ => Nat.one_pos) (one_le_twice x) (by simp [twice])
  · intro h
    by_contra hx
    refine absurd (Expr.eval_congr fun y hy => ?_) h.ne
    rw [twice, if_neg (fun (he : y = x) => hx (he ▸ hy))]

theorem Spec.Expr.absorbed {V A : Type} [Zero A] [Add A] [Mul A] [MulAdd A] {Q : A → Prop} (hQ : Absorbing Q)
    {f : V → A} {x : V} (hx : Q (f x)) {e : Expr V} (h : e.Has x) : Q (e.eval f) := by
  induction e with
  | var y => obtain rfl : x = y := h; exact hx
  | zero => exact h.elim
  | add a b iha ihb => exact hQ.add _ _ (h.imp iha ihb)
  | mul a b iha ihb => exact hQ.mul _ _ (h.imp iha ihb)
  | mulAdd a b c iha ihb ihc => exact hQ.mulAdd _ _ _ (h.imp iha (Or.imp ihb ihc))

/-! ## Occurrence in sums -/

theorem sumOver_le {ι : Type} [DecidableEq ι] {dims : ι → Nat} {cs : List ι} {f g : (ι → Nat) → ℕ} (h : ∀ σ, f σ ≤ g σ)
    (σ : ι → Nat) : sumOver dims cs f σ ≤ sumOver dims cs g σ := by
  induction cs generalizing σ with
  | nil => exact h σ
  | cons c cs ih => exact Finset.sum_le_sum fun v _ => ih _

theorem sumOver_lt {ι : Type} [DecidableEq ι] {dims : ι → Nat} {cs : List ι} {f g : (ι → Nat) → ℕ} (h : ∀ σ, f σ ≤ g σ)
    {σ τ : ι → Nat} (h1 : ∀ c, c ∉ cs → τ c = σ c) (h2 : InRange dims cs τ) (hlt : f τ < g τ) :
    sumOver dims cs f σ < sumOver dims cs g σ := by
  induction cs generalizing σ with
  | nil => rwa [← show τ = σ from funext fun c => h1 c (by simp)]
  | cons c cs ih =>
    refine Finset.sum_lt_sum (fun v _ => sumOver_le h _) ⟨τ c, Finset.mem_range.2 (h2 c (by simp)), ih (fun d hd => ?_)
      fun d hd => h2 d (by simp [hd])⟩
    by_cases hdc : d = c
    · rw [hdc, update_self]
    · rw [update_of_ne hdc]
      exact h1 d (by simp [hd, hdc])

theorem prod_ones {α β : Type} (f : α → β → ℕ) (as : List α) (bs : List β) (h : ∀ p ∈ as.zip bs, f p.1 p.2 = 1) :
    (List.zipWith f as bs).prod = 1 := by
  induction as generalizing bs with
  | nil => rfl
  | cons a as ih =>
    cases bs with
    | nil => rfl
    | cons b bs =>
      rw [List.zipWith_cons_cons, List.prod_cons, h (a, b) (by simp), ih bs fun p hp => h p (by simp [hp])]

theorem prod_pos {α β : Type} (f : α → β → ℕ) (as : List α) (bs : List β) (h : ∀ a b, 1 ≤ f a b) :
    1 ≤ (List.zipWith f as bs).prod := by
  induction as generalizing bs with
  | nil => exact le_rfl
  | cons a as ih =>
    cases bs with
    | nil => exact le_rfl
    | cons b bs =>
      rw [List.zipWith_cons_cons, List.prod_cons]
      exact Nat.mul_pos (h a b) (ih bs)

theorem prod_gt {α β : Type} (f : α → β → ℕ) (as : List α) (bs : List β) (h : ∀ a b, 1 ≤ f a b)
    (hp : ∃ p ∈ as.zip bs, 1 < f p.1 p.2) : 1 < (List.zipWith f as bs).prod := by
  induction as generalizing bs with
  | nil => simp at hp
  | cons a as ih =>
    cases bs with
    | nil => simp at hp
    | cons b bs =>
      rw [List.zipWith_cons_cons, List.prod_cons]
      have h1 := h a b
      have h2 := prod_pos f as bs h
      obtain ⟨p, hp, hlt⟩ := hp
      rcases List.mem_cons.1 (by simpa using hp : p ∈ (a, b) :: as.zip bs) with rfl | hp
      · calc 1 < f a b := hlt
          _ ≤ _ := Nat.le_mul_of_pos_right _ h2
      · calc 1 < _ := ih bs ⟨p, hp, hlt⟩
          _ ≤ _ := Nat.le_mul_of_pos_left _ h1

/-- An element occurs exactly if the sum notices that it is doubled. -/
theorem occurs_iff {V : Type} [DecidableEq V] {dims : Char → Nat} {inputs : List (List Char)} {ts : List (List Nat → V)}
    {out : List Char} {σ : Char → Nat} (hσ : InRange dims out σ) (x : V) :
    Occurs dims inputs ts out σ x ↔
      Spec.einsum dims inputs (ts.map fun t idx => (fun _ : V => 1) (t idx)) out σ <
        Spec.einsum dims inputs (ts.map fun t idx => twice x (t idx)) out σ := by
  have e1 : ∀ (f : V → ℕ) (τ : Char → Nat), term inputs (ts.map fun t idx => f (t idx)) τ =
      (List.zipWith (fun ix t => f (t (ix.map τ))) inputs ts).prod := fun f τ => by
    rw [term, List.zipWith_map_right]
  have one : ∀ τ, term inputs (ts.map fun t idx => (fun _ : V => 1) (t idx)) τ = 1 := fun τ => by
    exact (e1 (fun _ => 1) τ).trans (prod_ones _ _ _ fun _ _ => rfl)
  have le : ∀ τ, term inputs (ts.map fun t idx => (fun _ : V => 1) (t idx)) τ ≤
      term inputs (ts.map fun t idx => twice x (t idx)) τ := fun τ => by
    rw [one, e1 (twice x)]; exact prod_pos _ _ _ fun _ _ => one_le_twice _ _
  constructor
  · rintro ⟨τ, h1, h2, p, hp, rfl⟩
    refine sumOver_lt (τ := fun c => if c ∈ summed inputs out then τ c else σ c) le (fun c hc => if_neg hc)
      (fun c hc => ?_) ?_
    · dsimp only
      rw [if_pos hc]
      exact h1 c (mem_summed.1 hc).1
    · rw [one, e1 (twice _)]
      refine prod_gt _ _ _ (fun _ _ => one_le_twice _ _) ⟨p, hp, ?_⟩
      have : p.1.map (fun c => if c ∈ summed inputs out then τ c else σ c) = p.1.map τ := by
        refine List.map_congr_left fun c hc => ?_
        split
        · rfl
        · next hn =>
          have hin : c ∈ inputs.flatten := List.mem_flatten.2 ⟨p.1, (List.of_mem_zip (a := p.1) (b := p.2) hp).1, hc⟩
          by_cases ho : c ∈ out
          · exact (h2 c ho).symm
          · exact absurd (mem_summed.2 ⟨hin, ho⟩) hn
      rw [this, twice, if_pos rfl]
      omega
  · intro h
    by_contra hno
    refine absurd (sumOver_congr fun τ h1 h2 => ?_) h.ne
    rw [one, e1 (twice x)]
    refine (prod_ones _ _ _ fun p hp => ?_).symm
    rw [twice, if_neg]
    intro he
    refine hno ⟨τ, fun c hc => ?_, fun c hc => h1 c fun hs => (mem_summed.1 hs).2 hc, p, hp, he.symm⟩
    by_cases ho : c ∈ out
    · rw [h1 c fun hs => (mem_summed.1 hs).2 ho]
      exact hσ c ho
    · exact h2 c (mem_summed.2 ⟨hc, ho⟩)

/-- The variables of the expression of an output element. -/
theorem formal_has {V : Type} {dims : Char → Nat} {inputs : List (List Char)} {ts : List (List Nat → V)}
    {out : List Char} {σ : Char → Nat} (hσ : InRange dims out σ) {e : Expr V} (he : e.IsP)
    (hs : ∀ (S : Type) [CommSemiring S] (f : V → S),
      e.eval f = Spec.einsum dims inputs (ts.map fun t idx => f (t idx)) out σ) (x : V) :
    e.Has x ↔ Occurs dims inputs ts out σ x := by
  classical
  rw [he.has_iff, occurs_iff hσ, hs, hs]

/-! ## C68 for `einsum` -/

/-- C68: the expressions computed for the output elements contain exactly the elements that occur in their sums. -/
theorem C68_einsum {V : Type} (h : HashOrd) (al : UniformAlloc) (s : String) (operands : List (View V))
    (inputs : List (List Char)) (out : List Char) (dims : Char → Nat) (ts : List (List Nat → V))
    (hc : Call s operands inputs out dims ts) (h0 : ∀ c ∈ inputs.flatten, dims c ≠ 0) :
    ∃ R : View (Expr V), R.Wf ∧ R.shape = out.map dims ∧
      (∀ (A : Type) [Zero A] [Add A] [Mul A] [MulAdd A] (val : V → A),
        einsum h (al.alloc A) s (operands.map (View.map val)) = .ok (.ok (R.map (Expr.eval val)))) ∧
      ∀ σ, InRange dims out σ → ∃ e : Expr V, R.read (out.map σ) = .ok e ∧
        ∀ x, e.Has x ↔ Occurs dims inputs ts out σ x := by
  obtain ⟨R, h1, h2, h3, h4⟩ := einsum_positive h al s operands inputs out dims ts hc h0
  refine ⟨R, h1, h2, h3, fun σ hσ => ?_⟩
  obtain ⟨e, e1, e2, -, e4⟩ := h4 σ hσ
  exact ⟨e, e1, formal_has hσ e2 e4⟩

/-- C68 for both compiled orders. -/
theorem C68_path {V : Type} (h : HashOrd) (al : UniformAlloc) (s : String) (operands : List (View V))
    (inputs : List (List Char)) (out : List Char) (dims : Char → Nat) (ts : List (List Nat → V))
    (m : OptimizationMethod) (hm : m = .naive ∨ m = .reverse)
    (hc : Call s operands inputs out dims ts) (h0 : ∀ c ∈ inputs.flatten, dims c ≠ 0) :
    ∃ p, einsumPath h s operands m = .ok (.ok p) ∧ ∃ R : View (Expr V), R.Wf ∧ R.shape = out.map dims ∧
      (∀ (A : Type) [Zero A] [Add A] [Mul A] [MulAdd A] (val : V → A),
        p.contractOperands (al.alloc A) (operands.map (View.map val)) = .ok (R.map (Expr.eval val))) ∧
      ∀ σ, InRange dims out σ → ∃ e : Expr V, R.read (out.map σ) = .ok e ∧
        ∀ x, e.Has x ↔ Occurs dims inputs ts out σ x := by
  obtain ⟨p, p1, R, h1, h2, h3, h4⟩ := path_positive h al s operands inputs out dims ts m hm hc h0
  refine ⟨p, p1, R, h1, h2, h3, fun σ hσ => ?_⟩
  obtain ⟨e, e1, e2, -, e4⟩ := h4 σ hσ
  exact ⟨e, e1, formal_has hσ e2 e4⟩

section values
variable {A : Type} [Zero A] [Add A] [Mul A] [MulAdd A]

/-- C68: an output element is in an absorbing set as soon as one element in its sum is, and in a closed set if all
elements in its sum are. -/
theorem C68_sets (h : HashOrd) (al : UniformAlloc) (s : String) (operands : List (View A)) (inputs : List (List Char))
    (out : List Char) (dims : Char → Nat) (ts : List (List Nat → A)) (hc : Call s operands inputs out dims ts)
    (h0 : ∀ c ∈ inputs.flatten, dims c ≠ 0) :
    ∃ r, einsum h (al.alloc A) s operands = .ok (.ok r) ∧ r.Wf ∧ r.shape = out.map dims ∧
      ∀ σ, InRange dims out σ → ∃ y, r.read (out.map σ) = .ok y ∧
        (∀ Q : A → Prop, Absorbing Q → ∀ x, Occurs dims inputs ts out σ x → Q x → Q y) ∧
        (∀ P : A → Prop, Closed P → (∀ x, Occurs dims inputs ts out σ x → P x) → P y) := by
  obtain ⟨R, h1, h2, h3, h4⟩ := einsum_positive h al s operands inputs out dims ts hc h0
  have hr := h3 A id
  rw [map_map_id] at hr
  refine ⟨_, hr, h1.map _, h2, fun σ hσ => ?_⟩
  obtain ⟨e, e1, e2, -, e4⟩ := h4 σ hσ
  have e3 := formal_has hσ e2 e4
  exact ⟨e.eval id, by rw [View.read_map, e1]; rfl, fun Q hQ x hx hq => Expr.absorbed hQ (x := x) hq ((e3 x).2 hx),
    fun P hP hx => e2.closed hP fun x hh => hx x ((e3 x).1 hh)⟩

/-- C68 for both compiled orders. -/
theorem C68_sets_path (h : HashOrd) (al : UniformAlloc) (s : String) (operands : List (View A))
    (inputs : List (List Char)) (out : List Char) (dims : Char → Nat) (ts : List (List Nat → A))
    (m : OptimizationMethod) (hm : m = .naive ∨ m = .reverse) (hc : Call s operands inputs out dims ts)
    (h0 : ∀ c ∈ inputs.flatten, dims c ≠ 0) :
    ∃ p r, einsumPath h s operands m = .ok (.ok p) ∧ p.contractOperands (al.alloc A) operands = .ok r ∧
      r.Wf ∧ r.shape = out.map dims ∧
      ∀ σ, InRange dims out σ → ∃ y, r.read (out.map σ) = .ok y ∧
        (∀ Q : A → Prop, Absorbing Q → ∀ x, Occurs dims inputs ts out σ x → Q x → Q y) ∧
        (∀ P : A → Prop, Closed P → (∀ x, Occurs dims inputs ts out σ x → P x) → P y) := by
  obtain ⟨p, p1, R, h1, h2, h3, h4⟩ := path_positive h al s operands inputs out dims ts m hm hc h0
  have hr := h3 A id
  rw [map_map_id] at hr
  refine ⟨p, _, p1, hr, h1.map _, h2, fun σ hσ => ?_⟩
  obtain ⟨e, e1, e2, -, e4⟩ := h4 σ hσ
  have e3 := formal_has hσ e2 e4
  exact ⟨e.eval id, by rw [View.read_map, e1]; rfl, fun Q hQ x hx hq => Expr.absorbed hQ (x := x) hq ((e3 x).2 hx),
    fun P hP hx => e2.closed hP fun x hh => hx x ((e3 x).1 hh)⟩

end values

/-! ## C68 for `tensordot` -/

theorem sumIdx_le {s : List Nat} {f g : List Nat → ℕ} (h : ∀ i, f i ≤ g i) : sumIdx s f ≤ sumIdx s g := by
  induction s generalizing f g with
  | nil => exact h []
  | cons d ds ih => exact Finset.sum_le_sum fun v _ => ih fun i => h _

theorem sumIdx_lt {s : List Nat} {f g : List Nat → ℕ} (h : ∀ i, f i ≤ g i) {c : List Nat} (hc : InB s c)
    (hlt : f c < g c) : sumIdx s f < sumIdx s g := by
  induction s generalizing f g c with
  | nil => cases c with
    | nil => exact hlt
    | cons _ _ => exact hc.elim
  | cons d ds ih =>
    cases c with
    | nil => exact hc.elim
    | cons v c =>
      exact Finset.sum_lt_sum (fun v _ => sumIdx_le fun i => h _) ⟨v, Finset.mem_range.2 hc.1, ih (fun i => h _) hc.2 hlt⟩

theorem sumIdx_congr {B : Type} [AddCommMonoid B] {s : List Nat} {f g : List Nat → B} (h : ∀ i, InB s i → f i = g i) :
    sumIdx s f = sumIdx s g := by
  induction s generalizing f g with
  | nil => exact h [] trivial
  | cons d ds ih => exact Finset.sum_congr rfl fun v hv => ih fun i hi => h _ ⟨Finset.mem_range.1 hv, hi⟩

/-- The value `x` occurs as a factor in the sum for the element at `a` and `b` of `tensordot`. -/
def Spec.OccursPaired {V : Type} (ls rs la ra : List Nat) (T U : List Nat → V) (a b : List Nat) (x : V) : Prop :=
  ∃ c, InB (lengths ls la) c ∧ (x = T (place ls.length (kept ls.length la ++ la) (a ++ c)) ∨
    x = U (place rs.length (kept rs.length ra ++ ra) (b ++ c)))

theorem paired_has {V : Type} {ls rs la ra : List Nat} {T U : List Nat → V} {a b : List Nat} {e : Expr V} (he : e.IsP)
    (hs : ∀ (S : Type) [CommSemiring S] (f : V → S),
      e.eval f = pairedSum ls rs la ra (fun i => f (T i)) (fun i => f (U i)) a b) (x : V) :
    e.Has x ↔ OccursPaired ls rs la ra T U a b x := by
  classical
  rw [he.has_iff, hs, hs]
  constructor
  · intro h
    by_contra hno
    refine absurd (sumIdx_congr fun c hc => ?_) h.ne
    simp only [twice]
    rw [if_neg fun hx => hno ⟨c, hc, .inl hx.symm⟩, if_neg fun hx => hno ⟨c, hc, .inr hx.symm⟩]
  · rintro ⟨c, hc, hx⟩
    refine sumIdx_lt (fun i => Nat.mul_le_mul (one_le_twice _ _) (one_le_twice _ _)) hc ?_
    rcases hx with rfl | rfl
    · exact Nat.mul_lt_mul_of_lt_of_le (by simp [twice]) (one_le_twice _ _) (one_le_twice _ _)
    · exact Nat.mul_lt_mul_of_le_of_lt (one_le_twice _ _) (by simp [twice]) (one_le_twice _ _)

/-- C68 for `tensordot`. -/
theorem C68_tensordot {V : Type} (al : UniformAlloc) (l r : View V) (T U : List Nat → V) (la ra : List Nat)
    (hp : Paired l.shape r.shape la ra) (hl : Elements l T) (hr : Elements r U)
    (hl0 : ∀ d ∈ l.shape, d ≠ 0) (hr0 : ∀ d ∈ r.shape, d ≠ 0) :
    ∃ R : View (Expr V), R.Wf ∧
      R.shape = lengths l.shape (kept l.shape.length la) ++ lengths r.shape (kept r.shape.length ra) ∧
      (∀ (A : Type) [Zero A] [Add A] [Mul A] [MulAdd A] (val : V → A),
        tensordot (al.alloc A) (l.map val) (r.map val) la ra = .ok (R.map (Expr.eval val))) ∧
      ∀ a b, InB (lengths l.shape (kept l.shape.length la)) a → InB (lengths r.shape (kept r.shape.length ra)) b →
        ∃ e : Expr V, R.read (a ++ b) = .ok e ∧ ∀ x, e.Has x ↔ OccursPaired l.shape r.shape la ra T U a b x := by
  obtain ⟨R, h1, h2, h3, h4⟩ := tensordot_positive al l r T U la ra hp hl hr hl0 hr0
  refine ⟨R, h1, h2, h3, fun a b ha hb => ?_⟩
  obtain ⟨e, e1, e2, -, e4⟩ := h4 a b ha hb
  exact ⟨e, e1, paired_has e2 e4⟩

/-- C68: absorbing and closed sets, for `tensordot`. -/
theorem C68_sets_tensordot {A : Type} [Zero A] [Add A] [Mul A] [MulAdd A] (al : UniformAlloc) (l r : View A)
    (T U : List Nat → A) (la ra : List Nat) (hp : Paired l.shape r.shape la ra) (hl : Elements l T) (hr : Elements r U)
    (hl0 : ∀ d ∈ l.shape, d ≠ 0) (hr0 : ∀ d ∈ r.shape, d ≠ 0) :
    ∃ w, tensordot (al.alloc A) l r la ra = .ok w ∧ w.Wf ∧
      w.shape = lengths l.shape (kept l.shape.length la) ++ lengths r.shape (kept r.shape.length ra) ∧
      ∀ a b, InB (lengths l.shape (kept l.shape.length la)) a → InB (lengths r.shape (kept r.shape.length ra)) b →
        ∃ y, w.read (a ++ b) = .ok y ∧
          (∀ Q : A → Prop, Absorbing Q → ∀ x, OccursPaired l.shape r.shape la ra T U a b x → Q x → Q y) ∧
          (∀ P : A → Prop, Closed P → (∀ x, OccursPaired l.shape r.shape la ra T U a b x → P x) → P y) := by
  obtain ⟨R, h1, h2, h3, h4⟩ := tensordot_positive al l r T U la ra hp hl hr hl0 hr0
  have hw := h3 A id
  rw [View.map_id, View.map_id] at hw
  refine ⟨_, hw, h1.map _, h2, fun a b ha hb => ?_⟩
  obtain ⟨e, e1, e2, -, e4⟩ := h4 a b ha hb
  have e3 := paired_has e2 e4
  exact ⟨e.eval id, by rw [View.read_map, e1]; rfl, fun Q hQ x hx hq => Expr.absorbed hQ (x := x) hq ((e3 x).2 hx),
    fun P hP hx => e2.closed hP fun x hh => hx x ((e3 x).1 hh)⟩

/-! ## Elements that do not occur -/

section others
variable {A : Type} [Zero A] [Add A] [Mul A] [MulAdd A]

/-- Any two elements. -/
abbrev Two (A : Type) := Pairs fun _ _ : A => True

theorem preserved_true : Preserved fun _ _ : A => True :=
  ⟨trivial, fun _ _ _ _ _ _ => trivial, fun _ _ _ _ _ _ => trivial, fun _ _ _ _ _ _ _ _ _ => trivial⟩

omit [Zero A] [Add A] [Mul A] [MulAdd A] in
theorem related_true {dims : Char → Nat} {inputs : List (List Char)} {ops ops' : List (View A)}
    {ts ts' : List (List Nat → A)} (hs : Sized dims inputs (ops.map View.shape)) (hs' : Sized dims inputs (ops'.map View.shape))
    (h1 : List.Forall₂ Elements ops ts) (h2 : List.Forall₂ Elements ops' ts')
    (hst : ops.map View.strides = ops'.map View.strides) : List.Forall₂ (Related fun _ _ : A => True) ops ops' := by
  induction ops generalizing inputs ops' ts ts' with
  | nil =>
    cases ops' with
    | nil => exact .nil
    | cons _ _ => cases hst
  | cons v ops ih =>
    cases ops' with
    | nil => cases hst
    | cons w ops' =>
      cases hs with
      | cons a1 a2 => cases hs' with
        | cons b1 b2 => cases h1 with
          | cons c1 c2 => cases h2 with
            | cons d1 d2 =>
              simp only [List.map_cons, List.cons.injEq] at hst
              exact .cons ⟨a1.trans b1.symm, hst.1, ⟨c1.1, d1.1⟩, fun _ _ _ _ _ => trivial⟩ (ih a2 b2 c2 d2 hst.2)

omit [Zero A] [Add A] [Mul A] [MulAdd A] in
theorem pair_elements {ops ops' : List (View A)} {ts ts' : List (List Nat → A)} {us : List (View (Two A))}
    (h1 : List.Forall₂ Elements ops ts) (h2 : List.Forall₂ Elements ops' ts') (h3 : ∀ u ∈ us, u.Wf)
    (h4 : List.Forall₂ Alike ops (us.map (View.map Pairs.fst)))
    (h5 : List.Forall₂ Alike ops' (us.map (View.map Pairs.snd))) :
    List.Forall₂ Elements us (List.zipWith (fun t t' idx => (⟨t idx, t' idx, trivial⟩ : Two A)) ts ts') := by
  induction us generalizing ops ops' ts ts' with
  | nil => cases h4; cases h5; cases h1; exact .nil
  | cons u us ih =>
    cases h4 with
    | cons a1 a2 => cases h5 with
      | cons b1 b2 => cases h1 with
        | @cons _ t _ _ c1 c2 => cases h2 with
          | @cons _ t' _ _ d1 d2 =>
            refine .cons ⟨h3 u (by simp), fun idx hi => ?_⟩ (ih c2 d2 (fun u hu => h3 u (by simp [hu])) a2 b2)
            obtain ⟨⟨x, y, z⟩, hx⟩ := (h3 u (by simp)).2 idx hi
            have e1 := a1.same.2.2.2 idx (a1.same.2.2.1 ▸ hi)
            have e2 := b1.same.2.2.2 idx (b1.same.2.2.1 ▸ hi)
            rw [View.read_map, hx, c1.2 idx (a1.same.2.2.1 ▸ hi)] at e1
            rw [View.read_map, hx, d1.2 idx (b1.same.2.2.1 ▸ hi)] at e2
            cases e1
            cases e2
            exact hx

omit [Zero A] [Add A] [Mul A] [MulAdd A] in
theorem zip_shapes {ops : List (View A)} {us : List (View (Two A))}
    (h : List.Forall₂ Alike ops (us.map (View.map Pairs.fst))) : us.map View.shape = ops.map View.shape := by
  induction us generalizing ops with
  | nil => cases h; rfl
  | cons u us ih =>
    cases h with
    | cons a1 a2 => rw [List.map_cons, List.map_cons, ih a2, a1.same.2.2.1]; rfl

omit [Zero A] [Add A] [Mul A] [MulAdd A] in
/-- An element that occurs is the same on both sides. -/
theorem occurs_two {dims : Char → Nat} {inputs : List (List Char)} {ts ts' : List (List Nat → A)} {out : List Char}
    {σ : Char → Nat}
    (ha : ∀ τ, InRange dims inputs.flatten τ → (∀ c ∈ out, τ c = σ c) →
      List.zipWith (fun ix t => t (ix.map τ)) inputs ts = List.zipWith (fun ix t => t (ix.map τ)) inputs ts') {x : Two A}
    (hx : Occurs dims inputs (List.zipWith (fun t t' idx => (⟨t idx, t' idx, trivial⟩ : Two A)) ts ts') out σ x) :
    x.fst = x.snd := by
  obtain ⟨τ, h1, h2, p, hp, rfl⟩ := hx
  have := ha τ h1 h2
  clear ha h1 h2
  induction inputs generalizing ts ts' with
  | nil => simp at hp
  | cons ix inputs ih =>
    cases ts with
    | nil => simp at hp
    | cons t ts =>
      cases ts' with
      | nil => simp at hp
      | cons t' ts' =>
        simp only [List.zipWith_cons_cons, List.zip_cons_cons, List.mem_cons, List.cons.injEq] at hp this
        rcases hp with rfl | hp
        · exact this.1
        · exact ih hp this.2

/-- C68: of two calls with the same string, shapes and strides, the output elements whose sums have the same elements
are the same, whatever the other elements are. -/
theorem C68_elsewhere (h : HashOrd) (al : UniformAlloc) (s : String) (operands operands' : List (View A))
    (inputs : List (List Char)) (out : List Char) (dims : Char → Nat) (ts ts' : List (List Nat → A))
    (hc : Call s operands inputs out dims ts) (hc' : Call s operands' inputs out dims ts')
    (hst : operands.map View.strides = operands'.map View.strides) (h0 : ∀ c ∈ inputs.flatten, dims c ≠ 0) :
    ∃ r r', einsum h (al.alloc A) s operands = .ok (.ok r) ∧ einsum h (al.alloc A) s operands' = .ok (.ok r') ∧
      ∀ σ, InRange dims out σ →
        (∀ τ, InRange dims inputs.flatten τ → (∀ c ∈ out, τ c = σ c) →
          List.zipWith (fun ix t => t (ix.map τ)) inputs ts = List.zipWith (fun ix t => t (ix.map τ)) inputs ts') →
        ∃ x, r.read (out.map σ) = .ok x ∧ r'.read (out.map σ) = .ok x := by
  obtain ⟨us, h1, h2, h3⟩ := zip_operands preserved_true (related_true hc.sized hc'.sized hc.elements hc'.elements hst)
  have hu : Call s us inputs out dims (List.zipWith (fun t t' idx => (⟨t idx, t' idx, trivial⟩ : Two A)) ts ts') :=
    ⟨hc.denotes, by rw [zip_shapes h2]; exact hc.sized, pair_elements hc.elements hc'.elements h1 h2 h3⟩
  obtain ⟨R, r1, r2, r3, r4⟩ := C68_einsum h al s us inputs out dims _ hu h0
  refine ⟨_, _, (einsum_alike h2 h _ s).trans (r3 A Pairs.fst), (einsum_alike h3 h _ s).trans (r3 A Pairs.snd),
    fun σ hσ ha => ?_⟩
  obtain ⟨e, e1, e2⟩ := r4 σ hσ
  have : e.eval Pairs.fst = e.eval Pairs.snd := Expr.eval_congr fun x hx => occurs_two ha ((e2 x).1 hx)
  exact ⟨e.eval Pairs.fst, by rw [View.read_map, e1]; rfl, by rw [View.read_map, e1, this]; rfl⟩

end others

/-! ## NaN and infinities -/

namespace D64

/-- NaN is absorbing. -/
theorem absorbing_nan : Absorbing fun x : D64 => x = nan where
  add := by
    rintro x y (rfl | rfl)
    · rfl
    · cases x <;> rfl
  mul := by
    rintro x y (rfl | rfl)
    · rfl
    · cases x <;> rfl
  mulAdd := by
    rintro x y z (rfl | rfl | rfl)
    · rfl
    · cases x <;> rfl
    · cases x <;> cases y <;> rfl

/-- The infinities together with NaN are absorbing. -/
theorem absorbing_isFin : Absorbing fun x : D64 => x.isFin = false := by
  have add : ∀ x y : D64, x.isFin = false ∨ y.isFin = false → (x + y).isFin = false := by
    intro x y h
    change (D64.add x y).isFin = false
    rcases x with s | ⟨x, hx⟩ | s | _ <;> rcases y with t | ⟨y, hy⟩ | t | _ <;> simp only [isFin] at h <;>
      simp only [D64.add] <;> first | rfl | (split <;> rfl) | simp at h
  have mul : ∀ x y : D64, x.isFin = false ∨ y.isFin = false → (x * y).isFin = false := by
    intro x y h
    change (D64.mul x y).isFin = false
    rcases x with s | ⟨x, hx⟩ | s | _ <;> rcases y with t | ⟨y, hy⟩ | t | _ <;> simp only [isFin] at h <;>
      simp only [D64.mul] <;> first | rfl | simp at h
  refine ⟨add, mul, fun x y z h => ?_⟩
  change (D64.mulAdd x y z).isFin = false
  unfold D64.mulAdd
  cases hx : x.isFin
  · exact add _ _ (.inl (mul _ _ (.inl hx)))
  · cases hy : y.isFin
    · exact add _ _ (.inl (mul _ _ (.inr hy)))
    · rw [hx, hy] at h
      have hz : z.isFin = false := by simpa using h
      simp [hz]

end D64

/-- C68: with `f64`, an output element is NaN if an element in its sum is NaN, and infinite or NaN if an element in its
sum is infinite or NaN. -/
theorem C68_nan (h : HashOrd) (al : UniformAlloc) (s : String) (operands : List (View D64)) (inputs : List (List Char))
    (out : List Char) (dims : Char → Nat) (ts : List (List Nat → D64)) (hc : Call s operands inputs out dims ts)
    (h0 : ∀ c ∈ inputs.flatten, dims c ≠ 0) :
    ∃ r, einsum h (al.alloc D64) s operands = .ok (.ok r) ∧ r.Wf ∧ r.shape = out.map dims ∧
      ∀ σ, InRange dims out σ → ∃ y, r.read (out.map σ) = .ok y ∧
        (Occurs dims inputs ts out σ .nan → y = .nan) ∧
        ∀ s, Occurs dims inputs ts out σ (.inf s) → y = .nan ∨ ∃ t, y = .inf t := by
  obtain ⟨r, h1, h2, h3, h4⟩ := C68_sets h al s operands inputs out dims ts hc h0
  refine ⟨r, h1, h2, h3, fun σ hσ => ?_⟩
  obtain ⟨y, y1, y2, -⟩ := h4 σ hσ
  refine ⟨y, y1, fun ho => y2 _ D64.absorbing_nan _ ho rfl, fun s ho => ?_⟩
  have := y2 _ D64.absorbing_isFin _ ho rfl
  rcases y with t | ⟨q, hq⟩ | t | _
  · cases this
  · cases this
  · exact .inr ⟨t, rfl⟩
  · exact .inl rfl

/-- C68: where an axis is empty, elements can get into a result that is a sum of no terms at all: the letter `k` is
summed away first, which leaves a vector of zeros, and NaN times zero is NaN (finding).  The sum over nothing is 0 in every
semiring (C26). -/
theorem C68_empty_sum :
    einsum HashOrd.insertion (Alloc.rowMajor D64) "ij,jk->i" [⟨[.nan], 0, [1, 1], [1, 1]⟩, ⟨[], 0, [1, 0], [0, 0]⟩] =
      .ok (.ok ⟨[.nan], 0, [1], [1]⟩) ∧
    einsum HashOrd.insertion (Alloc.rowMajor D64) "ij,jk->i" [⟨[.zero false], 0, [1, 1], [1, 1]⟩, ⟨[], 0, [1, 0], [0, 0]⟩] =
      .ok (.ok ⟨[.zero false], 0, [1], [1]⟩) :=
  ⟨by decide +kernel, by decide +kernel⟩

/-! ## Examples -/

namespace Ex

/-- 3 is NaN, everything else `+0`. -/
def nan3 (z : Int) : D64 := if z = 3 then .nan else .zero false

theorem range00 (cs : List Char) : InRange dims cs fun _ => 0 := by
  intro c _; exact Nat.pos_of_ne_zero (by unfold dims; split <;> omega)

/-- `m23` with another second row. -/
def m23r : View Int := ⟨[1, 2, 3, -9, -9, -9], 0, [2, 3], [3, 1]⟩

theorem e23r : Elements m23r (elems m23r) := elements_of (t := elems m23r) rfl (by decide)

theorem call_matmul_r : Call "ij,jk->ik" [m23r, m32] [['i', 'j'], ['j', 'k']] ['i', 'k'] dims [elems m23r, elems m32] :=
  ⟨denotes_matmul, .cons (by decide) (.cons (by decide) .nil), .cons e23r (.cons e32 .nil)⟩

end Ex

/-- The element at `[0, 0]` contains 3, the element at `[0, 2]` of the first matrix. -/
example : ∃ R : View (Expr Int), (∀ (A : Type) [Zero A] [Add A] [Mul A] [MulAdd A] (val : Int → A),
      einsum HashOrd.reversed (Alloc.colMajor A) "ij,jk->ik" ([Ex.m23, Ex.m32].map (View.map val)) =
        .ok (.ok (R.map (Expr.eval val)))) ∧
    ∃ e, R.read [0, 0] = .ok e ∧ e.Has 3 := by
  obtain ⟨R, -, -, h1, h2⟩ := C68_einsum HashOrd.reversed UniformAlloc.colMajor _ _ _ _ _ _ Ex.call_matmul Ex.pos_matmul
  obtain ⟨e, e1, e2⟩ := h2 (fun _ => 0) (Ex.range00 _)
  exact ⟨R, h1, e, e1, (e2 3).2 ⟨fun c => if c = 'j' then 2 else 0, by unfold InRange; decide, by decide, _, List.mem_cons_self,
    by decide⟩⟩

example := C68_path HashOrd.reversed UniformAlloc.fused _ _ _ _ _ _ .reverse (.inr rfl) Ex.call_matmul Ex.pos_matmul

example := C68_sets HashOrd.reversed UniformAlloc.fused _ _ _ _ _ _ Ex.call_matmul Ex.pos_matmul

example := C68_sets_path HashOrd.reversed UniformAlloc.fused _ _ _ _ _ _ .naive (.inl rfl) Ex.call_matmul Ex.pos_matmul

example := C68_tensordot UniformAlloc.colMajor Ex.m332 Ex.m32 _ _ [2, 1] [1, 0] Ex.paired Ex.e332 Ex.e32 (by decide)
  (by decide)

example := C68_sets_tensordot UniformAlloc.colMajor Ex.m332 Ex.m32 _ _ [2, 1] [1, 0] Ex.paired Ex.e332 Ex.e32 (by decide)
  (by decide)

/-- The first row of the product does not depend on the second row of the first matrix. -/
example : ∃ r r', einsum HashOrd.reversed (Alloc.colMajor Int) "ij,jk->ik" [Ex.m23, Ex.m32] = .ok (.ok r) ∧
    einsum HashOrd.reversed (Alloc.colMajor Int) "ij,jk->ik" [Ex.m23r, Ex.m32] = .ok (.ok r') ∧
    ∃ x, r.read [0, 0] = .ok x ∧ r'.read [0, 0] = .ok x := by
  obtain ⟨r, r', h1, h2, h3⟩ := C68_elsewhere HashOrd.reversed UniformAlloc.colMajor _ _ _ _ _ _ _ _ Ex.call_matmul
    Ex.call_matmul_r rfl Ex.pos_matmul
  refine ⟨r, r', h1, h2, h3 (fun _ => 0) (Ex.range00 _) fun τ hτ ho => ?_⟩
  have hj : τ 'j' < 3 := hτ 'j' (by decide)
  have hi : τ 'i' = 0 := ho 'i' (by decide)
  simp only [List.zipWith_cons_cons, List.map_cons, List.map_nil, hi, List.cons.injEq, and_true]
  generalize τ 'j' = j at hj
  revert j
  decide

/-- NaN times zero is NaN. -/
example : ∃ r, einsum HashOrd.reversed (Alloc.fused D64) "ij,jk->ik" ([Ex.m23, Ex.m32].map (View.map Ex.nan3)) =
      .ok (.ok r) ∧ r.read [0, 0] = .ok .nan := by
  obtain ⟨r, h1, -, -, h2⟩ := C68_nan HashOrd.reversed UniformAlloc.fused _ _ _ _ _ _ (Ex.call_matmul.map Ex.nan3)
    Ex.pos_matmul
  obtain ⟨y, y1, y2, -⟩ := h2 (fun _ => 0) (Ex.range00 _)
  refine ⟨r, h1, ?_⟩
  rw [← y2 ⟨fun c => if c = 'j' then 2 else 0, by unfold InRange; decide, by decide, _, List.mem_cons_self, by decide⟩]
  exact y1

end Einsum
