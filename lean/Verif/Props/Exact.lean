import Verif.Props.Rounding
import Verif.Proofs.Positive

/-!
# Properties C57, C58: exact integers, closed sets of elements
-/

namespace Einsum

open Spec

/-! ## Expressions in which no factor is a sum of no terms -/

/-- A sum of zeros. -/
def Spec.Expr.IsZ {V : Type} : Expr V → Prop
  | .var _ => False
  | .zero => True
  | .add a b => a.IsZ ∧ b.IsZ
  | .mul _ _ => False
  | .mulAdd _ _ _ => False

/-- An expression that is not a sum of zeros and of which no factor is. -/
def Spec.Expr.IsP {V : Type} : Expr V → Prop
  | .var _ => True
  | .zero => False
  | .add a b => (a.IsZ ∧ b.IsP) ∨ (a.IsP ∧ b.IsZ) ∨ (a.IsP ∧ b.IsP)
  | .mul a b => a.IsP ∧ b.IsP
  | .mulAdd a b c => a.IsP ∧ b.IsP ∧ (c.IsZ ∨ c.IsP)

/-- The variable occurs in the expression. -/
def Spec.Expr.Has {V : Type} (x : V) : Expr V → Prop
  | .var y => x = y
  | .zero => False
  | .add a b => a.Has x ∨ b.Has x
  | .mul a b => a.Has x ∨ b.Has x
  | .mulAdd a b c => a.Has x ∨ b.Has x ∨ c.Has x

theorem expr_closed (V : Type) : ClosedUnder (A := Expr V) Expr.IsZ Expr.IsP where
  zero := True.intro
  zz := fun _ _ hx hy => ⟨hx, hy⟩
  zp := fun _ _ hx hy => .inl ⟨hx, hy⟩
  pz := fun _ _ hx hy => .inr (.inl ⟨hx, hy⟩)
  pp := fun _ _ hx hy => .inr (.inr ⟨hx, hy⟩)
  mul := fun _ _ hx hy => ⟨hx, hy⟩
  ppz := fun _ _ _ hx hy hz => ⟨hx, hy, .inl hz⟩
  ppp := fun _ _ _ hx hy hz => ⟨hx, hy, .inr hz⟩

theorem Spec.Expr.IsZ.eval {V A : Type} [AddMonoid A] [Mul A] (f : V → A) {e : Expr V} (h : e.IsZ) : e.eval f = 0 := by
  induction e with
  | var x => exact h.elim
  | zero => rfl
  | add a b iha ihb => rw [Expr.eval, iha h.1, ihb h.2, add_zero]
  | mul a b => exact h.elim
  | mulAdd a b c => exact h.elim

theorem Spec.Expr.IsZ.not_has {V : Type} {x : V} {e : Expr V} (h : e.IsZ) : ¬ e.Has x := by
  induction e with
  | var x => exact h.elim
  | zero => exact id
  | add a b iha ihb => rintro (h' | h'); exacts [iha h.1 h', ihb h.2 h']
  | mul a b => exact h.elim
  | mulAdd a b c => exact h.elim

theorem Spec.Expr.IsP.pos {V : Type} (f : V → ℕ) (hf : ∀ x, 0 < f x) {e : Expr V} (h : e.IsP) : 0 < e.eval f := by
  induction e with
  | var x => exact hf x
  | zero => exact h.elim
  | add a b iha ihb =>
    rcases h with ⟨h1, h2⟩ | ⟨h1, h2⟩ | ⟨h1, h2⟩
    · exact Nat.add_pos_right _ (ihb h2)
    · exact Nat.add_pos_left (iha h1) _
    · exact Nat.add_pos_left (iha h1) _
  | mul a b iha ihb => exact Nat.mul_pos (iha h.1) (ihb h.2)
  | mulAdd a b c iha ihb ihc => exact Nat.add_pos_left (Nat.mul_pos (iha h.1) (ihb h.2.1)) _

theorem Spec.Expr.eval_mono {V : Type} {f g : V → ℕ} (h : ∀ x, f x ≤ g x) (e : Expr V) : e.eval f ≤ e.eval g := by
  induction e with
  | var x => exact h x
  | zero => exact le_refl _
  | add a b iha ihb => exact Nat.add_le_add iha ihb
  | mul a b iha ihb => exact Nat.mul_le_mul iha ihb
  | mulAdd a b c iha ihb ihc => exact Nat.add_le_add (Nat.mul_le_mul iha ihb) ihc

theorem Spec.Expr.IsP.lt {V : Type} {f g : V → ℕ} (hf : ∀ x, 0 < f x) (h : ∀ x, f x ≤ g x) {x : V} (hx : f x < g x)
    {e : Expr V} (he : e.IsP) (hh : e.Has x) : e.eval f < e.eval g := by
  induction e with
  | var y => obtain rfl : x = y := hh; exact hx
  | zero => exact hh.elim
  | add a b iha ihb =>
    have ma := a.eval_mono h
    have mb := b.eval_mono h
    simp only [Expr.eval]
    rcases hh with hh | hh
    · rcases he with ⟨h1, -⟩ | ⟨h1, -⟩ | ⟨h1, -⟩
      · exact (h1.not_has hh).elim
      · have := iha h1 hh; omega
      · have := iha h1 hh; omega
    · rcases he with ⟨-, h1⟩ | ⟨-, h1⟩ | ⟨-, h1⟩
      · have := ihb h1 hh; omega
      · exact (h1.not_has hh).elim
      · have := ihb h1 hh; omega
  | mul a b iha ihb =>
    have ma := a.eval_mono h
    have mb := b.eval_mono h
    have pa := he.1.pos f hf
    have pb := he.2.pos f hf
    simp only [Expr.eval]
    rcases hh with hh | hh
    · exact Nat.mul_lt_mul_of_lt_of_le (iha he.1 hh) mb (by omega)
    · exact Nat.mul_lt_mul_of_le_of_lt ma (ihb he.2 hh) (by omega)
  | mulAdd a b c iha ihb ihc =>
    have ma := a.eval_mono h
    have mb := b.eval_mono h
    have mc := c.eval_mono h
    have pa := he.1.pos f hf
    have pb := he.2.1.pos f hf
    change a.eval f * b.eval f + c.eval f < a.eval g * b.eval g + c.eval g
    rcases hh with hh | hh | hh
    · exact Nat.add_lt_add_of_lt_of_le (Nat.mul_lt_mul_of_lt_of_le (iha he.1 hh) mb (by omega)) mc
    · exact Nat.add_lt_add_of_lt_of_le (Nat.mul_lt_mul_of_le_of_lt ma (ihb he.2.1 hh) (by omega)) mc
    · rcases he.2.2 with h1 | h1
      · exact (h1.not_has hh).elim
      · exact Nat.add_lt_add_of_le_of_lt (Nat.mul_le_mul ma mb) (ihc h1 hh)

/-- The variables of the expressions computed are elements of the operands. -/
theorem has_element {V : Type} {h : HashOrd} {al : UniformAlloc} {s : String} {operands : List (View V)}
    {inputs : List (List Char)} {out : List Char} {dims : Char → Nat} {ts : List (List Nat → V)}
    (hc : Call s operands inputs out dims ts) (hn : NoEmptyDiagonal dims inputs) {σ : Char → Nat}
    (hσ : InRange dims out σ) {e : Expr V} (hp : e.IsP)
    (he : ∀ (S : Type) [CommSemiring S] (f : V → S),
      e.eval f = Spec.einsum dims inputs (ts.map fun t idx => f (t idx)) out σ) {x : V} (hx : e.Has x) :
    ∃ v ∈ operands, ∃ idx, v.read idx = .ok x := by
  classical
  by_contra hno
  simp only [not_exists, not_and] at hno
  set f : V → ℕ := fun _ => 1 with hf
  set g : V → ℕ := fun y => if y = x then 2 else 1 with hg
  have hlt : e.eval f < e.eval g := hp.lt (fun _ => Nat.one_pos) (fun y => by simp only [hg]; split <;> omega)
    (by simp [hg]) hx
  have hel : ∀ (vs : List (View V)) (ts : List (List Nat → V)), (∀ v ∈ vs, ∀ idx, ¬ v.read idx = .ok x) →
      List.Forall₂ Elements vs ts →
      List.Forall₂ Elements (vs.map (View.map f)) (ts.map fun t idx => g (t idx)) := by
    intro vs ts hv h
    induction h with
    | nil => exact .nil
    | @cons v t _ _ h _ ih =>
      refine .cons ⟨h.1.map f, fun idx hi => ?_⟩ (ih fun v hv' => hv v (by simp [hv']))
      rw [View.read_map, h.2 idx hi]
      have hne : t idx ≠ x := fun he => hv v (by simp) idx (by rw [h.2 idx hi, he])
      simp only [Except.map, hf, hg, if_neg hne]
  have hc' : Call s (operands.map (View.map f)) inputs out dims (ts.map fun t idx => g (t idx)) :=
    ⟨hc.denotes, (hc.map f).sized, hel _ _ hno hc.elements⟩
  obtain ⟨r, h1, h2⟩ := C13_einsum h (al.alloc ℕ) s _ inputs out dims _ (hc.map f) hn
  obtain ⟨r', h1', h2'⟩ := C13_einsum h (al.alloc ℕ) s _ inputs out dims _ hc' hn
  rw [h1] at h1'
  cases h1'
  have e1 := h2.2.2 σ hσ
  have e2 := h2'.2.2 σ hσ
  rw [e1, ← he ℕ f, ← he ℕ g] at e2
  simp only [Except.ok.injEq] at e2
  omega

theorem noEmptyDiagonal_of {dims : Char → Nat} {inputs : List (List Char)} (h : ∀ c ∈ inputs.flatten, dims c ≠ 0) :
    NoEmptyDiagonal dims inputs :=
  fun ix hix => .inr fun c hc => h c (List.mem_flatten.2 ⟨ix, hix, hc⟩)

theorem Spec.Expr.eval_var {V : Type} (e : Expr V) : e.eval Expr.var = e := by
  induction e with
  | var x => rfl
  | zero => rfl
  | add a b iha ihb => rw [Expr.eval, iha, ihb]; rfl
  | mul a b iha ihb => rw [Expr.eval, iha, ihb]; rfl
  | mulAdd a b c iha ihb ihc => rw [Expr.eval, iha, ihb, ihc]; rfl

theorem View.map_eval_var {V : Type} (R : View (Expr V)) : R.map (Expr.eval Expr.var) = R := by
  rw [show (Expr.eval Expr.var : Expr V → Expr V) = id from funext Expr.eval_var, View.map_id]

theorem sized_pos {inputs : List (List Char)} {dims : Char → Nat} {shapes : List (List Nat)}
    (hs : Sized dims inputs shapes) (h0 : ∀ c ∈ inputs.flatten, dims c ≠ 0) : ∀ sh ∈ shapes, ∀ d ∈ sh, 0 < d := by
  unfold Sized at hs
  induction hs with
  | nil => simp
  | cons h _ ih =>
    intro sh hsh d hd
    rcases List.mem_cons.1 hsh with rfl | hsh
    · rw [h] at hd
      obtain ⟨c, hc, rfl⟩ := List.mem_map.1 hd
      exact Nat.pos_of_ne_zero (h0 c (by simp [hc]))
    · exact ih (fun c hc => h0 c (by rw [List.flatten_cons]; exact List.mem_append_right _ hc)) sh hsh d hd

theorem full_operands {V : Type} {operands : List (View V)} {inputs : List (List Char)} {dims : Char → Nat}
    (hs : Sized dims inputs (operands.map View.shape)) (h0 : ∀ c ∈ inputs.flatten, dims c ≠ 0) :
    ∀ v ∈ operands.map (View.map Expr.var), Full Expr.IsP v := by
  intro v hv
  obtain ⟨v, hv', rfl⟩ := List.mem_map.1 hv
  refine ⟨fun x hx => ?_, fun d hd => ?_⟩
  · obtain ⟨y, -, rfl⟩ := List.mem_map.1 hx
    exact True.intro
  · exact sized_pos hs h0 v.shape (List.mem_map_of_mem hv') d hd

/-- The expressions computed when no axis is empty. -/
theorem einsum_positive {V : Type} (h : HashOrd) (al : UniformAlloc) (s : String) (operands : List (View V))
    (inputs : List (List Char)) (out : List Char) (dims : Char → Nat) (ts : List (List Nat → V))
    (hc : Call s operands inputs out dims ts) (h0 : ∀ c ∈ inputs.flatten, dims c ≠ 0) :
    ∃ R : View (Expr V), R.Wf ∧ R.shape = out.map dims ∧
      (∀ (A : Type) [Zero A] [Add A] [Mul A] [MulAdd A] (val : V → A),
        einsum h (al.alloc A) s (operands.map (View.map val)) = .ok (.ok (R.map (Expr.eval val)))) ∧
      ∀ σ, InRange dims out σ → ∃ e : Expr V, R.read (out.map σ) = .ok e ∧ e.IsP ∧
        (∀ x, e.Has x → ∃ v ∈ operands, ∃ idx, v.read idx = .ok x) ∧
        ∀ (S : Type) [CommSemiring S] (f : V → S),
          e.eval f = Spec.einsum dims inputs (ts.map fun t idx => f (t idx)) out σ := by
  have hn := noEmptyDiagonal_of h0
  obtain ⟨R, ⟨h1, h2, h3⟩, h4⟩ := C52_uniform h al s operands inputs out dims ts hc hn
  refine ⟨R, h1, h2, h4, fun σ hσ => ?_⟩
  obtain ⟨e, e1, e2⟩ := h3 σ hσ
  have hR := h4 (Expr V) Expr.var
  rw [View.map_eval_var] at hR
  have hf : Full Expr.IsP R := einsum_full (expr_closed V) (al.tight _) hc.denotes (hc.map Expr.var).sized h0
    (full_operands hc.sized h0) h _ hR R rfl
  have hp := hf.read _ _ e1
  exact ⟨e, e1, hp, fun x hx => has_element (h := h) (al := al) hc hn hσ hp e2 hx, e2⟩

theorem path_positive {V : Type} (h : HashOrd) (al : UniformAlloc) (s : String) (operands : List (View V))
    (inputs : List (List Char)) (out : List Char) (dims : Char → Nat) (ts : List (List Nat → V))
    (m : OptimizationMethod) (hm : m = .naive ∨ m = .reverse)
    (hc : Call s operands inputs out dims ts) (h0 : ∀ c ∈ inputs.flatten, dims c ≠ 0) :
    ∃ p, einsumPath h s operands m = .ok (.ok p) ∧ ∃ R : View (Expr V), R.Wf ∧ R.shape = out.map dims ∧
      (∀ (A : Type) [Zero A] [Add A] [Mul A] [MulAdd A] (val : V → A),
        p.contractOperands (al.alloc A) (operands.map (View.map val)) = .ok (R.map (Expr.eval val))) ∧
      ∀ σ, InRange dims out σ → ∃ e : Expr V, R.read (out.map σ) = .ok e ∧ e.IsP ∧
        (∀ x, e.Has x → ∃ v ∈ operands, ∃ idx, v.read idx = .ok x) ∧
        ∀ (S : Type) [CommSemiring S] (f : V → S),
          e.eval f = Spec.einsum dims inputs (ts.map fun t idx => f (t idx)) out σ := by
  have hn := noEmptyDiagonal_of h0
  obtain ⟨p, p1, R, ⟨h1, h2, h3⟩, h4⟩ := C52_path h al s operands inputs out dims ts m hm hc hn
  refine ⟨p, p1, R, h1, h2, h4, fun σ hσ => ?_⟩
  obtain ⟨e, e1, e2⟩ := h3 σ hσ
  have hR := h4 (Expr V) Expr.var
  rw [View.map_eval_var] at hR
  have hf : Full Expr.IsP R := (einsumPath_pos hc.denotes hc.sized h0 h m _ p1 p rfl).run (expr_closed V) (al.tight _)
    (full_operands hc.sized h0) R hR
  have hp := hf.read _ _ e1
  exact ⟨e, e1, hp, fun x hx => has_element (h := h) (al := al) hc hn hσ hp e2 hx, e2⟩

/-! ## C57 -/

theorem Spec.Expr.IsZ.exact {F : Type} [Zero F] [Add F] [Mul F] [MulAdd F] {good : F → Prop} {val : F → ℤ} {B : ℕ}
    (hx : ExactWithin good val B) {e : Expr F} (h : e.IsZ) : good (e.eval id) ∧ val (e.eval id) = 0 := by
  induction e with
  | var x => exact h.elim
  | zero => exact hx.zero
  | add a b iha ihb =>
    obtain ⟨a1, a2⟩ := iha h.1
    obtain ⟨b1, b2⟩ := ihb h.2
    have := hx.add _ _ a1 b1 (by rw [a2, b2]; simp)
    rw [a2, b2] at this
    exact this
  | mul a b => exact h.elim
  | mulAdd a b c => exact h.elim

/-- What an element weighs: its absolute value, but at least one. -/
def weight {F : Type} (val : F → ℤ) (x : F) : ℕ := max 1 (val x).natAbs

theorem Spec.Expr.IsP.exact {F : Type} [Zero F] [Add F] [Mul F] [MulAdd F] {good : F → Prop} {val : F → ℤ} {B : ℕ}
    (hx : ExactWithin good val B) {e : Expr F} (h : e.IsP) (hg : ∀ x, e.Has x → good x)
    (hB : e.eval (weight val) ≤ B) :
    good (e.eval id) ∧ val (e.eval id) = e.eval val ∧ (e.eval val).natAbs ≤ e.eval (weight val) := by
  induction e with
  | var x => exact ⟨hg x rfl, rfl, le_max_right _ _⟩
  | zero => exact h.elim
  | add a b iha ihb =>
    simp only [Expr.eval] at hB ⊢
    have key : (good (a.eval id) ∧ val (a.eval id) = a.eval val ∧ (a.eval val).natAbs ≤ a.eval (weight val)) ∧
        (good (b.eval id) ∧ val (b.eval id) = b.eval val ∧ (b.eval val).natAbs ≤ b.eval (weight val)) := by
      have z : ∀ c : Expr F, c.IsZ →
          good (c.eval id) ∧ val (c.eval id) = c.eval val ∧ (c.eval val).natAbs ≤ c.eval (weight val) := fun c hc =>
        ⟨(hc.exact hx).1, by rw [(hc.exact hx).2, hc.eval], by rw [hc.eval]; simp⟩
      have pa : a.IsP → _ := fun ha => iha ha (fun x hh => hg x (.inl hh)) (by omega)
      have pb : b.IsP → _ := fun hb => ihb hb (fun x hh => hg x (.inr hh)) (by omega)
      rcases h with ⟨h1, h2⟩ | ⟨h1, h2⟩ | ⟨h1, h2⟩
      · exact ⟨z a h1, pb h2⟩
      · exact ⟨pa h1, z b h2⟩
      · exact ⟨pa h1, pb h2⟩
    obtain ⟨⟨a1, a2, a3⟩, b1, b2, b3⟩ := key
    have hab : (a.eval val + b.eval val).natAbs ≤ a.eval (weight val) + b.eval (weight val) :=
      (Int.natAbs_add_le _ _).trans (by omega)
    have := hx.add _ _ a1 b1 (by rw [a2, b2]; omega)
    rw [a2, b2] at this
    exact ⟨this.1, this.2, hab⟩
  | mul a b iha ihb =>
    simp only [Expr.eval] at hB ⊢
    have hw : ∀ x, 0 < weight val x := fun x => by unfold weight; omega
    have wa := h.1.pos _ hw
    have wb := h.2.pos _ hw
    obtain ⟨a1, a2, a3⟩ := iha h.1 (fun x hh => hg x (.inl hh)) ((Nat.le_mul_of_pos_right _ wb).trans hB)
    obtain ⟨b1, b2, b3⟩ := ihb h.2 (fun x hh => hg x (.inr hh)) ((Nat.le_mul_of_pos_left _ wa).trans hB)
    have hab : (a.eval val * b.eval val).natAbs ≤ a.eval (weight val) * b.eval (weight val) := by
      rw [Int.natAbs_mul]
      exact Nat.mul_le_mul a3 b3
    have := hx.mul _ _ a1 b1 (by rw [a2, b2]; omega)
    rw [a2, b2] at this
    exact ⟨this.1, this.2, hab⟩
  | mulAdd a b c iha ihb ihc =>
    change good (Einsum.mulAdd (a.eval id) (b.eval id) (c.eval id)) ∧
      val (Einsum.mulAdd (a.eval id) (b.eval id) (c.eval id)) = a.eval val * b.eval val + c.eval val ∧
      (a.eval val * b.eval val + c.eval val).natAbs ≤
        a.eval (weight val) * b.eval (weight val) + c.eval (weight val)
    change a.eval (weight val) * b.eval (weight val) + c.eval (weight val) ≤ B at hB
    have hw : ∀ x, 0 < weight val x := fun x => by unfold weight; omega
    have wa := h.1.pos _ hw
    have wb := h.2.1.pos _ hw
    obtain ⟨a1, a2, a3⟩ := iha h.1 (fun x hh => hg x (.inl hh))
      ((Nat.le_mul_of_pos_right _ wb).trans ((Nat.le_add_right _ _).trans hB))
    obtain ⟨b1, b2, b3⟩ := ihb h.2.1 (fun x hh => hg x (.inr (.inl hh)))
      ((Nat.le_mul_of_pos_left _ wa).trans ((Nat.le_add_right _ _).trans hB))
    obtain ⟨c1, c2, c3⟩ : good (c.eval id) ∧ val (c.eval id) = c.eval val ∧
        (c.eval val).natAbs ≤ c.eval (weight val) := by
      rcases h.2.2 with hc | hc
      · exact ⟨(hc.exact hx).1, by rw [(hc.exact hx).2, hc.eval], by rw [hc.eval]; simp⟩
      · exact ihc hc (fun x hh => hg x (.inr (.inr hh))) ((Nat.le_add_left _ _).trans hB)
    have hab : (a.eval val * b.eval val).natAbs ≤ a.eval (weight val) * b.eval (weight val) := by
      rw [Int.natAbs_mul]
      exact Nat.mul_le_mul a3 b3
    have habc : (a.eval val * b.eval val + c.eval val).natAbs ≤
        a.eval (weight val) * b.eval (weight val) + c.eval (weight val) :=
      (Int.natAbs_add_le _ _).trans (Nat.add_le_add hab c3)
    have := hx.mulAdd _ _ _ a1 b1 c1 (by rw [a2, b2]; exact hab.trans ((Nat.le_add_right _ _).trans hB))
      (by rw [a2, b2, c2]; exact habc.trans hB)
    rw [a2, b2, c2] at this
    exact ⟨this.1, this.2, habc⟩

/-- C57: integers are computed exactly as long as the Einstein sum of the weights `max 1 |t|` is at most `B`. -/
theorem C57_exact {F : Type} [Zero F] [Add F] [Mul F] [MulAdd F] {good : F → Prop} {val : F → ℤ} {B : ℕ}
    (hx : ExactWithin good val B) (h : HashOrd) (al : UniformAlloc) (s : String) (operands : List (View F))
    (inputs : List (List Char)) (out : List Char) (dims : Char → Nat) (ts : List (List Nat → F))
    (hc : Call s operands inputs out dims ts) (h0 : ∀ c ∈ inputs.flatten, dims c ≠ 0)
    (hg : ∀ v ∈ operands, ∀ idx x, v.read idx = .ok x → good x) :
    ∃ r, einsum h (al.alloc F) s operands = .ok (.ok r) ∧ r.Wf ∧ r.shape = out.map dims ∧
      ∀ σ, InRange dims out σ →
        Spec.einsum dims inputs (ts.map fun t idx => max 1 (val (t idx)).natAbs) out σ ≤ B →
        ∃ y, r.read (out.map σ) = .ok y ∧ good y ∧
          val y = Spec.einsum dims inputs (ts.map fun t idx => val (t idx)) out σ := by
  obtain ⟨R, h1, h2, h3, h4⟩ := einsum_positive h al s operands inputs out dims ts hc h0
  have hr := h3 F id
  rw [map_map_id] at hr
  refine ⟨_, hr, h1.map _, h2, fun σ hσ hB => ?_⟩
  obtain ⟨e, e1, e2, e3, e4⟩ := h4 σ hσ
  have := e2.exact hx (fun x hh => by obtain ⟨v, hv, idx, hi⟩ := e3 x hh; exact hg v hv idx x hi)
    (by rw [e4 ℕ (weight val)]; exact hB)
  exact ⟨e.eval id, by rw [View.read_map, e1]; rfl, this.1, by rw [this.2.1, e4 ℤ val]⟩

/-- C57: the same for compiled paths in either order. -/
theorem C57_path {F : Type} [Zero F] [Add F] [Mul F] [MulAdd F] {good : F → Prop} {val : F → ℤ} {B : ℕ}
    (hx : ExactWithin good val B) (h : HashOrd) (al : UniformAlloc) (s : String) (operands : List (View F))
    (inputs : List (List Char)) (out : List Char) (dims : Char → Nat) (ts : List (List Nat → F))
    (m : OptimizationMethod) (hm : m = .naive ∨ m = .reverse)
    (hc : Call s operands inputs out dims ts) (h0 : ∀ c ∈ inputs.flatten, dims c ≠ 0)
    (hg : ∀ v ∈ operands, ∀ idx x, v.read idx = .ok x → good x) :
    ∃ p r, einsumPath h s operands m = .ok (.ok p) ∧ p.contractOperands (al.alloc F) operands = .ok r ∧
      r.Wf ∧ r.shape = out.map dims ∧
      ∀ σ, InRange dims out σ →
        Spec.einsum dims inputs (ts.map fun t idx => max 1 (val (t idx)).natAbs) out σ ≤ B →
        ∃ y, r.read (out.map σ) = .ok y ∧ good y ∧
          val y = Spec.einsum dims inputs (ts.map fun t idx => val (t idx)) out σ := by
  obtain ⟨p, p1, R, h1, h2, h3, h4⟩ := path_positive h al s operands inputs out dims ts m hm hc h0
  have hr := h3 F id
  rw [map_map_id] at hr
  refine ⟨p, _, p1, hr, h1.map _, h2, fun σ hσ hB => ?_⟩
  obtain ⟨e, e1, e2, e3, e4⟩ := h4 σ hσ
  have := e2.exact hx (fun x hh => by obtain ⟨v, hv, idx, hi⟩ := e3 x hh; exact hg v hv idx x hi)
    (by rw [e4 ℕ (weight val)]; exact hB)
  exact ⟨e.eval id, by rw [View.read_map, e1]; rfl, this.1, by rw [this.2.1, e4 ℤ val]⟩

/-! ## C58 -/

theorem Spec.Expr.IsZ.eval_zero {A : Type} [Zero A] [Add A] [Mul A] [MulAdd A] (h0 : (0 : A) + 0 = 0) {e : Expr A} (h : e.IsZ) :
    e.eval id = 0 := by
  induction e with
  | var x => exact h.elim
  | zero => rfl
  | add a b iha ihb => rw [Expr.eval, iha h.1, ihb h.2, h0]
  | mul a b => exact h.elim
  | mulAdd a b c => exact h.elim

theorem Spec.Expr.IsP.closed {A : Type} [Zero A] [Add A] [Mul A] [MulAdd A] {P : A → Prop} (hP : Closed P) {e : Expr A}
    (h : e.IsP) (hg : ∀ x, e.Has x → P x) : P (e.eval id) := by
  induction e with
  | var x => exact hg x rfl
  | zero => exact h.elim
  | add a b iha ihb =>
    simp only [Expr.eval]
    rcases h with ⟨h1, h2⟩ | ⟨h1, h2⟩ | ⟨h1, h2⟩
    · rw [h1.eval_zero hP.zero_zero]
      exact hP.zero_add _ (ihb h2 fun x hh => hg x (.inr hh))
    · rw [h2.eval_zero hP.zero_zero]
      exact hP.add_zero _ (iha h1 fun x hh => hg x (.inl hh))
    · exact hP.add _ _ (iha h1 fun x hh => hg x (.inl hh)) (ihb h2 fun x hh => hg x (.inr hh))
  | mul a b iha ihb =>
    exact hP.mul _ _ (iha h.1 fun x hh => hg x (.inl hh)) (ihb h.2 fun x hh => hg x (.inr hh))
  | mulAdd a b c iha ihb ihc =>
    have pa := iha h.1 fun x hh => hg x (.inl hh)
    have pb := ihb h.2.1 fun x hh => hg x (.inr (.inl hh))
    rw [Expr.eval]
    rcases h.2.2 with hc | hc
    · rw [hc.eval_zero hP.zero_zero]
      exact hP.mulAdd_zero _ _ pa pb
    · exact hP.mulAdd _ _ _ pa pb (ihc hc fun x hh => hg x (.inr (.inr hh)))

/-- C58: elements in a set closed under addition, multiplication and fused multiply-add give elements of the set. -/
theorem C58_closed {A : Type} [Zero A] [Add A] [Mul A] [MulAdd A] {P : A → Prop} (hP : Closed P) (h : HashOrd)
    (al : UniformAlloc) (s : String) (operands : List (View A)) (inputs : List (List Char)) (out : List Char)
    (dims : Char → Nat) (ts : List (List Nat → A)) (hc : Call s operands inputs out dims ts)
    (h0 : ∀ c ∈ inputs.flatten, dims c ≠ 0) (hg : ∀ v ∈ operands, ∀ idx x, v.read idx = .ok x → P x) :
    ∃ r, einsum h (al.alloc A) s operands = .ok (.ok r) ∧ r.Wf ∧ r.shape = out.map dims ∧
      ∀ idx x, r.read idx = .ok x → P x := by
  obtain ⟨R, h1, h2, h3, h4⟩ := einsum_positive h al s operands inputs out dims ts hc h0
  have hr := h3 A id
  rw [map_map_id] at hr
  refine ⟨_, hr, h1.map _, h2, fun idx x hx => ?_⟩
  have hi : InB (out.map dims) idx := by
    by_contra hi
    rw [← h2, ← View.map_shape (Expr.eval id)] at hi
    unfold View.read at hx
    rw [if_neg hi] at hx
    cases hx
  obtain ⟨σ, hσ, rfl⟩ := exists_assign hc.denotes.outputOk.1 hi
  obtain ⟨e, e1, e2, e3, -⟩ := h4 σ hσ
  rw [View.read_map, e1] at hx
  cases hx
  exact e2.closed hP fun x hh => by obtain ⟨v, hv, idx, hi⟩ := e3 x hh; exact hg v hv idx x hi

/-! ## Three number types that are exact on integers -/

theorem Fl.rnd_int (m : ℤ) (h : m.natAbs ≤ 2 ^ 53) : Fl.rnd m = m := by
  unfold Fl.rnd
  rw [show |(m : ℚ)| = ((m.natAbs : ℕ) : ℚ) by rw [Nat.cast_natAbs, Int.cast_abs], Int.log_natCast]
  have key : ∃ k : ℤ, (m : ℚ) / 2 ^ ((Nat.log 2 m.natAbs : ℤ) - 52) = k := by
    by_cases h' : m.natAbs = 2 ^ 53
    · rw [h', Nat.log_pow (by norm_num)]
      refine ⟨m.sign * 2 ^ 52, ?_⟩
      have : (m : ℚ) = m.sign * 2 ^ 53 := by
        have := Int.sign_mul_natAbs m
        rw [h'] at this
        exact_mod_cast this.symm
      rw [this]
      norm_num
      ring
    · obtain ⟨n, hn⟩ : ∃ n : ℕ, 52 = Nat.log 2 m.natAbs + n := by
        have : Nat.log 2 m.natAbs < 53 := Nat.log_lt_of_lt_pow' (by norm_num) (by omega)
        exact ⟨52 - Nat.log 2 m.natAbs, by omega⟩
      refine ⟨m * 2 ^ n, ?_⟩
      rw [show ((Nat.log 2 m.natAbs : ℤ) - 52) = -(n : ℤ) by omega, zpow_neg, div_inv_eq_mul, zpow_natCast]
      push_cast
      rfl
  obtain ⟨k, hk⟩ := key
  rw [hk, round_intCast, ← hk, div_mul_cancel₀]
  exact zpow_ne_zero _ (by norm_num)

/-- 53-bit binary floating-point numbers. -/
theorem Fl.exactWithin : ExactWithin (fun x : Fl => ∃ m : ℤ, x.q = m) (fun x => x.q.num) (2 ^ 53) where
  zero := ⟨⟨0, by simp [show (0 : Fl).q = 0 from rfl]⟩, by simp [show (0 : Fl).q = 0 from rfl]⟩
  add := by
    rintro x y ⟨m, hm⟩ ⟨n, hn⟩ h
    have : (x + y).q = ((m + n : ℤ) : ℚ) := by
      change (if x.q = 0 then y else if y.q = 0 then x else ⟨rnd (x.q + y.q)⟩ : Fl).q = _
      split
      · rename_i h0; rw [hm] at h0; rw [hn, Int.cast_add, h0, zero_add]
      · split
        · rename_i h0; rw [hn] at h0; rw [hm, Int.cast_add, h0, add_zero]
        · rw [hm, hn, Rat.num_intCast, Rat.num_intCast] at h
          rw [hm, hn, ← Int.cast_add]
          exact rnd_int _ h
    exact ⟨⟨_, this⟩, by rw [this, hm, hn, Rat.num_intCast, Rat.num_intCast, Rat.num_intCast]⟩
  mul := by
    rintro x y ⟨m, hm⟩ ⟨n, hn⟩ h
    have : (x * y).q = ((m * n : ℤ) : ℚ) := by
      change rnd (x.q * y.q) = _
      rw [hm, hn, Rat.num_intCast, Rat.num_intCast] at h
      rw [hm, hn, ← Int.cast_mul]
      exact rnd_int _ h
    exact ⟨⟨_, this⟩, by rw [this, hm, hn, Rat.num_intCast, Rat.num_intCast, Rat.num_intCast]⟩
  mulAdd := by
    rintro x y z ⟨m, hm⟩ ⟨n, hn⟩ ⟨k, hk⟩ - h
    have : (mulAdd x y z).q = ((m * n + k : ℤ) : ℚ) := by
      change (if x.q * y.q = 0 then z else ⟨rnd (x.q * y.q + z.q)⟩ : Fl).q = _
      split
      · rename_i h0; rw [hm, hn] at h0; rw [hk, Int.cast_add, Int.cast_mul, h0, zero_add]
      · rw [hm, hn, hk, Rat.num_intCast, Rat.num_intCast, Rat.num_intCast] at h
        rw [hm, hn, hk, ← Int.cast_mul, ← Int.cast_add]
        exact rnd_int _ h
    exact ⟨⟨_, this⟩, by rw [this, hm, hn, hk, Rat.num_intCast, Rat.num_intCast, Rat.num_intCast, Rat.num_intCast]⟩

/-- 32-bit integers that wrap around. -/
theorem wrapping_exactWithin : ExactWithin (fun _ : BitVec 32 => True) BitVec.toInt (2 ^ 31 - 1) where
  zero := ⟨True.intro, by simp⟩
  add := fun x y _ _ h => ⟨True.intro, by rw [BitVec.toInt_add, Int.bmod_eq_of_le (by omega) (by omega)]⟩
  mul := fun x y _ _ h => ⟨True.intro, by rw [BitVec.toInt_mul, Int.bmod_eq_of_le (by omega) (by omega)]⟩
  mulAdd := fun x y z _ _ _ h h' => ⟨True.intro, by
    have hm : (x * y).toInt = x.toInt * y.toInt := by rw [BitVec.toInt_mul, Int.bmod_eq_of_le (by omega) (by omega)]
    change (x * y + z).toInt = _
    rw [BitVec.toInt_add, hm, Int.bmod_eq_of_le (by omega) (by omega)]⟩

/-- 32-bit integers in a build that panics on overflow; `none` is the panic. -/
structure Checked where
  value : Option ℤ
  deriving DecidableEq

namespace Checked

/-- The value if it is representable. -/
def check (z : ℤ) : Checked := if -2 ^ 31 ≤ z ∧ z < 2 ^ 31 then ⟨some z⟩ else ⟨none⟩

/-- An operation on values that have not overflowed. -/
def op (f : ℤ → ℤ → ℤ) (x y : Checked) : Checked :=
  match x.value, y.value with
  | some a, some b => check (f a b)
  | _, _ => ⟨none⟩

instance : Zero Checked := ⟨⟨some 0⟩⟩
instance : Add Checked := ⟨op (· + ·)⟩
instance : Mul Checked := ⟨op (· * ·)⟩

theorem check_exact {z : ℤ} (h : z.natAbs ≤ 2 ^ 31 - 1) : check z = ⟨some z⟩ := by
  unfold check
  rw [if_pos (by omega)]

theorem exactWithin :
    ExactWithin (fun x : Checked => ∃ z, x.value = some z) (fun x => x.value.getD 0) (2 ^ 31 - 1) where
  zero := ⟨⟨0, rfl⟩, rfl⟩
  add := by
    rintro ⟨_⟩ ⟨_⟩ ⟨a, rfl⟩ ⟨b, rfl⟩ h
    have : (⟨some a⟩ + ⟨some b⟩ : Checked) = ⟨some (a + b)⟩ := check_exact h
    rw [this]
    exact ⟨⟨_, rfl⟩, rfl⟩
  mul := by
    rintro ⟨_⟩ ⟨_⟩ ⟨a, rfl⟩ ⟨b, rfl⟩ h
    have : (⟨some a⟩ * ⟨some b⟩ : Checked) = ⟨some (a * b)⟩ := check_exact h
    rw [this]
    exact ⟨⟨_, rfl⟩, rfl⟩
  mulAdd := by
    rintro ⟨_⟩ ⟨_⟩ ⟨_⟩ ⟨a, rfl⟩ ⟨b, rfl⟩ ⟨c, rfl⟩ h h'
    have h1 : (⟨some a⟩ * ⟨some b⟩ : Checked) = ⟨some (a * b)⟩ := check_exact h
    have h2 : (⟨some (a * b)⟩ + ⟨some c⟩ : Checked) = ⟨some (a * b + c)⟩ := check_exact h'
    have : (mulAdd ⟨some a⟩ ⟨some b⟩ ⟨some c⟩ : Checked) = ⟨some (a * b + c)⟩ := by rw [← h2, ← h1]; rfl
    rw [this]
    exact ⟨⟨_, rfl⟩, rfl⟩

end Checked

/-! ## Examples -/

namespace Ex

theorem pos_matmul : ∀ c ∈ [['i', 'j'], ['j', 'k']].flatten, dims c ≠ 0 := by
  intro c _; unfold dims; split <;> omega

theorem pos_three : ∀ c ∈ [['i', 'j'], ['j', 'j', 'k'], ['k', 'j']].flatten, dims c ≠ 0 := by
  intro c _; unfold dims; split <;> omega

theorem of_map {A B : Type} {f : A → B} {P : B → Prop} (hf : ∀ a, P (f a)) (l : List (View A)) :
    ∀ v ∈ l.map (View.map f), ∀ idx x, v.read idx = .ok x → P x := by
  intro v hv idx x hx
  obtain ⟨w, -, rfl⟩ := List.mem_map.1 hv
  rw [View.read_map] at hx
  cases h : w.read idx with
  | error e => rw [h] at hx; cases hx
  | ok y => rw [h] at hx; cases hx; exact hf y

end Ex

/-- The product of two matrices of small integers as floating-point numbers is exact: `1·6 + 2·4 + 3·2 = 20`. -/
example : ∃ r y, einsum HashOrd.reversed (Alloc.colMajor Fl) "ij,jk->ik"
      ([Ex.m23, Ex.m32].map (View.map fun z : Int => Fl.mk z)) = .ok (.ok r) ∧ r.read [0, 0] = .ok y ∧ y.q = 20 := by
  obtain ⟨r, h1, -, -, h2⟩ := C57_exact Fl.exactWithin HashOrd.reversed UniformAlloc.colMajor "ij,jk->ik" _ _ _ _ _
    (Ex.call_matmul.map fun z : Int => Fl.mk z) Ex.pos_matmul (Ex.of_map (fun a => ⟨a, rfl⟩) _)
  obtain ⟨y, y1, ⟨m, hm⟩, y3⟩ := h2 (fun _ => 0) (by intro c _; exact Nat.pos_of_ne_zero (by unfold Ex.dims; split <;> omega)) (by
    decide +kernel)
  refine ⟨r, y, h1, y1, ?_⟩
  rw [hm, Rat.num_intCast] at y3
  rw [hm, y3]
  have : Spec.einsum Ex.dims [['i', 'j'], ['j', 'k']] [Ex.elems Ex.m23, Ex.elems Ex.m32] ['i', 'k'] (fun _ => 0) = 20 := by
    decide +kernel
  exact_mod_cast this

/-- In a build that panics on overflow it does not panic. -/
example : ∃ r, einsum HashOrd.insertion (Alloc.rowMajor Checked) "ij,jk->ik"
      ([Ex.m23, Ex.m32].map (View.map fun z : Int => Checked.mk (some z))) = .ok (.ok r) ∧
    ∃ y, r.read [0, 0] = .ok y ∧ y.value = some 20 := by
  obtain ⟨r, h1, -, -, h2⟩ := C57_exact Checked.exactWithin HashOrd.insertion UniformAlloc.rowMajor "ij,jk->ik" _ _ _ _ _
    (Ex.call_matmul.map fun z : Int => Checked.mk (some z)) Ex.pos_matmul (Ex.of_map (fun a => ⟨a, rfl⟩) _)
  obtain ⟨y, y1, ⟨m, hm⟩, y3⟩ := h2 (fun _ => 0)
    (by intro c _; exact Nat.pos_of_ne_zero (by unfold Ex.dims; split <;> omega)) (by decide +kernel)
  refine ⟨r, h1, y, y1, ?_⟩
  have : Spec.einsum Ex.dims [['i', 'j'], ['j', 'k']] [Ex.elems Ex.m23, Ex.elems Ex.m32] ['i', 'k'] (fun _ => 0) = 20 := by
    decide +kernel
  rw [hm] at y3 ⊢
  exact congrArg some (y3.trans this)

/-- Three operands, integers that wrap around, the reverse order. -/
example : ∃ p r, einsumPath HashOrd.reversed "ij,jjk,kj->ij"
      ([Ex.m23, Ex.m332, Ex.m23].map (View.map (BitVec.ofInt 32))) .reverse = .ok (.ok p) ∧
    p.contractOperands (Alloc.colMajor (BitVec 32))
      ([Ex.m23, Ex.m332, Ex.m23].map (View.map (BitVec.ofInt 32))) = .ok r ∧ r.shape = [2, 3] := by
  obtain ⟨p, r, h1, h2, -, h3, -⟩ := C57_path wrapping_exactWithin HashOrd.reversed UniformAlloc.colMajor
    "ij,jjk,kj->ij" _ _ _ _ _ .reverse (.inr rfl) (Ex.call_three.map (BitVec.ofInt 32)) Ex.pos_three
    (fun _ _ _ _ _ => True.intro)
  exact ⟨p, r, h1, h2, h3⟩

/-- Positive integers stay positive, though the sums start from zero. -/
example : ∃ r, einsum HashOrd.reversed (Alloc.rowMajor Int) "ij,jjk,kj->ij" [Ex.m23, Ex.m332, Ex.m23] = .ok (.ok r) ∧
    ∀ idx x, r.read idx = .ok x → 0 < x := by
  have hpos : ∀ l : List Int, l = [1, 2, 3, 4, 5, 6] → ∀ x ∈ l, 0 < x := by
    rintro _ rfl; decide
  have hfull : ∀ v ∈ [Ex.m23, Ex.m332, Ex.m23], Full (fun x : Int => 0 < x) v := by
    intro v hv
    simp only [List.mem_cons, List.not_mem_nil, or_false] at hv
    rcases hv with rfl | rfl | rfl <;> exact ⟨hpos _ rfl, by decide⟩
  obtain ⟨r, h1, -, -, h2⟩ := C58_closed (P := fun x : Int => 0 < x)
    ⟨rfl, fun x hx => by omega, fun x hx => by omega, fun x y hx hy => by omega, fun x y hx hy => Int.mul_pos hx hy,
      fun x y z hx hy hz => Int.add_pos (Int.mul_pos hx hy) hz, fun x y hx hy => Int.add_pos_of_pos_of_nonneg (Int.mul_pos hx hy) le_rfl⟩
    HashOrd.reversed UniformAlloc.rowMajor "ij,jjk,kj->ij" _ _ _ _ _ Ex.call_three Ex.pos_three
    (fun v hv idx => (hfull v hv).read idx)
  exact ⟨r, h1, h2⟩

/-- The weights cannot be replaced by the absolute values: `2 ^ 20 * 2 ^ 20 * 0` overflows on the way to `0`. -/
theorem C57_overflow : ∃ r, einsum HashOrd.insertion (Alloc.rowMajor Checked) "i,i,i->i"
      [⟨[⟨some (2 ^ 20)⟩], 0, [1], [1]⟩, ⟨[⟨some (2 ^ 20)⟩], 0, [1], [1]⟩, ⟨[⟨some 0⟩], 0, [1], [1]⟩] = .ok (.ok r) ∧
    r.read [0] = .ok ⟨none⟩ :=
  ⟨⟨[⟨none⟩], 0, [1], [1]⟩, by decide +kernel, by decide +kernel⟩

end Einsum
