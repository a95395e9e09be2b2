import Verif.Props.Tensordot
import Verif.Props.Exact

/-!
# Property C59: tensordot for element types without laws
-/

namespace Einsum

open Spec

/-- The axes `la` of the left operand are paired with the axes `ra`, of the same lengths, of the right operand. -/
structure Spec.Paired (ls rs la ra : List Nat) : Prop where
  length_eq : la.length = ra.length
  left_nodup : la.Nodup
  right_nodup : ra.Nodup
  left_lt : ∀ a ∈ la, a < ls.length
  right_lt : ∀ a ∈ ra, a < rs.length
  lengths_eq : lengths ls la = lengths rs ra

/-- The sum over the indices of the paired axes of the products of elements; `a` and `b` are the indices of the
remaining axes. -/
def Spec.pairedSum {A : Type} [AddCommMonoid A] [Mul A] (ls rs la ra : List Nat) (T U : List Nat → A) (a b : List Nat) : A :=
  sumIdx (lengths ls la) fun c =>
    T (place ls.length (kept ls.length la ++ la) (a ++ c)) * U (place rs.length (kept rs.length ra ++ ra) (b ++ c))

theorem tensordot_paired {A : Type} [AddCommMonoid A] [Mul A] (al : Alloc A) {l r : View A} {T U : List Nat → A}
    {la ra : List Nat} (hp : Paired l.shape r.shape la ra) (hl : Elements l T) (hr : Elements r U) :
    ∃ w, tensordot al l r la ra = .ok w ∧ w.Wf ∧
      w.shape = lengths l.shape (kept l.shape.length la) ++ lengths r.shape (kept r.shape.length ra) ∧
      ∀ a b, InB (lengths l.shape (kept l.shape.length la)) a → InB (lengths r.shape (kept r.shape.length ra)) b →
        w.read (a ++ b) = .ok (pairedSum l.shape r.shape la ra T U a b) :=
  C21_tensordot al l r T U la ra hl hr hp.length_eq hp.left_nodup hp.right_nodup hp.left_lt hp.right_lt hp.lengths_eq

/-- C59: maps that respect `0`, `+` and `*` commute with `tensordot`, also for arguments on which it panics. -/
theorem C59_natural {A B : Type} [Zero A] [Add A] [Mul A] [MulAdd A] [Zero B] [Add B] [Mul B] [MulAdd B] (f : A → B) (hf : OpHom f)
    (al : UniformAlloc) (l r : View A) (la ra : List Nat) :
    tensordot (al.alloc B) (l.map f) (r.map f) la ra = (tensordot (al.alloc A) l r la ra).map (View.map f) :=
  tensordot_map hf (al.compat f) l r la ra

/-- C59: one array of expressions in the elements gives the result for every element type and has the value of the sum
of products in every commutative semiring. -/
theorem C59_uniform {V : Type} (al : UniformAlloc) (l r : View V) (T U : List Nat → V) (la ra : List Nat)
    (hp : Paired l.shape r.shape la ra) (hl : Elements l T) (hr : Elements r U) :
    ∃ R : View (Expr V), R.Wf ∧
      R.shape = lengths l.shape (kept l.shape.length la) ++ lengths r.shape (kept r.shape.length ra) ∧
      (∀ (A : Type) [Zero A] [Add A] [Mul A] [MulAdd A] (val : V → A),
        tensordot (al.alloc A) (l.map val) (r.map val) la ra = .ok (R.map (Expr.eval val))) ∧
      ∀ a b, InB (lengths l.shape (kept l.shape.length la)) a → InB (lengths r.shape (kept r.shape.length ra)) b →
        ∃ e : Expr V, R.read (a ++ b) = .ok e ∧ ∀ (S : Type) [CommSemiring S] (f : V → S),
          e.eval f = pairedSum l.shape r.shape la ra (fun i => f (T i)) (fun i => f (U i)) a b := by
  have key : ∀ (A : Type) [Zero A] [Add A] [Mul A] [MulAdd A] (val : V → A),
      tensordot (al.alloc A) (l.map val) (r.map val) la ra =
        (tensordot (al.alloc (Expr V)) (l.map Expr.var) (r.map Expr.var) la ra).map (View.map (Expr.eval val)) := by
    intro A _ _ _ _ val
    rw [← tensordot_map (eval_opHom val) (al.compat _)]
    have : ∀ v : View V, v.map val = (v.map Expr.var).map (Expr.eval val) := fun v => by
      simp only [View.map, List.map_map]; rfl
    rw [this l, this r]
  obtain ⟨w, h1, h2, h3, h4⟩ := tensordot_paired (al.alloc ℕ) (l := l.map fun _ => 0) (r := r.map fun _ => 0) hp
    (hl.map fun _ => 0) (hr.map fun _ => 0)
  rw [key] at h1
  cases hR : tensordot (al.alloc (Expr V)) (l.map Expr.var) (r.map Expr.var) la ra with
  | error e => rw [hR] at h1; simp [Except.map] at h1
  | ok R =>
    rw [hR] at h1 key
    simp only [Except.map, Except.ok.injEq] at h1
    refine ⟨R, .of_map (f := Expr.eval fun _ => (0 : ℕ)) (h1 ▸ h2), ?_, fun A _ _ _ _ val => key A val,
      fun a b ha hb => ?_⟩
    · rw [← View.map_shape (Expr.eval fun _ => (0 : ℕ)), h1]; exact h3
    · have hab := h4 a b ha hb
      rw [← h1, View.read_map] at hab
      cases he : R.read (a ++ b) with
      | error e => rw [he] at hab; simp [Except.map] at hab
      | ok e =>
        refine ⟨e, rfl, fun S _ f => ?_⟩
        obtain ⟨w', g1, -, -, g4⟩ := tensordot_paired (al.alloc S) (l := l.map f) (r := r.map f) hp (hl.map f) (hr.map f)
        rw [key] at g1
        simp only [Except.map, Except.ok.injEq] at g1
        have := g4 a b ha hb
        rw [← g1, View.read_map, he] at this
        simpa [Except.map] using this

theorem sumIdx_const {A : Type} [Semiring A] (s : List Nat) (x : A) : sumIdx s (fun _ => x) = (s.prod : ℕ) * x := by
  induction s with
  | nil => simp [sumIdx]
  | cons d s ih => simp [sumIdx, ih, mul_assoc]

section

variable {F K : Type} [Zero F] [Add F] [Mul F] [MulAdd F] [Field K] [LinearOrder K] [IsStrictOrderedRing K]

open Polynomial in
/-- C59: with `+`, `*` and fused multiply-add correct up to the relative error `u`, each element of the result differs from the exact
sum by at most `(1 + u) ^ N - 1` times the sum of the absolute values; `N` is the number of products added. -/
theorem C59_error {val : F → K} {u : K} (hr' : Rounded val u) (al : UniformAlloc) (l r : View F) (T U : List Nat → F)
    (la ra : List Nat) (hp : Paired l.shape r.shape la ra) (hl : Elements l T) (hr : Elements r U) :
    ∃ w, tensordot (al.alloc F) l r la ra = .ok w ∧ w.Wf ∧
      w.shape = lengths l.shape (kept l.shape.length la) ++ lengths r.shape (kept r.shape.length ra) ∧
      ∀ a b, InB (lengths l.shape (kept l.shape.length la)) a → InB (lengths r.shape (kept r.shape.length ra)) b →
        ∃ y, w.read (a ++ b) = .ok y ∧
          |val y - pairedSum l.shape r.shape la ra (fun i => val (T i)) (fun i => val (U i)) a b| ≤
            ((1 + u) ^ (lengths l.shape la).prod - 1) *
              pairedSum l.shape r.shape la ra (fun i => |val (T i)|) (fun i => |val (U i)|) a b := by
  obtain ⟨R, h1, h2, h3, h4⟩ := C59_uniform al l r T U la ra hp hl hr
  have hw := h3 F id
  rw [View.map_id, View.map_id] at hw
  refine ⟨_, hw, h1.map _, h2, fun a b ha hb => ?_⟩
  obtain ⟨e, e1, he⟩ := h4 a b ha hb
  refine ⟨e.eval id, by rw [View.read_map, e1]; rfl, ?_⟩
  have h := expr_error hr' e
  have hX : e.eval (fun _ => (X : ℕ[X])) = (((lengths l.shape la).prod : ℕ) : ℕ[X]) * X ^ 2 := by
    rw [he ℕ[X] fun _ => X, pairedSum, sumIdx_const, pow_two]
  rw [he K val, he K (fun a => |val a|), hX] at h
  obtain ⟨hm', ⟨-, h1, h2, h3⟩ | ⟨-, -, h1⟩⟩ := h
  · rw [h1, h2, h3]; simp
  · refine h1.trans ?_
    have hm := (abs_nonneg _).trans hm'
    refine mul_le_mul_of_nonneg_right (sub_le_sub_right (pow_bound_mono hr'.nonneg ?_) 1) hm
    have hd : (((lengths l.shape la).prod : ℕ[X]) * X ^ 2).natDegree ≤ 2 := by
      refine natDegree_mul_le.trans ?_
      rw [natDegree_natCast, natDegree_X_pow]
    simp only [steps, eval_mul, eval_natCast, eval_pow, eval_X, one_pow, mul_one]
    simp only [Nat.cast_id]
    omega

end

/-- The expressions computed when no axis is empty. -/
theorem tensordot_positive {V : Type} (al : UniformAlloc) (l r : View V) (T U : List Nat → V)
    (la ra : List Nat) (hp : Paired l.shape r.shape la ra) (hl : Elements l T) (hr : Elements r U)
    (hl0 : ∀ d ∈ l.shape, d ≠ 0) (hr0 : ∀ d ∈ r.shape, d ≠ 0) :
    ∃ R : View (Expr V), R.Wf ∧
      R.shape = lengths l.shape (kept l.shape.length la) ++ lengths r.shape (kept r.shape.length ra) ∧
      (∀ (A : Type) [Zero A] [Add A] [Mul A] [MulAdd A] (val : V → A),
        tensordot (al.alloc A) (l.map val) (r.map val) la ra = .ok (R.map (Expr.eval val))) ∧
      ∀ a b, InB (lengths l.shape (kept l.shape.length la)) a → InB (lengths r.shape (kept r.shape.length ra)) b →
        ∃ e : Expr V, R.read (a ++ b) = .ok e ∧ e.IsP ∧
          (∀ x, e.Has x → (∃ idx, l.read idx = .ok x) ∨ ∃ idx, r.read idx = .ok x) ∧
          ∀ (S : Type) [CommSemiring S] (f : V → S),
            e.eval f = pairedSum l.shape r.shape la ra (fun i => f (T i)) (fun i => f (U i)) a b := by
  classical
  obtain ⟨R, h1, h2, h3, h4⟩ := C59_uniform al l r T U la ra hp hl hr
  have hR := h3 (Expr V) Expr.var
  rw [View.map_eval_var] at hR
  have full : ∀ v : View V, (∀ d ∈ v.shape, d ≠ 0) → Full Expr.IsP (v.map Expr.var) := fun v hv =>
    ⟨fun x hx => by obtain ⟨y, -, rfl⟩ := List.mem_map.1 hx; exact True.intro,
      fun d hd => Nat.pos_of_ne_zero (hv d hd)⟩
  have hf : Full Expr.IsP R := by
    have : Post (tensordot (al.alloc (Expr V)) (l.map Expr.var) (r.map Expr.var) la ra) (Full Expr.IsP) :=
      .bind .trivial fun _ _ => .bind .trivial fun _ _ => .bind .trivial fun _ _ =>
        (full l hl0).general (expr_closed V) (al.tight _) (full r hr0)
    exact this R hR
  refine ⟨R, h1, h2, h3, fun a b ha hb => ?_⟩
  obtain ⟨e, e1, he⟩ := h4 a b ha hb
  have hp' := hf.read _ _ e1
  refine ⟨e, e1, hp', fun x hh => ?_, he⟩
  by_contra hno
  simp only [not_or, not_exists] at hno
  -- the value does not depend on elements that do not occur in the arrays
  set f : V → ℕ := fun _ => 1 with hf
  set g : V → ℕ := fun y => if y = x then 2 else 1 with hg
  have hlt : e.eval f < e.eval g := hp'.lt (fun _ => Nat.one_pos) (fun y => by simp only [hg]; split <;> omega)
    (by simp [hg]) hh
  have hel : ∀ (v : View V) (t : List Nat → V), (∀ idx, ¬ v.read idx = .ok x) → Elements v t →
      Elements (v.map f) fun idx => g (t idx) := fun v t hv h => ⟨h.1.map f, fun idx hi => by
    rw [View.read_map, h.2 idx hi]
    have hne : t idx ≠ x := fun he => hv idx (he ▸ h.2 idx hi)
    simp only [Except.map, hf, hg, if_neg hne]⟩
  obtain ⟨w, w1, -, -, w4⟩ := tensordot_paired (al.alloc ℕ) (l := l.map f) (r := r.map f) hp (hl.map f) (hr.map f)
  obtain ⟨w', w1', -, -, w4'⟩ := tensordot_paired (al.alloc ℕ) (l := l.map f) (r := r.map f) hp
    (hel l T hno.1 hl) (hel r U hno.2 hr)
  rw [w1] at w1'
  cases w1'
  have e2 := w4' a b ha hb
  rw [w4 a b ha hb] at e2
  have e3 := he ℕ f
  have e4 := he ℕ g
  simp only [Except.ok.injEq, View.map_shape] at e2
  rw [e3, e4, e2] at hlt
  exact lt_irrefl _ hlt

/-- C59: integers are computed exactly as long as the sum of products of the weights `max 1 |t|` is at most `B`. -/
theorem C59_exact {F : Type} [Zero F] [Add F] [Mul F] [MulAdd F] {good : F → Prop} {val : F → ℤ} {B : ℕ}
    (hx : ExactWithin good val B) (al : UniformAlloc) (l r : View F) (T U : List Nat → F)
    (la ra : List Nat) (hp : Paired l.shape r.shape la ra) (hl : Elements l T) (hr : Elements r U)
    (hl0 : ∀ d ∈ l.shape, d ≠ 0) (hr0 : ∀ d ∈ r.shape, d ≠ 0)
    (hlg : ∀ idx x, l.read idx = .ok x → good x) (hrg : ∀ idx x, r.read idx = .ok x → good x) :
    ∃ w, tensordot (al.alloc F) l r la ra = .ok w ∧ w.Wf ∧
      w.shape = lengths l.shape (kept l.shape.length la) ++ lengths r.shape (kept r.shape.length ra) ∧
      ∀ a b, InB (lengths l.shape (kept l.shape.length la)) a → InB (lengths r.shape (kept r.shape.length ra)) b →
        pairedSum l.shape r.shape la ra (fun i => max 1 (val (T i)).natAbs) (fun i => max 1 (val (U i)).natAbs) a b ≤ B →
        ∃ y, w.read (a ++ b) = .ok y ∧ good y ∧
          val y = pairedSum l.shape r.shape la ra (fun i => val (T i)) (fun i => val (U i)) a b := by
  obtain ⟨R, h1, h2, h3, h4⟩ := tensordot_positive al l r T U la ra hp hl hr hl0 hr0
  have hw := h3 F id
  rw [View.map_id, View.map_id] at hw
  refine ⟨_, hw, h1.map _, h2, fun a b ha hb hB => ?_⟩
  obtain ⟨e, e1, hp', hh, he⟩ := h4 a b ha hb
  have hgood : ∀ x, e.Has x → good x := fun x hx => by
    rcases hh x hx with ⟨idx, hi⟩ | ⟨idx, hi⟩
    exacts [hlg idx x hi, hrg idx x hi]
  have := hp'.exact hx hgood (by rw [he ℕ (weight val)]; exact hB)
  exact ⟨e.eval id, by rw [View.read_map, e1]; rfl, this.1, by rw [this.2.1, he ℤ val]⟩

/-! ## Examples -/

theorem Ex.paired : Paired Ex.m332.shape Ex.m32.shape [2, 1] [1, 0] :=
  ⟨rfl, by decide, by decide, by decide, by decide, by decide⟩

example := C59_natural (BitVec.ofInt 8) Ex.ofInt_hom UniformAlloc.colMajor Ex.m332 Ex.m32
  [2, 1] [1, 0]

example : ∃ R : View (Expr Int), R.shape = [3] ∧ ∀ (A : Type) [Zero A] [Add A] [Mul A] [MulAdd A] (val : Int → A),
    tensordot (Alloc.colMajor A) (Ex.m332.map val) (Ex.m32.map val) [2, 1] [1, 0] = .ok (R.map (Expr.eval val)) := by
  obtain ⟨R, -, h1, h2, -⟩ := C59_uniform UniformAlloc.colMajor Ex.m332 Ex.m32 _ _ [2, 1] [1, 0] Ex.paired Ex.e332 Ex.e32
  exact ⟨R, h1, h2⟩

example : ∃ w, tensordot (Alloc.rowMajor Fl) (Ex.m332.map fun z : Int => Fl.mk ((z : ℚ) / 10))
    (Ex.m32.map fun z : Int => Fl.mk ((z : ℚ) / 10)) [2, 1] [1, 0] = .ok w ∧ w.shape = [3] := by
  obtain ⟨w, h1, -, h2, -⟩ := C59_error Fl.rounded UniformAlloc.rowMajor _ _ _ _ [2, 1] [1, 0] Ex.paired
    (Ex.e332.map fun z : Int => Fl.mk ((z : ℚ) / 10)) (Ex.e32.map fun z : Int => Fl.mk ((z : ℚ) / 10))
  exact ⟨w, h1, h2⟩

/-- `1·6 + 2·5 + 3·4 + 4·3 + 5·2 + 6·1 = 56` -/
example : ∃ w, tensordot (Alloc.rowMajor Checked) (Ex.m332.map fun z : Int => Checked.mk (some z))
    (Ex.m32.map fun z : Int => Checked.mk (some z)) [2, 1] [1, 0] = .ok w ∧ ∃ y, w.read [1] = .ok y ∧ y.value = some 56 := by
  obtain ⟨w, h1, -, -, h2⟩ := C59_exact Checked.exactWithin UniformAlloc.rowMajor _ _ _ _ [2, 1] [1, 0] Ex.paired
    (Ex.e332.map fun z : Int => Checked.mk (some z)) (Ex.e32.map fun z : Int => Checked.mk (some z)) (by decide) (by decide)
    (Ex.of_map (f := fun z : Int => Checked.mk (some z)) (fun a => ⟨a, rfl⟩) [Ex.m332] _ (by simp))
    (Ex.of_map (f := fun z : Int => Checked.mk (some z)) (fun a => ⟨a, rfl⟩) [Ex.m32] _ (by simp))
  obtain ⟨y, y1, ⟨m, hm⟩, y3⟩ := h2 [1] [] (by decide) (by decide) (by decide +kernel)
  refine ⟨w, h1, y, y1, ?_⟩
  have : pairedSum Ex.m332.shape Ex.m32.shape [2, 1] [1, 0] (Ex.elems Ex.m332) (Ex.elems Ex.m32) [1] [] = 56 := by
    decide +kernel
  rw [hm] at y3 ⊢
  exact congrArg some (y3.trans this)

end Einsum
