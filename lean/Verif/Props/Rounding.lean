import Verif.Props.Main
import Verif.Props.NonComm
import Verif.Proofs.Natural
import Verif.Proofs.Rounding
import Mathlib.Data.Rat.Floor
import Mathlib.Data.Int.Log

/-!
# Properties C52, C53: element types without laws, rounding errors
-/

namespace Einsum

open Spec

/-! ## Uniform allocators -/

theorem Spec.UniformAlloc.compat (al : UniformAlloc) {A B : Type} (f : A → B) : Compat f (al.alloc A) (al.alloc B) :=
  ⟨fun p shape data => al.make_map f p shape data, fun p n => al.sumOrder_eq A B p n⟩

/-- Everything row-major. -/
def Spec.UniformAlloc.rowMajor : UniformAlloc where
  alloc := Alloc.rowMajor
  make_map := fun _ _ _ _ => rfl
  sumOrder_eq := fun _ _ _ _ => rfl

/-- Everything column-major, sums taken in reverse. -/
def Spec.UniformAlloc.colMajor : UniformAlloc where
  alloc := Alloc.colMajor
  make_map := fun f _ shape data => by
    simp only [Alloc.colMajor, Einsum.colMajor, View.map, List.map_filterMap, List.getElem?_map]
  sumOrder_eq := fun _ _ _ _ => rfl

/-- Everything row-major, matrix products computed by fused multiply-add. -/
def Spec.UniformAlloc.fused : UniformAlloc where
  alloc := Alloc.fused
  make_map := fun _ _ _ _ => rfl
  sumOrder_eq := fun _ _ _ _ => rfl

/-! ## Mapping calls -/

theorem View.Wf.map {A B : Type} {v : View A} (hv : v.Wf) (f : A → B) : (v.map f).Wf := by
  refine ⟨hv.1, fun idx hi => ?_⟩
  obtain ⟨x, hx⟩ := hv.2 idx hi
  exact ⟨f x, by rw [View.read_map, hx]; rfl⟩

theorem View.Wf.of_map {A B : Type} {v : View A} {f : A → B} (hv : (v.map f).Wf) : v.Wf := by
  refine ⟨hv.1, fun idx hi => ?_⟩
  obtain ⟨x, hx⟩ := hv.2 idx hi
  rw [View.read_map] at hx
  cases h : v.read idx with
  | error e => rw [h] at hx; simp [Except.map] at hx
  | ok y => exact ⟨y, rfl⟩

theorem Spec.Elements.map {A B : Type} {v : View A} {t : List Nat → A} (hv : Elements v t) (f : A → B) :
    Elements (v.map f) fun idx => f (t idx) :=
  ⟨hv.1.map f, fun idx hi => by rw [View.read_map, hv.2 idx hi]; rfl⟩

theorem elements_map {A B : Type} {vs : List (View A)} {ts : List (List Nat → A)}
    (h : List.Forall₂ Elements vs ts) (f : A → B) :
    List.Forall₂ Elements (vs.map (View.map f)) (ts.map fun t idx => f (t idx)) := by
  induction h with
  | nil => exact .nil
  | cons h _ ih => exact .cons (h.map f) ih

theorem Spec.Call.map {A B : Type} {s : String} {operands : List (View A)} {inputs : List (List Char)}
    {out : List Char} {dims : Char → Nat} {ts : List (List Nat → A)} (hc : Call s operands inputs out dims ts)
    (f : A → B) : Call s (operands.map (View.map f)) inputs out dims (ts.map fun t idx => f (t idx)) :=
  ⟨hc.denotes, by rw [map_shapes]; exact hc.sized, elements_map hc.elements f⟩

instance {V : Type} : Zero (Expr V) := ⟨.zero⟩
instance {V : Type} : Add (Expr V) := ⟨.add⟩
instance {V : Type} : Mul (Expr V) := ⟨.mul⟩
instance {V : Type} : MulAdd (Expr V) := ⟨.mulAdd⟩

theorem eval_opHom {V A : Type} [Zero A] [Add A] [Mul A] [MulAdd A] (f : V → A) : OpHom (Expr.eval f) :=
  ⟨rfl, fun _ _ => rfl, fun _ _ => rfl, fun _ _ _ => rfl⟩

theorem map_var_eval {V A : Type} [Zero A] [Add A] [Mul A] [MulAdd A] (f : V → A) (operands : List (View V)) :
    (operands.map (View.map Expr.var)).map (View.map (Expr.eval f)) = operands.map (View.map f) := by
  rw [List.map_map]
  apply List.map_congr_left
  intro v _
  simp only [Function.comp, View.map, List.map_map]
  rfl

theorem View.map_id {A : Type} (v : View A) : v.map id = v := by simp [View.map]

theorem map_map_id {A : Type} (l : List (View A)) : l.map (View.map id) = l := by
  induction l with
  | nil => rfl
  | cons v l ih => rw [List.map_cons, ih, View.map_id]

/-! ## C52 -/

/-- C52: applying a map that respects `0`, `+`, `*` and fused multiply-add to the elements before or after the call is the same, for every
string and all operands, valid or not; errors and panics are the same.  No law is assumed. -/
theorem C52_natural {A B : Type} [Zero A] [Add A] [Mul A] [MulAdd A] [Zero B] [Add B] [Mul B] [MulAdd B] (f : A → B) (hf : OpHom f)
    (h : HashOrd) (al : UniformAlloc) (s : String) (operands : List (View A)) :
    einsum h (al.alloc B) s (operands.map (View.map f)) =
      (einsum h (al.alloc A) s operands).map (Except.map (View.map f)) :=
  einsum_map hf (al.compat f) h s operands

theorem Ex.ofInt_hom : OpHom (BitVec.ofInt 8) :=
  ⟨rfl, BitVec.ofInt_add, BitVec.ofInt_mul, fun x y z => by
    change BitVec.ofInt 8 (x * y + z) = BitVec.ofInt 8 x * BitVec.ofInt 8 y + BitVec.ofInt 8 z
    rw [BitVec.ofInt_add, BitVec.ofInt_mul]⟩

example (s : String) (operands : List (View Int)) :
    einsum HashOrd.reversed (Alloc.colMajor (BitVec 8)) s (operands.map (View.map (BitVec.ofInt 8))) =
      (einsum HashOrd.reversed (Alloc.colMajor Int) s operands).map (Except.map (View.map (BitVec.ofInt 8))) :=
  C52_natural _ Ex.ofInt_hom HashOrd.reversed UniformAlloc.colMajor s operands

/-- C52: the expressions computed do not depend on the elements: for named elements (operands over a type `V` of
names) there is one array of expressions, which has the value of the Einstein sum in every commutative semiring, and
whatever type the elements have and whatever their values are, `einsum` returns the values of these expressions. -/
theorem C52_uniform {V : Type} (h : HashOrd) (al : UniformAlloc) (s : String) (operands : List (View V))
    (inputs : List (List Char)) (out : List Char) (dims : Char → Nat) (ts : List (List Nat → V))
    (hc : Call s operands inputs out dims ts) (hn : NoEmptyDiagonal dims inputs) :
    ∃ R : View (Expr V), IsFormalEinsum dims inputs ts out R ∧
      ∀ (A : Type) [Zero A] [Add A] [Mul A] [MulAdd A] (val : V → A),
        einsum h (al.alloc A) s (operands.map (View.map val)) = .ok (.ok (R.map (Expr.eval val))) := by
  have key : ∀ (A : Type) [Zero A] [Add A] [Mul A] [MulAdd A] (val : V → A),
      einsum h (al.alloc A) s (operands.map (View.map val)) =
        (einsum h (al.alloc (Expr V)) s (operands.map (View.map Expr.var))).map
          (Except.map (View.map (Expr.eval val))) := by
    intro A _ _ _ _ val
    rw [← map_var_eval val]
    exact einsum_map (eval_opHom val) (al.compat _) h s _
  obtain ⟨r, h1, h2⟩ := C13_einsum h (al.alloc ℕ) s _ inputs out dims _ (hc.map fun _ => 0) hn
  rw [key] at h1
  cases hR : einsum h (al.alloc (Expr V)) s (operands.map (View.map Expr.var)) with
  | error e => rw [hR] at h1; simp [Except.map] at h1
  | ok x =>
    cases x with
    | error e => rw [hR] at h1; simp [Except.map] at h1
    | ok R =>
      rw [hR] at h1
      simp only [Except.map, Except.ok.injEq] at h1
      rw [hR] at key
      refine ⟨R, ⟨.of_map (f := Expr.eval fun _ => (0 : ℕ)) (h1 ▸ h2.1), ?_, fun σ hσ => ?_⟩, fun A _ _ _ _ val => key A val⟩
      · rw [← h2.2.1, ← h1]; rfl
      · have hσr := h2.2.2 σ hσ
        rw [← h1, View.read_map] at hσr
        cases he : R.read (out.map σ) with
        | error e => rw [he] at hσr; simp [Except.map] at hσr
        | ok e =>
          refine ⟨e, rfl, fun S _ f => ?_⟩
          obtain ⟨r', g1, g2⟩ := C13_einsum h (al.alloc S) s _ inputs out dims _ (hc.map f) hn
          rw [key] at g1
          simp only [Except.map, Except.ok.injEq] at g1
          have := g2.2.2 σ hσ
          rw [← g1, View.read_map, he] at this
          simpa [Except.map] using this

/-- C52: in particular each element of the result is the value of an expression in the operands' elements, for
element types without any laws. -/
theorem C52_expression {A : Type} [Zero A] [Add A] [Mul A] [MulAdd A] (h : HashOrd) (al : UniformAlloc) (s : String)
    (operands : List (View A)) (inputs : List (List Char)) (out : List Char) (dims : Char → Nat)
    (ts : List (List Nat → A)) (hc : Call s operands inputs out dims ts) (hn : NoEmptyDiagonal dims inputs) :
    ∃ r, einsum h (al.alloc A) s operands = .ok (.ok r) ∧ r.Wf ∧ r.shape = out.map dims ∧
      ∀ σ, InRange dims out σ → ∃ e : Expr A, r.read (out.map σ) = .ok (e.eval id) ∧
        ∀ (S : Type) [CommSemiring S] (f : A → S),
          e.eval f = Spec.einsum dims inputs (ts.map fun t idx => f (t idx)) out σ := by
  obtain ⟨R, ⟨h1, h2, h3⟩, h4⟩ := C52_uniform h al s operands inputs out dims ts hc hn
  refine ⟨R.map (Expr.eval id), ?_, h1.map _, h2, fun σ hσ => ?_⟩
  · have := h4 A id
    rwa [map_map_id] at this
  · obtain ⟨e, e1, e2⟩ := h3 σ hσ
    exact ⟨e, by rw [View.read_map, e1]; rfl, e2⟩

/-- C52: where multiplication does not commute the expressions have the value described by C48. -/
theorem C52_ordered {V : Type} (h : HashOrd) (al : UniformAlloc) (s : String) (operands : List (View V))
    (inputs : List (List Char)) (out : List Char) (dims : Char → Nat) (ts : List (List Nat → V))
    (hc : Call s operands inputs out dims ts) (hn : NoEmptyDiagonal dims inputs) :
    ∃ R : View (Expr V), R.Wf ∧ R.shape = out.map dims ∧
      (∀ (A : Type) [Zero A] [Add A] [Mul A] [MulAdd A] (val : V → A),
        einsum h (al.alloc A) s (operands.map (View.map val)) = .ok (.ok (R.map (Expr.eval val)))) ∧
      ∀ σ, InRange dims out σ → ∃ e : Expr V, R.read (out.map σ) = .ok e ∧ ∀ (S : Type) [Semiring S] (f : V → S),
        e.eval f = einsumOrdered dims inputs (ts.map fun t idx => f (t idx)) out σ := by
  obtain ⟨R, ⟨h1, h2, h3⟩, h4⟩ := C52_uniform h al s operands inputs out dims ts hc hn
  refine ⟨R, h1, h2, h4, fun σ hσ => ?_⟩
  obtain ⟨e, e1, -⟩ := h3 σ hσ
  refine ⟨e, e1, fun S _ f => ?_⟩
  obtain ⟨r', g1, g2⟩ := C48_einsum h (al.alloc S) s _ inputs out dims _ (hc.map f) hn
  rw [h4] at g1
  simp only [Except.ok.injEq] at g1
  have := g2.2.2 σ hσ
  rw [← g1, View.read_map, e1] at this
  simpa [Except.map] using this

/-- C52: the same for a compiled path, run on operands of any element type. -/
theorem C52_path {V : Type} (h : HashOrd) (al : UniformAlloc) (s : String) (operands : List (View V))
    (inputs : List (List Char)) (out : List Char) (dims : Char → Nat) (ts : List (List Nat → V))
    (m : OptimizationMethod) (hm : m = .naive ∨ m = .reverse)
    (hc : Call s operands inputs out dims ts) (hn : NoEmptyDiagonal dims inputs) :
    ∃ p, einsumPath h s operands m = .ok (.ok p) ∧ ∃ R : View (Expr V), IsFormalEinsum dims inputs ts out R ∧
      ∀ (A : Type) [Zero A] [Add A] [Mul A] [MulAdd A] (val : V → A),
        p.contractOperands (al.alloc A) (operands.map (View.map val)) = .ok (R.map (Expr.eval val)) := by
  obtain ⟨p, p1, p2⟩ := einsumPath_ok hc.denotes hc.sized h hm
  refine ⟨p, p1, ?_⟩
  have key : ∀ (A : Type) [Zero A] [Add A] [Mul A] [MulAdd A] (val : V → A),
      p.contractOperands (al.alloc A) (operands.map (View.map val)) =
        (p.contractOperands (al.alloc (Expr V)) (operands.map (View.map Expr.var))).map
          (View.map (Expr.eval val)) := by
    intro A _ _ _ _ val
    rw [← map_var_eval val]
    exact p.contractOperands_map (eval_opHom val) (al.compat _) _
  have ok : ∀ (S : Type) [CommSemiring S] (f : V → S), ∃ r,
      p.contractOperands (al.alloc S) (operands.map (View.map f)) = .ok r ∧
        IsEinsum dims inputs (ts.map fun t idx => f (t idx)) out r := fun S _ f =>
    (p2.outcome hc.denotes.outputOk.1 (hc.map f).sized (hc.map f).elements (al.alloc S)).1 (not_emptyDiagonal hn)
  obtain ⟨r, h1, h2⟩ := ok ℕ fun _ => 0
  rw [key] at h1
  cases hR : p.contractOperands (al.alloc (Expr V)) (operands.map (View.map Expr.var)) with
  | error e => rw [hR] at h1; simp [Except.map] at h1
  | ok R =>
    rw [hR] at h1
    simp only [Except.map, Except.ok.injEq] at h1
    rw [hR] at key
    refine ⟨R, ⟨.of_map (f := Expr.eval fun _ => (0 : ℕ)) (h1 ▸ h2.1), ?_, fun σ hσ => ?_⟩, fun A _ _ _ _ val => key A val⟩
    · rw [← h2.2.1, ← h1]; rfl
    · have hσr := h2.2.2 σ hσ
      rw [← h1, View.read_map] at hσr
      cases he : R.read (out.map σ) with
      | error e => rw [he] at hσr; simp [Except.map] at hσr
      | ok e =>
        refine ⟨e, rfl, fun S _ f => ?_⟩
        obtain ⟨r', g1, g2⟩ := ok S f
        rw [key] at g1
        simp only [Except.map, Except.ok.injEq] at g1
        have := g2.2.2 σ hσ
        rw [← g1, View.read_map, he] at this
        simpa [Except.map] using this

/-! ## C53 -/

theorem sumOver_const {ι A : Type} [DecidableEq ι] [Semiring A] (dims : ι → Nat) (cs : List ι) (a : A) (σ : ι → Nat) :
    sumOver dims cs (fun _ => a) σ = ((cs.map dims).prod : ℕ) * a := by
  induction cs generalizing σ with
  | nil => simp [sumOver]
  | cons c cs ih => simp [sumOver, ih, mul_assoc]

theorem term_const {V A : Type} [CommMonoid A] (a : A) (inputs : List (List Char)) (ts : List (List Nat → V))
    (hl : ts.length = inputs.length) (σ : Char → Nat) :
    term inputs (ts.map fun (_ : List Nat → V) (_ : List Nat) => a) σ = a ^ inputs.length := by
  unfold term
  induction inputs generalizing ts with
  | nil => simp
  | cons ix inputs ih =>
    cases ts with
    | nil => simp at hl
    | cons t ts =>
      rw [List.map_cons, List.zipWith_cons_cons, List.prod_cons, ih ts (by simpa using hl), List.length_cons, pow_succ']

theorem einsum_const {V A : Type} [CommSemiring A] (a : A) (dims : Char → Nat) (inputs : List (List Char))
    (ts : List (List Nat → V)) (out : List Char) (hl : ts.length = inputs.length) (σ : Char → Nat) :
    Spec.einsum dims inputs (ts.map fun (_ : List Nat → V) (_ : List Nat) => a) out σ =
      (termCount dims inputs out : ℕ) * a ^ inputs.length := by
  unfold Spec.einsum termCount
  rw [← sumOver_const dims (summed inputs out) _ σ]
  congr 1
  funext σ
  exact term_const a inputs ts hl σ

theorem Spec.Call.length {A : Type} {s : String} {operands : List (View A)} {inputs : List (List Char)}
    {out : List Char} {dims : Char → Nat} {ts : List (List Nat → A)} (hc : Call s operands inputs out dims ts) :
    ts.length = inputs.length := by
  have h1 := hc.elements.length_eq
  have h2 : inputs.length = (operands.map View.shape).length := hc.sized.length_eq
  simp only [List.length_map] at h2
  omega

variable {F K : Type} [Zero F] [Add F] [Mul F] [MulAdd F] [Field K] [LinearOrder K] [IsStrictOrderedRing K]

open Polynomial in
theorem formal_error {val : F → K} {u : K} (hr : Rounded val u) {dims : Char → Nat} {inputs : List (List Char)}
    {ts : List (List Nat → F)} {out : List Char} (hl : ts.length = inputs.length) {σ : Char → Nat} {e : Expr F}
    (he : ∀ (S : Type) [CommSemiring S] (f : F → S),
      e.eval f = Spec.einsum dims inputs (ts.map fun t idx => f (t idx)) out σ) :
    |val (e.eval id) - Spec.einsum dims inputs (ts.map fun t idx => val (t idx)) out σ| ≤
      ((1 + u) ^ (termCount dims inputs out + inputs.length - 2) - 1) *
        Spec.einsum dims inputs (ts.map fun t idx => |val (t idx)|) out σ := by
  have h := expr_error hr e
  rw [he K val, he K (fun a => |val a|), he ℕ[X] (fun _ => X), einsum_const X dims inputs ts out hl σ] at h
  obtain ⟨-, ⟨-, h1, h2, h3⟩ | ⟨-, -, h1⟩⟩ := h
  · rw [h1, h2, h3]; simp
  · refine h1.trans ?_
    have hm : 0 ≤ Spec.einsum dims inputs (ts.map fun t idx => |val (t idx)|) out σ := by
      rw [← he K (fun a => |val a|)]
      exact (abs_nonneg _).trans (expr_error hr e).1
    refine mul_le_mul_of_nonneg_right (sub_le_sub_right (pow_bound_mono hr.nonneg ?_) 1) hm
    have hd : ((termCount dims inputs out : ℕ[X]) * X ^ inputs.length).natDegree ≤ inputs.length := by
      refine natDegree_mul_le.trans ?_
      rw [natDegree_natCast, natDegree_X_pow]
      omega
    simp only [steps, eval_mul, eval_natCast, eval_pow, eval_X, one_pow, mul_one]
    simp only [Nat.cast_id]
    omega

/-- C53: with `+`, `*` and fused multiply-add correct up to the relative error `u`, each element of the result differs from the exact
Einstein sum by at most `(1 + u) ^ (N + k - 2) - 1` times the Einstein sum of the absolute values; `N` is the number
of terms summed for the element and `k` the number of operands. -/
theorem C53_error {val : F → K} {u : K} (hr : Rounded val u) (h : HashOrd) (al : UniformAlloc) (s : String)
    (operands : List (View F)) (inputs : List (List Char)) (out : List Char) (dims : Char → Nat)
    (ts : List (List Nat → F)) (hc : Call s operands inputs out dims ts) (hn : NoEmptyDiagonal dims inputs) :
    ∃ r, einsum h (al.alloc F) s operands = .ok (.ok r) ∧ r.Wf ∧ r.shape = out.map dims ∧
      ∀ σ, InRange dims out σ → ∃ y, r.read (out.map σ) = .ok y ∧
        |val y - Spec.einsum dims inputs (ts.map fun t idx => val (t idx)) out σ| ≤
          ((1 + u) ^ (termCount dims inputs out + inputs.length - 2) - 1) *
            Spec.einsum dims inputs (ts.map fun t idx => |val (t idx)|) out σ := by
  obtain ⟨r, h1, h2, h3, h4⟩ := C52_expression h al s operands inputs out dims ts hc hn
  refine ⟨r, h1, h2, h3, fun σ hσ => ?_⟩
  obtain ⟨e, e1, e2⟩ := h4 σ hσ
  exact ⟨_, e1, formal_error hr hc.length e2⟩

/-- C53: the same for compiled paths in either order. -/
theorem C53_path {val : F → K} {u : K} (hr : Rounded val u) (h : HashOrd) (al : UniformAlloc) (s : String)
    (operands : List (View F)) (inputs : List (List Char)) (out : List Char) (dims : Char → Nat)
    (ts : List (List Nat → F)) (m : OptimizationMethod) (hm : m = .naive ∨ m = .reverse)
    (hc : Call s operands inputs out dims ts) (hn : NoEmptyDiagonal dims inputs) :
    ∃ p r, einsumPath h s operands m = .ok (.ok p) ∧ p.contractOperands (al.alloc F) operands = .ok r ∧
      r.Wf ∧ r.shape = out.map dims ∧
      ∀ σ, InRange dims out σ → ∃ y, r.read (out.map σ) = .ok y ∧
        |val y - Spec.einsum dims inputs (ts.map fun t idx => val (t idx)) out σ| ≤
          ((1 + u) ^ (termCount dims inputs out + inputs.length - 2) - 1) *
            Spec.einsum dims inputs (ts.map fun t idx => |val (t idx)|) out σ := by
  obtain ⟨p, p1, R, ⟨h1, h2, h3⟩, h4⟩ := C52_path h al s operands inputs out dims ts m hm hc hn
  have := h4 F id
  rw [map_map_id] at this
  refine ⟨p, _, p1, this, h1.map _, h2, fun σ hσ => ?_⟩
  obtain ⟨e, e1, e2⟩ := h3 σ hσ
  exact ⟨e.eval id, by rw [View.read_map, e1]; rfl, formal_error hr hc.length e2⟩

/-- C53: two runs with different hash orders, layouts and orders of additions differ by at most twice the bound. -/
theorem C53_reproducible {val : F → K} {u : K} (hr : Rounded val u) (h h' : HashOrd) (al al' : UniformAlloc)
    (s : String) (operands : List (View F)) (inputs : List (List Char)) (out : List Char) (dims : Char → Nat)
    (ts : List (List Nat → F)) (hc : Call s operands inputs out dims ts) (hn : NoEmptyDiagonal dims inputs) :
    ∃ r r', einsum h (al.alloc F) s operands = .ok (.ok r) ∧ einsum h' (al'.alloc F) s operands = .ok (.ok r') ∧
      ∀ σ, InRange dims out σ → ∃ y y', r.read (out.map σ) = .ok y ∧ r'.read (out.map σ) = .ok y' ∧
        |val y - val y'| ≤ 2 * (((1 + u) ^ (termCount dims inputs out + inputs.length - 2) - 1) *
            Spec.einsum dims inputs (ts.map fun t idx => |val (t idx)|) out σ) := by
  obtain ⟨r, h1, -, -, h2⟩ := C53_error hr h al s operands inputs out dims ts hc hn
  obtain ⟨r', h1', -, -, h2'⟩ := C53_error hr h' al' s operands inputs out dims ts hc hn
  refine ⟨r, r', h1, h1', fun σ hσ => ?_⟩
  obtain ⟨y, y1, y2⟩ := h2 σ hσ
  obtain ⟨y', y1', y2'⟩ := h2' σ hσ
  refine ⟨y, y', y1, y1', ?_⟩
  have := abs_sub_le (val y) (Spec.einsum dims inputs (ts.map fun t idx => val (t idx)) out σ) (val y')
  rw [abs_sub_comm (Spec.einsum dims inputs _ out σ)] at this
  linarith

/-! ### An example of such numbers: binary floating point with 53 bits and unbounded exponents -/

namespace Fl

/-- Round to a multiple of `2 ^ (⌊log₂ |q|⌋ - 52)`. -/
def rnd (q : ℚ) : ℚ := round (q / 2 ^ (Int.log 2 |q| - 52)) * 2 ^ (Int.log 2 |q| - 52)

theorem rnd_error (q : ℚ) : |rnd q - q| ≤ 2⁻¹ ^ 53 * |q| := by
  by_cases hq : q = 0
  · simp [hq, rnd]
  have hp : (0 : ℚ) < 2 ^ (Int.log 2 |q| - 52) := zpow_pos (by norm_num) _
  have h1 := abs_sub_round (q / 2 ^ (Int.log 2 |q| - 52))
  have h2 : (2 : ℚ) ^ Int.log 2 |q| ≤ |q| := by
    have := Int.zpow_log_le_self (b := 2) (r := |q|) (by norm_num) (abs_pos.2 hq)
    exact_mod_cast this
  have h3 : |rnd q - q| = |q / 2 ^ (Int.log 2 |q| - 52) - round (q / 2 ^ (Int.log 2 |q| - 52))| *
      2 ^ (Int.log 2 |q| - 52) := by
    rw [← abs_of_pos hp, ← abs_mul, sub_mul, abs_of_pos hp, div_mul_cancel₀ _ hp.ne', abs_sub_comm]
    rfl
  have h4 : (2 : ℚ) ^ (Int.log 2 |q| - 52) = 2⁻¹ ^ 52 * 2 ^ Int.log 2 |q| := by
    rw [zpow_sub₀ (by norm_num)]
    norm_num
    ring
  rw [h3]
  calc _ ≤ 1 / 2 * (2 : ℚ) ^ (Int.log 2 |q| - 52) := by gcongr
    _ = 2⁻¹ ^ 53 * 2 ^ Int.log 2 |q| := by rw [h4]; ring
    _ ≤ _ := by gcongr

end Fl

/-- Rational numbers with rounded operations, among them fused multiply-add. -/
structure Fl where
  q : ℚ
  deriving DecidableEq

namespace Fl

instance : Zero Fl := ⟨⟨0⟩⟩
instance : Add Fl := ⟨fun x y => if x.q = 0 then y else if y.q = 0 then x else ⟨rnd (x.q + y.q)⟩⟩
instance : Mul Fl := ⟨fun x y => ⟨rnd (x.q * y.q)⟩⟩
instance : MulAdd Fl := ⟨fun x y z => if x.q * y.q = 0 then z else ⟨rnd (x.q * y.q + z.q)⟩⟩

theorem rounded : Rounded Fl.q (2⁻¹ ^ 53) where
  nonneg := by positivity
  zero := rfl
  add := fun x y => by
    change |(if x.q = 0 then y else if y.q = 0 then x else ⟨rnd (x.q + y.q)⟩ : Fl).q - _| ≤ _
    split
    · rename_i hx; rw [hx]; simp
    · split
      · rename_i hy; rw [hy]; simp
      · exact rnd_error _
  mul := fun x y => rnd_error _
  mulAdd := fun x y z => by
    refine .inr ⟨?_, fun h => ?_⟩
    · change |(if x.q * y.q = 0 then z else ⟨rnd (x.q * y.q + z.q)⟩ : Fl).q - _| ≤ _
      split
      · rename_i h; rw [h]; simp
      · exact rnd_error _
    · change (if x.q * y.q = 0 then z else ⟨rnd (x.q * y.q + z.q)⟩ : Fl).q = _
      rw [if_pos h]
  zero_add := fun x y hx => by
    change (if x.q = 0 then y else if y.q = 0 then x else ⟨rnd (x.q + y.q)⟩ : Fl).q = _
    rw [if_pos hx]
  add_zero := fun x y hy => by
    change (if x.q = 0 then y else if y.q = 0 then x else ⟨rnd (x.q + y.q)⟩ : Fl).q = _
    split
    · rename_i hx; rw [hx, hy]
    · simp

end Fl

/-- Each entry of the product of a 2 by 3 and a 3 by 2 matrix has at most three roundings: 3 + 2 - 2. -/
example : ∃ r, einsum HashOrd.reversed (Alloc.colMajor Fl) "ij,jk->ik"
      ([Ex.m23, Ex.m32].map (View.map fun z : Int => Fl.mk ((z : ℚ) / 10))) = .ok (.ok r) ∧
    ∀ σ, InRange Ex.dims ['i', 'k'] σ → ∃ y, r.read [σ 'i', σ 'k'] = .ok y ∧
      |y.q - Spec.einsum Ex.dims [['i', 'j'], ['j', 'k']]
        [fun idx => (Ex.elems Ex.m23 idx : ℚ) / 10, fun idx => (Ex.elems Ex.m32 idx : ℚ) / 10] ['i', 'k'] σ| ≤
      ((1 + 2⁻¹ ^ 53) ^ 3 - 1) * Spec.einsum Ex.dims [['i', 'j'], ['j', 'k']]
        [fun idx => |(Ex.elems Ex.m23 idx : ℚ) / 10|, fun idx => |(Ex.elems Ex.m32 idx : ℚ) / 10|] ['i', 'k'] σ := by
  obtain ⟨r, h1, -, -, h2⟩ := C53_error Fl.rounded HashOrd.reversed UniformAlloc.colMajor "ij,jk->ik" _ _ _ _ _
    (Ex.call_matmul.map fun z : Int => Fl.mk ((z : ℚ) / 10)) Ex.ned_matmul
  exact ⟨r, h1, h2⟩

example : ∃ p r, einsumPath HashOrd.insertion "ij,jk->ik"
      ([Ex.m23, Ex.m32].map (View.map fun z : Int => Fl.mk ((z : ℚ) / 10))) .reverse = .ok (.ok p) ∧
    p.contractOperands (Alloc.rowMajor Fl)
      ([Ex.m23, Ex.m32].map (View.map fun z : Int => Fl.mk ((z : ℚ) / 10))) = .ok r := by
  obtain ⟨p, r, h1, h2, -⟩ := C53_path Fl.rounded HashOrd.insertion UniformAlloc.rowMajor "ij,jk->ik" _ _ _ _ _
    .reverse (.inr rfl) (Ex.call_matmul.map fun z : Int => Fl.mk ((z : ℚ) / 10)) Ex.ned_matmul
  exact ⟨p, r, h1, h2⟩

example : ∃ r r', einsum HashOrd.insertion (Alloc.rowMajor Fl) "ij,jk->ik"
      ([Ex.m23, Ex.m32].map (View.map fun z : Int => Fl.mk ((z : ℚ) / 10))) = .ok (.ok r) ∧
    einsum HashOrd.reversed (Alloc.colMajor Fl) "ij,jk->ik"
      ([Ex.m23, Ex.m32].map (View.map fun z : Int => Fl.mk ((z : ℚ) / 10))) = .ok (.ok r') := by
  obtain ⟨r, r', h1, h2, -⟩ := C53_reproducible Fl.rounded HashOrd.insertion HashOrd.reversed UniformAlloc.rowMajor
    UniformAlloc.colMajor "ij,jk->ik" _ _ _ _ _ (Ex.call_matmul.map fun z : Int => Fl.mk ((z : ℚ) / 10))
    Ex.ned_matmul
  exact ⟨r, r', h1, h2⟩

/-- The same bound holds where the products are added by fused multiply-add. -/
example : ∃ r, einsum HashOrd.reversed (Alloc.fused Fl) "ij,jk->ik"
      ([Ex.m23, Ex.m32].map (View.map fun z : Int => Fl.mk ((z : ℚ) / 10))) = .ok (.ok r) ∧
    ∀ σ, InRange Ex.dims ['i', 'k'] σ → ∃ y, r.read [σ 'i', σ 'k'] = .ok y ∧
      |y.q - Spec.einsum Ex.dims [['i', 'j'], ['j', 'k']]
        [fun idx => (Ex.elems Ex.m23 idx : ℚ) / 10, fun idx => (Ex.elems Ex.m32 idx : ℚ) / 10] ['i', 'k'] σ| ≤
      ((1 + 2⁻¹ ^ 53) ^ 3 - 1) * Spec.einsum Ex.dims [['i', 'j'], ['j', 'k']]
        [fun idx => |(Ex.elems Ex.m23 idx : ℚ) / 10|, fun idx => |(Ex.elems Ex.m32 idx : ℚ) / 10|] ['i', 'k'] σ := by
  obtain ⟨r, h1, -, -, h2⟩ := C53_error Fl.rounded HashOrd.reversed UniformAlloc.fused "ij,jk->ik" _ _ _ _ _
    (Ex.call_matmul.map fun z : Int => Fl.mk ((z : ℚ) / 10)) Ex.ned_matmul
  exact ⟨r, h1, h2⟩

/-- C53: fused multiply-add can be seen in the result: with `x = 1 + 2⁻⁵²` and `y = -(1 + 2⁻⁵¹)` the scalar product of
`(y, x)` and `(1, x)` is `2⁻¹⁰⁴` with it and `0` without. -/
theorem C53_fused :
    einsum HashOrd.insertion (Alloc.fused Fl) "i,i->"
        [⟨[⟨-(1 + 2⁻¹ ^ 51)⟩, ⟨1 + 2⁻¹ ^ 52⟩], 0, [2], [1]⟩, ⟨[⟨1⟩, ⟨1 + 2⁻¹ ^ 52⟩], 0, [2], [1]⟩] =
      .ok (.ok ⟨[⟨2⁻¹ ^ 104⟩], 0, [], []⟩) ∧
    einsum HashOrd.insertion (Alloc.rowMajor Fl) "i,i->"
        [⟨[⟨-(1 + 2⁻¹ ^ 51)⟩, ⟨1 + 2⁻¹ ^ 52⟩], 0, [2], [1]⟩, ⟨[⟨1⟩, ⟨1 + 2⁻¹ ^ 52⟩], 0, [2], [1]⟩] =
      .ok (.ok ⟨[⟨0⟩], 0, [], []⟩) :=
  ⟨by decide +kernel, by decide +kernel⟩

/-- Three operands over the lawless type `Fl`. -/
example : ∃ r, einsum HashOrd.reversed (Alloc.rowMajor Fl) "ij,jjk,kj->ij"
      ([Ex.m23, Ex.m332, Ex.m23].map (View.map fun z : Int => Fl.mk ((z : ℚ) / 10))) = .ok (.ok r) := by
  obtain ⟨r, h1, -⟩ := C52_expression HashOrd.reversed UniformAlloc.rowMajor "ij,jjk,kj->ij" _ _ _ _ _
    (Ex.call_three.map fun z : Int => Fl.mk ((z : ℚ) / 10)) Ex.ned_three
  exact ⟨r, h1⟩

/-- One array of expressions gives the result for all element types. -/
example : ∃ R : View (Expr Int), ∀ (A : Type) [Zero A] [Add A] [Mul A] [MulAdd A] (val : Int → A),
    einsum HashOrd.reversed (Alloc.rowMajor A) "ij,jk->ik" ([Ex.m23, Ex.m32].map (View.map val)) =
      .ok (.ok (R.map (Expr.eval val))) := by
  obtain ⟨R, -, h⟩ := C52_uniform HashOrd.reversed UniformAlloc.rowMajor "ij,jk->ik" _ _ _ _ _
    Ex.call_matmul Ex.ned_matmul
  exact ⟨R, h⟩

example : ∃ R : View (Expr Int), R.shape = [2, 2] ∧ R.Wf := by
  obtain ⟨R, h1, h2, -⟩ := C52_ordered HashOrd.reversed UniformAlloc.rowMajor "ij,jk->ik" _ _ _ _ _
    Ex.call_matmul Ex.ned_matmul
  exact ⟨R, h2, h1⟩

example : ∃ p, einsumPath HashOrd.reversed "ij,jk->ik" [Ex.m23, Ex.m32] .reverse = .ok (.ok p) ∧
    ∃ R : View (Expr Int), ∀ (A : Type) [Zero A] [Add A] [Mul A] [MulAdd A] (val : Int → A),
      p.contractOperands (Alloc.rowMajor A) ([Ex.m23, Ex.m32].map (View.map val)) = .ok (R.map (Expr.eval val)) := by
  obtain ⟨p, h1, R, -, h⟩ := C52_path HashOrd.reversed UniformAlloc.rowMajor "ij,jk->ik" _ _ _ _ _ .reverse (.inr rfl)
    Ex.call_matmul Ex.ned_matmul
  exact ⟨p, h1, R, h⟩

end Einsum
