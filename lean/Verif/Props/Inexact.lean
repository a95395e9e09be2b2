import Verif.SpecInexact
import Verif.Props.Norms
import Verif.Props.Backward

/-!
# C115: inaccurate data
-/

namespace Einsum
open Spec

section
variable {K : Type} [Field K] [LinearOrder K] [IsStrictOrderedRing K] {dims : Char → Nat}

theorem Spec.Inexact.one_le {inputs : List (List Char)} {es : List K} {ts xs : List (List Nat → K)}
    (h : Inexact dims inputs es ts xs) : 1 ≤ (es.map (1 + ·)).prod := by
  induction h with
  | nil => simp
  | @cons ix e t x inputs es ts xs h0 _ _ ih =>
    rw [List.map_cons, List.prod_cons]
    nlinarith

/-- The error of a product. -/
theorem inexact_term {inputs : List (List Char)} {es : List K} {ts xs : List (List Nat → K)}
    (h : Inexact dims inputs es ts xs) {τ : Char → Nat} (hτ : InRange dims inputs.flatten τ) :
    |term inputs ts τ - term inputs xs τ| ≤ ((es.map (1 + ·)).prod - 1) * |term inputs xs τ| := by
  induction h with
  | nil => simp [term]
  | @cons ix e t x inputs es ts xs h0 h1 h2 ih =>
    have ih := ih fun c hc => hτ c (by simp only [List.flatten_cons, List.mem_append]; exact .inr hc)
    have hx := h1 (ix.map τ) (InB_map.2 fun c hc => hτ c (by simp [hc]))
    rw [term_cons, term_cons, List.map_cons, List.prod_cons, abs_mul]
    have hE := h2.one_le
    generalize (es.map (1 + ·)).prod = E at *
    generalize term inputs ts τ = T at *
    generalize term inputs xs τ = X at *
    generalize t (ix.map τ) = p at *
    generalize x (ix.map τ) = q at *
    have hT : |T| ≤ E * |X| := by
      have := abs_sub_abs_le_abs_sub T X
      nlinarith
    calc |p * T - q * X| = |(p - q) * T + q * (T - X)| := by congr 1; ring
      _ ≤ |(p - q) * T| + |q * (T - X)| := abs_add_le _ _
      _ = |p - q| * |T| + |q| * |T - X| := by rw [abs_mul, abs_mul]
      _ ≤ (e * |q|) * (E * |X|) + |q| * ((E - 1) * |X|) :=
        add_le_add (mul_le_mul hx hT (abs_nonneg _) (by positivity)) (mul_le_mul_of_nonneg_left ih (abs_nonneg _))
      _ = ((1 + e) * E - 1) * (|q| * |X|) := by ring

theorem sumOver_abs_le {cs : List Char} (f : (Char → Nat) → K) (σ : Char → Nat) :
    |sumOver dims cs f σ| ≤ sumOver dims cs (fun τ => |f τ|) σ := by
  induction cs generalizing σ with
  | nil => exact le_rfl
  | cons c cs ih =>
    rw [sumOver_cons, sumOver_cons]
    exact (Finset.abs_sum_le_sum_abs _ _).trans (Finset.sum_le_sum fun v _ => ih _)

omit [LinearOrder K] [IsStrictOrderedRing K] in
theorem sumOver_sub' (cs : List Char) (f g : (Char → Nat) → K) (σ : Char → Nat) :
    sumOver dims cs (fun τ => f τ - g τ) σ = sumOver dims cs f σ - sumOver dims cs g σ := by
  induction cs generalizing σ with
  | nil => rfl
  | cons c cs ih => simp only [sumOver_cons, ih, Finset.sum_sub_distrib]

omit [LinearOrder K] [IsStrictOrderedRing K] in
theorem sumOver_const_mul (cs : List Char) (k : K) (f : (Char → Nat) → K) (σ : Char → Nat) :
    sumOver dims cs (fun τ => k * f τ) σ = k * sumOver dims cs f σ := by
  induction cs generalizing σ with
  | nil => rfl
  | cons c cs ih => simp only [sumOver_cons, ih, Finset.mul_sum]

theorem inRange_of {inputs : List (List Char)} {out : List Char} {σ τ : Char → Nat} (hσ : InRange dims out σ)
    (h1 : ∀ c, c ∉ summed inputs out → τ c = σ c) (h2 : InRange dims (summed inputs out) τ) :
    InRange dims inputs.flatten τ := fun c hc => by
  by_cases ho : c ∈ out
  · rw [h1 c fun hm => (mem_summed.1 hm).2 ho]; exact hσ c ho
  · exact h2 c (mem_summed.2 ⟨hc, ho⟩)

/-- The error of an Einstein sum. -/
theorem inexact_einsum {inputs : List (List Char)} {es : List K} {ts xs : List (List Nat → K)}
    (h : Inexact dims inputs es ts xs) {out : List Char} {σ : Char → Nat} (hσ : InRange dims out σ) :
    |Spec.einsum dims inputs ts out σ - Spec.einsum dims inputs xs out σ| ≤
      ((es.map (1 + ·)).prod - 1) * Spec.einsum dims inputs (xs.map fun x idx => |x idx|) out σ := by
  unfold Spec.einsum
  rw [← sumOver_sub', ← sumOver_const_mul]
  refine (sumOver_abs_le _ _).trans (sumOver_mono fun τ h1 h2 => ?_)
  rw [term_abs]
  exact inexact_term h (inRange_of hσ h1 h2)

theorem inexact_abs {inputs : List (List Char)} {es : List K} {ts xs : List (List Nat → K)}
    (h : Inexact dims inputs es ts xs) {out : List Char} {σ : Char → Nat} (hσ : InRange dims out σ) :
    Spec.einsum dims inputs (ts.map fun t idx => |t idx|) out σ ≤
      (es.map (1 + ·)).prod * Spec.einsum dims inputs (xs.map fun x idx => |x idx|) out σ := by
  unfold Spec.einsum
  rw [← sumOver_const_mul]
  refine sumOver_mono fun τ h1 h2 => ?_
  rw [term_abs, term_abs]
  have := inexact_term h (inRange_of hσ h1 h2)
  have := abs_sub_abs_le_abs_sub (term inputs ts τ) (term inputs xs τ)
  linarith

variable {F : Type} [Zero F] [Add F] [Mul F] [MulAdd F]

/-- C115: operands with relative errors, and operations with relative errors. -/
theorem C115_error {val : F → K} {u : K} (hr : Rounded val u) (h : HashOrd) (al : UniformAlloc) (s : String)
    (operands : List (View F)) (inputs : List (List Char)) (out : List Char) (dims : Char → Nat)
    (ts : List (List Nat → F)) (hc : Call s operands inputs out dims ts) (hn : NoEmptyDiagonal dims inputs)
    (es : List K) (xs : List (List Nat → K)) (hx : Inexact dims inputs es (ts.map fun t idx => val (t idx)) xs) :
    ∃ r, einsum h (al.alloc F) s operands = .ok (.ok r) ∧ r.Wf ∧ r.shape = out.map dims ∧
      ∀ σ, InRange dims out σ → ∃ y, r.read (out.map σ) = .ok y ∧
        |val y - Spec.einsum dims inputs xs out σ| ≤
          ((es.map (1 + ·)).prod * (1 + u) ^ (termCount dims inputs out + inputs.length - 2) - 1) *
            Spec.einsum dims inputs (xs.map fun x idx => |x idx|) out σ := by
  obtain ⟨r, h1, h2, h3, h4⟩ := C53_error hr h al s operands inputs out dims ts hc hn
  refine ⟨r, h1, h2, h3, fun σ hσ => ?_⟩
  obtain ⟨y, e1, e2⟩ := h4 σ hσ
  refine ⟨y, e1, ?_⟩
  have k1 := inexact_einsum hx hσ
  have k2 := inexact_abs hx hσ
  simp only [List.map_map, Function.comp_def] at k1 k2
  have hu : 1 ≤ (1 + u) ^ (termCount dims inputs out + inputs.length - 2) :=
    one_le_pow₀ (by linarith [hr.nonneg])
  have k3 := mul_le_mul_of_nonneg_left k2 (sub_nonneg.2 hu)
  have k4 := abs_sub_le (val y) (Spec.einsum dims inputs (ts.map fun t idx => val (t idx)) out σ)
    (Spec.einsum dims inputs xs out σ)
  linarith

/-- C115: for exact data that are not negative, this bounds the relative error of the result. -/
theorem C115_relative {val : F → K} {u : K} (hr : Rounded val u) (h : HashOrd) (al : UniformAlloc) (s : String)
    (operands : List (View F)) (inputs : List (List Char)) (out : List Char) (dims : Char → Nat)
    (ts : List (List Nat → F)) (hc : Call s operands inputs out dims ts) (hn : NoEmptyDiagonal dims inputs)
    (es : List K) (xs : List (List Nat → K)) (hx : Inexact dims inputs es (ts.map fun t idx => val (t idx)) xs)
    (h0 : ∀ x ∈ xs, ∀ idx, 0 ≤ x idx) :
    ∃ r, einsum h (al.alloc F) s operands = .ok (.ok r) ∧ r.Wf ∧ r.shape = out.map dims ∧
      ∀ σ, InRange dims out σ → ∃ y, r.read (out.map σ) = .ok y ∧
        |val y - Spec.einsum dims inputs xs out σ| ≤
          ((es.map (1 + ·)).prod * (1 + u) ^ (termCount dims inputs out + inputs.length - 2) - 1) *
            Spec.einsum dims inputs xs out σ := by
  obtain ⟨r, h1, h2, h3, h4⟩ := C115_error hr h al s operands inputs out dims ts hc hn es xs hx
  have : (xs.map fun x idx => |x idx|) = xs :=
    (List.map_congr_left fun x hx => funext fun idx => abs_of_nonneg (h0 x hx idx)).trans (List.map_id _)
  rw [this] at h4
  exact ⟨r, h1, h2, h3, h4⟩

omit [LinearOrder K] [IsStrictOrderedRing K] in
theorem term_scaledBy {inputs : List (List Char)} {es : List K} {xs : List (List Nat → K)} (h : es.length = inputs.length)
    (h' : xs.length = inputs.length) (τ : Char → Nat) :
    term inputs (scaledBy es xs) τ = (es.map (1 + ·)).prod * term inputs xs τ := by
  induction inputs generalizing es xs with
  | nil =>
    obtain rfl : es = [] := List.length_eq_zero_iff.1 h
    simp [term]
  | cons ix inputs ih =>
    obtain ⟨e, es, rfl⟩ := List.exists_cons_of_length_eq_add_one h
    obtain ⟨x, xs, rfl⟩ := List.exists_cons_of_length_eq_add_one h'
    have := ih (es := es) (xs := xs) (by simpa using h) (by simpa using h')
    simp only [scaledBy, List.zipWith_cons_cons, List.map_cons, List.prod_cons, term_cons] at this ⊢
    rw [this]
    ring

/-- C115: the bound is reached, with exact operations, if the data are not negative and the elements of each operand are too
large by the same factor. -/
theorem C115_reached (h h' : HashOrd) (al al' : Alloc K) (s : String) (vs ws : List (View K)) (inputs : List (List Char))
    (out : List Char) (dims : Char → Nat) (es : List K) (xs : List (List Nat → K)) (he : es.length = inputs.length)
    (he0 : ∀ e ∈ es, 0 ≤ e) (h0 : ∀ x ∈ xs, ∀ idx, 0 ≤ x idx) (h1 : Call s vs inputs out dims xs)
    (h2 : Call s ws inputs out dims (scaledBy es xs)) (hn : NoEmptyDiagonal dims inputs) :
    Inexact dims inputs es (scaledBy es xs) xs ∧
    ∃ r r', einsum h al s vs = .ok (.ok r) ∧ einsum h' al' s ws = .ok (.ok r') ∧
      ∀ σ, InRange dims out σ → ∃ y y', r.read (out.map σ) = .ok y ∧ r'.read (out.map σ) = .ok y' ∧
        |y' - y| = ((es.map (1 + ·)).prod - 1) * Spec.einsum dims inputs (xs.map fun x idx => |x idx|) out σ := by
  have hl := h1.length
  have hi : Inexact dims inputs es (scaledBy es xs) xs := by
    clear h1 h2 hn
    induction inputs generalizing es xs with
    | nil =>
      obtain rfl : es = [] := List.length_eq_zero_iff.1 he
      obtain rfl : xs = [] := List.length_eq_zero_iff.1 hl
      exact .nil
    | cons ix inputs ih =>
      obtain ⟨e, es, rfl⟩ := List.exists_cons_of_length_eq_add_one he
      obtain ⟨x, xs, rfl⟩ := List.exists_cons_of_length_eq_add_one hl
      have e0 := he0 e (by simp)
      refine .cons e0 (fun idx _ => ?_) (ih es xs (by simpa using he) (fun e he => he0 e (by simp [he]))
        (fun x hx => h0 x (by simp [hx])) (by simpa using hl))
      rw [show (1 + e) * x idx - x idx = e * x idx by ring, abs_mul, abs_of_nonneg e0]
  obtain ⟨r, e1, i1⟩ := einsum_ok h1 hn h al
  obtain ⟨r', e2, i2⟩ := einsum_ok h2 hn h' al'
  refine ⟨hi, r, r', e1, e2, fun σ hσ => ⟨_, _, i1.2.2 σ hσ, i2.2.2 σ hσ, ?_⟩⟩
  have habs : (xs.map fun x idx => |x idx|) = xs :=
    (List.map_congr_left fun x hx => funext fun idx => abs_of_nonneg (h0 x hx idx)).trans (List.map_id _)
  have hE := hi.one_le
  have hpos : 0 ≤ Spec.einsum dims inputs xs out σ := by
    refine sumOver_nonneg (fun τ => ?_) σ
    rw [← habs, term_abs]
    exact abs_nonneg _
  have hs : Spec.einsum dims inputs (scaledBy es xs) out σ = (es.map (1 + ·)).prod * Spec.einsum dims inputs xs out σ := by
    unfold Spec.einsum
    rw [← sumOver_const_mul]
    exact congrFun (congrArg _ (funext fun τ => term_scaledBy he hl τ)) σ
  rw [habs, hs, show ∀ a b : K, a * b - b = (a - 1) * b by intros; ring]
  exact abs_of_nonneg (mul_nonneg (sub_nonneg.2 hE) hpos)

end

/-! ## Examples -/

/-- A product of matrices whose elements are known up to one part in a thousand and one percent. -/
example : ∃ r, einsum HashOrd.reversed (Alloc.colMajor Fl) "ij,jk->ik"
      ([Ex.m23, Ex.m32].map (View.map fun z : Int => Fl.mk ((z : ℚ) / 10))) = .ok (.ok r) ∧
    ∀ σ, InRange Ex.dims ['i', 'k'] σ → ∃ y, r.read [σ 'i', σ 'k'] = .ok y ∧
      |y.q - Spec.einsum Ex.dims [['i', 'j'], ['j', 'k']]
        [fun idx => (Ex.elems Ex.m23 idx : ℚ) / 10 * (1001 / 1000), fun idx => (Ex.elems Ex.m32 idx : ℚ) / 10 * (99 / 100)]
        ['i', 'k'] σ| ≤
      ((1 + 1 / 1000) * ((1 + 1 / 99) * 1) * (1 + 2⁻¹ ^ 53) ^ 3 - 1) * Spec.einsum Ex.dims [['i', 'j'], ['j', 'k']]
        [fun idx => |(Ex.elems Ex.m23 idx : ℚ) / 10 * (1001 / 1000)|, fun idx => |(Ex.elems Ex.m32 idx : ℚ) / 10 * (99 / 100)|]
        ['i', 'k'] σ := by
  obtain ⟨r, h1, -, -, h2⟩ := C115_error Fl.rounded HashOrd.reversed UniformAlloc.colMajor "ij,jk->ik" _ _ _ _ _
    (Ex.call_matmul.map fun z : Int => Fl.mk ((z : ℚ) / 10)) Ex.ned_matmul [1 / 1000, 1 / 99]
    [fun idx => (Ex.elems Ex.m23 idx : ℚ) / 10 * (1001 / 1000), fun idx => (Ex.elems Ex.m32 idx : ℚ) / 10 * (99 / 100)]
    (.cons (by norm_num) (fun idx _ => by
      show |(Ex.elems Ex.m23 idx : ℚ) / 10 - (Ex.elems Ex.m23 idx : ℚ) / 10 * (1001 / 1000)| ≤ _
      generalize (Ex.elems Ex.m23 idx : ℚ) / 10 = x
      rw [show x - x * (1001 / 1000) = x * -(1 / 1000) by ring, abs_mul, abs_mul]
      have := abs_nonneg x
      norm_num
      linarith) (.cons (by norm_num) (fun idx _ => by
      show |(Ex.elems Ex.m32 idx : ℚ) / 10 - (Ex.elems Ex.m32 idx : ℚ) / 10 * (99 / 100)| ≤ _
      generalize (Ex.elems Ex.m32 idx : ℚ) / 10 = x
      rw [show x - x * (99 / 100) = x * (1 / 100) by ring, abs_mul, abs_mul]
      have := abs_nonneg x
      norm_num
      linarith) .nil))
  exact ⟨r, h1, h2⟩

/-- Nonnegative matrices that are both too large by a tenth: the product is too large by 21 percent. -/
example : ∃ r r', einsum HashOrd.insertion (Alloc.rowMajor ℚ) "ij,jk->ik"
      ([Ex.m23, Ex.m32].map (View.map fun z : Int => |(z : ℚ)|)) = .ok (.ok r) ∧
    einsum HashOrd.reversed (Alloc.colMajor ℚ) "ij,jk->ik"
      ([Ex.m23, Ex.m32].map (View.map fun z : Int => (1 + 1 / 10) * |(z : ℚ)|)) = .ok (.ok r') ∧
    ∀ σ, InRange Ex.dims ['i', 'k'] σ → ∃ y y', r.read [σ 'i', σ 'k'] = .ok y ∧ r'.read [σ 'i', σ 'k'] = .ok y' ∧
      |y' - y| = ((1 + 1 / 10) * ((1 + 1 / 10) * 1) - 1) * Spec.einsum Ex.dims [['i', 'j'], ['j', 'k']]
        [fun idx => |(|(Ex.elems Ex.m23 idx : ℚ)|)|, fun idx => |(|(Ex.elems Ex.m32 idx : ℚ)|)|] ['i', 'k'] σ :=
  (C115_reached HashOrd.insertion HashOrd.reversed (Alloc.rowMajor ℚ) (Alloc.colMajor ℚ) "ij,jk->ik" _ _ _ _ _
    [1 / 10, 1 / 10] _ rfl (by simp) (by simp) (Ex.call_matmul.map fun z : Int => |(z : ℚ)|)
    (Ex.call_matmul.map fun z : Int => (1 + 1 / 10) * |(z : ℚ)|) Ex.ned_matmul).2

/-- The relative error of a product of nonnegative matrices. -/
example : ∃ r, einsum HashOrd.reversed (Alloc.colMajor Fl) "ij,jk->ik"
      ([Ex.m23, Ex.m32].map (View.map fun z : Int => Fl.mk |(z : ℚ)|)) = .ok (.ok r) ∧
    ∀ σ, InRange Ex.dims ['i', 'k'] σ → ∃ y, r.read [σ 'i', σ 'k'] = .ok y ∧
      |y.q - Spec.einsum Ex.dims [['i', 'j'], ['j', 'k']]
        [fun idx => |(Ex.elems Ex.m23 idx : ℚ)| * (9 / 10), fun idx => |(Ex.elems Ex.m32 idx : ℚ)|] ['i', 'k'] σ| ≤
      ((1 + 1 / 9) * ((1 + 0) * 1) * (1 + 2⁻¹ ^ 53) ^ 3 - 1) * Spec.einsum Ex.dims [['i', 'j'], ['j', 'k']]
        [fun idx => |(Ex.elems Ex.m23 idx : ℚ)| * (9 / 10), fun idx => |(Ex.elems Ex.m32 idx : ℚ)|] ['i', 'k'] σ := by
  obtain ⟨r, h1, -, -, h2⟩ := C115_relative Fl.rounded HashOrd.reversed UniformAlloc.colMajor "ij,jk->ik" _ _ _ _ _
    (Ex.call_matmul.map fun z : Int => Fl.mk |(z : ℚ)|) Ex.ned_matmul [1 / 9, 0]
    [fun idx => |(Ex.elems Ex.m23 idx : ℚ)| * (9 / 10), fun idx => |(Ex.elems Ex.m32 idx : ℚ)|]
    (.cons (by norm_num) (fun idx _ => by
      show |(|(Ex.elems Ex.m23 idx : ℚ)|) - |(Ex.elems Ex.m23 idx : ℚ)| * (9 / 10)| ≤ _
      have := abs_nonneg (Ex.elems Ex.m23 idx : ℚ)
      generalize |(Ex.elems Ex.m23 idx : ℚ)| = x at *
      rw [abs_of_nonneg (by linarith), abs_of_nonneg (by linarith)]
      linarith) (.cons le_rfl (fun idx _ => by
      exact (by simp : |(|(Ex.elems Ex.m32 idx : ℚ)|) - (|(Ex.elems Ex.m32 idx : ℚ)|)| ≤ 0 * |(|(Ex.elems Ex.m32 idx : ℚ)|)|)) .nil)) (by
    intro x hx idx
    simp only [List.mem_cons, List.not_mem_nil, or_false] at hx
    rcases hx with rfl | rfl
    · exact mul_nonneg (abs_nonneg _) (by norm_num)
    · exact abs_nonneg _)
  exact ⟨r, h1, h2⟩

end Einsum
