import Verif.Model.NdArray
import Verif.Proofs.ListAux
import Mathlib.Algebra.BigOperators.Ring.List
import Mathlib.Algebra.Order.BigOperators.Group.List

/-! # Row-major index arithmetic -/

namespace Einsum

/-- Position of an index tuple in row-major order. -/
def ravel : List Nat → List Nat → Nat
  | _ :: ds, i :: is => i * ds.prod + ravel ds is
  | _, _ => 0

/-- The index tuple at a position in row-major order. -/
def unravel : List Nat → Nat → List Nat
  | [], _ => []
  | _ :: ds, n => (n / ds.prod) :: unravel ds (n % ds.prod)

@[simp] theorem ravel_nil (i : List Nat) : ravel [] i = 0 := by cases i <;> rfl
@[simp] theorem ravel_cons (d : Nat) (ds : List Nat) (i : Nat) (is : List Nat) :
    ravel (d :: ds) (i :: is) = i * ds.prod + ravel ds is := rfl

@[simp] theorem InB_nil : InB [] [] := trivial
@[simp] theorem InB_cons {d i : Nat} {ds is : List Nat} : InB (d :: ds) (i :: is) ↔ i < d ∧ InB ds is :=
  Iff.rfl
@[simp] theorem InB_nil_cons {i : Nat} {is : List Nat} : InB [] (i :: is) ↔ False := Iff.rfl
@[simp] theorem InB_cons_nil {d : Nat} {ds : List Nat} : InB (d :: ds) [] ↔ False := Iff.rfl
@[simp] theorem InB_nil_left {is : List Nat} : InB [] is ↔ is = [] := by cases is <;> simp

theorem InB.length_eq {s i : List Nat} (h : InB s i) : i.length = s.length := by
  induction s generalizing i with
  | nil => cases i <;> simp_all
  | cons d ds ih =>
    cases i with
    | nil => simp at h
    | cons a is => simp [ih h.2]

theorem InB.pos {s i : List Nat} (h : InB s i) : 0 < s.prod := by
  induction s generalizing i with
  | nil => simp
  | cons d ds ih =>
    cases i with
    | nil => simp at h
    | cons a is =>
      have := ih h.2
      have := h.1
      simp only [List.prod_cons]
      exact Nat.mul_pos (by omega) (by omega)

theorem InB_iff_getElem {s i : List Nat} :
    InB s i ↔ i.length = s.length ∧ ∀ k (h : k < s.length) (h' : k < i.length), i[k] < s[k] := by
  induction s generalizing i with
  | nil => cases i <;> simp
  | cons d ds ih =>
    cases i with
    | nil => simp
    | cons a is =>
      rw [InB_cons, ih]
      constructor
      · rintro ⟨h1, h2, h3⟩
        refine ⟨by simp [h2], fun k h h' => ?_⟩
        cases k with
        | zero => simpa using h1
        | succ k => simpa using h3 k (by simpa using h) (by simpa using h')
      · rintro ⟨h1, h2⟩
        refine ⟨h2 0 (by simp) (by simp), by simpa using h1, fun k h h' => ?_⟩
        exact h2 (k + 1) (by simpa using h) (by simpa using h')

theorem InB_append {s s' i i' : List Nat} (hl : i.length = s.length) :
    InB (s ++ s') (i ++ i') ↔ InB s i ∧ InB s' i' := by
  induction s generalizing i with
  | nil =>
    have : i = [] := by simpa using hl
    subst this; simp
  | cons d ds ih =>
    cases i with
    | nil => simp at hl
    | cons a is =>
      simp only [List.cons_append, InB_cons, ih (by simpa using hl), and_assoc]

theorem InB.split {s s' i : List Nat} (h : InB (s ++ s') i) :
    ∃ a b, i = a ++ b ∧ InB s a ∧ InB s' b := by
  have hl := h.length_eq
  refine ⟨i.take s.length, i.drop s.length, (List.take_append_drop _ _).symm, ?_⟩
  rw [← InB_append (by simp at hl ⊢; omega), List.take_append_drop]; exact h

theorem ravel_lt {s i : List Nat} (h : InB s i) : ravel s i < s.prod := by
  induction s generalizing i with
  | nil => simp
  | cons d ds ih =>
    cases i with
    | nil => simp at h
    | cons a is =>
      have h1 := ih h.2
      have h2 := h.1
      simp only [ravel_cons, List.prod_cons]
      calc a * ds.prod + ravel ds is < a * ds.prod + ds.prod := by omega
        _ = (a + 1) * ds.prod := by ring
        _ ≤ d * ds.prod := Nat.mul_le_mul_right _ (by omega)

theorem InB_unravel {s : List Nat} {n : Nat} (h : n < s.prod) : InB s (unravel s n) := by
  induction s generalizing n with
  | nil => simp [unravel]
  | cons d ds ih =>
    simp only [List.prod_cons] at h
    have hp : 0 < ds.prod := by
      rcases Nat.eq_zero_or_pos ds.prod with h0 | h0
      · simp [h0] at h
      · exact h0
    refine ⟨?_, ih (Nat.mod_lt _ hp)⟩
    rw [Nat.div_lt_iff_lt_mul hp]; exact h

theorem unravel_length (s : List Nat) (n : Nat) : (unravel s n).length = s.length := by
  induction s generalizing n with
  | nil => rfl
  | cons d ds ih => simp [unravel, ih]

theorem ravel_unravel {s : List Nat} {n : Nat} (h : n < s.prod) : ravel s (unravel s n) = n := by
  induction s generalizing n with
  | nil => simp at h; simp [h]
  | cons d ds ih =>
    simp only [List.prod_cons] at h
    have hp : 0 < ds.prod := by
      rcases Nat.eq_zero_or_pos ds.prod with h0 | h0
      · simp [h0] at h
      · exact h0
    simp only [unravel, ravel_cons, ih (Nat.mod_lt _ hp)]
    exact Nat.div_add_mod' n ds.prod

theorem unravel_ravel {s i : List Nat} (h : InB s i) : unravel s (ravel s i) = i := by
  induction s generalizing i with
  | nil => simp at h; simp [h, unravel]
  | cons d ds ih =>
    cases i with
    | nil => simp at h
    | cons a is =>
      have h1 := ravel_lt h.2
      have hp := h.2.pos
      simp only [ravel_cons, unravel]
      congr 1
      · rw [Nat.mul_comm, Nat.mul_add_div hp, Nat.div_eq_of_lt h1, Nat.add_zero]
      · rw [Nat.mul_comm, Nat.mul_add_mod, Nat.mod_eq_of_lt h1, ih h.2]

theorem ravel_inj {s i j : List Nat} (hi : InB s i) (hj : InB s j) (h : ravel s i = ravel s j) :
    i = j := by rw [← unravel_ravel hi, h, unravel_ravel hj]

theorem ravel_append {s s' i i' : List Nat} (hl : i.length = s.length) :
    ravel (s ++ s') (i ++ i') = ravel s i * s'.prod + ravel s' i' := by
  induction s generalizing i with
  | nil =>
    have : i = [] := by simpa using hl
    subst this; simp
  | cons d ds ih =>
    cases i with
    | nil => simp at hl
    | cons a is =>
      simp only [List.cons_append, ravel_cons, ih (by simpa using hl), List.prod_append]
      ring

theorem unravel_append {s s' : List Nat} {m n : Nat} (hm : m < s.prod) (hn : n < s'.prod) :
    unravel (s ++ s') (m * s'.prod + n) = unravel s m ++ unravel s' n := by
  have h1 := InB_unravel hm
  have h2 := InB_unravel hn
  have h3 : InB (s ++ s') (unravel s m ++ unravel s' n) := (InB_append h1.length_eq).2 ⟨h1, h2⟩
  rw [← unravel_ravel h3, ravel_append h1.length_eq, ravel_unravel hm, ravel_unravel hn]

theorem range_mul (d p : Nat) :
    List.range (d * p) = (List.range d).flatMap fun i => (List.range p).map fun j => i * p + j := by
  induction d with
  | zero => simp
  | succ d ih =>
    rw [Nat.succ_mul, List.range_add, ih, List.range_succ, List.flatMap_append]
    simp

theorem allIdx_eq (s : List Nat) : allIdx s = (List.range s.prod).map (unravel s) := by
  induction s with
  | nil => simp [allIdx, unravel]
  | cons d ds ih =>
    rw [allIdx, ih, List.prod_cons, range_mul, List.map_flatMap]
    congr 1
    funext i
    rw [List.map_map, List.map_map]
    apply List.map_congr_left
    intro j hj
    have hj' : j < ds.prod := by simpa using hj
    simp only [Function.comp, unravel]
    rw [Nat.mul_comm, Nat.mul_add_div (by omega), Nat.div_eq_of_lt hj', Nat.add_zero,
      Nat.mul_add_mod, Nat.mod_eq_of_lt hj']

theorem allIdx_length (s : List Nat) : (allIdx s).length = s.prod := by simp [allIdx_eq]

theorem mem_allIdx {s i : List Nat} : i ∈ allIdx s ↔ InB s i := by
  rw [allIdx_eq, List.mem_map]
  constructor
  · rintro ⟨n, hn, rfl⟩; exact InB_unravel (by simpa using hn)
  · intro h; exact ⟨ravel s i, by simpa using ravel_lt h, unravel_ravel h⟩

theorem allIdx_getElem? {s : List Nat} {n : Nat} (h : n < s.prod) :
    (allIdx s)[n]? = some (unravel s n) := by
  rw [allIdx_eq]; simp [h]

theorem nodup_allIdx (s : List Nat) : (allIdx s).Nodup := by
  rw [allIdx_eq]
  refine List.Nodup.map_on ?_ List.nodup_range
  intro a ha b hb h
  rw [← ravel_unravel (s := s) (n := a) (by simpa using ha), h, ravel_unravel (by simpa using hb)]

/-! ## Strided addresses -/

@[simp] theorem dotI_nil_left (i : List Nat) : dotI [] i = 0 := by cases i <;> rfl
@[simp] theorem dotI_nil_right (s : List Int) : dotI s [] = 0 := by cases s <;> rfl
@[simp] theorem dotI_cons (s : Int) (ss : List Int) (i : Nat) (is : List Nat) :
    dotI (s :: ss) (i :: is) = s * (i : Int) + dotI ss is := rfl

theorem sufProds_length (s : List Nat) : (sufProds s).length = s.length := by
  induction s with
  | nil => rfl
  | cons d ds ih => simp [sufProds, ih]

theorem preProds_length (a : Nat) (s : List Nat) : (preProds a s).length = s.length := by
  induction s generalizing a with
  | nil => rfl
  | cons d ds ih => simp [preProds, ih]

theorem defaultStrides_length (s : List Nat) : (defaultStrides s).length = s.length := by
  unfold defaultStrides; split <;> simp [sufProds_length]

theorem fortranStrides_length (s : List Nat) : (fortranStrides s).length = s.length := by
  unfold fortranStrides; split <;> simp [preProds_length]

theorem InB.all_ne {s i : List Nat} (h : InB s i) : s.all (· ≠ 0) = true := by
  have := h.pos
  simp only [List.all_eq_true, decide_eq_true_eq]
  intro d hd h0
  subst h0
  rw [List.prod_eq_zero hd] at this
  omega

theorem InB.not_any {s i : List Nat} (h : InB s i) : s.any (· = 0) = false := by
  have := h.all_ne
  simp only [List.all_eq_true, decide_eq_true_eq, List.any_eq_false] at this ⊢
  exact this

theorem any_zero_iff {s : List Nat} : s.any (· = 0) = true ↔ s.prod = 0 := by
  rw [List.prod_eq_zero_iff]; simp

theorem any_zero_false_iff {s : List Nat} : s.any (· = 0) = false ↔ 0 < s.prod := by
  rw [← Bool.not_eq_true, any_zero_iff]; omega

theorem all_ne_iff {s : List Nat} : s.all (· ≠ 0) = true ↔ 0 < s.prod := by
  rw [Nat.pos_iff_ne_zero, Ne, List.prod_eq_zero_iff]
  simp only [List.all_eq_true, decide_eq_true_eq]
  exact ⟨fun h h0 => h 0 h0 rfl, fun h d hd h0 => h (h0 ▸ hd)⟩

theorem dotI_sufProds {s i : List Nat} (h : i.length = s.length) :
    dotI ((sufProds s).map Int.ofNat) i = (ravel s i : Int) := by
  induction s generalizing i with
  | nil => simp [sufProds]
  | cons d ds ih =>
    cases i with
    | nil => simp at h
    | cons a is =>
      simp only [sufProds, List.map_cons, dotI_cons, ih (by simpa using h), ravel_cons]
      push_cast
      simp only [Int.ofNat_eq_natCast]
      ring

theorem dotI_default {s i : List Nat} (h : InB s i) : dotI (defaultStrides s) i = (ravel s i : Int) := by
  rw [defaultStrides, if_pos h.all_ne, dotI_sufProds h.length_eq]

/-- In a row-major array the address of an element is its row-major position. -/
theorem dotI_standard {s : List Nat} {st : List Int} (hl : st.length = s.length)
    (hs : isStandard s st = true) {i : List Nat} (h : InB s i) : dotI st i = (ravel s i : Int) := by
  rw [isStandard, h.not_any, Bool.false_or, defaultStrides, if_pos h.all_ne] at hs
  induction s generalizing st i with
  | nil => simp at h; simp [h]
  | cons d ds ih =>
    cases i with
    | nil => simp at h
    | cons a is =>
      cases st with
      | nil => simp at hl
      | cons x st =>
        simp only [sufProds, List.map_cons, List.zip_cons_cons, List.all_cons, Bool.and_eq_true,
          Bool.or_eq_true, decide_eq_true_eq] at hs
        simp only [dotI_cons, ravel_cons, ih (by simpa using hl) hs.2 h.2]
        push_cast
        congr 1
        rcases hs.1 with h1 | h1
        · have := h.1
          have : a = 0 := by omega
          simp [this]
        · rw [h1]; simp [mul_comm]

theorem isStandard_default (s : List Nat) : isStandard s (defaultStrides s) = true := by
  unfold isStandard
  simp only [Bool.or_eq_true]
  right
  simp only [List.all_eq_true]
  generalize hD : defaultStrides s = D
  clear hD
  induction s generalizing D with
  | nil => simp
  | cons d ds ih =>
    cases D with
    | nil => simp
    | cons x D =>
      intro t ht
      simp only [List.zip_cons_cons, List.mem_cons] at ht
      rcases ht with rfl | ht
      · simp
      · exact ih D t ht

end Einsum
