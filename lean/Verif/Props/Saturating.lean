import Verif.Props.TreesLawless
import Verif.Props.Tensordot
import Verif.Props.TensordotLaws

/-!
# Property C125: saturating integers
-/

namespace Einsum

open Spec

/-- Natural numbers up to `B`; a result that is too large becomes `B`. -/
structure Spec.Saturating (B : ℕ) where
  value : ℕ
  le : value ≤ B
deriving DecidableEq

namespace Spec.Saturating

variable {B : ℕ}

def cut (B n : ℕ) : Saturating B := ⟨min n B, Nat.min_le_right _ _⟩

instance : Zero (Saturating B) := ⟨cut B 0⟩

instance : One (Saturating B) := ⟨cut B 1⟩

instance : Add (Saturating B) := ⟨fun x y => cut B (x.value + y.value)⟩

instance : Mul (Saturating B) := ⟨fun x y => cut B (x.value * y.value)⟩

end Spec.Saturating

namespace Saturating

variable {B : ℕ}

theorem ext {x y : Saturating B} (h : x.value = y.value) : x = y := by
  cases x
  cases y
  cases h
  rfl

theorem cut_value (x : Saturating B) : Saturating.cut B x.value = x := ext (Nat.min_eq_left x.le)

theorem cut_add (a b : ℕ) : Saturating.cut B (a + b) = Saturating.cut B a + Saturating.cut B b := by
  refine ext ?_
  show min (a + b) B = min (min a B + min b B) B
  omega

theorem cut_mul (a b : ℕ) : Saturating.cut B (a * b) = Saturating.cut B a * Saturating.cut B b := by
  refine ext ?_
  show min (a * b) B = min (min a B * min b B) B
  have key : ∀ {a b : ℕ}, B ≤ a → min (a * b) B = min (B * min b B) B := by
    intro a b ha
    rcases Nat.eq_zero_or_pos b with rfl | hb
    · simp
    · have h1 : B ≤ a * b := ha.trans (Nat.le_mul_of_pos_right a hb)
      rw [Nat.min_eq_right h1]
      rcases Nat.eq_zero_or_pos B with rfl | hB
      · simp
      · rw [Nat.min_eq_right (Nat.le_mul_of_pos_right B (by omega))]
  rcases le_total a B with ha | ha
  · rw [Nat.min_eq_left ha]
    rcases le_total b B with hb | hb
    · rw [Nat.min_eq_left hb]
    · rw [Nat.min_eq_right hb, Nat.mul_comm, key hb, Nat.min_eq_left ha, Nat.mul_comm]
  · rw [Nat.min_eq_right ha, key ha]

theorem cut_surjective : Function.Surjective (Saturating.cut B) := fun x => ⟨x.value, cut_value x⟩

instance : SMul ℕ (Saturating B) := ⟨fun n x => Saturating.cut B (n * x.value)⟩

instance : Pow (Saturating B) ℕ := ⟨fun x n => Saturating.cut B (x.value ^ n)⟩

instance : NatCast (Saturating B) := ⟨Saturating.cut B⟩

theorem cut_pow (a n : ℕ) : Saturating.cut B (a ^ n) = Saturating.cut B ((Saturating.cut B a).value ^ n) := by
  induction n with
  | zero => rfl
  | succ n ih => rw [pow_succ, pow_succ, cut_mul, cut_mul, ih, cut_value]

instance : CommSemiring (Saturating B) :=
  cut_surjective.commSemiring (Saturating.cut B) rfl rfl cut_add cut_mul
    (fun x n => by
      show Saturating.cut B (x • n) = Saturating.cut B (x * (Saturating.cut B n).value)
      rw [smul_eq_mul, cut_mul, cut_mul, cut_value])
    (fun x n => cut_pow x n) fun _ => rfl

/-- Cutting respects sums and products. -/
def cutHom (B : ℕ) : ℕ →+* Saturating B where
  toFun := Saturating.cut B
  map_zero' := rfl
  map_one' := rfl
  map_add' := cut_add
  map_mul' := cut_mul

end Saturating

section

variable {B : ℕ}

/-- The Einstein sum of saturating numbers is that of their values, cut at the largest number. -/
theorem einsum_cut {dims : Char → Nat} {inputs : List (List Char)} {ts : List (List Nat → Saturating B)} {out : List Char}
    {σ : Char → Nat} :
    Spec.einsum dims inputs ts out σ =
      Saturating.cut B (Spec.einsum dims inputs (ts.map fun t idx => (t idx).value) out σ) := by
  show _ = Saturating.cutHom B _
  unfold Spec.einsum
  rw [sumOver_map (Saturating.cutHom B) (map_zero _) (map_add _)]
  congr 1
  funext σ
  unfold term
  rw [map_list_prod]
  congr 1
  induction inputs generalizing ts with
  | nil => simp
  | cons ix is ih =>
    cases ts with
    | nil => simp
    | cons t ts =>
      simp only [List.map_cons, List.zipWith_cons_cons, ih]
      exact congrArg (· :: _) (Saturating.cut_value _).symm

theorem isEinsum_cut {dims : Char → Nat} {inputs : List (List Char)} {ts : List (List Nat → Saturating B)} {out : List Char}
    {r : View (Saturating B)} (h : IsEinsum dims inputs ts out r) {σ : Char → Nat} (hσ : InRange dims out σ) :
    ∃ x, r.read (out.map σ) = .ok x ∧
      x.value = min (Spec.einsum dims inputs (ts.map fun t idx => (t idx).value) out σ) B :=
  ⟨_, h.2.2 σ hσ, by rw [einsum_cut]; rfl⟩

/-- C125: a call with saturating natural numbers returns the exact sums, cut at the largest number. -/
theorem C125_einsum (h : HashOrd) (al : Alloc (Saturating B)) (s : String) (operands : List (View (Saturating B)))
    (inputs : List (List Char)) (out : List Char) (dims : Char → Nat) (ts : List (List Nat → Saturating B))
    (hc : Call s operands inputs out dims ts) (hn : NoEmptyDiagonal dims inputs) :
    ∃ r, einsum h al s operands = .ok (.ok r) ∧ r.Wf ∧ r.shape = out.map dims ∧
      ∀ σ, InRange dims out σ → ∃ x, r.read (out.map σ) = .ok x ∧
        x.value = min (Spec.einsum dims inputs (ts.map fun t idx => (t idx).value) out σ) B := by
  obtain ⟨r, r1, r2⟩ := C13_einsum h al s operands inputs out dims ts hc hn
  exact ⟨r, r1, r2.1, r2.2.1, fun σ hσ => isEinsum_cut r2 hσ⟩

/-- C125: the same in any order of pairs. -/
theorem C125_order (h : HashOrd) (al : Alloc (Saturating B)) (steps : List PairStep) (inputs : List (List Char))
    (out : List Char) (dims : Char → Nat) (operands : List (View (Saturating B))) (ts : List (List Nat → Saturating B))
    (hc : Contracts dims out 0 (numbered inputs) steps) (hs : Sized dims inputs (operands.map View.shape))
    (he : List.Forall₂ Elements operands ts) (hn : NoEmptyDiagonal dims inputs) :
    ∃ p r, EinsumPath.fromPath h (.pairs steps) = .ok p ∧ p.contractOperands al operands = .ok r ∧ r.Wf ∧
      r.shape = out.map dims ∧
      ∀ σ, InRange dims out σ → ∃ x, r.read (out.map σ) = .ok x ∧
        x.value = min (Spec.einsum dims inputs (ts.map fun t idx => (t idx).value) out σ) B := by
  obtain ⟨p, r, p1, r1, r2⟩ := C72_order h al steps inputs out dims operands ts hc hs he hn
  exact ⟨p, r, p1, r1, r2.1, r2.2.1, fun σ hσ => isEinsum_cut r2 hσ⟩

theorem sumIdx_cut (d : List Nat) (f : List Nat → ℕ) :
    sumIdx d (fun c => Saturating.cut B (f c)) = Saturating.cut B (sumIdx d f) := by
  induction d generalizing f with
  | nil => rfl
  | cons n d ih =>
    simp only [sumIdx, ih]
    exact (map_sum (Saturating.cutHom B) _ _).symm

/-- C125: and for `tensordot`. -/
theorem C125_tensordot (al : Alloc (Saturating B)) (l r : View (Saturating B)) (T U : List Nat → Saturating B) (la ra : List Nat)
    (hp : Paired l.shape r.shape la ra) (hl : Elements l T) (hr : Elements r U) :
    ∃ w, tensordot al l r la ra = .ok w ∧ w.Wf ∧
      w.shape = lengths l.shape (kept l.shape.length la) ++ lengths r.shape (kept r.shape.length ra) ∧
      ∀ a b, InB (lengths l.shape (kept l.shape.length la)) a → InB (lengths r.shape (kept r.shape.length ra)) b →
        ∃ x, w.read (a ++ b) = .ok x ∧
          x.value = min (pairedSum l.shape r.shape la ra (fun i => (T i).value) (fun i => (U i).value) a b) B := by
  obtain ⟨w, w1, w2, w3, w4⟩ := tensordot_paired al hp hl hr
  refine ⟨w, w1, w2, w3, fun a b ha hb => ⟨_, w4 a b ha hb, ?_⟩⟩
  exact congrArg Saturating.value (sumIdx_cut (lengths l.shape la) _)

end

/-- C125: the operations are those of Rust: the exact result if it is at most `B`, else `B`. -/
theorem C125_operations (B : ℕ) (x y : Saturating B) :
    (x + y).value = (if x.value + y.value ≤ B then x.value + y.value else B) ∧
      (x * y).value = (if x.value * y.value ≤ B then x.value * y.value else B) ∧ (0 : Saturating B).value = 0 :=
  ⟨min_def _ _, min_def _ _, Nat.zero_min _⟩

namespace Ex

/-- Bytes. -/
def m125 : View (Saturating 255) := ⟨[100, 1, 2, 3, 4, 50].map (Saturating.cut 255), 0, [2, 3], [3, 1]⟩

def n125 : View (Saturating 255) := ⟨[2, 1, 5, 4, 9, 3].map (Saturating.cut 255), 0, [3, 2], [2, 1]⟩

theorem call125 : Call "ij,jk->ik" [m125, n125] [['i', 'j'], ['j', 'k']] ['i', 'k']
    (fun c => if c = 'j' then 3 else 2) [m125.elem, n125.elem] where
  denotes := .inl ⟨by decide, ⟨by simp, by simp [Letter], by simp [Letter]⟩, by simp [OutputOk, Used]⟩
  sized := .cons rfl (.cons rfl .nil)
  elements := .cons (elements_of rfl (by decide +kernel)) (.cons (elements_of rfl (by decide +kernel)) .nil)

end Ex

/-- `100 * 2 + 1 * 5 + 2 * 9 = 223` fits into a byte, `3 * 2 + 4 * 5 + 50 * 9 = 476` does not. -/
example (h : HashOrd) (al : Alloc (Saturating 255)) :
    ∃ r x y, einsum h al "ij,jk->ik" [Ex.m125, Ex.n125] = .ok (.ok r) ∧ r.read [0, 0] = .ok x ∧ x.value = 223 ∧
      r.read [1, 0] = .ok y ∧ y.value = 255 := by
  obtain ⟨r, r1, -, -, r2⟩ := C125_einsum h al _ _ _ _ _ _ Ex.call125 (by simp [NoEmptyDiagonal])
  obtain ⟨x, x1, x2⟩ := r2 (fun _ => 0) (by simp [InRange])
  obtain ⟨y, y1, y2⟩ := r2 (fun c => if c = 'i' then 1 else 0) (by simp [InRange])
  exact ⟨r, x, y, r1, x1, x2.trans (by decide +kernel), y1, y2.trans (by decide +kernel)⟩

example := C125_tensordot (Alloc.colMajor _) Ex.m125 Ex.n125 _ _ [1] [0]
  ⟨rfl, by decide, by decide, by decide, by decide, rfl⟩ (elements_of (t := Ex.m125.elem) rfl (by decide +kernel))
  (elements_of (t := Ex.n125.elem) rfl (by decide +kernel))

/-- Four matrices of bytes, two products first. -/
example (h : HashOrd) (al : Alloc (Saturating 255)) :=
  C125_order h al _ _ _ _ _ _ Ex.contracts_tree (Ex.sized_tree_map fun z : Int => Saturating.cut 255 z.natAbs)
    (forall₂_map (fun z : Int => Saturating.cut 255 z.natAbs) (forall₂_elem Ex.wf_tree)) Ex.ned_tree

end Einsum
