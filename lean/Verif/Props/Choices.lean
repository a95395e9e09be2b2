import Verif.SpecChoice
import Verif.Props.Textbook
import Mathlib.Algebra.Tropical.BigOperators

/-!
# Property C96: best choices, joins and counts
-/

namespace Einsum

open Spec

section
variable {A : Type} [CommSemiring A]

theorem choose_sum {α : Type} [DecidableEq α] (hA : Chooses A) (s : Finset α) (f : α → A) :
    (∀ x ∈ s, (∑ y ∈ s, f y) + f x = ∑ y ∈ s, f y) ∧ (s.Nonempty → ∃ x ∈ s, ∑ y ∈ s, f y = f x) := by
  have idem : ∀ a : A, a + a = a := fun a => by rcases hA a a with h | h <;> exact h
  induction s using Finset.induction_on with
  | empty => simp
  | insert a s ha ih =>
    rw [Finset.sum_insert ha]
    constructor
    · intro x hx
      rcases Finset.mem_insert.1 hx with rfl | hx
      · rw [add_right_comm, idem]
      · rw [add_assoc, ih.1 x hx]
    · intro _
      rcases hA (f a) (∑ y ∈ s, f y) with h | h
      · exact ⟨a, by simp, h⟩
      · rcases s.eq_empty_or_nonempty with rfl | hs
        · exact ⟨a, by simp, by simp⟩
        · obtain ⟨x, h1, h2⟩ := ih.2 hs
          exact ⟨x, by simp [h1], h.trans h2⟩

theorem textbook_filter (dims : Char → Nat) (inputs : List (List Char)) (ts : List (List Nat → A)) (out : List Char)
    (idx : List Nat) : textbook dims inputs ts out idx =
      ∑ τ ∈ Finset.univ.filter (fun τ : Assignment dims inputs => out.map τ.pos = idx), τ.product ts := by
  rw [Finset.sum_filter]
  rfl

/-- An assignment for an index of the output, if no axis is empty. -/
theorem exists_assignment {dims : Char → Nat} {inputs : List (List Char)} {out : List Char} {idx : List Nat}
    (hout : out.Nodup) (hsub : ∀ c ∈ out, c ∈ inputs.flatten) (hpos : ∀ c ∈ inputs.flatten, 0 < dims c)
    (hi : InB (out.map dims) idx) : ∃ τ : Assignment dims inputs, out.map τ.pos = idx := by
  obtain ⟨σ, h1, rfl⟩ := exists_assign hout hi
  refine ⟨fun c => if h : σ c.1 < dims c.1 then ⟨σ c.1, h⟩ else ⟨0, hpos c.1 c.2⟩, ?_⟩
  refine List.map_congr_left fun c hc => ?_
  have := h1 c hc
  simp only [Assignment.pos, hsub c hc, dif_pos, this]

theorem best_textbook (hA : Chooses A) (dims : Char → Nat) (inputs : List (List Char)) (ts : List (List Nat → A))
    (out : List Char) (idx : List Nat) : Best dims inputs ts out idx (textbook dims inputs ts out idx) := by
  classical
  rw [textbook_filter]
  obtain ⟨h1, h2⟩ := choose_sum hA (Finset.univ.filter (fun τ : Assignment dims inputs => out.map τ.pos = idx))
    fun τ => τ.product ts
  refine ⟨fun τ hτ => h1 τ (by simp [hτ]), fun ⟨τ, hτ⟩ => ?_, fun hn => ?_⟩
  · obtain ⟨τ', h3, h4⟩ := h2 ⟨τ, by simp [hτ]⟩
    exact ⟨τ', by simpa using h3, h4⟩
  · rw [Finset.filter_false_of_mem, Finset.sum_empty]
    exact fun τ _ h => hn ⟨τ, h⟩

/-- C96: if addition chooses, every element that `einsum` returns is the best of the products. -/
theorem C96_einsum (hA : Chooses A) (h : HashOrd) (al : Alloc A) (s : String) (operands : List (View A))
    (inputs : List (List Char)) (out : List Char) (dims : Char → Nat) (ts : List (List Nat → A))
    (hc : Call s operands inputs out dims ts) (w : View A) (hw : einsum h al s operands = .ok (.ok w)) :
    w.shape = out.map dims ∧ ∀ idx, InB (out.map dims) idx →
      ∃ x, w.read idx = .ok x ∧ Best dims inputs ts out idx x := by
  have h1 := isEinsum_of_returned hc hw
  exact ⟨h1.2.1, fun idx hi => ⟨_, h1.textbook hc.denotes.outputOk.1 hc.denotes.sub (h1.2.1.symm ▸ hi),
    best_textbook hA dims inputs ts out idx⟩⟩

theorem chooses_tropical (R : Type) [LinearOrderedAddCommMonoidWithTop R] : Chooses (Tropical R) := fun a b =>
  (le_total a b).imp (fun h => Tropical.add_eq_left h) fun h => Tropical.add_eq_right h

/-- The integers of `Ex.m23` and `Ex.m32` as costs. -/
def Ex.cost (z : Int) : Tropical (WithTop Int) := Tropical.trop (z : WithTop Int)

example (h : HashOrd) (al : Alloc (Tropical (WithTop Int))) (w : View (Tropical (WithTop Int)))
    (hw : einsum h al "ij,jk->ik" [Ex.m23.map Ex.cost, Ex.m32.map Ex.cost] = .ok (.ok w)) : w.shape = [2, 2] :=
  (C96_einsum (chooses_tropical _) h al _ _ _ _ _ _ (Ex.call_matmul.map Ex.cost) w hw).1

/-- C96: the same for every order of contraction. -/
theorem C96_order (hA : Chooses A) (h : HashOrd) (al : Alloc A) (steps : List PairStep)
    (inputs : List (List Char)) (out : List Char) (dims : Char → Nat) (operands : List (View A))
    (ts : List (List Nat → A)) (hc : Contracts dims out 0 (numbered inputs) steps)
    (hs : Sized dims inputs (operands.map View.shape)) (he : List.Forall₂ Elements operands ts)
    (p : EinsumPath) (hp : EinsumPath.fromPath h (.pairs steps) = .ok p) (w : View A)
    (hw : p.contractOperands al operands = .ok w) :
    w.shape = out.map dims ∧ ∀ idx, InB (out.map dims) idx →
      ∃ x, w.read idx = .ok x ∧ Best dims inputs ts out idx x := by
  obtain ⟨p', p1, p2⟩ := C72_sound h steps inputs out dims hc
  rw [hp] at p1
  cases p1
  rcases p2 A al operands ts hs he with ⟨k, e⟩ | ⟨r, e, h1⟩
  · rw [hw] at e; simp [panic] at e
  · rw [hw] at e
    cases e
    exact ⟨h1.2.1, fun idx hi => ⟨_, h1.textbook (hc.out_nodup hc.ne_nil) hc.sub_flatten (h1.2.1.symm ▸ hi),
      best_textbook hA dims inputs ts out idx⟩⟩

example (p : EinsumPath) (hp : EinsumPath.fromPath HashOrd.reversed (.pairs Ex.balanced) = .ok p)
    (al : Alloc (Tropical (WithTop Int))) (w : View (Tropical (WithTop Int)))
    (hw : p.contractOperands al ([Ex.m23, Ex.m32, Ex.m23, Ex.m32].map (View.map Ex.cost)) = .ok w) :
    ∃ x, w.read [1, 0] = .ok x ∧ Best Ex.treeDims Ex.treeInputs
      (([Ex.m23, Ex.m32, Ex.m23, Ex.m32].map View.elem).map fun t idx => Ex.cost (t idx)) ['i', 'm'] [1, 0] x :=
  (C96_order (chooses_tropical _) HashOrd.reversed al _ _ _ _ _ _ Ex.contracts_tree
    (by rw [map_shapes]; exact Ex.sized_tree) (elements_map (forall₂_elem Ex.wf_tree) Ex.cost) p hp w hw).2 _ (by decide)

/-- C96: if no axis is empty, every element is the product of some assignment. -/
theorem C96_attained (hA : Chooses A) (h : HashOrd) (al : Alloc A) (s : String) (operands : List (View A))
    (inputs : List (List Char)) (out : List Char) (dims : Char → Nat) (ts : List (List Nat → A))
    (hc : Call s operands inputs out dims ts) (hpos : ∀ c ∈ inputs.flatten, 0 < dims c) :
    ∃ w, einsum h al s operands = .ok (.ok w) ∧ w.shape = out.map dims ∧ ∀ idx, InB (out.map dims) idx →
      ∃ x, w.read idx = .ok x ∧ (∀ τ : Assignment dims inputs, out.map τ.pos = idx → x + τ.product ts = x) ∧
        ∃ τ : Assignment dims inputs, out.map τ.pos = idx ∧ x = τ.product ts := by
  obtain ⟨w, h1, -⟩ := C13_einsum h al s operands inputs out dims ts hc fun ix hix => .inr fun c hc =>
    (hpos c (List.mem_flatten.2 ⟨ix, hix, hc⟩)).ne'
  obtain ⟨h2, h3⟩ := C96_einsum hA h al s operands inputs out dims ts hc w h1
  refine ⟨w, h1, h2, fun idx hi => ?_⟩
  obtain ⟨x, x1, x2, x3, -⟩ := h3 idx hi
  exact ⟨x, x1, x2, x3 (exists_assignment hc.denotes.outputOk.1 hc.denotes.sub hpos hi)⟩

example (h : HashOrd) (al : Alloc (Tropical (WithTop Int))) :
    ∃ w, einsum h al "ij,jk->ik" [Ex.m23.map Ex.cost, Ex.m32.map Ex.cost] = .ok (.ok w) ∧
      ∃ x, w.read [0, 0] = .ok x ∧ ∃ τ : Assignment Ex.dims [['i', 'j'], ['j', 'k']],
        ['i', 'k'].map τ.pos = [0, 0] ∧ x = τ.product ([Ex.elems Ex.m23, Ex.elems Ex.m32].map fun t idx => Ex.cost (t idx)) := by
  obtain ⟨w, h1, -, h2⟩ := C96_attained (chooses_tropical _) h al _ _ _ _ _ _ (Ex.call_matmul.map Ex.cost)
    (by decide)
  obtain ⟨x, x1, -, x2⟩ := h2 [0, 0] (by decide)
  exact ⟨w, h1, x, x1, x2⟩

theorem prod_zeroOne (f : Char → Nat) (ts : List (List Nat → Bool)) (inputs : List (List Char)) :
    (((ts.map fun t idx => if t idx then (1 : A) else 0).zip inputs).map fun x => x.1 (x.2.map f)).prod =
      if ∀ b ∈ (ts.zip inputs).map fun x => x.1 (x.2.map f), b = true then 1 else 0 := by
  induction ts generalizing inputs with
  | nil => simp
  | cons t ts ih =>
    cases inputs with
    | nil => simp
    | cons ix inputs =>
      simp only [List.map_cons, List.zip_cons_cons, List.prod_cons, List.forall_mem_cons]
      rw [ih]
      by_cases h : t (ix.map f) = true
      · rw [if_pos h, one_mul]
        exact if_congr (by rw [and_iff_right h]) rfl rfl
      · rw [if_neg h, zero_mul, if_neg fun h' => h h'.1]

/-- C96: zeros and ones as numbers: every element is the number of assignments for which all operands have a one. -/
theorem C96_count (h : HashOrd) (al : Alloc A) (s : String) (operands : List (View A))
    (inputs : List (List Char)) (out : List Char) (dims : Char → Nat) (ts : List (List Nat → Bool))
    (hc : Call s operands inputs out dims (ts.map fun t idx => if t idx then 1 else 0)) (w : View A)
    (hw : einsum h al s operands = .ok (.ok w)) :
    w.shape = out.map dims ∧ ∀ idx, InB (out.map dims) idx →
      w.read idx = .ok ((Finset.univ.filter fun τ : Assignment dims inputs =>
        out.map τ.pos = idx ∧ ∀ b ∈ τ.values ts, b = true).card : A) := by
  classical
  have h1 := isEinsum_of_returned hc hw
  refine ⟨h1.2.1, fun idx hi => ?_⟩
  rw [h1.textbook hc.denotes.outputOk.1 hc.denotes.sub (h1.2.1.symm ▸ hi), textbook_filter]
  congr 1
  have e : ∀ τ : Assignment dims inputs, τ.product (ts.map fun t idx => if t idx then (1 : A) else 0) =
      if ∀ b ∈ τ.values ts, b = true then 1 else 0 := by
    intro τ
    exact prod_zeroOne τ.pos ts inputs
  rw [Finset.sum_congr rfl fun τ _ => e τ, ← Finset.sum_filter, Finset.filter_filter]
  simp

end

/-- The odd numbers of `Ex.m23` and `Ex.m32`: at `[0, 1]` the product counts the positions of `j` at which both are odd. -/
example (h : HashOrd) (al : Alloc Nat) (w : View Nat)
    (hw : einsum h al "ij,jk->ik" ([Ex.m23, Ex.m32].map (View.map fun z => if decide (z % 2 = 1) then 1 else 0)) =
      .ok (.ok w)) : w.read [0, 1] = .ok 2 := by
  obtain ⟨-, h2⟩ := C96_count h al "ij,jk->ik" _ [['i', 'j'], ['j', 'k']] ['i', 'k'] Ex.dims
    ([Ex.elems Ex.m23, Ex.elems Ex.m32].map fun (t : List Nat → Int) idx => decide (t idx % 2 = 1))
    (Ex.call_matmul.map fun z => if decide (z % 2 = 1) then 1 else 0) w hw
  rw [h2 [0, 1] (by decide)]
  rfl

/-- C96: truth values.  An element is true exactly if some assignment makes all operands true. -/
theorem C96_join (h : HashOrd) (al : Alloc Truth) (s : String) (operands : List (View Truth))
    (inputs : List (List Char)) (out : List Char) (dims : Char → Nat) (ts : List (List Nat → Truth))
    (hc : Call s operands inputs out dims ts) (w : View Truth) (hw : einsum h al s operands = .ok (.ok w)) :
    w.shape = out.map dims ∧ ∀ idx, InB (out.map dims) idx →
      ∃ x, w.read idx = .ok x ∧ (x.holds = true ↔
        ∃ τ : Assignment dims inputs, out.map τ.pos = idx ∧ ∀ b ∈ τ.values ts, b.holds = true) := by
  have hA : Chooses Truth := by
    rintro ⟨a⟩ ⟨b⟩
    cases a <;> cases b <;> decide
  obtain ⟨h1, h2⟩ := C96_einsum hA h al s operands inputs out dims ts hc w hw
  refine ⟨h1, fun idx hi => ?_⟩
  obtain ⟨x, x1, x2, x3, x4⟩ := h2 idx hi
  refine ⟨x, x1, ?_⟩
  have hp : ∀ l : List Truth, l.prod.holds = true ↔ ∀ b ∈ l, b.holds = true := by
    intro l
    induction l with
    | nil => simp; rfl
    | cons a l ih =>
      rw [List.prod_cons, List.forall_mem_cons, ← ih]
      exact Bool.and_eq_true _ _ ▸ Iff.rfl
  constructor
  · intro hx
    by_cases hn : ∃ τ : Assignment dims inputs, out.map τ.pos = idx
    · obtain ⟨τ, t1, t2⟩ := x3 hn
      exact ⟨τ, t1, (hp _).1 (by rw [← hx, t2]; rfl)⟩
    · rw [x4 hn] at hx
      cases hx
  · rintro ⟨τ, t1, t2⟩
    have e := x2 τ t1
    have : (τ.product ts).holds = true := (hp _).2 t2
    rw [← e]
    change (x.holds || (τ.product ts).holds) = true
    rw [this, Bool.or_true]

example (h : HashOrd) (al : Alloc Truth) (w : View Truth)
    (hw : einsum h al "ij,jk->ik" ([Ex.m23, Ex.m32].map (View.map fun z => ⟨decide (z % 3 = 1)⟩)) = .ok (.ok w)) :
    ∃ x, w.read [1, 0] = .ok x ∧ x.holds = false := by
  obtain ⟨-, h2⟩ := C96_join h al "ij,jk->ik" _ [['i', 'j'], ['j', 'k']] ['i', 'k'] Ex.dims _
    (Ex.call_matmul.map fun z => (⟨decide (z % 3 = 1)⟩ : Truth)) w hw
  obtain ⟨x, x1, x2⟩ := h2 [1, 0] (by decide)
  refine ⟨x, x1, ?_⟩
  rw [← Bool.not_eq_true, x2]
  decide +kernel

/-- C96: costs that are added along an assignment and minimised: an element is the least total cost of an
assignment, and infinite if there is none. -/
theorem C96_least {R : Type} [LinearOrderedAddCommMonoidWithTop R] (h : HashOrd) (al : Alloc (Tropical R)) (s : String)
    (operands : List (View (Tropical R))) (inputs : List (List Char)) (out : List Char) (dims : Char → Nat)
    (ts : List (List Nat → Tropical R)) (hc : Call s operands inputs out dims ts) (w : View (Tropical R))
    (hw : einsum h al s operands = .ok (.ok w)) :
    w.shape = out.map dims ∧ ∀ idx, InB (out.map dims) idx → ∃ x, w.read idx = .ok (Tropical.trop x) ∧
      (∀ τ : Assignment dims inputs, out.map τ.pos = idx → x ≤ ((τ.values ts).map Tropical.untrop).sum) ∧
      ((∃ τ : Assignment dims inputs, out.map τ.pos = idx) →
        ∃ τ : Assignment dims inputs, out.map τ.pos = idx ∧ x = ((τ.values ts).map Tropical.untrop).sum) ∧
      ((¬ ∃ τ : Assignment dims inputs, out.map τ.pos = idx) → x = ⊤) := by
  obtain ⟨h1, h2⟩ := C96_einsum (chooses_tropical R) h al s operands inputs out dims ts hc w hw
  refine ⟨h1, fun idx hi => ?_⟩
  obtain ⟨x, x1, x2, x3, x4⟩ := h2 idx hi
  have e : ∀ τ : Assignment dims inputs, Tropical.untrop (τ.product ts) = ((τ.values ts).map Tropical.untrop).sum :=
    fun τ => List.untrop_prod _
  refine ⟨Tropical.untrop x, by rw [x1, Tropical.trop_untrop], fun τ hτ => ?_, fun hn => ?_, fun hn => ?_⟩
  · rw [← e, Tropical.untrop_le_iff]
    exact Tropical.add_eq_left_iff.1 (x2 τ hτ)
  · obtain ⟨τ, t1, t2⟩ := x3 hn
    exact ⟨τ, t1, by rw [t2, e]⟩
  · rw [x4 hn, Tropical.untrop_zero]

/-- The costs `1 + 6`, `2 + 4` and `3 + 2`: the least is `5`. -/
example (h : HashOrd) (al : Alloc (Tropical (WithTop Int))) (w : View (Tropical (WithTop Int)))
    (hw : einsum h al "ij,jk->ik" [Ex.m23.map Ex.cost, Ex.m32.map Ex.cost] = .ok (.ok w)) :
    ∃ x, w.read [0, 0] = .ok (Tropical.trop x) ∧ x ≤ (5 : Int) := by
  obtain ⟨-, h2⟩ := C96_least h al _ _ _ _ _ _ (Ex.call_matmul.map Ex.cost) w hw
  obtain ⟨x, x1, x2, -⟩ := h2 [0, 0] (by decide)
  refine ⟨x, x1, (x2 (fun c => if h : c.1 = 'j' then ⟨2, by rw [h]; decide⟩ else ⟨0, by unfold Ex.dims; split <;> decide⟩)
    (by decide)).trans (le_of_eq ?_)⟩
  decide +kernel

end Einsum
