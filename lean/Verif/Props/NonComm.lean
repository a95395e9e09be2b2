import Verif.Props.Examples
import Mathlib.Data.Matrix.Mul

/-!
# Property C48: elements whose multiplication is not commutative
-/

namespace Einsum

open Spec

variable {A : Type} [Semiring A]

theorem EinsumPath.ComputesInOrder.outcome {p : EinsumPath} {order : List Nat} {operands : List (View A)}
    {inputs : List (List Char)} {out : List Char} {dims : Char → Nat} {ts : List (List Nat → A)}
    (hp : p.ComputesInOrder order dims inputs out) (ho : out.Nodup)
    (hs : Sized dims inputs (operands.map View.shape))
    (he : List.Forall₂ Elements operands ts) (al : Alloc A) :
    Outcome (¬ EmptyDiagonal dims inputs out operands) (EmptyDiagonal dims inputs out operands)
      (p.contractOperands al operands)
      (IsEinsumOrdered dims (pick inputs [] order) (pick ts (fun _ => 0) order) out) := by
  obtain ⟨b1, b2⟩ := bound_of hs he
  exact (hp A al operands ts b1 b2).imp goodAt_iff.2 (fun x y => goodAt_iff.1 y x)
    fun w hw => ⟨hw.wf ho, hw.shape, hw.get⟩

theorem pick_reverse {α : Type} (l : List α) (d : α) {n : Nat} (hn : n = l.length) :
    pick l d (List.range n).reverse = l.reverse := by
  subst hn
  rw [pick, List.map_reverse]
  exact congrArg List.reverse (pick_range l d)

/-- The products in operand order. -/
theorem orderedTerm_eq_prod {ι : Type} [DecidableEq ι] (out : List ι) (σ : ι → Nat) (b : List ι) (x : A)
    (inputs : List (List ι)) (ts : List (List Nat → A))
    (h : ∀ pre ix post, inputs = pre ++ ix :: post → ¬ FromLeft (b ++ pre.flatten) ix (post.flatten ++ out)) :
    orderedTerm out σ b x inputs ts = x * (List.zipWith (fun ix t => t (ix.map σ)) inputs ts).prod := by
  induction inputs generalizing b x ts with
  | nil => simp [orderedTerm]
  | cons ix inputs ih =>
    cases ts with
    | nil => simp [orderedTerm]
    | cons t ts =>
      have h0 := h [] ix inputs rfl
      simp only [List.flatten_nil, List.append_nil] at h0
      rw [orderedTerm, if_neg h0, ih]
      · simp [mul_assoc]
      · intro pre jx post e
        have := h (ix :: pre) jx post (by rw [e]; rfl)
        simpa using this

/-- C48: over any semiring, `einsum` returns the sum of the products formed in the order of
`orderedTerm`. -/
theorem C48_einsum (h : HashOrd) (al : Alloc A) (s : String) (operands : List (View A))
    (inputs : List (List Char)) (out : List Char) (dims : Char → Nat) (ts : List (List Nat → A))
    (hc : Call s operands inputs out dims ts) (hn : NoEmptyDiagonal dims inputs) :
    ∃ r, einsum h al s operands = .ok (.ok r) ∧ IsEinsumOrdered dims inputs ts out r := by
  have ho := hc.denotes.outputOk
  have hv := callSC_valid (dims := dims) ho
  obtain ⟨o, o1, o2⟩ := path_ordered_ok hv ((h.sub 1).sub 0) (order := naiveOrder (callSC inputs out dims))
    hc.denotes.inputs_ne.1 (naiveOrder_perm _)
  obtain ⟨p, p1, p2⟩ := o2 ((h.sub 1).sub 1)
  obtain ⟨r, r1, r2⟩ := (p2.outcome ho.1 hc.sized hc.elements al).1 (not_emptyDiagonal hn)
  refine ⟨r, ?_, ?_⟩
  · simp only [Einsum.einsum, validateAndSize_ok (h.sub 0) hc.denotes hc.sized,
      SizedContraction.contractOperands, EinsumPath.new, generateOptimizedOrder, o1, p1, bind_ok, r1]
    rfl
  · have e1 : pick (callSC inputs out dims).contraction.operandIndices [] (naiveOrder (callSC inputs out dims)) =
        inputs := pick_range inputs []
    have e2 : pick ts (fun _ => 0) (naiveOrder (callSC inputs out dims)) = ts := by
      have := (bound_of hc.sized hc.elements).1
      rw [naiveOrder]
      simp only [callSC]
      rw [← this]
      exact pick_range ts _
    rwa [e1, e2] at r2

/-- C48: a path compiled with the reverse order does the same with the operands reversed. -/
theorem C48_reverse (h : HashOrd) (al : Alloc A) (s : String) (operands : List (View A))
    (inputs : List (List Char)) (out : List Char) (dims : Char → Nat) (ts : List (List Nat → A))
    (hc : Call s operands inputs out dims ts) (hn : NoEmptyDiagonal dims inputs) :
    ∃ p r, einsumPath h s operands .reverse = .ok (.ok p) ∧ p.contractOperands al operands = .ok r ∧
      IsEinsumOrdered dims inputs.reverse ts.reverse out r := by
  have ho := hc.denotes.outputOk
  have hv := callSC_valid (dims := dims) ho
  obtain ⟨o, o1, o2⟩ := path_ordered_ok hv ((h.sub 0).sub 1) (order := reverseOrder (callSC inputs out dims))
    hc.denotes.inputs_ne.1 (reverseOrder_perm _)
  obtain ⟨p, p1, p2⟩ := o2 (h.sub 1)
  obtain ⟨r, r1, r2⟩ := (p2.outcome ho.1 hc.sized hc.elements al).1 (not_emptyDiagonal hn)
  refine ⟨p, r, ?_, r1, ?_⟩
  · simp only [einsumPath, validateAndOptimizeOrder, validateAndSize_ok ((h.sub 0).sub 0) hc.denotes hc.sized,
      generateOptimizedOrder, o1, bind_ok]
    show (EinsumPath.fromPath (h.sub 1) o >>= fun p => pure (Except.ok p)) = _
    rw [p1]
    rfl
  · have e1 : pick (callSC inputs out dims).contraction.operandIndices [] (reverseOrder (callSC inputs out dims)) =
        inputs.reverse := pick_reverse inputs [] rfl
    have e2 : pick ts (fun _ => 0) (reverseOrder (callSC inputs out dims)) = ts.reverse :=
      pick_reverse ts _ (bound_of hc.sized hc.elements).1.symm
    rwa [e1, e2] at r2

/-- C48: if the product so far always still has a letter in common with what follows (or the next operand has
none in common with what follows it), the products are formed in operand order. -/
theorem C48_operand_order (h : HashOrd) (al : Alloc A) (s : String) (operands : List (View A))
    (inputs : List (List Char)) (out : List Char) (dims : Char → Nat) (ts : List (List Nat → A))
    (hc : Call s operands inputs out dims ts) (hn : NoEmptyDiagonal dims inputs)
    (hl : ∀ pre ix post, inputs = pre ++ ix :: post → pre ≠ [] →
      (∃ c ∈ pre.flatten, c ∈ ix ∨ c ∈ post.flatten ∨ c ∈ out) ∨ ∀ c ∈ ix, c ∉ post.flatten ∧ c ∉ out) :
    ∃ r, einsum h al s operands = .ok (.ok r) ∧ r.Wf ∧ r.shape = out.map dims ∧
      ∀ σ, InRange dims out σ → r.read (out.map σ) =
        .ok (sumOver dims (summed inputs out)
          (fun σ => (List.zipWith (fun ix t => t (ix.map σ)) inputs ts).prod) σ) := by
  obtain ⟨r, h1, h2, h3, h4⟩ := C48_einsum h al s operands inputs out dims ts hc hn
  refine ⟨r, h1, h2, h3, fun σ hσ => ?_⟩
  rw [h4 σ hσ]
  cases inputs with
  | nil => exact absurd rfl hc.denotes.inputs_ne.1
  | cons ix inputs =>
    cases ts with
    | nil => have := (bound_of hc.sized hc.elements).1; simp at this
    | cons t ts =>
      rw [einsumOrdered]
      congr 2
      funext σ
      rw [orderedTerm_eq_prod, List.zipWith_cons_cons, List.prod_cons]
      rintro pre jx post rfl ⟨g1, c, g2, g3⟩
      rcases hl (ix :: pre) jx post rfl (by simp) with ⟨d, e1, e2⟩ | e
      · have := g1 d (by simpa using e1)
        simp only [List.mem_append, not_or] at this
        tauto
      · have := e c g2
        simp only [List.mem_append] at g3
        tauto

/-- C48: two operands: the factors are exchanged exactly when no letter of the first operand is in the second
or the output, while the output has a letter of the second. -/
theorem C48_two (h : HashOrd) (al : Alloc A) (s : String) (v w : View A) (ix jx out : List Char)
    (dims : Char → Nat) (t u : List Nat → A) (hc : Call s [v, w] [ix, jx] out dims [t, u])
    (hn : NoEmptyDiagonal dims [ix, jx]) :
    ∃ r, einsum h al s [v, w] = .ok (.ok r) ∧ r.Wf ∧ r.shape = out.map dims ∧
      ∀ σ, InRange dims out σ → r.read (out.map σ) =
        .ok (sumOver dims (summed [ix, jx] out)
          (fun σ => if (∀ c ∈ ix, c ∉ jx ∧ c ∉ out) ∧ (∃ c ∈ jx, c ∈ out) then u (jx.map σ) * t (ix.map σ)
            else t (ix.map σ) * u (jx.map σ)) σ) := by
  obtain ⟨r, h1, h2, h3, h4⟩ := C48_einsum h al s _ _ out dims _ hc hn
  refine ⟨r, h1, h2, h3, fun σ hσ => ?_⟩
  rw [h4 σ hσ, einsumOrdered]
  simp only [orderedTerm, FromLeft, List.flatten_nil, List.nil_append]
  congr!

/-! Matrices as elements: a chain of products, and the exchange. -/

section
variable (x y z : Matrix (Fin 2) (Fin 2) ℤ)

/-- An array of 2×2 matrices. -/
def Ex.mats (x y : Matrix (Fin 2) (Fin 2) ℤ) : View (Matrix (Fin 2) (Fin 2) ℤ) := ⟨[x, y], 0, [2], [1]⟩

def Ex.mdims : Char → Nat := fun _ => 2

theorem Ex.denotes_iii : Denotes "i,i,i->" [['i'], ['i'], ['i']] [] :=
  .inl ⟨by decide, ⟨by simp, by simp [Letter], by simp [Letter]⟩, by simp [OutputOk]⟩

theorem Ex.mats_elements : Elements (Ex.mats x y) (fun i => (i.head?.elim 0 fun k => if k = 0 then x else y)) := by
  have hb : ∀ idx, InB (Ex.mats x y).shape idx → idx = [0] ∨ idx = [1] := by
    rintro idx hi
    match idx, hi with
    | [0], _ => exact .inl rfl
    | [1], _ => exact .inr rfl
    | [n + 2], hi =>
      simp [InB, Ex.mats] at hi
  refine ⟨⟨rfl, fun idx hi => ?_⟩, fun idx hi => ?_⟩
  · rcases hb idx hi with rfl | rfl
    · exact ⟨x, rfl⟩
    · exact ⟨y, rfl⟩
  · rcases hb idx hi with rfl | rfl <;> rfl

example : Call "i,i,i->" [Ex.mats x y, Ex.mats y z, Ex.mats z x] [['i'], ['i'], ['i']] [] Ex.mdims
    [fun i => (i.head?.elim 0 fun k => if k = 0 then x else y),
     fun i => (i.head?.elim 0 fun k => if k = 0 then y else z),
     fun i => (i.head?.elim 0 fun k => if k = 0 then z else x)] :=
  ⟨Ex.denotes_iii, .cons rfl (.cons rfl (.cons rfl .nil)),
    .cons (Ex.mats_elements x y) (.cons (Ex.mats_elements y z) (.cons (Ex.mats_elements z x) .nil))⟩

example : NoEmptyDiagonal Ex.mdims [['i'], ['i'], ['i']] := by
  intro ix hi
  left
  simp only [List.mem_cons, List.not_mem_nil, or_false, or_self] at hi
  rw [hi]; simp

/-- The hypothesis of `C48_operand_order` for "i,i,i->". -/
example : ∀ pre ix post, [['i'], ['i'], ['i']] = pre ++ ix :: post → pre ≠ [] →
    (∃ c ∈ pre.flatten, c ∈ ix ∨ c ∈ post.flatten ∨ c ∈ ([] : List Char)) ∨
      ∀ c ∈ ix, c ∉ post.flatten ∧ c ∉ ([] : List Char) := by
  intro pre ix post he hp
  left
  have h1 : ∀ l ∈ pre, l = ['i'] := fun l hl => by
    have : l ∈ [['i'], ['i'], ['i']] := by rw [he]; simp [hl]
    simpa using this
  have h2 : ix = ['i'] := by
    have : ix ∈ [['i'], ['i'], ['i']] := by rw [he]; simp
    simpa using this
  obtain ⟨l, hl⟩ := List.exists_mem_of_ne_nil pre hp
  exact ⟨'i', List.mem_flatten.2 ⟨l, hl, by rw [h1 l hl]; simp⟩, .inl (by rw [h2]; simp)⟩

theorem Ex.denotes_ijj : Denotes "i,j->j" [['i'], ['j']] ['j'] :=
  .inl ⟨by decide, ⟨by simp, by simp [Letter], by simp [Letter]⟩, by simp [OutputOk, Used]⟩

/-- The second operand multiplied from the left: "i,j->j" gives `y * (x + y)` and `z * (x + y)`. -/
example (h : HashOrd) (al : Alloc _) :
    ∃ r, einsum h al "i,j->j" [Ex.mats x y, Ex.mats y z] = .ok (.ok r) ∧
      r.read [0] = .ok (y * x + y * y) ∧ r.read [1] = .ok (z * x + z * y) := by
  obtain ⟨r, h1, -, -, h2⟩ := C48_two h al "i,j->j" (Ex.mats x y) (Ex.mats y z) ['i'] ['j'] ['j'] Ex.mdims _ _
    ⟨Ex.denotes_ijj, .cons rfl (.cons rfl .nil), .cons (Ex.mats_elements x y) (.cons (Ex.mats_elements y z) .nil)⟩
    (by intro ix hi; left; simp only [List.mem_cons, List.not_mem_nil, or_false] at hi; rcases hi with rfl | rfl <;> simp)
  have e : summed [['i'], ['j']] ['j'] = ['i'] := by decide
  refine ⟨r, h1, ?_, ?_⟩
  · have := h2 (fun _ => 0) (by simp [InRange, Ex.mdims])
    rw [e] at this
    simpa [sumOver, Ex.mdims, Finset.sum_range_succ] using this
  · have := h2 (fun _ => 1) (by simp [InRange, Ex.mdims])
    rw [e] at this
    simpa [sumOver, Ex.mdims, Finset.sum_range_succ] using this

end

end Einsum
