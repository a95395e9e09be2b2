import Verif.SpecArray
import Verif.Proofs.Path
import Verif.Props.Validation

/-! # From valid calls to compiled paths -/

namespace Einsum

open Spec Function

variable {A : Type}

theorem Spec.Elements.holds {v : View A} {t : List Nat → A} (h : Elements v t) : Holds v v.shape t :=
  ⟨rfl, h.1.1, h.2⟩

theorem Holds.elements {v : View A} {s t} (h : Holds v s t) : Elements v t :=
  ⟨h.wf, fun idx hi => h.get idx (h.shape ▸ hi)⟩

theorem Rep.isEinsum [CommSemiring A] {dims : Char → Nat} {inputs : List (List Char)}
    {ts : List (List Nat → A)} {out : List Char} {r : View A} (hn : out.Nodup)
    (h : Rep r out dims (Spec.einsum dims inputs ts out)) : IsEinsum dims inputs ts out r :=
  ⟨h.wf hn, h.shape, h.get⟩

theorem Spec.IsEinsum.rep [CommSemiring A] {dims : Char → Nat} {inputs : List (List Char)}
    {ts : List (List Nat → A)} {out : List Char} {r : View A} (h : IsEinsum dims inputs ts out r) :
    Rep r out dims (Spec.einsum dims inputs ts out) :=
  ⟨h.2.1, by rw [h.1.1, h.2.1]; simp, h.2.2⟩

/-- Every in-range index tuple of an array labelled `out` is `out.map σ` for some `σ`. -/
theorem exists_assign {dims : Char → Nat} {out : List Char} (hn : out.Nodup) {idx : List Nat}
    (h : InB (out.map dims) idx) : ∃ σ, InRange dims out σ ∧ out.map σ = idx :=
  ⟨assign out idx, inRange_assign hn h, map_assign hn (by simpa using h.length_eq)⟩

theorem Spec.IsEinsum.same [CommSemiring A] {dims : Char → Nat} {inputs : List (List Char)}
    {ts : List (List Nat → A)} {out : List Char} {r r' : View A} (hn : out.Nodup)
    (h : IsEinsum dims inputs ts out r) (h' : IsEinsum dims inputs ts out r') : SameArray r r' := by
  refine ⟨h.1, h'.1, h.2.1.trans h'.2.1.symm, fun idx hi => ?_⟩
  rw [h.2.1] at hi
  obtain ⟨σ, h1, rfl⟩ := exists_assign hn hi
  rw [h.2.2 σ h1, h'.2.2 σ h1]

/-- The sized contraction of a valid call. -/
def callSC (inputs : List (List Char)) (out : List Char) (dims : Char → Nat) : SizedContraction :=
  ⟨⟨inputs, out, summationOf inputs out⟩, fun c => if c ∈ inputs.flatten then some (dims c) else none⟩

theorem callSC_valid {inputs : List (List Char)} {out : List Char} {dims : Char → Nat}
    (ho : OutputOk inputs out) : (callSC inputs out dims).Valid dims :=
  ⟨ho, rfl, fun c hc => by simp only [callSC] at hc ⊢; rw [if_pos hc]⟩

theorem validateAndSize_ok {s : String} {operands : List (View A)} {inputs : List (List Char)}
    {out : List Char} {dims : Char → Nat} (h : HashOrd) (hd : Denotes s inputs out)
    (hs : Sized dims inputs (operands.map View.shape)) :
    validateAndSize h s operands = .ok (callSC inputs out dims) :=
  fromStringAndShapes_iff.2 ⟨inputs, out, dims, hd, hs, rfl⟩

theorem prod_dims_pos {dims : Char → Nat} {ix : List Char} (h : ∀ c ∈ ix, dims c ≠ 0) :
    0 < (ix.map dims).prod := by
  apply Nat.pos_of_ne_zero
  intro h0
  rw [List.prod_eq_zero_iff] at h0
  obtain ⟨c, hc, e⟩ := List.mem_map.1 h0
  exact h c hc e

theorem good_of {A : Type} {dims : Char → Nat} {K : Char → Prop} {ix : List Char} {v : View A}
    (h : ix.Nodup ∨ ∀ c ∈ ix, dims c ≠ 0) : Good dims K ix v :=
  h.imp id fun h => .inl (prod_dims_pos h)

theorem bound_of {inputs : List (List Char)} {operands : List (View A)} {dims : Char → Nat}
    {ts : List (List Nat → A)} (hs : Sized dims inputs (operands.map View.shape))
    (he : List.Forall₂ Elements operands ts) :
    ts.length = inputs.length ∧ Bound dims operands inputs (List.range inputs.length) ts := by
  have l1 : inputs.length = operands.length := by simpa using hs.length_eq
  have l2 : operands.length = ts.length := he.length_eq
  refine ⟨by omega, fun i ix hi => ?_⟩
  have hlt : i < inputs.length := by
    by_contra hc
    rw [List.getElem?_eq_none (by omega)] at hi; simp at hi
  have ho : i < operands.length := by omega
  have ht : i < ts.length := by omega
  rw [List.getElem?_eq_getElem hlt, Option.some.injEq] at hi
  subst hi
  have h1 := (List.forall₂_iff_get.1 hs).2 i hlt (by simpa using ho)
  have h2 := (List.forall₂_iff_get.1 he).2 i ho ht
  simp only [List.get_eq_getElem, List.getElem_map] at h1 h2
  refine ⟨i, operands[i], ts[i], List.getElem?_range hlt, List.getElem?_eq_getElem ho,
    List.getElem?_eq_getElem ht, ?_⟩
  have := h2.holds
  rwa [h1] at this

theorem goodAt_iff {inputs : List (List Char)} {out : List Char} {operands : List (View A)} {dims : Char → Nat} :
    GoodAt dims operands inputs (List.range inputs.length) out ↔ ¬ EmptyDiagonal dims inputs out operands := by
  constructor
  · rintro h ⟨k, ix, v, h1, h2, h3, ⟨c, hc, h0⟩, h5⟩
    rcases h k ix k v h1 (List.getElem?_range (List.getElem?_eq_some_iff.1 h1).1) h2 with g | g | ⟨g, d, hd, g'⟩
    · exact h3 g
    · have : (ix.map dims).prod = 0 := List.prod_eq_zero_iff.2 (List.mem_map.2 ⟨c, hc, h0⟩)
      omega
    · exact g' (h5 g d hd)
  · intro h i ix n v h1 h2 h3
    rw [List.getElem?_range (List.getElem?_eq_some_iff.1 h1).1, Option.some.injEq] at h2
    subst h2
    by_contra hg
    unfold Good at hg
    push Not at hg
    have h0 : (ix.map dims).prod = 0 := by omega
    obtain ⟨c, hc, e⟩ := List.mem_map.1 (List.prod_eq_zero_iff.1 h0)
    exact h ⟨i, ix, v, h1, h3, hg.1, ⟨c, hc, e⟩, hg.2.2⟩

theorem not_emptyDiagonal {inputs : List (List Char)} {out : List Char} {operands : List (View A)} {dims : Char → Nat}
    (h : NoEmptyDiagonal dims inputs) : ¬ EmptyDiagonal dims inputs out operands := by
  rintro ⟨k, ix, v, h1, -, h3, ⟨c, hc, h0⟩, -⟩
  rcases h ix (List.mem_of_getElem? h1) with h | h
  · exact h3 h
  · exact h c hc h0

theorem wf_of_elements {operands : List (View A)} {ts : List (List Nat → A)}
    (h : List.Forall₂ Elements operands ts) : ∀ v ∈ operands, v.Wf := by
  induction h with
  | nil => simp
  | cons h _ ih =>
    intro v hv
    rcases List.mem_cons.1 hv with rfl | hv
    · exact h.1
    · exact ih v hv

theorem exists_elements [Zero A] {operands : List (View A)} (h : ∀ v ∈ operands, v.Wf) :
    ∃ ts, List.Forall₂ Elements operands ts := by
  induction operands with
  | nil => exact ⟨[], .nil⟩
  | cons v vs ih =>
    obtain ⟨ts, h1⟩ := ih fun w hw => h w (by simp [hw])
    obtain ⟨T, hT⟩ := (h v (by simp)).holds
    exact ⟨T :: ts, .cons hT.elements h1⟩

/-- What running a compiled path does. -/
theorem EinsumPath.Computes.outcome [CommSemiring A] {p : EinsumPath} {operands : List (View A)}
    {inputs : List (List Char)} {out : List Char} {dims : Char → Nat} {ts : List (List Nat → A)}
    (hp : p.Computes dims inputs out) (ho : out.Nodup)
    (hs : Sized dims inputs (operands.map View.shape))
    (he : List.Forall₂ Elements operands ts) (al : Alloc A) :
    Outcome (¬ EmptyDiagonal dims inputs out operands) (EmptyDiagonal dims inputs out operands)
      (p.contractOperands al operands) (IsEinsum dims inputs ts out) := by
  obtain ⟨b1, b2⟩ := bound_of hs he
  exact (hp A al operands ts b1 b2).imp goodAt_iff.2 (fun x y => goodAt_iff.1 y x)
    fun w hw => hw.isEinsum ho

theorem naiveOrder_perm (sc : SizedContraction) :
    (naiveOrder sc).Perm (List.range sc.contraction.operandIndices.length) := .refl _

theorem reverseOrder_perm (sc : SizedContraction) :
    (reverseOrder sc).Perm (List.range sc.contraction.operandIndices.length) := List.reverse_perm _

theorem contractOperands_outcome [CommSemiring A] {s : String} {operands : List (View A)}
    {inputs : List (List Char)} {out : List Char} {dims : Char → Nat} {ts : List (List Nat → A)}
    (hc : Call s operands inputs out dims ts) (h : HashOrd) (al : Alloc A) :
    Outcome (¬ EmptyDiagonal dims inputs out operands) (EmptyDiagonal dims inputs out operands)
      ((callSC inputs out dims).contractOperands h al operands) (IsEinsum dims inputs ts out) := by
  have ho := hc.denotes.outputOk
  have hv := callSC_valid (dims := dims) ho
  obtain ⟨o, o1, o2⟩ := path_ok hv (h.sub 0) (order := naiveOrder (callSC inputs out dims))
    hc.denotes.inputs_ne.1 (naiveOrder_perm _)
  obtain ⟨p, p1, p2⟩ := o2 (h.sub 1)
  simp only [SizedContraction.contractOperands, EinsumPath.new, generateOptimizedOrder, o1, p1, bind_ok]
  exact p2.outcome ho.1 hc.sized hc.elements al

theorem einsum_outcome [CommSemiring A] {s : String} {operands : List (View A)}
    {inputs : List (List Char)} {out : List Char} {dims : Char → Nat} {ts : List (List Nat → A)}
    (hc : Call s operands inputs out dims ts) (h : HashOrd) (al : Alloc A) :
    Outcome (¬ EmptyDiagonal dims inputs out operands) (EmptyDiagonal dims inputs out operands)
      (einsum h al s operands) fun x => ∃ r, x = .ok r ∧ IsEinsum dims inputs ts out r := by
  simp only [Einsum.einsum, validateAndSize_ok (h.sub 0) hc.denotes hc.sized]
  exact ((contractOperands_outcome hc (h.sub 1) al).bind (f := fun r => pure (Except.ok r)) fun r hr =>
    Outcome.ok ⟨_, rfl, r, rfl, hr⟩).imp (fun x => ⟨x, trivial⟩) .inl fun x hx => hx

theorem einsum_ok [CommSemiring A] {s : String} {operands : List (View A)}
    {inputs : List (List Char)} {out : List Char} {dims : Char → Nat} {ts : List (List Nat → A)}
    (hc : Call s operands inputs out dims ts) (hn : NoEmptyDiagonal dims inputs) (h : HashOrd)
    (al : Alloc A) :
    ∃ r, einsum h al s operands = .ok (.ok r) ∧ IsEinsum dims inputs ts out r := by
  obtain ⟨x, h1, r, rfl, h2⟩ := (einsum_outcome hc h al).1 (not_emptyDiagonal hn)
  exact ⟨r, h1, h2⟩

theorem einsumPath_ok {s : String} {operands : List (View A)}
    {inputs : List (List Char)} {out : List Char} {dims : Char → Nat}
    (hd : Denotes s inputs out) (hs : Sized dims inputs (operands.map View.shape)) (h : HashOrd)
    {m : OptimizationMethod} (hm : m = .naive ∨ m = .reverse) :
    ∃ p, einsumPath h s operands m = .ok (.ok p) ∧ p.Computes dims inputs out := by
  have ho := hd.outputOk
  have hv := callSC_valid (dims := dims) ho
  have key : ∀ order, order.Perm (List.range (callSC inputs out dims).contraction.operandIndices.length) →
      generateOptimizedOrder ((h.sub 0).sub 1) (callSC inputs out dims) m =
        generatePath ((h.sub 0).sub 1) (callSC inputs out dims) order →
      ∃ p, einsumPath h s operands m = .ok (.ok p) ∧ p.Computes dims inputs out := by
    intro order hp he
    obtain ⟨o, o1, o2⟩ := path_ok hv ((h.sub 0).sub 1) hd.inputs_ne.1 hp
    obtain ⟨p, p1, p2⟩ := o2 (h.sub 1)
    refine ⟨p, ?_, p2⟩
    simp only [einsumPath, validateAndOptimizeOrder, validateAndSize_ok ((h.sub 0).sub 0) hd hs, he, o1,
      bind_ok]
    show (EinsumPath.fromPath (h.sub 1) o >>= fun p => pure (Except.ok p)) = _
    rw [p1]
    rfl
  rcases hm with rfl | rfl
  · exact key _ (naiveOrder_perm _) rfl
  · exact key _ (reverseOrder_perm _) rfl

theorem same_elements {v w : View A} {t : List Nat → A} (h : SameArray v w) (he : Elements v t) :
    Elements w t :=
  ⟨h.2.1, fun idx hi => by rw [← h.2.2.2 idx (h.2.2.1 ▸ hi)]; exact he.2 idx (h.2.2.1 ▸ hi)⟩

theorem forall₂_same {o o' : List (View A)} {ts : List (List Nat → A)}
    (h : List.Forall₂ SameArray o o') (he : List.Forall₂ Elements o ts) :
    List.Forall₂ Elements o' ts ∧ o'.map View.shape = o.map View.shape := by
  induction h generalizing ts with
  | nil => cases he; exact ⟨.nil, rfl⟩
  | cons h1 _ ih =>
    cases he with
    | cons h2 h3 =>
      obtain ⟨i1, i2⟩ := ih h3
      exact ⟨.cons (same_elements h1 h2) i1, by simp [i2, h1.2.2.1]⟩

/-- The elements of an array as a function of the index (zero outside). -/
def View.elem [Zero A] (v : View A) (idx : List Nat) : A :=
  match v.read idx with
  | .ok x => x
  | .error _ => 0

theorem View.Wf.elements [Zero A] {v : View A} (h : v.Wf) : Elements v v.elem :=
  ⟨h, fun idx hi => by obtain ⟨x, hx⟩ := h.2 idx hi; simp [View.elem, hx]⟩

theorem forall₂_elem [Zero A] {operands : List (View A)} (h : ∀ v ∈ operands, v.Wf) :
    List.Forall₂ Elements operands (operands.map View.elem) := by
  induction operands with
  | nil => exact .nil
  | cons v vs ih => exact .cons (h v (by simp)).elements (ih fun w hw => h w (by simp [hw]))

end Einsum
