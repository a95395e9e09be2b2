import Verif.Props.Main
import Verif.Props.Tensordot
import Mathlib.Algebra.BigOperators.Ring.Finset
import Mathlib.Algebra.BigOperators.Fin
import Mathlib.Tactic.NormNum

/-!
# Property C127: independent random operands

Operand `i` is one of the arrays `X i ω`, with the weights `w i ω`; all combinations of outcomes occur, weighted with the
products of the weights.
-/

namespace Einsum

open Spec

variable {A Ω : Type} [CommSemiring A]

theorem sumOver_finset {ι κ : Type} [DecidableEq ι] {dims : ι → Nat} (s : Finset κ) (f : κ → (ι → Nat) → A)
    (cs : List ι) (σ : ι → Nat) :
    sumOver dims cs (fun τ => ∑ k ∈ s, f k τ) σ = ∑ k ∈ s, sumOver dims cs (f k) σ := by
  induction cs generalizing σ with
  | nil => rfl
  | cons c cs ih => simp only [sumOver_cons, ih]; exact Finset.sum_comm

theorem sumOver_scaled {ι : Type} [DecidableEq ι] {dims : ι → Nat} (a : A) (f : (ι → Nat) → A)
    (cs : List ι) (σ : ι → Nat) : sumOver dims cs (fun τ => a * f τ) σ = a * sumOver dims cs f σ := by
  induction cs generalizing σ with
  | nil => rfl
  | cons c cs ih => simp only [sumOver_cons, ih, Finset.mul_sum]

theorem term_ofFn : ∀ {n : Nat} {inputs : List (List Char)} (hl : inputs.length = n) (T : Fin n → List Nat → A)
    (σ : Char → Nat), term inputs (List.ofFn T) σ = ∏ i : Fin n, T i ((inputs[i.val]'(hl ▸ i.isLt)).map σ)
  | 0, [], _, _, _ => by simp [term]
  | n + 1, L :: inputs, hl, T, σ => by
    have := term_ofFn (Nat.succ.inj hl) (fun i => T i.succ) σ
    simp only [term] at this ⊢
    rw [List.ofFn_succ, List.zipWith_cons_cons, List.prod_cons, this, Fin.prod_univ_succ]
    rfl

theorem einsum_mean [Fintype Ω] {n : Nat} {inputs : List (List Char)} {out : List Char} {dims : Char → Nat}
    (hl : inputs.length = n) (w : Fin n → Ω → A) (T : Fin n → Ω → List Nat → A) (σ : Char → Nat) :
    Spec.einsum dims inputs (List.ofFn fun i idx => ∑ ω, w i ω * T i ω idx) out σ =
      ∑ ω : Fin n → Ω, (∏ i, w i (ω i)) * Spec.einsum dims inputs (List.ofFn fun i => T i (ω i)) out σ := by
  classical
  have e : term inputs (List.ofFn fun i idx => ∑ ω, w i ω * T i ω idx) = fun σ => ∑ ω ∈ (Finset.univ : Finset (Fin n → Ω)),
      (∏ i, w i (ω i)) * term inputs (List.ofFn fun i => T i (ω i)) σ := by
    funext σ
    rw [term_ofFn hl, Finset.prod_univ_sum, Fintype.piFinset_univ]
    refine Finset.sum_congr rfl fun ω _ => ?_
    rw [term_ofFn hl, Finset.prod_mul_distrib]
  unfold Spec.einsum
  rw [e, sumOver_finset]
  exact Finset.sum_congr rfl fun ω _ => sumOver_scaled _ _ _ _

theorem forall₂_ofFn {α β : Type} {R : α → β → Prop} : ∀ {n : Nat} {f : Fin n → α} {g : Fin n → β},
    (∀ i, R (f i) (g i)) → List.Forall₂ R (List.ofFn f) (List.ofFn g)
  | 0, _, _, _ => by simp
  | n + 1, f, g, h => by
    rw [List.ofFn_succ, List.ofFn_succ]
    exact .cons (h 0) (forall₂_ofFn fun i => h i.succ)

section
variable [Fintype Ω] {n : Nat} (h : HashOrd) (al : Alloc A) (h' : (Fin n → Ω) → HashOrd) (al' : (Fin n → Ω) → Alloc A)
  (s : String) (inputs : List (List Char)) (out : List Char) (dims : Char → Nat) (w : Fin n → Ω → A)
  (X : Fin n → Ω → View A) (m : Fin n → View A)

theorem call_mean (hd : Denotes s inputs out) (hs : Sized dims inputs ((List.ofFn m).map View.shape)) (hm : ∀ i, (m i).Wf)
    (hmean : ∀ i idx, InB (m i).shape idx →
      ∃ x : Ω → A, (∀ ω, (X i ω).read idx = .ok (x ω)) ∧ (m i).read idx = .ok (∑ ω, w i ω * x ω)) :
    Call s (List.ofFn m) inputs out dims (List.ofFn fun i idx => ∑ ω, w i ω * (X i ω).elem idx) := by
  refine ⟨hd, hs, forall₂_ofFn fun i => ⟨hm i, fun idx hi => ?_⟩⟩
  obtain ⟨x, h1, h2⟩ := hmean i idx hi
  rw [h2]
  simp [View.elem, h1]

omit [Fintype Ω] in
theorem call_outcome (hd : Denotes s inputs out) (hs : Sized dims inputs ((List.ofFn m).map View.shape))
    (hX : ∀ i ω, (X i ω).Wf ∧ (X i ω).shape = (m i).shape) (ω : Fin n → Ω) :
    Call s (List.ofFn fun i => X i (ω i)) inputs out dims (List.ofFn fun i => (X i (ω i)).elem) := by
  refine ⟨hd, ?_, forall₂_ofFn fun i => (hX i (ω i)).1.elements⟩
  have : (List.ofFn fun i => X i (ω i)).map View.shape = (List.ofFn m).map View.shape := by
    simp only [List.map_ofFn]
    congr 1
    funext i
    exact (hX i (ω i)).2
  rwa [this]

/-- C127: the result for the means of independent operands is the mean of the results, whenever the calls return. -/
theorem C127_returned (hd : Denotes s inputs out) (hs : Sized dims inputs ((List.ofFn m).map View.shape))
    (hX : ∀ i ω, (X i ω).Wf ∧ (X i ω).shape = (m i).shape) (hm : ∀ i, (m i).Wf)
    (hmean : ∀ i idx, InB (m i).shape idx →
      ∃ x : Ω → A, (∀ ω, (X i ω).read idx = .ok (x ω)) ∧ (m i).read idx = .ok (∑ ω, w i ω * x ω))
    (r : (Fin n → Ω) → View A) (q : View A)
    (hr : ∀ ω, einsum (h' ω) (al' ω) s (List.ofFn fun i => X i (ω i)) = .ok (.ok (r ω)))
    (hq : einsum h al s (List.ofFn m) = .ok (.ok q)) :
    (∀ ω, (r ω).shape = q.shape) ∧ ∀ idx, InB q.shape idx →
      ∃ y : (Fin n → Ω) → A, (∀ ω, (r ω).read idx = .ok (y ω)) ∧ q.read idx = .ok (∑ ω, (∏ i, w i (ω i)) * y ω) := by
  have hl : inputs.length = n := by simpa using hs.length_eq
  have r2 := fun ω => isEinsum_of_returned (call_outcome s inputs out dims X m hd hs hX ω) (hr ω)
  have q2 := isEinsum_of_returned (call_mean s inputs out dims w X m hd hs hm hmean) hq
  refine ⟨fun ω => (r2 ω).2.1.trans q2.2.1.symm, fun idx hi => ?_⟩
  rw [q2.2.1] at hi
  obtain ⟨σ, hσ, rfl⟩ := exists_assign hd.outputOk.1 hi
  refine ⟨_, fun ω => (r2 ω).2.2 σ hσ, ?_⟩
  rw [q2.2.2 σ hσ, einsum_mean hl w (fun i ω => (X i ω).elem)]

/-- C127: where no operand has both a repeated letter and an empty axis, the calls return. -/
theorem C127_mean (hd : Denotes s inputs out) (hs : Sized dims inputs ((List.ofFn m).map View.shape))
    (hn : NoEmptyDiagonal dims inputs) (hX : ∀ i ω, (X i ω).Wf ∧ (X i ω).shape = (m i).shape) (hm : ∀ i, (m i).Wf)
    (hmean : ∀ i idx, InB (m i).shape idx →
      ∃ x : Ω → A, (∀ ω, (X i ω).read idx = .ok (x ω)) ∧ (m i).read idx = .ok (∑ ω, w i ω * x ω)) :
    ∃ (r : (Fin n → Ω) → View A) (q : View A),
      (∀ ω, einsum (h' ω) (al' ω) s (List.ofFn fun i => X i (ω i)) = .ok (.ok (r ω))) ∧
      einsum h al s (List.ofFn m) = .ok (.ok q) ∧ (∀ ω, (r ω).shape = q.shape) ∧ ∀ idx, InB q.shape idx →
        ∃ y : (Fin n → Ω) → A, (∀ ω, (r ω).read idx = .ok (y ω)) ∧
          q.read idx = .ok (∑ ω, (∏ i, w i (ω i)) * y ω) := by
  choose r r1 _ using fun ω => einsum_ok (call_outcome s inputs out dims X m hd hs hX ω) hn (h' ω) (al' ω)
  obtain ⟨q, q1, -⟩ := einsum_ok (call_mean s inputs out dims w X m hd hs hm hmean) hn h al
  exact ⟨r, q, r1, q1, C127_returned h al h' al' s inputs out dims w X m hd hs hX hm hmean r q r1 q1⟩

end

/-! ## `tensordot` -/

theorem sumIdx_mean {Ω' : Type} (s : Finset Ω) (s' : Finset Ω') (f : Ω → List Nat → A) (g : Ω' → List Nat → A) (d : List Nat) :
    (sumIdx d fun c => (∑ ω ∈ s, f ω c) * ∑ ν ∈ s', g ν c) = ∑ ω ∈ s, ∑ ν ∈ s', sumIdx d fun c => f ω c * g ν c := by
  induction d generalizing f g with
  | nil => simp only [sumIdx]; exact Finset.sum_mul_sum _ _ _ _
  | cons n d ih =>
    simp only [sumIdx, ih]
    rw [Finset.sum_comm]
    exact Finset.sum_congr rfl fun ω _ => Finset.sum_comm

theorem sumIdx_scaled (a : A) (f : List Nat → A) (d : List Nat) : (sumIdx d fun c => a * f c) = a * sumIdx d f := by
  induction d generalizing f with
  | nil => rfl
  | cons n d ih => simp only [sumIdx, ih, Finset.mul_sum]

/-- C127 for `tensordot`. -/
theorem C127_tensordot {Ω' : Type} [Fintype Ω] [Fintype Ω'] (al : Alloc A) (al' : Ω → Ω' → Alloc A) (w : Ω → A) (v : Ω' → A)
    (X : Ω → View A) (Y : Ω' → View A) (l r : View A) (la ra : List Nat) (hX : ∀ ω, (X ω).Wf ∧ (X ω).shape = l.shape)
    (hY : ∀ ν, (Y ν).Wf ∧ (Y ν).shape = r.shape) (hl : l.Wf) (hr : r.Wf)
    (hml : ∀ idx, InB l.shape idx →
      ∃ x : Ω → A, (∀ ω, (X ω).read idx = .ok (x ω)) ∧ l.read idx = .ok (∑ ω, w ω * x ω))
    (hmr : ∀ idx, InB r.shape idx →
      ∃ y : Ω' → A, (∀ ν, (Y ν).read idx = .ok (y ν)) ∧ r.read idx = .ok (∑ ν, v ν * y ν))
    (hlen : la.length = ra.length) (hla : la.Nodup) (hra : ra.Nodup) (hal : ∀ a ∈ la, a < l.shape.length)
    (har : ∀ a ∈ ra, a < r.shape.length) (heq : lengths l.shape la = lengths r.shape ra) :
    ∃ (z : Ω → Ω' → View A) (q : View A), (∀ ω ν, tensordot (al' ω ν) (X ω) (Y ν) la ra = .ok (z ω ν)) ∧
      tensordot al l r la ra = .ok q ∧ (∀ ω ν, (z ω ν).shape = q.shape) ∧ ∀ idx, InB q.shape idx →
        ∃ y : Ω → Ω' → A, (∀ ω ν, (z ω ν).read idx = .ok (y ω ν)) ∧
          q.read idx = .ok (∑ ω, ∑ ν, w ω * v ν * y ω ν) := by
  have el : Elements l fun idx => ∑ ω, w ω * (X ω).elem idx := by
    refine ⟨hl, fun idx hi => ?_⟩
    obtain ⟨x, h1, h2⟩ := hml idx hi
    rw [h2]
    simp [View.elem, h1]
  have er : Elements r fun idx => ∑ ν, v ν * (Y ν).elem idx := by
    refine ⟨hr, fun idx hi => ?_⟩
    obtain ⟨x, h1, h2⟩ := hmr idx hi
    rw [h2]
    simp [View.elem, h1]
  have hz := fun ω ν => C21_tensordot (al' ω ν) (X ω) (Y ν) _ _ la ra (hX ω).1.elements (hY ν).1.elements hlen hla hra
    ((hX ω).2 ▸ hal) ((hY ν).2 ▸ har) (by rw [(hX ω).2, (hY ν).2, heq])
  simp only [(hX _).2, (hY _).2] at hz
  choose z z1 _ z3 z4 using hz
  obtain ⟨q, q1, -, q3, q4⟩ := C21_tensordot al l r _ _ la ra el er hlen hla hra hal har heq
  refine ⟨z, q, z1, q1, fun ω ν => (z3 ω ν).trans q3.symm, fun idx hi => ?_⟩
  rw [q3] at hi
  obtain ⟨a, b, rfl, ha, hb⟩ := hi.split
  refine ⟨_, fun ω ν => z4 ω ν a b ha hb, ?_⟩
  rw [q4 a b ha hb, sumIdx_mean]
  congr 1
  refine Finset.sum_congr rfl fun ω _ => Finset.sum_congr rfl fun ν _ => ?_
  rw [← sumIdx_scaled]
  congr 1
  funext c
  ring

/-! ## Operands that are not independent -/

theorem Ex.square127 (h : HashOrd) (al : Alloc ℚ) (x : ℚ) :
    ∃ r, einsum h al "i,i->" [⟨[x], 0, [1], [1]⟩, ⟨[x], 0, [1], [1]⟩] = .ok (.ok r) ∧ r.read [] = .ok (x * x) := by
  have he : Elements (⟨[x], 0, [1], [1]⟩ : View ℚ) fun _ => x := elements_of rfl (by
    intro idx hi
    obtain rfl : idx = [0] := by simpa [allIdx] using hi
    rfl)
  obtain ⟨r, r1, r2⟩ := C13_einsum h al "i,i->" [⟨[x], 0, [1], [1]⟩, ⟨[x], 0, [1], [1]⟩] [['i'], ['i']] [] (fun _ => 1)
    [fun _ => x, fun _ => x]
    ⟨.inl ⟨by decide, ⟨by simp, by simp [Letter], by simp [Letter]⟩, by simp [OutputOk, Used]⟩, .cons rfl (.cons rfl .nil),
      .cons he (.cons he .nil)⟩ (by simp [NoEmptyDiagonal])
  refine ⟨r, r1, ?_⟩
  have := r2.2.2 (fun _ => 0) (by simp [InRange])
  simpa [Spec.einsum, summed, sumOver, term] using this

/-- C127: independence is needed: if both operands are the same random array, the mean of the results is another one. -/
theorem C127_dependent (h : HashOrd) (al : Alloc ℚ) : ∃ (X : Bool → View ℚ) (m : View ℚ) (r : Bool → View ℚ) (q : View ℚ),
    (∀ idx, InB m.shape idx →
      ∃ x : Bool → ℚ, (∀ ω, (X ω).read idx = .ok (x ω)) ∧ m.read idx = .ok (∑ ω, 1 / 2 * x ω)) ∧
    (∀ ω, einsum h al "i,i->" [X ω, X ω] = .ok (.ok (r ω))) ∧ einsum h al "i,i->" [m, m] = .ok (.ok q) ∧
    ∃ y : Bool → ℚ, (∀ ω, (r ω).read [] = .ok (y ω)) ∧ q.read [] ≠ .ok (∑ ω, 1 / 2 * y ω) := by
  choose r r1 r2 using fun ω : Bool => Ex.square127 h al (if ω then 1 else 0)
  obtain ⟨q, q1, q2⟩ := Ex.square127 h al (1 / 2)
  refine ⟨fun ω => ⟨[if ω then 1 else 0], 0, [1], [1]⟩, ⟨[1 / 2], 0, [1], [1]⟩, r, q, fun idx hi => ?_, r1, q1, _, r2, ?_⟩
  · obtain rfl : idx = [0] := by simpa [allIdx] using mem_allIdx.2 hi
    refine ⟨fun ω => if ω then 1 else 0, fun ω => rfl, ?_⟩
    have : (∑ ω : Bool, 1 / 2 * (if ω then (1 : ℚ) else 0)) = 1 / 2 := by simp
    rw [this]
    rfl
  · rw [q2]
    simp only [ne_eq, Except.ok.injEq]
    rw [Fintype.sum_bool]
    norm_num

/-! ## Examples -/

namespace Ex

/-- Two vectors for each operand. -/
def x127 (i : Fin 2) (ω : Bool) : View ℕ := if ω then ⟨[1, 2 + i], 0, [2], [1]⟩ else ⟨[3, 4], 0, [2], [1]⟩

/-- Their sums with the weights 1 and 2. -/
def m127 (i : Fin 2) : View ℕ := ⟨[7, 10 + i], 0, [2], [1]⟩

theorem wf127 : (∀ i ω, (x127 i ω).Wf) ∧ ∀ i, (m127 i).Wf := by
  have h1 : ∀ i ω, ∀ idx ∈ allIdx (x127 i ω).shape, (x127 i ω).read idx = .ok ((x127 i ω).elem idx) := by decide +kernel
  have h2 : ∀ i, ∀ idx ∈ allIdx (m127 i).shape, (m127 i).read idx = .ok ((m127 i).elem idx) := by decide +kernel
  exact ⟨fun i ω => (elements_of (by cases ω <;> rfl) (h1 i ω)).1, fun i => (elements_of rfl (h2 i)).1⟩

theorem mean127 (i : Fin 2) (idx : List Nat) (hi : InB (m127 i).shape idx) : ∃ x : Bool → ℕ,
    (∀ ω, (x127 i ω).read idx = .ok (x ω)) ∧ (m127 i).read idx = .ok (∑ ω, (if ω then 1 else 2) * x ω) := by
  have h1 : ∀ i, ∀ idx ∈ allIdx (m127 i).shape,
      (m127 i).read idx = .ok (∑ ω : Bool, (if ω then 1 else 2) * (x127 i ω).elem idx) := by decide +kernel
  exact ⟨fun ω => (x127 i ω).elem idx, fun ω => (wf127.1 i ω).elements.2 idx (by cases ω <;> exact hi),
    h1 i idx (mem_allIdx.2 hi)⟩

end Ex

/-- Scalar products of random vectors. -/
example (h : HashOrd) (al : Alloc ℕ) :=
  C127_mean h al (fun _ => h) (fun _ => al) "i,i->" [['i'], ['i']] [] (fun _ => 2) (fun _ ω => if ω then 1 else 2) Ex.x127 Ex.m127
    (.inl ⟨by decide, ⟨by simp, by simp [Letter], by simp [Letter]⟩, by simp [OutputOk, Used]⟩) (.cons rfl (.cons rfl .nil))
    (by simp [NoEmptyDiagonal]) (fun i ω => ⟨Ex.wf127.1 i ω, by cases ω <;> rfl⟩) Ex.wf127.2 Ex.mean127

example (al : Alloc ℕ) :=
  C127_tensordot al (fun _ _ => al) (fun ω => if ω then 1 else 2) (fun ω => if ω then 1 else 2) (Ex.x127 0) (Ex.x127 1) (Ex.m127 0)
    (Ex.m127 1) [0] [0] (fun ω => ⟨Ex.wf127.1 0 ω, by cases ω <;> rfl⟩) (fun ω => ⟨Ex.wf127.1 1 ω, by cases ω <;> rfl⟩)
    (Ex.wf127.2 0) (Ex.wf127.2 1) (Ex.mean127 0) (Ex.mean127 1) rfl (by decide) (by decide) (by decide) (by decide) rfl

end Einsum
