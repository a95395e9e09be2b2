import Verif.SpecKron
import Verif.Props.Algebra

/-!
# C110: Kronecker products
-/

namespace Einsum
open Spec Function

theorem range_mul_sum {A : Type} [AddCommMonoid A] (m n : Nat) (f : Nat → A) :
    ∑ v ∈ Finset.range (m * n), f v = ∑ i ∈ Finset.range m, ∑ j ∈ Finset.range n, f (i * n + j) := by
  induction m with
  | zero => simp
  | succ m ih => rw [Nat.succ_mul, Finset.sum_range_add, ih, Finset.sum_range_succ]

section
variable {A : Type} [CommSemiring A] {d e : Char → Nat}

/-- A sum over `d · e` positions of products. -/
theorem kron_sum {S : List Char} {H F G : (Char → Nat) → A} {σ τ : Char → Nat}
    (h : ∀ σ' τ', (∀ c, c ∉ S → σ' c = σ c) → (∀ c, c ∉ S → τ' c = τ c) → InRange d S σ' → InRange e S τ' →
      H (fun c => σ' c * e c + τ' c) = F σ' * G τ') :
    sumOver (fun c => d c * e c) S H (fun c => σ c * e c + τ c) = sumOver d S F σ * sumOver e S G τ := by
  induction S generalizing σ τ with
  | nil => exact h σ τ (fun _ _ => rfl) (fun _ _ => rfl) (by simp [InRange]) (by simp [InRange])
  | cons x S ih =>
    rw [sumOver_cons, sumOver_cons, sumOver_cons, range_mul_sum, Finset.sum_mul_sum]
    refine Finset.sum_congr rfl fun i hi => Finset.sum_congr rfl fun j hj => ?_
    have hi : i < d x := by simpa using hi
    have hj : j < e x := by simpa using hj
    have hu : update (fun c => σ c * e c + τ c) x (i * e x + j) =
        fun c => update σ x i c * e c + update τ x j c := by
      funext c
      by_cases hc : c = x
      · subst hc; simp
      · simp [hc]
    rw [hu]
    refine ih fun σ' τ' h1 h2 h3 h4 => h σ' τ' (fun c hc => ?_) (fun c hc => ?_) (fun c hc => ?_) fun c hc => ?_
    · rw [h1 c fun hx => hc (by simp [hx]), update_of_ne fun hx => hc (by simp [hx])]
    · rw [h2 c fun hx => hc (by simp [hx]), update_of_ne fun hx => hc (by simp [hx])]
    · by_cases hS : c ∈ S
      · exact h3 c hS
      · obtain rfl : c = x := by simpa [hS] using hc
        rw [h1 c hS, update_self]; exact hi
    · by_cases hS : c ∈ S
      · exact h4 c hS
      · obtain rfl : c = x := by simpa [hS] using hc
        rw [h2 c hS, update_self]; exact hj

theorem kronAt_map (ix : List Char) (σ τ : Char → Nat) :
    kronAt (ix.map e) (ix.map σ) (ix.map τ) = ix.map fun c => σ c * e c + τ c := by
  induction ix with
  | nil => rfl
  | cons c ix ih => simp [kronAt]

theorem kron_lt {m n i j : Nat} (hi : i < m) (hj : j < n) : i * n + j < m * n :=
  calc i * n + j < i * n + n := by omega
    _ = (i + 1) * n := by rw [Nat.succ_mul]
    _ ≤ m * n := Nat.mul_le_mul_right n hi

/-- Every term is the product of a term of the first and one of the second call. -/
theorem kron_term {inputs : List (List Char)} {ps : List (View A × View A)} {xs : List (View A)}
    (h1 : Sized d inputs ((ps.map Prod.fst).map View.shape)) (h2 : Sized e inputs ((ps.map Prod.snd).map View.shape))
    (hk : List.Forall₂ (fun p x => IsKron p.1 p.2 x) ps xs) (σ τ : Char → Nat) (hσ : InRange d inputs.flatten σ)
    (hτ : InRange e inputs.flatten τ) :
    term inputs (xs.map View.elem) (fun c => σ c * e c + τ c) =
      term inputs ((ps.map Prod.fst).map View.elem) σ * term inputs ((ps.map Prod.snd).map View.elem) τ := by
  induction hk generalizing inputs with
  | nil => cases h1; simp [term]
  | @cons p x ps xs hp hk ih =>
    cases inputs with
    | nil => simp [term]
    | cons ix inputs =>
      obtain ⟨a1, a2⟩ := List.forall₂_cons.1 h1
      obtain ⟨b1, b2⟩ := List.forall₂_cons.1 h2
      have ih := ih a2 b2 (fun c hc => hσ c (by simp only [List.flatten_cons, List.mem_append]; exact .inr hc))
        fun c hc => hτ c (by simp only [List.flatten_cons, List.mem_append]; exact .inr hc)
      obtain ⟨u, v, r1, r2, r3⟩ := hp.read (ix.map σ) (ix.map τ)
        (by rw [a1]; exact InB_map.2 fun c hc => hσ c (by simp [hc])) (by rw [b1]; exact InB_map.2 fun c hc => hτ c (by simp [hc]))
      rw [b1, kronAt_map] at r3
      unfold term at ih ⊢
      simp only [List.map_cons, List.zipWith_cons_cons, List.prod_cons]
      rw [ih]
      simp only [View.elem, r1, r2, r3]
      ring

omit [CommSemiring A] in
theorem kron_sized [Mul A] {inputs : List (List Char)} {ps : List (View A × View A)} {xs : List (View A)}
    (h1 : Sized d inputs ((ps.map Prod.fst).map View.shape)) (h2 : Sized e inputs ((ps.map Prod.snd).map View.shape))
    (hk : List.Forall₂ (fun p x => IsKron p.1 p.2 x) ps xs) : Sized (fun c => d c * e c) inputs (xs.map View.shape) := by
  induction hk generalizing inputs with
  | nil => cases h1; exact .nil
  | @cons p x ps xs hp hk ih =>
    cases inputs with
    | nil => cases h1
    | cons ix inputs =>
      obtain ⟨a1, a2⟩ := List.forall₂_cons.1 h1
      obtain ⟨b1, b2⟩ := List.forall₂_cons.1 h2
      refine .cons ?_ (ih a2 b2)
      rw [hp.shape, a1, b1, List.zipWith_map, List.zipWith_self]

/-- C110: whenever the three calls return, the result for the Kronecker products is the Kronecker product of the results. -/
theorem C110_returned (h h' h'' : HashOrd) (al al' al'' : Alloc A) (s : String) (inputs : List (List Char))
    (out : List Char) (hd : Denotes s inputs out) (ps : List (View A × View A)) (xs : List (View A))
    (hw : ∀ p ∈ ps, p.1.Wf ∧ p.2.Wf) (hk : List.Forall₂ (fun p x => IsKron p.1 p.2 x) ps xs) (d e : Char → Nat)
    (h1 : Sized d inputs ((ps.map Prod.fst).map View.shape)) (h2 : Sized e inputs ((ps.map Prod.snd).map View.shape))
    (r r' r'' : View A) (hr : einsum h al s (ps.map Prod.fst) = .ok (.ok r))
    (hr' : einsum h' al' s (ps.map Prod.snd) = .ok (.ok r')) (hr'' : einsum h'' al'' s xs = .ok (.ok r'')) :
    IsKron r r' r'' := by
  have w1 : ∀ v ∈ ps.map Prod.fst, v.Wf := fun v hv => by
    obtain ⟨p, hp, rfl⟩ := List.mem_map.1 hv
    exact (hw p hp).1
  have w2 : ∀ v ∈ ps.map Prod.snd, v.Wf := fun v hv => by
    obtain ⟨p, hp, rfl⟩ := List.mem_map.1 hv
    exact (hw p hp).2
  have w3 : ∀ x ∈ xs, x.Wf := fun x hx => by
    obtain ⟨i, hi, rfl⟩ := List.mem_iff_getElem.1 hx
    exact ((List.forall₂_iff_get.1 hk).2 i (by rw [hk.length_eq]; exact hi) hi).wf
  have e1 := isEinsum_of_returned ⟨hd, h1, forall₂_elem w1⟩ hr
  have e2 := isEinsum_of_returned ⟨hd, h2, forall₂_elem w2⟩ hr'
  have e3 := isEinsum_of_returned ⟨hd, kron_sized h1 h2 hk, forall₂_elem w3⟩ hr''
  have ho := hd.outputOk
  refine ⟨e3.1, by rw [e1.2.1, e2.2.1]; simp, by rw [e1.2.1, e2.2.1, e3.2.1, List.zipWith_map, List.zipWith_self],
    fun i j hi hj => ?_⟩
  rw [e1.2.1] at hi
  rw [e2.2.1] at hj ⊢
  obtain ⟨σ, hσ, rfl⟩ := exists_assign ho.1 hi
  obtain ⟨τ, hτ, rfl⟩ := exists_assign ho.1 hj
  refine ⟨_, _, e1.2.2 σ hσ, e2.2.2 τ hτ, ?_⟩
  rw [kronAt_map, e3.2.2 _ fun c hc => kron_lt (hσ c hc) (hτ c hc)]
  refine congrArg _ (kron_sum fun σ' τ' k1 k2 k3 k4 => kron_term h1 h2 hk σ' τ' (fun c hc => ?_) fun c hc => ?_)
  · by_cases hs : c ∈ summed inputs out
    · exact k3 c hs
    · rw [k1 c hs]
      exact hσ c (by_contra fun hno => hs (mem_summed.2 ⟨hc, hno⟩))
  · by_cases hs : c ∈ summed inputs out
    · exact k4 c hs
    · rw [k2 c hs]
      exact hτ c (by_contra fun hno => hs (mem_summed.2 ⟨hc, hno⟩))

/-- C110: the Einstein sum of Kronecker products is the Kronecker product of the Einstein sums. -/
theorem C110_kronecker (h h' h'' : HashOrd) (al al' al'' : Alloc A) (s : String) (inputs : List (List Char))
    (out : List Char) (hd : Denotes s inputs out) (ps : List (View A × View A)) (xs : List (View A))
    (hw : ∀ p ∈ ps, p.1.Wf ∧ p.2.Wf) (hk : List.Forall₂ (fun p x => IsKron p.1 p.2 x) ps xs) (d e : Char → Nat)
    (h1 : Sized d inputs ((ps.map Prod.fst).map View.shape)) (h2 : Sized e inputs ((ps.map Prod.snd).map View.shape))
    (n1 : NoEmptyDiagonal d inputs) (n2 : NoEmptyDiagonal e inputs) :
    ∃ r r' r'', einsum h al s (ps.map Prod.fst) = .ok (.ok r) ∧ einsum h' al' s (ps.map Prod.snd) = .ok (.ok r') ∧
      einsum h'' al'' s xs = .ok (.ok r'') ∧ IsKron r r' r'' := by
  have w1 : ∀ v ∈ ps.map Prod.fst, v.Wf := fun v hv => by
    obtain ⟨p, hp, rfl⟩ := List.mem_map.1 hv
    exact (hw p hp).1
  have w2 : ∀ v ∈ ps.map Prod.snd, v.Wf := fun v hv => by
    obtain ⟨p, hp, rfl⟩ := List.mem_map.1 hv
    exact (hw p hp).2
  have w3 : ∀ x ∈ xs, x.Wf := fun x hx => by
    obtain ⟨i, hi, rfl⟩ := List.mem_iff_getElem.1 hx
    exact ((List.forall₂_iff_get.1 hk).2 i (by rw [hk.length_eq]; exact hi) hi).wf
  have n3 : NoEmptyDiagonal (fun c => d c * e c) inputs := fun ix hix => by
    rcases n1 ix hix with hn | hn
    · exact .inl hn
    · rcases n2 ix hix with hn' | hn'
      · exact .inl hn'
      · exact .inr fun c hc => Nat.mul_ne_zero (hn c hc) (hn' c hc)
  obtain ⟨r, hr, -⟩ := einsum_ok ⟨hd, h1, forall₂_elem w1⟩ n1 h al
  obtain ⟨r', hr', -⟩ := einsum_ok ⟨hd, h2, forall₂_elem w2⟩ n2 h' al'
  obtain ⟨r'', hr'', -⟩ := einsum_ok ⟨hd, kron_sized h1 h2 hk, forall₂_elem w3⟩ n3 h'' al''
  exact ⟨r, r', r'', hr, hr', hr'', C110_returned h h' h'' al al' al'' s inputs out hd ps xs hw hk d e h1 h2 r r' r'' hr hr' hr''⟩

end

/-! ## Example -/

def Ex.kron1 : View Int := ⟨[1, 2], 0, [1, 2], [2, 1]⟩
def Ex.kron2 : View Int := ⟨[3, -1], 0, [2, 1], [1, 1]⟩
/-- The Kronecker product of a row and a column. -/
def Ex.kron12 : View Int := ⟨[3, 6, -1, -2], 0, [2, 2], [2, 1]⟩

theorem Ex.wfk1 : Ex.kron1.Wf := (elements_of (t := Ex.elems Ex.kron1) rfl (by decide)).1
theorem Ex.wfk2 : Ex.kron2.Wf := (elements_of (t := Ex.elems Ex.kron2) rfl (by decide)).1
theorem Ex.wfk12 : Ex.kron12.Wf := (elements_of (t := Ex.elems Ex.kron12) rfl (by decide)).1

theorem Ex.isKron12 : IsKron Ex.kron1 Ex.kron2 Ex.kron12 := by
  refine ⟨Ex.wfk12, rfl, rfl, fun i j hi hj => ?_⟩
  have hall : ∀ i ∈ allIdx Ex.kron1.shape, ∀ j ∈ allIdx Ex.kron2.shape, Ex.kron1.read i = .ok (Ex.kron1.elem i) ∧
      Ex.kron2.read j = .ok (Ex.kron2.elem j) ∧
      Ex.kron12.read (kronAt Ex.kron2.shape i j) = .ok (Ex.kron1.elem i * Ex.kron2.elem j) := by decide
  exact ⟨_, _, hall i (mem_allIdx.2 hi) j (mem_allIdx.2 hj)⟩

theorem Ex.isKron21 : IsKron Ex.kron2 Ex.kron1 Ex.kron12 := by
  refine ⟨Ex.wfk12, rfl, rfl, fun i j hi hj => ?_⟩
  have hall : ∀ i ∈ allIdx Ex.kron2.shape, ∀ j ∈ allIdx Ex.kron1.shape, Ex.kron2.read i = .ok (Ex.kron2.elem i) ∧
      Ex.kron1.read j = .ok (Ex.kron1.elem j) ∧
      Ex.kron12.read (kronAt Ex.kron1.shape i j) = .ok (Ex.kron2.elem i * Ex.kron1.elem j) := by decide
  exact ⟨_, _, hall i (mem_allIdx.2 hi) j (mem_allIdx.2 hj)⟩

/-- The matrix product of a row times a column with a column times a row. -/
example : ∃ r r' r'', einsum HashOrd.insertion (Alloc.rowMajor Int) "ij,jk->ik" [Ex.kron1, Ex.kron2] = .ok (.ok r) ∧
    einsum HashOrd.reversed (Alloc.colMajor Int) "ij,jk->ik" [Ex.kron2, Ex.kron1] = .ok (.ok r') ∧
    einsum HashOrd.insertion (Alloc.colMajor Int) "ij,jk->ik" [Ex.kron12, Ex.kron12] = .ok (.ok r'') ∧ IsKron r r' r'' :=
  C110_kronecker _ _ _ _ _ _ _ _ _ Ex.denotes_matmul [(Ex.kron1, Ex.kron2), (Ex.kron2, Ex.kron1)] _
    (by simp [Ex.wfk1, Ex.wfk2]) (.cons Ex.isKron12 (.cons Ex.isKron21 .nil))
    (fun c => if c = 'j' then 2 else 1) (fun c => if c = 'j' then 1 else 2) (.cons rfl (.cons rfl .nil))
    (.cons rfl (.cons rfl .nil)) (fun _ _ => .inr fun c _ => by dsimp only; split <;> decide) (fun _ _ => .inr fun c _ => by dsimp only; split <;> decide)

end Einsum
