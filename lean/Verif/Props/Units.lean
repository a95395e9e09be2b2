import Verif.Props.Algebra
import Verif.Props.Rounding
import Verif.Props.Textbook

/-!
# Property C80: arrays of ones, identity matrices and unit vectors
-/

namespace Einsum

open Spec Function

variable {A : Type} [CommSemiring A]

/-- The elements of an identity matrix. -/
def Spec.identityMatrix (idx : List Nat) : A := if idx[0]? = idx[1]? then 1 else 0

/-- `y` replaced by `x`. -/
def Spec.identify (x y c : Char) : Char := if c = y then x else c

theorem term_last (inputs : List (List Char)) (ix : List Char) (ts : List (List Nat → A)) (t : List Nat → A)
    (hl : ts.length = inputs.length) (σ : Char → Nat) :
    term (inputs ++ [ix]) (ts ++ [t]) σ = term inputs ts σ * t (ix.map σ) := by
  rw [term_append _ _ _ _ hl]
  simp [term]

theorem term_congr {inputs : List (List Char)} (ts : List (List Nat → A)) {σ τ : Char → Nat}
    (h : ∀ c ∈ inputs.flatten, σ c = τ c) : term inputs ts σ = term inputs ts τ :=
  dependsOn_term inputs ts σ τ h

theorem term_identify (x y : Char) (inputs : List (List Char)) (ts : List (List Nat → A)) (σ : Char → Nat) :
    term (inputs.map (List.map (identify x y))) ts σ = term inputs ts (update σ y (σ x)) := by
  unfold term
  rw [List.zipWith_map_left]
  congr 2
  funext ix t
  congr 1
  rw [List.map_map]
  apply List.map_congr_left
  intro c _
  by_cases h : c = y
  · subst h
    simp [identify]
  · simp [identify, h]

/-- The sum over the letters of an operand of ones. -/
theorem einsum_ones {dims : Char → Nat} {inputs : List (List Char)} {ix : List Char} {ts : List (List Nat → A)}
    (hl : ts.length = inputs.length) {out out₀ E : List Char}
    (h0 : ∀ c, c ∈ out₀ ↔ c ∈ out ∧ c ∈ inputs.flatten) (hE : E.Nodup)
    (mE : ∀ c, c ∈ E ↔ c ∈ ix ∧ c ∉ inputs.flatten ∧ c ∉ out) (σ : Char → Nat) :
    Spec.einsum dims (inputs ++ [ix]) (ts ++ [fun _ => 1]) out σ =
      ((E.map dims).prod : ℕ) * Spec.einsum dims inputs ts out₀ σ := by
  unfold Spec.einsum
  rw [← sumOver_summed (S := E ++ summed inputs out₀) (inputs := inputs ++ [ix]) (out := out), sumOver_append]
  · rw [← sumOver_const]
    apply sumOver_congr
    intro σ' h1 _
    rw [sumOver_congr (g := term inputs ts)]
    · have hdep := DependsOn.sumOver (dims := dims) (cs := summed inputs out₀) (L' := out₀) (dependsOn_term inputs ts) fun c hc => by
        by_cases g : c ∈ out₀
        · exact .inl g
        · exact .inr (mem_summed.2 ⟨hc, g⟩)
      apply hdep
      intro c hc
      apply h1
      rw [mE]
      exact fun g => g.2.1 ((h0 c).1 hc).2
    · intro τ _ _
      rw [term_last _ _ _ _ hl, mul_one]
  · refine List.Nodup.append hE (summed_nodup _ _) fun c h1 h2 => ?_
    exact ((mE c).1 h1).2.1 (mem_summed.1 h2).1
  · intro c
    rw [List.mem_append, mE, mem_summed, h0]
    simp only [List.flatten_append, List.flatten_cons, List.flatten_nil, List.append_nil, List.mem_append]
    tauto

/-- The sum over a letter of an identity matrix. -/
theorem einsum_identity {dims : Char → Nat} {inputs : List (List Char)} {x y : Char} {ts : List (List Nat → A)}
    (hl : ts.length = inputs.length) {out : List Char} (hxy : x ≠ y) (hy : y ∉ out) (hdim : dims x = dims y)
    (hu : x ∈ inputs.flatten ∨ y ∈ inputs.flatten) {σ : Char → Nat} (hσ : InRange dims out σ) :
    Spec.einsum dims (inputs ++ [[x, y]]) (ts ++ [identityMatrix]) out σ =
      Spec.einsum dims (inputs.map (List.map (identify x y))) ts out σ := by
  unfold Spec.einsum
  have hmem : ∀ c, c ∈ (inputs.map (List.map (identify x y))).flatten ↔
      (c = x ∨ c ∈ inputs.flatten ∧ c ≠ y) := by
    intro c
    simp only [List.mem_flatten, List.mem_map, exists_exists_and_eq_and, identify]
    constructor
    · rintro ⟨l, hl, d, hd, rfl⟩
      by_cases h : d = y
      · simp [h]
      · rw [if_neg h]; exact .inr ⟨⟨l, hl, hd⟩, h⟩
    · rintro (rfl | ⟨⟨l, hl, hd⟩, h⟩)
      · rcases hu with h | h
        · obtain ⟨l, hl, hd⟩ := List.mem_flatten.1 h
          exact ⟨l, hl, c, hd, if_neg hxy⟩
        · obtain ⟨l, hl, hd⟩ := List.mem_flatten.1 h
          exact ⟨l, hl, y, hd, if_pos rfl⟩
      · exact ⟨l, hl, c, hd, if_neg h⟩
  set S := summed (inputs.map (List.map (identify x y))) out with hS
  rw [← sumOver_summed (S := S ++ [y]) (inputs := inputs ++ [[x, y]]) (out := out), sumOver_append]
  · apply sumOver_congr
    intro τ h1 h2
    have hx : τ x < dims y := by
      rw [← hdim]
      by_cases g : x ∈ out
      · rw [h1 x fun h => (mem_summed.1 h).2 g]
        exact hσ x g
      · exact h2 x (mem_summed.2 ⟨(hmem x).2 (.inl rfl), g⟩)
    rw [sumOver_cons, term_identify, Finset.sum_eq_single (τ x)]
    · rw [sumOver_nil, term_last _ _ _ _ hl]
      simp [identityMatrix, hxy]
    · intro v _ hv
      rw [sumOver_nil, term_last _ _ _ _ hl]
      simp [identityMatrix, hxy, Ne.symm hv]
    · intro h
      exact absurd (Finset.mem_range.2 hx) h
  · refine List.Nodup.append (summed_nodup _ _) (by simp) fun c h1 h2 => ?_
    rw [List.mem_singleton] at h2
    subst h2
    rcases (hmem c).1 (mem_summed.1 h1).1 with h | h
    · exact hxy h.symm
    · exact h.2 rfl
  · intro c
    rw [List.mem_append, List.mem_singleton, mem_summed, hmem]
    simp only [List.flatten_append, List.flatten_cons, List.flatten_nil, List.append_nil, List.mem_append,
      List.mem_cons, List.not_mem_nil, or_false]
    by_cases h : c = y
    · subst h; simp [hy]
    · simp only [h, or_false, ne_eq, not_false_eq_true, and_true]; tauto

/-- An identity matrix both of whose letters are in the output. -/
theorem einsum_identity_kept {dims : Char → Nat} {inputs : List (List Char)} {x y : Char} {ts : List (List Nat → A)}
    (hl : ts.length = inputs.length) {out out₀ : List Char} (hx : x ∈ out) (hy : y ∈ out) (hxy : x ≠ y)
    (h0 : ∀ c, c ∈ out₀ ↔ c ∈ out ∧ c ≠ y) (hu : x ∈ inputs.flatten ∨ y ∈ inputs.flatten) (σ : Char → Nat) :
    Spec.einsum dims (inputs ++ [[x, y]]) (ts ++ [identityMatrix]) out σ =
      if σ x = σ y then Spec.einsum dims (inputs.map (List.map (identify x y))) ts out₀ σ else 0 := by
  unfold Spec.einsum
  have hmem : ∀ c, c ∈ (inputs.map (List.map (identify x y))).flatten ↔
      (c = x ∨ c ∈ inputs.flatten ∧ c ≠ y) := by
    intro c
    simp only [List.mem_flatten, List.mem_map, exists_exists_and_eq_and, identify]
    constructor
    · rintro ⟨l, hl, d, hd, rfl⟩
      by_cases h : d = y
      · simp [h]
      · rw [if_neg h]; exact .inr ⟨⟨l, hl, hd⟩, h⟩
    · rintro (rfl | ⟨⟨l, hl, hd⟩, h⟩)
      · rcases hu with h | h
        · obtain ⟨l, hl, hd⟩ := List.mem_flatten.1 h
          exact ⟨l, hl, c, hd, if_neg hxy⟩
        · obtain ⟨l, hl, hd⟩ := List.mem_flatten.1 h
          exact ⟨l, hl, y, hd, if_pos rfl⟩
      · exact ⟨l, hl, c, hd, if_neg h⟩
  rw [← sumOver_summed (S := summed (inputs.map (List.map (identify x y))) out₀) (inputs := inputs ++ [[x, y]])
    (out := out) (summed_nodup _ _)]
  · have hf : ∀ c ∈ out, c ∉ summed (inputs.map (List.map (identify x y))) out₀ := by
      intro c hc h
      rw [mem_summed, hmem, h0] at h
      rcases h.1 with g | g
      · exact h.2 ⟨hc, g ▸ hxy⟩
      · exact h.2 ⟨hc, g.2⟩
    split_ifs with he
    · apply sumOver_congr
      intro τ h1 _
      have : update τ y (τ x) = τ := by
        rw [h1 x (hf x hx), he, ← h1 y (hf y hy), update_eq_self]
      rw [term_last _ _ _ _ hl, term_identify, this]
      simp [identityMatrix, h1 x (hf x hx), h1 y (hf y hy), he]
    · rw [← sumOver_zero (dims := dims) (summed (inputs.map (List.map (identify x y))) out₀) σ]
      apply sumOver_congr
      intro τ h1 _
      rw [term_last _ _ _ _ hl]
      simp [identityMatrix, h1 x (hf x hx), h1 y (hf y hy), he]
  · intro c
    rw [mem_summed, hmem, h0]
    simp only [List.flatten_append, List.flatten_cons, List.flatten_nil, List.append_nil, List.mem_append,
      List.mem_cons, List.not_mem_nil, or_false]
    by_cases h : c = y
    · subst h; simp [hy, hxy.symm]
    · simp only [h, or_false, ne_eq, not_false_eq_true, and_true]; tauto

/-- The sum over the letter of a unit vector. -/
theorem einsum_pick {dims : Char → Nat} {inputs : List (List Char)} {x : Char} {ts : List (List Nat → A)}
    (hl : ts.length = inputs.length) {out out₀ : List Char} (hx : x ∈ inputs.flatten) (hxo : x ∉ out)
    (h0 : ∀ c, c ∈ out₀ ↔ c = x ∨ c ∈ out) {k : Nat} (hk : k < dims x) (σ : Char → Nat) :
    Spec.einsum dims (inputs ++ [[x]]) (ts ++ [unit [k]]) out σ =
      Spec.einsum dims inputs ts out₀ (update σ x k) := by
  unfold Spec.einsum
  rw [← sumOver_summed (S := x :: summed inputs out₀) (inputs := inputs ++ [[x]]) (out := out)]
  · have hnx : x ∉ summed inputs out₀ := fun h => (mem_summed.1 h).2 ((h0 x).2 (.inl rfl))
    rw [sumOver_cons, Finset.sum_eq_single k]
    · apply sumOver_congr
      intro τ h1 _
      rw [term_last _ _ _ _ hl]
      simp [unit, h1 x hnx]
    · intro v _ hv
      rw [← sumOver_zero (dims := dims) (summed inputs out₀) (update σ x v)]
      apply sumOver_congr
      intro τ h1 _
      rw [term_last _ _ _ _ hl]
      simp [unit, h1 x hnx, hv]
    · intro h
      exact absurd (Finset.mem_range.2 hk) h
  · exact List.nodup_cons.2 ⟨fun h => (mem_summed.1 h).2 ((h0 x).2 (.inl rfl)), summed_nodup _ _⟩
  · intro c
    rw [List.mem_cons, mem_summed, h0]
    simp only [List.flatten_append, List.flatten_cons, List.flatten_nil, List.append_nil, List.mem_append,
      List.mem_cons, List.not_mem_nil, or_false]
    by_cases h : c = x
    · subst h; simp [hxo]
    · simp only [h, or_false, false_or]

/-- The order of the two letters of an identity matrix does not matter. -/
theorem einsum_identity_comm {dims : Char → Nat} {inputs : List (List Char)} {x y : Char} {ts : List (List Nat → A)}
    (hl : ts.length = inputs.length) (out : List Char) (σ : Char → Nat) :
    Spec.einsum dims (inputs ++ [[y, x]]) (ts ++ [identityMatrix]) out σ =
      Spec.einsum dims (inputs ++ [[x, y]]) (ts ++ [identityMatrix]) out σ := by
  unfold Spec.einsum
  rw [← sumOver_summed (S := summed (inputs ++ [[y, x]]) out) (inputs := inputs ++ [[x, y]]) (summed_nodup _ _)]
  · apply sumOver_congr
    intro τ _ _
    rw [term_last _ _ _ _ hl, term_last _ _ _ _ hl]
    simp only [identityMatrix, List.map_cons, List.map_nil, List.getElem?_cons_zero, List.getElem?_cons_succ]
    congr 1
    exact if_congr eq_comm rfl rfl
  · intro c
    rw [mem_summed]
    simp only [List.flatten_append, List.flatten_cons, List.flatten_nil, List.append_nil, List.mem_append,
      List.mem_cons, List.not_mem_nil, or_false]
    tauto

/-- C80: an operand of ones. `E` are its letters that occur nowhere else. -/
theorem C80_ones (h h' : HashOrd) (al al' : Alloc A) (s s' : String) (operands : List (View A)) (v : View A)
    (inputs : List (List Char)) (ix out₀ out E : List Char) (dims : Char → Nat) (ts : List (List Nat → A))
    (hc : Call s operands inputs out₀ dims ts)
    (hc' : Call s' (operands ++ [v]) (inputs ++ [ix]) out dims (ts ++ [fun _ => 1]))
    (h0 : ∀ c, c ∈ out₀ ↔ c ∈ out ∧ c ∈ inputs.flatten) (hE : E.Nodup)
    (mE : ∀ c, c ∈ E ↔ c ∈ ix ∧ c ∉ inputs.flatten ∧ c ∉ out) (r r' : View A)
    (hr : einsum h al s operands = .ok (.ok r)) (hr' : einsum h' al' s' (operands ++ [v]) = .ok (.ok r')) :
    r'.shape = out.map dims ∧ ∀ σ, InRange dims out σ → ∃ x, r.read (out₀.map σ) = .ok x ∧
      r'.read (out.map σ) = .ok (((E.map dims).prod : ℕ) * x) := by
  have a := isEinsum_of_returned hc hr
  have b := isEinsum_of_returned hc' hr'
  have hl : ts.length = inputs.length := by
    have h1 := hc.elements.length_eq
    have h2 := hc.sized.length_eq
    simp only [List.length_map] at h2
    omega
  refine ⟨b.2.1, fun σ hσ => ⟨_, a.2.2 σ fun c hc => hσ c ((h0 c).1 hc).1, ?_⟩⟩
  rw [b.2.2 σ hσ, einsum_ones hl h0 hE mE]

/-- C80: an operand of ones with letters of the other operands can be left out. -/
theorem C80_ones_unit (h h' : HashOrd) (al al' : Alloc A) (s s' : String) (operands : List (View A)) (v : View A)
    (inputs : List (List Char)) (ix out : List Char) (dims : Char → Nat) (ts : List (List Nat → A))
    (hc : Call s operands inputs out dims ts)
    (hc' : Call s' (operands ++ [v]) (inputs ++ [ix]) out dims (ts ++ [fun _ => 1]))
    (hix : ∀ c ∈ ix, c ∈ inputs.flatten) (r r' : View A)
    (hr : einsum h al s operands = .ok (.ok r)) (hr' : einsum h' al' s' (operands ++ [v]) = .ok (.ok r')) :
    SameArray r' r := by
  have a := isEinsum_of_returned hc hr
  have hout := hc.denotes.outputOk
  obtain ⟨b1, b2⟩ := C80_ones h h' al al' s s' operands v inputs ix out out [] dims ts hc hc'
    (fun c => ⟨fun g => ⟨g, used_iff.1 (hout.2 c g)⟩, fun g => g.1⟩) .nil
    (fun c => ⟨fun g => by simp at g, fun g => absurd (hix c g.1) g.2.1⟩) r r' hr hr'
  refine ⟨(isEinsum_of_returned hc' hr').1, a.1, b1.trans a.2.1.symm, fun idx hi => ?_⟩
  rw [b1] at hi
  obtain ⟨σ, hσ, rfl⟩ := exists_assign hout.1 hi
  obtain ⟨x, x1, x2⟩ := b2 σ hσ
  rw [x1, x2]
  simp

/-- C80: an identity matrix one of whose letters is not in the output identifies its letters. -/
theorem C80_identity (h h' : HashOrd) (al al' : Alloc A) (s s' : String) (operands : List (View A)) (v : View A)
    (inputs : List (List Char)) (x y : Char) (ix : List Char) (out : List Char) (dims : Char → Nat) (ts : List (List Nat → A))
    (hc : Call s operands (inputs.map (List.map (identify x y))) out dims ts)
    (hc' : Call s' (operands ++ [v]) (inputs ++ [ix]) out dims (ts ++ [identityMatrix]))
    (hix : ix = [x, y] ∨ ix = [y, x])
    (hxy : x ≠ y) (hy : y ∉ out) (hdim : dims x = dims y) (hu : x ∈ inputs.flatten ∨ y ∈ inputs.flatten) (r r' : View A)
    (hr : einsum h al s operands = .ok (.ok r)) (hr' : einsum h' al' s' (operands ++ [v]) = .ok (.ok r')) :
    SameArray r' r := by
  have a := isEinsum_of_returned hc hr
  have b := isEinsum_of_returned hc' hr'
  have hl : ts.length = inputs.length := by
    have h1 := hc.elements.length_eq
    have h2 := hc.sized.length_eq
    simp only [List.length_map] at h2
    omega
  have e : ∀ σ, Spec.einsum dims (inputs ++ [ix]) (ts ++ [identityMatrix]) out σ =
      Spec.einsum dims (inputs ++ [[x, y]]) (ts ++ [identityMatrix]) out σ := by
    intro σ
    rcases hix with rfl | rfl
    · rfl
    · exact einsum_identity_comm hl out σ
  refine b.same hc.denotes.outputOk.1 ⟨a.1, a.2.1, fun σ hσ => ?_⟩
  rw [a.2.2 σ hσ, e, einsum_identity hl hxy hy hdim hu hσ]

/-- C80: an identity matrix both of whose letters are in the output puts the result on the diagonal. -/
theorem C80_identity_kept (h h' : HashOrd) (al al' : Alloc A) (s s' : String) (operands : List (View A)) (v : View A)
    (inputs : List (List Char)) (x y : Char) (ix : List Char) (out₀ out : List Char) (dims : Char → Nat) (ts : List (List Nat → A))
    (hc : Call s operands (inputs.map (List.map (identify x y))) out₀ dims ts)
    (hc' : Call s' (operands ++ [v]) (inputs ++ [ix]) out dims (ts ++ [identityMatrix]))
    (hix : ix = [x, y] ∨ ix = [y, x])
    (hxy : x ≠ y) (hx : x ∈ out) (hy : y ∈ out) (h0 : ∀ c, c ∈ out₀ ↔ c ∈ out ∧ c ≠ y)
    (hu : x ∈ inputs.flatten ∨ y ∈ inputs.flatten) (r r' : View A)
    (hr : einsum h al s operands = .ok (.ok r)) (hr' : einsum h' al' s' (operands ++ [v]) = .ok (.ok r')) :
    r'.shape = out.map dims ∧ ∀ σ, InRange dims out σ → r'.read (out.map σ) =
      if σ x = σ y then r.read (out₀.map σ) else .ok 0 := by
  have a := isEinsum_of_returned hc hr
  have b := isEinsum_of_returned hc' hr'
  have hl : ts.length = inputs.length := by
    have h1 := hc.elements.length_eq
    have h2 := hc.sized.length_eq
    simp only [List.length_map] at h2
    omega
  have e : ∀ σ, Spec.einsum dims (inputs ++ [ix]) (ts ++ [identityMatrix]) out σ =
      Spec.einsum dims (inputs ++ [[x, y]]) (ts ++ [identityMatrix]) out σ := by
    intro σ
    rcases hix with rfl | rfl
    · rfl
    · exact einsum_identity_comm hl out σ
  refine ⟨b.2.1, fun σ hσ => ?_⟩
  rw [b.2.2 σ hσ, a.2.2 σ fun c hc => hσ c ((h0 c).1 hc).1, e, einsum_identity_kept hl hx hy hxy h0 hu]
  split_ifs <;> rfl

/-- C80: a unit vector picks one position of an axis. -/
theorem C80_pick (h h' : HashOrd) (al al' : Alloc A) (s s' : String) (operands : List (View A)) (v : View A)
    (inputs : List (List Char)) (x : Char) (out₀ out : List Char) (dims : Char → Nat) (ts : List (List Nat → A)) (k : Nat)
    (hc : Call s operands inputs out₀ dims ts)
    (hc' : Call s' (operands ++ [v]) (inputs ++ [[x]]) out dims (ts ++ [unit [k]]))
    (hx : x ∈ inputs.flatten) (hxo : x ∉ out) (h0 : ∀ c, c ∈ out₀ ↔ c = x ∨ c ∈ out) (hk : k < dims x) (r r' : View A)
    (hr : einsum h al s operands = .ok (.ok r)) (hr' : einsum h' al' s' (operands ++ [v]) = .ok (.ok r')) :
    r'.shape = out.map dims ∧ ∀ σ, InRange dims out σ → r'.read (out.map σ) = r.read (out₀.map (update σ x k)) := by
  have a := isEinsum_of_returned hc hr
  have b := isEinsum_of_returned hc' hr'
  have hl : ts.length = inputs.length := by
    have h1 := hc.elements.length_eq
    have h2 := hc.sized.length_eq
    simp only [List.length_map] at h2
    omega
  refine ⟨b.2.1, fun σ hσ => ?_⟩
  rw [b.2.2 σ hσ, a.2.2, einsum_pick hl hx hxo h0 hk]
  intro c hc
  by_cases g : c = x
  · subst g; simpa using hk
  · rw [update_of_ne g]
    exact hσ c (((h0 c).1 hc).resolve_left g)

/-- The 3 by 3 identity matrix. -/
def Ex.eye3 : View Int := ⟨[1, 0, 0, 0, 1, 0, 0, 0, 1], 0, [3, 3], [3, 1]⟩

/-- All letters of length 3, except `i` of length 2. -/
def Ex.unitDims : Char → Nat := fun c => if c = 'i' then 2 else 3

theorem Ex.call_keep : Call "ik->ik" [Ex.m23] ([['i', 'j']].map (List.map (identify 'k' 'j'))) ['i', 'k'] Ex.unitDims
    [Ex.elems Ex.m23] :=
  ⟨.inl ⟨by decide, ⟨by simp, by simp [Letter, identify], by simp [Letter]⟩, by simp [OutputOk, Used, identify]⟩,
    .cons (by decide) .nil, .cons Ex.e23 .nil⟩

theorem Ex.call_eye : Call "ij,jk->ik" ([Ex.m23] ++ [Ex.eye3]) ([['i', 'j']] ++ [['j', 'k']]) ['i', 'k'] Ex.unitDims
    ([Ex.elems Ex.m23] ++ [identityMatrix]) :=
  ⟨Ex.denotes_matmul, .cons (by decide) (.cons (by decide) .nil),
    .cons Ex.e23 (.cons (elements_of rfl (by decide)) .nil)⟩

/-- A matrix times the identity matrix is the matrix. -/
example (h : HashOrd) (al : Alloc Int) : ∃ r r', einsum h al "ik->ik" [Ex.m23] = .ok (.ok r) ∧
    einsum h al "ij,jk->ik" [Ex.m23, Ex.eye3] = .ok (.ok r') ∧ SameArray r' r := by
  obtain ⟨r, h1, -⟩ := einsum_ok Ex.call_keep (by simp [NoEmptyDiagonal, identify]) h al
  obtain ⟨r', h2, -⟩ := einsum_ok Ex.call_eye (by simp [NoEmptyDiagonal]) h al
  exact ⟨r, r', h1, h2, C80_identity h h al al _ _ _ _ _ 'k' 'j' _ _ _ _ Ex.call_keep Ex.call_eye (.inr rfl) (by decide)
    (by decide) (by decide) (.inr (by decide)) r r' h1 h2⟩

theorem Ex.call_row : Call "ij->i" [Ex.m23] [['i', 'j']] ['i'] Ex.unitDims [Ex.elems Ex.m23] :=
  ⟨.inl ⟨by decide, ⟨by simp, by simp [Letter], by simp [Letter]⟩, by simp [OutputOk, Used]⟩,
    .cons (by decide) .nil, .cons Ex.e23 .nil⟩

/-- A 2 by 3 matrix of ones, all elements of which are the same number in memory. -/
def Ex.ones23 : View Int := ⟨[1], 0, [2, 3], [0, 0]⟩

theorem Ex.call_ones : Call "ij,ik->i" ([Ex.m23] ++ [Ex.ones23]) ([['i', 'j']] ++ [['i', 'k']]) ['i'] Ex.unitDims
    ([Ex.elems Ex.m23] ++ [fun _ => 1]) :=
  ⟨.inl ⟨by decide, ⟨by simp, by simp [Letter], by simp [Letter]⟩, by simp [OutputOk, Used]⟩,
    .cons (by decide) (.cons (by decide) .nil), .cons Ex.e23 (.cons (elements_of rfl (by decide)) .nil)⟩

/-- The letter `k` of length 3 is only in the operand of ones. -/
example (h : HashOrd) (al : Alloc Int) : ∃ r r', einsum h al "ij->i" [Ex.m23] = .ok (.ok r) ∧
    einsum h al "ij,ik->i" [Ex.m23, Ex.ones23] = .ok (.ok r') ∧
    ∃ x, r.read [1] = .ok x ∧ r'.read [1] = .ok (3 * x) := by
  obtain ⟨r, h1, -⟩ := einsum_ok Ex.call_row (by simp [NoEmptyDiagonal]) h al
  obtain ⟨r', h2, -⟩ := einsum_ok Ex.call_ones (by simp [NoEmptyDiagonal]) h al
  obtain ⟨-, b⟩ := C80_ones h h al al _ _ _ _ _ _ ['i'] ['i'] ['k'] _ _ Ex.call_row Ex.call_ones
    (by intro c; simp; rintro rfl; simp) (by simp) (by intro c; simp; exact ⟨by rintro rfl; simp, fun h => h.1.resolve_left h.2.2⟩) r r' h1 h2
  exact ⟨r, r', h1, h2, b (fun _ => 1) (by simp [InRange, Ex.unitDims])⟩

theorem Ex.call_ones' : Call "ij,ij->i" ([Ex.m23] ++ [Ex.ones23]) ([['i', 'j']] ++ [['i', 'j']]) ['i'] Ex.unitDims
    ([Ex.elems Ex.m23] ++ [fun _ => 1]) :=
  ⟨.inl ⟨by decide, ⟨by simp, by simp [Letter], by simp [Letter]⟩, by simp [OutputOk, Used]⟩,
    .cons (by decide) (.cons (by decide) .nil), .cons Ex.e23 (.cons (elements_of rfl (by decide)) .nil)⟩

example (h : HashOrd) (al : Alloc Int) : ∃ r r', einsum h al "ij->i" [Ex.m23] = .ok (.ok r) ∧
    einsum h al "ij,ij->i" [Ex.m23, Ex.ones23] = .ok (.ok r') ∧ SameArray r' r := by
  obtain ⟨r, h1, -⟩ := einsum_ok Ex.call_row (by simp [NoEmptyDiagonal]) h al
  obtain ⟨r', h2, -⟩ := einsum_ok Ex.call_ones' (by simp [NoEmptyDiagonal]) h al
  exact ⟨r, r', h1, h2, C80_ones_unit h h al al _ _ _ _ _ _ _ _ _ Ex.call_row Ex.call_ones' (by simp) r r' h1 h2⟩

theorem Ex.call_column : Call "ij->j" [Ex.m23] ([['i', 'j']].map (List.map (identify 'j' 'k'))) ['j'] Ex.unitDims
    [Ex.elems Ex.m23] :=
  ⟨.inl ⟨by decide, ⟨by simp, by simp [Letter, identify], by simp [Letter]⟩, by simp [OutputOk, Used, identify]⟩,
    .cons (by decide) .nil, .cons Ex.e23 .nil⟩

theorem Ex.call_kept : Call "ij,jk->kj" ([Ex.m23] ++ [Ex.eye3]) ([['i', 'j']] ++ [['j', 'k']]) ['k', 'j'] Ex.unitDims
    ([Ex.elems Ex.m23] ++ [identityMatrix]) :=
  ⟨.inl ⟨by decide, ⟨by simp, by simp [Letter], by simp [Letter]⟩, by simp [OutputOk, Used]⟩,
    .cons (by decide) (.cons (by decide) .nil), .cons Ex.e23 (.cons (elements_of rfl (by decide)) .nil)⟩

/-- The column sums on the diagonal of a matrix. -/
example (h : HashOrd) (al : Alloc Int) : ∃ r r', einsum h al "ij->j" [Ex.m23] = .ok (.ok r) ∧
    einsum h al "ij,jk->kj" [Ex.m23, Ex.eye3] = .ok (.ok r') ∧ r'.read [1, 1] = r.read [1] ∧ r'.read [2, 1] = .ok 0 := by
  obtain ⟨r, h1, -⟩ := einsum_ok Ex.call_column (by simp [NoEmptyDiagonal, identify]) h al
  obtain ⟨r', h2, -⟩ := einsum_ok Ex.call_kept (by simp [NoEmptyDiagonal]) h al
  obtain ⟨-, b⟩ := C80_identity_kept h h al al _ _ _ _ _ 'j' 'k' _ ['j'] ['k', 'j'] _ _ Ex.call_column Ex.call_kept
    (.inl rfl) (by decide) (by decide) (by decide)
    (by intro c; simp only [List.mem_cons, List.not_mem_nil, or_false]
        by_cases h : c = 'k'
        · subst h; decide
        · simp [h]) (.inl (by decide)) r r' h1 h2
  exact ⟨r, r', h1, h2, b (fun _ => 1) (by simp [InRange, Ex.unitDims]),
    b (fun c => if c = 'k' then 2 else 1) (by simp [InRange, Ex.unitDims])⟩

/-- The second unit vector of length 3. -/
def Ex.e1of3 : View Int := ⟨[0, 1, 0], 0, [3], [1]⟩

theorem Ex.call_keep' : Call "ij->ij" [Ex.m23] [['i', 'j']] ['i', 'j'] Ex.unitDims [Ex.elems Ex.m23] :=
  ⟨.inl ⟨by decide, ⟨by simp, by simp [Letter], by simp [Letter]⟩, by simp [OutputOk, Used]⟩,
    .cons (by decide) .nil, .cons Ex.e23 .nil⟩

theorem Ex.call_pick : Call "ij,j->i" ([Ex.m23] ++ [Ex.e1of3]) ([['i', 'j']] ++ [['j']]) ['i'] Ex.unitDims
    ([Ex.elems Ex.m23] ++ [Spec.unit [1]]) :=
  ⟨.inl ⟨by decide, ⟨by simp, by simp [Letter], by simp [Letter]⟩, by simp [OutputOk, Used]⟩,
    .cons (by decide) (.cons (by decide) .nil), .cons Ex.e23 (.cons (elements_of rfl (by decide)) .nil)⟩

/-- A matrix times a unit vector is a column. -/
example (h : HashOrd) (al : Alloc Int) : ∃ r r', einsum h al "ij->ij" [Ex.m23] = .ok (.ok r) ∧
    einsum h al "ij,j->i" [Ex.m23, Ex.e1of3] = .ok (.ok r') ∧ r'.read [0] = r.read [0, 1] := by
  obtain ⟨r, h1, -⟩ := einsum_ok Ex.call_keep' (by simp [NoEmptyDiagonal]) h al
  obtain ⟨r', h2, -⟩ := einsum_ok Ex.call_pick (by simp [NoEmptyDiagonal]) h al
  obtain ⟨-, b⟩ := C80_pick h h al al _ _ _ _ _ 'j' ['i', 'j'] ['i'] _ _ 1 Ex.call_keep' Ex.call_pick (by decide) (by decide)
    (by intro c; simp [or_comm]) (by decide) r r' h1 h2
  exact ⟨r, r', h1, h2, b (fun _ => 0) (by simp [InRange, Ex.unitDims])⟩

end Einsum
