import Verif.SpecNorm
import Verif.Props.Rounding
import Mathlib.Algebra.Order.BigOperators.Ring.Finset
import Mathlib.Algebra.Order.AbsoluteValue.Basic

/-!
# Property C108: norms
-/

namespace Einsum

open Spec

section inequality
variable {K J : Type} [CommRing K] [LinearOrder K] [IsStrictOrderedRing K] [DecidableEq J] {dims : Char → Nat}

/-- A sum of products of nonnegative numbers is at most the product of the sums. -/
theorem sum_prod_le {I : Finset J} (hI : I.Nonempty) (s : Finset ℕ) (f : J → ℕ → K)
    (hf : ∀ i ∈ I, ∀ v ∈ s, 0 ≤ f i v) : ∑ v ∈ s, ∏ i ∈ I, f i v ≤ ∏ i ∈ I, ∑ v ∈ s, f i v := by
  induction hI using Finset.Nonempty.cons_induction with
  | singleton a => simp
  | cons a I ha hI ih =>
    have h1 := ih fun i hi => hf i (by simp [hi])
    have h2 : ∀ v ∈ s, 0 ≤ ∏ i ∈ I, f i v := fun v hv => Finset.prod_nonneg fun i hi => hf i (by simp [hi]) v hv
    simp only [Finset.prod_cons]
    calc ∑ v ∈ s, f a v * ∏ i ∈ I, f i v ≤ ∑ v ∈ s, f a v * ∑ w ∈ s, ∏ i ∈ I, f i w :=
          Finset.sum_le_sum fun v hv => mul_le_mul_of_nonneg_left (Finset.single_le_sum h2 hv) (hf a (by simp) v hv)
      _ = (∑ v ∈ s, f a v) * ∑ w ∈ s, ∏ i ∈ I, f i w := (Finset.sum_mul _ _ _).symm
      _ ≤ _ := mul_le_mul_of_nonneg_left h1 (Finset.sum_nonneg fun v hv => hf a (by simp) v hv)

/-- The same if some of the factors do not depend on the summed variable. -/
theorem sum_prod_mixed {I : Finset J} {S : J → List Char} {c : Char} (hc : ∃ i ∈ I, c ∈ S i) (n : ℕ) (f : J → ℕ → K)
    (hconst : ∀ i ∈ I, c ∉ S i → ∀ v, f i v = f i 0) (hf : ∀ i ∈ I, ∀ v, 0 ≤ f i v) :
    ∑ v ∈ Finset.range n, ∏ i ∈ I, f i v ≤
      ∏ i ∈ I, if c ∈ S i then ∑ v ∈ Finset.range n, f i v else f i 0 := by
  obtain ⟨i, hi, hs⟩ := hc
  have h1 : ∀ v, ∏ i ∈ I, f i v = (∏ i ∈ I with c ∈ S i, f i v) * ∏ i ∈ I with c ∉ S i, f i 0 := by
    intro v
    rw [← Finset.prod_filter_mul_prod_filter_not I (fun i => c ∈ S i)]
    congr 1
    exact Finset.prod_congr rfl fun i hi => hconst i (Finset.mem_filter.1 hi).1 (Finset.mem_filter.1 hi).2 v
  simp only [h1, ← Finset.sum_mul, Finset.prod_ite]
  refine mul_le_mul_of_nonneg_right (sum_prod_le ⟨i, by simp [hi, hs]⟩ _ _ fun i hi v _ => ?_)
    (Finset.prod_nonneg fun i hi => ?_)
  · exact hf i (Finset.mem_filter.1 hi).1 v
  · exact hf i (Finset.mem_filter.1 hi).1 0

theorem sumOver_mono {cs : List Char} {f g : (Char → Nat) → K} {σ : Char → Nat}
    (h : ∀ τ, (∀ c, c ∉ cs → τ c = σ c) → InRange dims cs τ → f τ ≤ g τ) :
    sumOver dims cs f σ ≤ sumOver dims cs g σ := by
  induction cs generalizing σ with
  | nil => exact h σ (fun _ _ => rfl) (by simp [InRange])
  | cons c cs ih =>
    refine Finset.sum_le_sum fun v hv => ih fun τ h1 h2 => h τ (fun x hx => ?_) fun x hx => ?_
    · obtain ⟨hxc, hx⟩ := not_or.1 (List.mem_cons.not.1 hx)
      rw [h1 x hx, Function.update_of_ne hxc]
    · by_cases hxs : x ∈ cs
      · exact h2 x hxs
      · obtain rfl := (List.mem_cons.1 hx).resolve_right hxs
        rw [h1 x hxs, Function.update_self]
        simpa using hv

theorem sumOver_nonneg {cs : List Char} {f : (Char → Nat) → K} (h : ∀ σ, 0 ≤ f σ) (σ : Char → Nat) :
    0 ≤ sumOver dims cs f σ := by
  induction cs generalizing σ with
  | nil => exact h σ
  | cons c cs ih => exact Finset.sum_nonneg fun v _ => ih _

omit [LinearOrder K] [IsStrictOrderedRing K] in
/-- What the letter at the head of the list adds to the sum of one factor. -/
theorem sumOver_head {S : List Char} {T : (Char → Nat) → K} (hd : DependsOn T S) (c : Char) (cs : List Char)
    (σ : Char → Nat) : (if c ∈ S then ∑ v ∈ Finset.range (dims c),
        sumOver dims (cs.filter (· ∈ S)) T (Function.update σ c v) else
        sumOver dims (cs.filter (· ∈ S)) T (Function.update σ c 0)) =
      sumOver dims ((c :: cs).filter (· ∈ S)) T σ := by
  by_cases h : c ∈ S
  · rw [if_pos h, List.filter_cons_of_pos (by simpa using h), sumOver_cons]
  · rw [if_neg h, List.filter_cons_of_neg (by simpa using h)]
    refine (hd.sumOver (cs := cs.filter (· ∈ S)) (L' := S) fun x hx => .inl hx) _ _ fun x hx => ?_
    exact Function.update_of_ne (fun e : x = c => h (e ▸ hx)) _ _

omit [LinearOrder K] [IsStrictOrderedRing K] in
theorem sumOver_const_head {S : List Char} {T : (Char → Nat) → K} (hd : DependsOn T S) {c : Char} (h : c ∉ S)
    (cs : List Char) (σ : Char → Nat) (v : Nat) : sumOver dims (cs.filter (· ∈ S)) T (Function.update σ c v) =
      sumOver dims (cs.filter (· ∈ S)) T (Function.update σ c 0) := by
  refine (hd.sumOver (cs := cs.filter (· ∈ S)) (L' := S) fun x hx => .inl hx) _ _ fun x hx => ?_
  have : x ≠ c := fun e => h (e ▸ hx)
  simp [Function.update_of_ne this]

/-- Each letter in one factor or more. -/
theorem sumOver_prod_le {I : Finset J} {S : J → List Char} {T : J → (Char → Nat) → K}
    (hd : ∀ i ∈ I, DependsOn (T i) (S i)) (h0 : ∀ i ∈ I, ∀ σ, 0 ≤ T i σ) {cs : List Char}
    (hc : ∀ c ∈ cs, ∃ i ∈ I, c ∈ S i) (σ : Char → Nat) :
    sumOver dims cs (fun σ => ∏ i ∈ I, T i σ) σ ≤ ∏ i ∈ I, sumOver dims (cs.filter (· ∈ S i)) (T i) σ := by
  induction cs generalizing σ with
  | nil => simp [sumOver]
  | cons c cs ih =>
    rw [sumOver_cons]
    refine (Finset.sum_le_sum fun v _ => ih (fun x hx => hc x (by simp [hx])) _).trans ?_
    refine (sum_prod_mixed (S := S) (c := c) (hc c (by simp)) (dims c)
      (fun i v => sumOver dims (cs.filter (· ∈ S i)) (T i) (Function.update σ c v))
      (fun i hi h v => sumOver_const_head (hd i hi) h cs σ v) fun i hi v => sumOver_nonneg (h0 i hi) _).trans_eq ?_
    exact Finset.prod_congr rfl fun i hi => sumOver_head (hd i hi) c cs σ

/-- Each letter in two factors or more. -/
theorem sumOver_sq_le {I : Finset J} {S : J → List Char} {T : J → (Char → Nat) → K}
    (hd : ∀ i ∈ I, DependsOn (T i) (S i)) {cs : List Char}
    (hc : ∀ c ∈ cs, ∃ i ∈ I, ∃ j ∈ I, i ≠ j ∧ c ∈ S i ∧ c ∈ S j) (σ : Char → Nat) :
    sumOver dims cs (fun σ => ∏ i ∈ I, T i σ) σ ^ 2 ≤
      ∏ i ∈ I, sumOver dims (cs.filter (· ∈ S i)) (fun σ => T i σ ^ 2) σ := by
  have hd2 : ∀ i ∈ I, DependsOn (fun σ => T i σ ^ 2) (S i) := fun i hi σ τ h => by
    simp only [hd i hi σ τ h]
  induction cs generalizing σ with
  | nil => simp [sumOver, Finset.prod_pow]
  | cons c cs ih =>
    obtain ⟨i, hi, j, hj, hij, hci, hcj⟩ := hc c (by simp)
    have hg : ∀ k v, 0 ≤ sumOver dims (cs.filter (· ∈ S k)) (fun σ => T k σ ^ 2) (Function.update σ c v) :=
      fun k v => sumOver_nonneg (fun τ => sq_nonneg _) _
    have h1 := fun v => ih (fun x hx => hc x (by simp [hx])) (Function.update σ c v)
    simp only [← Finset.mul_prod_erase I _ hi] at h1 ⊢
    rw [sumOver_cons]
    refine (Finset.sum_sq_le_sum_mul_sum_of_sq_le_mul _ (fun v _ => hg i v) (fun v _ => Finset.prod_nonneg fun k _ => hg k v)
      fun v _ => by simpa only [← Finset.mul_prod_erase I _ hi] using h1 v).trans ?_
    have h2 := sumOver_head (dims := dims) (hd2 i hi) c cs σ
    rw [if_pos hci] at h2
    rw [h2]
    refine mul_le_mul_of_nonneg_left ?_ (sumOver_nonneg (fun τ => sq_nonneg _) _)
    refine (sum_prod_mixed (I := I.erase i) (S := S) (c := c) ⟨j, by simp [hj, hij.symm], hcj⟩ (dims c)
      (fun i v => sumOver dims (cs.filter (· ∈ S i)) (fun σ => T i σ ^ 2) (Function.update σ c v))
      (fun i hi h v => sumOver_const_head (hd2 i (Finset.mem_of_mem_erase hi)) h cs σ v) fun i _ v => hg i v).trans_eq ?_
    exact Finset.prod_congr rfl fun i hi => sumOver_head (hd2 i (Finset.mem_of_mem_erase hi)) c cs σ

/-- The elements on a diagonal are among all the elements. -/
theorem sumOver_le_overAll {cs ix : List Char} (hn : cs.Nodup) (hsub : ∀ c ∈ cs, c ∈ ix) (F : List Nat → K)
    (hF : ∀ idx, 0 ≤ F idx) (σ : Char → Nat) (hσ : ∀ c ∈ ix, c ∉ cs → σ c < dims c) :
    sumOver dims cs (fun σ => F (ix.map σ)) σ ≤ overAll (ix.map dims) F := by
  have hnn : ∀ (sh : List Nat) (G : List Nat → K), (∀ idx, 0 ≤ G idx) → 0 ≤ overAll sh G := by
    intro sh
    induction sh with
    | nil => exact fun G hG => hG []
    | cons n sh ih => exact fun G hG => Finset.sum_nonneg fun v _ => ih _ fun idx => hG _
  induction ix generalizing cs F σ with
  | nil =>
    cases cs with
    | nil => exact le_rfl
    | cons c cs => exact absurd (hsub c (by simp)) (by simp)
  | cons c ix ih =>
    simp only [List.map_cons, overAll]
    by_cases hc : c ∈ cs
    · rw [sumOver_perm (List.perm_cons_erase hc), sumOver_cons]
      refine Finset.sum_le_sum fun v hv => ?_
      have hce : c ∉ cs.erase c := fun h => (hn.mem_erase_iff.1 h).1 rfl
      have h1 : sumOver dims (cs.erase c) (fun σ => F (σ c :: ix.map σ)) (Function.update σ c v) =
          sumOver dims (cs.erase c) (fun σ => F (v :: ix.map σ)) (Function.update σ c v) :=
        sumOver_congr fun τ h _ => by rw [h c hce, Function.update_self]
      rw [h1]
      refine ih (hn.erase c) (fun x hx => ?_) (fun idx => F (v :: idx)) (fun idx => hF _) _ fun x hx hxe => ?_
      · obtain ⟨hxc, hx⟩ := hn.mem_erase_iff.1 hx
        exact (List.mem_cons.1 (hsub x hx)).resolve_left hxc
      · by_cases hxc : x = c
        · subst hxc; simpa using hv
        · rw [Function.update_of_ne hxc]
          exact hσ x (by simp [hx]) fun h => hxe (hn.mem_erase_iff.2 ⟨hxc, h⟩)
    · have h1 : sumOver dims cs (fun σ => F (σ c :: ix.map σ)) σ =
          sumOver dims cs (fun τ => F (σ c :: ix.map τ)) σ :=
        sumOver_congr fun τ h _ => by rw [h c hc]
      rw [h1]
      refine (ih hn (fun x hx => ?_) (fun idx => F (σ c :: idx)) (fun idx => hF _) σ fun x hx h =>
        hσ x (by simp [hx]) h).trans ?_
      · exact (List.mem_cons.1 (hsub x hx)).resolve_left fun e => hc (e ▸ hx)
      · exact Finset.single_le_sum (f := fun v => overAll (ix.map dims) fun idx => F (v :: idx))
          (fun v _ => hnn _ _ fun idx => hF _) (by simpa using hσ c (by simp) hc)

omit [LinearOrder K] [IsStrictOrderedRing K] in
theorem overAll_eq {out : List Char} (hn : out.Nodup) (F : List Nat → K) (σ : Char → Nat) :
    overAll (out.map dims) F = sumOver dims out (fun σ => F (out.map σ)) σ := by
  induction out generalizing F σ with
  | nil => rfl
  | cons c out ih =>
    obtain ⟨hc, hn⟩ := List.nodup_cons.1 hn
    rw [List.map_cons, overAll, sumOver_cons]
    refine Finset.sum_congr rfl fun v _ => ?_
    rw [ih hn _ (Function.update σ c v)]
    exact sumOver_congr fun τ h _ => by rw [List.map_cons, h c hc, Function.update_self]

end inequality

section
variable {A K : Type} [CommSemiring A] [Nontrivial A] [CommRing K] [LinearOrder K] [IsStrictOrderedRing K]
  {dims : Char → Nat}

omit [Nontrivial A] in
theorem term_prod (inputs : List (List Char)) (ts : List (List Nat → A)) (hl : ts.length = inputs.length)
    (σ : Char → Nat) : term inputs ts σ =
      ∏ i ∈ Finset.range inputs.length, ts.getD i (fun _ => 1) ((inputs.getD i []).map σ) := by
  induction inputs generalizing ts with
  | nil => simp [term]
  | cons p inputs ih =>
    cases ts with
    | nil => simp at hl
    | cons t ts =>
      have := ih ts (by simpa using hl)
      rw [List.length_cons, Finset.prod_range_succ']
      simp only [term, List.zipWith_cons_cons, List.prod_cons, List.getD_cons_succ, List.getD_cons_zero] at this ⊢
      rw [this, mul_comm]

omit [Nontrivial A] [CommSemiring A] [LinearOrder K] [IsStrictOrderedRing K] in
theorem norms_prod {operands : List (View A)} {inputs : List (List Char)} (ts : List (List Nat → A)) (e : List Nat → A)
    (hs : Sized dims inputs (operands.map View.shape)) (hl : ts.length = inputs.length)
    (G : List Nat → (List Nat → A) → K) : (List.zipWith (fun v t => G v.shape t) operands ts).prod =
      ∏ i ∈ Finset.range inputs.length, G ((inputs.getD i []).map dims) (ts.getD i e) := by
  induction inputs generalizing ts operands with
  | nil =>
    obtain rfl : ts = [] := by simpa using hl
    simp
  | cons p inputs ih =>
    cases ts with
    | nil => simp at hl
    | cons t ts =>
      cases operands with
      | nil => cases hs
      | cons v operands =>
        cases hs with
        | cons h hs =>
          rw [List.length_cons, Finset.prod_range_succ']
          simp only [List.zipWith_cons_cons, List.prod_cons, List.getD_cons_succ, List.getD_cons_zero]
          rw [ih ts hs (by simpa using hl), mul_comm, h]

/-- The absolute value of an element. -/
theorem einsum_abs (abv : AbsoluteValue A K) {inputs : List (List Char)} {ts : List (List Nat → A)} (out : List Char)
    (hl : ts.length = inputs.length) (σ : Char → Nat) : abv (Spec.einsum dims inputs ts out σ) ≤
      sumOver dims (summed inputs out) (fun σ => ∏ i ∈ Finset.range inputs.length,
        abv (ts.getD i (fun _ => 1) ((inputs.getD i []).map σ))) σ := by
  have h1 : ∀ (cs : List Char) (f : (Char → Nat) → A) (σ : Char → Nat),
      abv (sumOver dims cs f σ) ≤ sumOver dims cs (fun σ => abv (f σ)) σ := by
    intro cs f
    induction cs with
    | nil => exact fun σ => le_rfl
    | cons c cs ih => exact fun σ => (AbsoluteValue.sum_le _ _ _).trans (Finset.sum_le_sum fun v _ => ih _)
  refine (h1 _ _ σ).trans_eq (sumOver_congr fun τ _ _ => ?_)
  rw [term_prod inputs ts hl, map_prod]

theorem operand_get {inputs : List (List Char)} {i : Nat} (hi : i < inputs.length) : inputs.getD i [] = inputs[i] := by
  simp [List.getD, hi]

/-- The letters of an operand are in the output or summed. -/
theorem letters_split (inputs : List (List Char)) (out : List Char) {i : Nat} (hi : i < inputs.length) :
    ∀ c ∈ inputs.getD i [], c ∈ out ++ summed inputs out := by
  intro c hc
  rw [operand_get hi] at hc
  by_cases ho : c ∈ out
  · simp [ho]
  · simp only [List.mem_append, summed, List.mem_filter, List.mem_dedup, List.mem_flatten]
    exact .inr ⟨⟨_, List.getElem_mem hi, hc⟩, by simpa using ho⟩

theorem letters_nodup {inputs : List (List Char)} {out : List Char} (hn : out.Nodup) :
    (out ++ summed inputs out).Nodup := by
  refine List.nodup_append.2 ⟨hn, (List.nodup_dedup _).filter _, fun a ha b hb e => ?_⟩
  subst e
  simp [summed, ha] at hb

/-- The sum over the letters of an operand. -/
theorem operand_sum {inputs : List (List Char)} {out : List Char} (hn : out.Nodup) {i : Nat} (hi : i < inputs.length)
    (F : List Nat → K) (hF : ∀ idx, 0 ≤ F idx) (σ : Char → Nat) :
    sumOver dims ((out ++ summed inputs out).filter (· ∈ inputs.getD i [])) (fun σ => F ((inputs.getD i []).map σ)) σ ≤
      overAll ((inputs.getD i []).map dims) F :=
  sumOver_le_overAll ((letters_nodup hn).filter _) (fun c hc => by simpa using (List.mem_filter.1 hc).2) F hF σ
    fun c hc h => absurd (List.mem_filter.2 ⟨letters_split inputs out hi c hc, by simpa using hc⟩) h

theorem mem_operand {inputs : List (List Char)} {out : List Char} (ho : ∀ c ∈ out, Used inputs c) :
    ∀ c ∈ out ++ summed inputs out, ∃ i ∈ Finset.range inputs.length, c ∈ inputs.getD i [] := by
  intro c hc
  have hu : ∃ p ∈ inputs, c ∈ p := by
    rcases List.mem_append.1 hc with h | h
    · exact ho c h
    · simpa [summed] using (List.mem_filter.1 h).1
  obtain ⟨p, hp, h⟩ := hu
  obtain ⟨i, hi, rfl⟩ := List.mem_iff_getElem.1 hp
  exact ⟨i, by simpa using hi, by rwa [operand_get hi]⟩

theorem abs_bound (abv : AbsoluteValue A K) {inputs : List (List Char)} {ts : List (List Nat → A)} {out : List Char}
    (ho : OutputOk inputs out) (hl : ts.length = inputs.length) (σ : Char → Nat) :
    sumOver dims out (fun σ => abv (Spec.einsum dims inputs ts out σ)) σ ≤ ∏ i ∈ Finset.range inputs.length,
      overAll ((inputs.getD i []).map dims) fun idx => abv (ts.getD i (fun _ => 1) idx) := by
  refine (sumOver_mono fun τ _ _ => einsum_abs abv out hl τ).trans ?_
  rw [← sumOver_append]
  refine (sumOver_prod_le (S := fun i => inputs.getD i [])
    (T := fun i σ => abv (ts.getD i (fun _ => 1) ((inputs.getD i []).map σ)))
    (fun i _ => dependsOn_map (fun idx => abv (ts.getD i (fun _ => 1) idx)) _) (fun i _ σ => abv.nonneg _)
    (mem_operand ho.2) σ).trans ?_
  exact Finset.prod_le_prod (fun i _ => sumOver_nonneg (fun _ => abv.nonneg _) _) fun i hi =>
    operand_sum ho.1 (by simpa using hi) (fun idx => abv (ts.getD i (fun _ => 1) idx)) (fun _ => abv.nonneg _) σ

theorem square_bound (abv : AbsoluteValue A K) {inputs : List (List Char)} {ts : List (List Nat → A)} {out : List Char}
    (ho : OutputOk inputs out) (hl : ts.length = inputs.length) (htwo : ∀ c ∈ summed inputs out, InTwo inputs c)
    (σ : Char → Nat) :
    sumOver dims out (fun σ => abv (Spec.einsum dims inputs ts out σ) ^ 2) σ ≤ ∏ i ∈ Finset.range inputs.length,
      overAll ((inputs.getD i []).map dims) fun idx => abv (ts.getD i (fun _ => 1) idx) ^ 2 := by
  have hd : ∀ i, DependsOn (fun σ => abv (ts.getD i (fun _ => 1) ((inputs.getD i []).map σ))) (inputs.getD i []) :=
    fun i => dependsOn_map (fun idx => abv (ts.getD i (fun _ => 1) idx)) _
  have hd2 : ∀ i, DependsOn (fun σ => abv (ts.getD i (fun _ => 1) ((inputs.getD i []).map σ)) ^ 2) (inputs.getD i []) :=
    fun i => dependsOn_map (fun idx => abv (ts.getD i (fun _ => 1) idx) ^ 2) _
  have h1 : ∀ τ, abv (Spec.einsum dims inputs ts out τ) ^ 2 ≤ ∏ i ∈ Finset.range inputs.length,
      sumOver dims ((summed inputs out).filter (· ∈ inputs.getD i []))
        (fun σ => abv (ts.getD i (fun _ => 1) ((inputs.getD i []).map σ)) ^ 2) τ := fun τ => by
    refine (pow_le_pow_left₀ (abv.nonneg _) (einsum_abs abv out hl τ) 2).trans ?_
    refine sumOver_sq_le (S := fun i => inputs.getD i []) (fun i _ => hd i) (fun c hc => ?_) τ
    obtain ⟨i, j, p, q, hij, hp, hq, hcp, hcq⟩ := htwo c hc
    obtain ⟨hi, rfl⟩ := List.getElem?_eq_some_iff.1 hp
    obtain ⟨hj, rfl⟩ := List.getElem?_eq_some_iff.1 hq
    exact ⟨i, by simpa using hi, j, by simpa using hj, by omega, by rwa [operand_get hi],
      by rwa [operand_get hj]⟩
  refine (sumOver_mono fun τ _ _ => h1 τ).trans ?_
  refine (sumOver_prod_le (S := fun i => inputs.getD i []) (fun i _ => (hd2 i).sumOver fun x hx => .inl hx)
    (fun i _ σ => sumOver_nonneg (fun _ => sq_nonneg _) _) (fun c hc => mem_operand ho.2 c (by simp [hc])) σ).trans ?_
  refine Finset.prod_le_prod (fun i _ => sumOver_nonneg (fun _ => sumOver_nonneg (fun _ => sq_nonneg _) _) _)
    fun i hi => ?_
  rw [← sumOver_append, ← List.filter_append]
  exact operand_sum ho.1 (by simpa using hi) (fun idx => abv (ts.getD i (fun _ => 1) idx) ^ 2) (fun _ => sq_nonneg _) σ

omit [Nontrivial A] [LinearOrder K] [IsStrictOrderedRing K] in
/-- The sum over all elements of an Einstein sum. -/
theorem overAll_einsum {inputs : List (List Char)} {ts : List (List Nat → A)} {out : List Char} {w : View A}
    (hw : IsEinsum dims inputs ts out w) (hn : out.Nodup) {t : List Nat → A} (ht : Elements w t) (g : A → K)
    (σ : Char → Nat) : overAll w.shape (fun idx => g (t idx)) =
      sumOver dims out (fun σ => g (Spec.einsum dims inputs ts out σ)) σ := by
  rw [hw.2.1, overAll_eq hn (fun idx => g (t idx)) σ]
  refine sumOver_congr fun τ _ hτ => ?_
  have h1 := hw.2.2 τ hτ
  rw [ht.2 _ (by rw [hw.2.1]; exact InB_map.2 hτ)] at h1
  rw [Except.ok.inj h1]

/-- C108: the sum of the absolute values of the elements of the result is at most the product of those of the
operands. -/
theorem C108_abs (abv : AbsoluteValue A K) (h : HashOrd) (al : Alloc A) (s : String) (operands : List (View A))
    (inputs : List (List Char)) (out : List Char) (dims : Char → Nat) (ts : List (List Nat → A))
    (hc : Call s operands inputs out dims ts) (w : View A) (hw : einsum h al s operands = .ok (.ok w))
    (t : List Nat → A) (ht : Elements w t) : absSum abv w t ≤ (List.zipWith (absSum abv) operands ts).prod := by
  have h1 := isEinsum_of_returned hc hw
  have h2 := abs_bound (dims := dims) abv hc.denotes.outputOk hc.length fun _ => 0
  rw [← overAll_einsum h1 hc.denotes.outputOk.1 ht] at h2
  exact h2.trans_eq (norms_prod ts _ hc.sized hc.length fun sh t => overAll sh fun idx => abv (t idx)).symm

/-- C108: the sum of the squares, if every summed letter is in two operands. -/
theorem C108_squares (abv : AbsoluteValue A K) (h : HashOrd) (al : Alloc A) (s : String) (operands : List (View A))
    (inputs : List (List Char)) (out : List Char) (dims : Char → Nat) (ts : List (List Nat → A))
    (hc : Call s operands inputs out dims ts) (htwo : ∀ c, Used inputs c → c ∉ out → InTwo inputs c) (w : View A)
    (hw : einsum h al s operands = .ok (.ok w)) (t : List Nat → A) (ht : Elements w t) :
    squareSum abv w t ≤ (List.zipWith (squareSum abv) operands ts).prod := by
  have h1 := isEinsum_of_returned hc hw
  have h2 := square_bound (dims := dims) abv hc.denotes.outputOk hc.length (fun c hc => by
    obtain ⟨h3, h4⟩ := List.mem_filter.1 hc
    exact htwo c (by simpa [Used] using h3) (by simpa using h4)) fun _ => 0
  rw [← overAll_einsum h1 hc.denotes.outputOk.1 ht (fun a => abv a ^ 2)] at h2
  exact h2.trans_eq (norms_prod ts _ hc.sized hc.length fun sh t => overAll sh fun idx => abv (t idx) ^ 2).symm

omit [LinearOrder K] [IsStrictOrderedRing K] in
theorem prod_getD (bs : List K) : bs.prod = ∏ i ∈ Finset.range bs.length, bs.getD i 1 := by
  induction bs with
  | nil => simp
  | cons b bs ih =>
    rw [List.length_cons, Finset.prod_range_succ']
    simp only [List.prod_cons, List.getD_cons_succ, List.getD_cons_zero]
    rw [ih, mul_comm]

/-- C108: if the elements of the operands are bounded, an element of the result is at most the number of its terms
times the product of the bounds. -/
theorem C108_max (abv : AbsoluteValue A K) (h : HashOrd) (al : Alloc A) (s : String) (operands : List (View A))
    (inputs : List (List Char)) (out : List Char) (dims : Char → Nat) (ts : List (List Nat → A))
    (hc : Call s operands inputs out dims ts) (bs : List K) (hbl : bs.length = operands.length)
    (hb : ∀ (i : Nat) v t b, operands[i]? = some v → ts[i]? = some t → bs[i]? = some b →
      ∀ idx, InB v.shape idx → abv (t idx) ≤ b) (w : View A) (hw : einsum h al s operands = .ok (.ok w))
    (t : List Nat → A) (ht : Elements w t) (idx : List Nat) (hi : InB w.shape idx) :
    abv (t idx) ≤ termCount dims inputs out * bs.prod := by
  have h1 := isEinsum_of_returned hc hw
  have hs := hc.sized.length_eq
  rw [List.length_map] at hs
  have he := ht.2 idx hi
  rw [h1.2.1] at hi
  obtain ⟨σ, hσ, rfl⟩ := exists_assign hc.denotes.outputOk.1 hi
  rw [h1.2.2 σ hσ] at he
  rw [← Except.ok.inj he]
  refine (einsum_abs abv out hc.length σ).trans ?_
  rw [termCount, ← sumOver_const dims (summed inputs out) bs.prod σ]
  refine sumOver_mono fun τ h2 h3 => ?_
  rw [prod_getD, hbl, ← hs]
  refine Finset.prod_le_prod (fun i _ => abv.nonneg _) fun i hi => ?_
  have hi : i < inputs.length := by simpa using hi
  have hio : i < operands.length := by omega
  have hit : i < ts.length := by rw [hc.length]; exact hi
  have hib : i < bs.length := by omega
  have hsh : operands[i].shape = inputs[i].map dims := by
    have := (List.forall₂_iff_get.1 hc.sized).2 i hi (by simpa using hio)
    simpa using this
  have h4 := hb i operands[i] ts[i] bs[i] (by simp) (by simp) (by simp) (inputs[i].map τ) (by
    rw [hsh]
    refine InB_map.2 fun c hcm => ?_
    by_cases hs : c ∈ summed inputs out
    · exact h3 c hs
    · rw [h2 c hs]
      have := letters_split inputs out hi c (by rwa [operand_get hi])
      exact hσ c ((List.mem_append.1 this).resolve_right hs))
  simpa [List.getD, hi, hit, hib] using h4

end

/-! ## The condition is necessary -/

section
variable {dims : Char → Nat}

theorem overAll_add {K : Type} [AddCommMonoid K] (sh : List Nat) (F G : List Nat → K) :
    overAll sh (fun idx => F idx + G idx) = overAll sh F + overAll sh G := by
  induction sh generalizing F G with
  | nil => rfl
  | cons n sh ih => simp only [overAll, ih, Finset.sum_add_distrib]

theorem overAll_zero {K : Type} [AddCommMonoid K] (sh : List Nat) : overAll sh (fun _ => (0 : K)) = 0 := by
  induction sh with
  | nil => rfl
  | cons n sh ih => simp only [overAll, ih, Finset.sum_const_zero]

theorem overAll_single {sh a : List Nat} (h : InB sh a) : overAll sh (fun idx => if idx = a then (1 : ℤ) else 0) = 1 := by
  induction sh generalizing a with
  | nil =>
    cases a with
    | nil => rfl
    | cons x a => simp at h
  | cons n sh ih =>
    cases a with
    | nil => simp at h
    | cons x a =>
      obtain ⟨hx, ha⟩ : x < n ∧ InB sh a := by simpa using h
      rw [overAll, Finset.sum_eq_single x]
      · simpa using ih ha
      · intro v _ hv
        simpa [hv] using overAll_zero (K := ℤ) sh
      · simp [hx]

/-- Two ones, at the two positions of the letter `c`, all other letters having one position. -/
def twoOnes (c : Char) (ix : List Char) (idx : List Nat) : ℤ :=
  if idx = ix.map (fun _ => 0) ∨ idx = ix.map (fun x => if x = c then 1 else 0) then 1 else 0

theorem twoOnes_sum (c : Char) (ix : List Char) :
    overAll (ix.map fun x => if x = c then 2 else 1) (fun idx => |twoOnes c ix idx| ^ 2) = if c ∈ ix then 2 else 1 := by
  have h0 : InB (ix.map fun x => if x = c then 2 else 1) (ix.map fun _ => 0) := by
    refine InB_map.2 fun x _ => ?_
    split <;> decide
  have h1 : InB (ix.map fun x => if x = c then 2 else 1) (ix.map fun x => if x = c then 1 else 0) := by
    refine InB_map.2 fun x _ => ?_
    split <;> decide
  by_cases hc : c ∈ ix
  · have hne : ix.map (fun _ => 0) ≠ ix.map (fun x => if x = c then 1 else 0) := fun e => by
      have := List.map_inj_left.1 e c hc
      simp at this
    have : (fun idx => |twoOnes c ix idx| ^ 2) = fun idx => (if idx = ix.map (fun _ => 0) then (1 : ℤ) else 0) +
        if idx = ix.map (fun x => if x = c then 1 else 0) then 1 else 0 := by
      funext idx
      unfold twoOnes
      by_cases e0 : idx = ix.map (fun _ => 0)
      · rw [if_pos (.inl e0), if_pos e0, if_neg (fun e1 => hne (e0.symm.trans e1))]; rfl
      · by_cases e1 : idx = ix.map (fun x => if x = c then 1 else 0)
        · rw [if_pos (.inr e1), if_neg e0, if_pos e1]; rfl
        · rw [if_neg (by tauto), if_neg e0, if_neg e1]; rfl
    rw [this, overAll_add, overAll_single h0, overAll_single h1, if_pos hc]
    rfl
  · have heq : ix.map (fun x => if x = c then 1 else 0) = ix.map (fun _ => 0) :=
      List.map_congr_left fun x hx => if_neg fun (e : x = c) => hc (e ▸ hx)
    have : (fun idx => |twoOnes c ix idx| ^ 2) = fun idx => (if idx = ix.map (fun _ => 0) then (1 : ℤ) else 0) := by
      funext idx
      unfold twoOnes
      simp only [heq, or_self]
      split <;> rfl
    rw [this, overAll_single h0, if_neg hc]

theorem prod_two (c : Char) (l : List Char) : (l.map fun x => if x = c then 2 else 1).prod = 2 ^ l.count c := by
  induction l with
  | nil => rfl
  | cons x l ih =>
    rw [List.map_cons, List.prod_cons, ih, List.count_cons]
    by_cases h : x = c
    · simp [h, pow_succ, mul_comm]
    · simp [h]

/-- C108: the condition is necessary: if a summed letter is in one operand only, some call with this string returns an
array whose sum of squares is greater than the product of those of the operands. -/
theorem C108_needed (s : String) (inputs : List (List Char)) (out : List Char) (hd : Denotes s inputs out) (c : Char)
    (hu : Used inputs c) (hco : c ∉ out) (hone : ¬ InTwo inputs c) :
    ∃ (operands : List (View ℤ)) (dims : Char → Nat) (ts : List (List Nat → ℤ)), Call s operands inputs out dims ts ∧
      ∀ (h : HashOrd) (al : Alloc ℤ), ∃ w t, einsum h al s operands = .ok (.ok w) ∧ Elements w t ∧
        (List.zipWith (squareSum AbsoluteValue.abs) operands ts).prod < squareSum AbsoluteValue.abs w t := by
  let dims : Char → Nat := fun x => if x = c then 2 else 1
  let mk : List Char → View ℤ := fun ix =>
    (Alloc.rowMajor ℤ).make [] (ix.map dims) ((allIdx (ix.map dims)).map (twoOnes c ix))
  have hm : ∀ ix, Holds (mk ix) (ix.map dims) (twoOnes c ix) := fun ix => (Alloc.rowMajor ℤ).holds _ _ _
  have hcall : Call s (inputs.map mk) inputs out dims (inputs.map (twoOnes c)) := by
    refine ⟨hd, ?_, ?_⟩
    · rw [List.map_map]
      exact List.forall₂_map_right_iff.2 (List.forall₂_same.2 fun ix _ => (hm ix).1)
    · exact List.forall₂_map_left_iff.2 (List.forall₂_map_right_iff.2 (List.forall₂_same.2 fun ix _ => (hm ix).elements))
  have hpos : ∀ x, 0 < dims x := fun x => by
    show 0 < if x = c then 2 else 1
    split <;> decide
  have hne : NoEmptyDiagonal dims inputs := by
    exact fun ix _ => .inr fun x _ => (hpos x).ne'
  refine ⟨_, dims, _, hcall, fun h al => ?_⟩
  obtain ⟨w, hw, h1⟩ := einsum_ok hcall hne h al
  obtain ⟨t, ht⟩ := h1.1.holds
  refine ⟨w, t, hw, ht.elements, ?_⟩
  have hval : ∀ σ, InRange dims out σ → Spec.einsum dims inputs (inputs.map (twoOnes c)) out σ = 2 := by
    intro σ hσ
    have h2 : Spec.einsum dims inputs (inputs.map (twoOnes c)) out σ = sumOver dims (summed inputs out) (fun _ => 1) σ := by
      refine sumOver_congr fun τ h2 h3 => ?_
      rw [term, List.zipWith_map_right, List.zipWith_self]
      refine List.prod_eq_one fun x hx => ?_
      obtain ⟨ix, hix, rfl⟩ := List.mem_map.1 hx
      have hr : ∀ x ∈ ix, τ x < dims x := fun x hx => by
        by_cases hs : x ∈ summed inputs out
        · exact h3 x hs
        · rw [h2 x hs]
          refine hσ x (by_contra fun ho => hs ?_)
          simp only [summed, List.mem_filter, List.mem_dedup, List.mem_flatten]
          exact ⟨⟨ix, hix, hx⟩, by simpa using ho⟩
      have hz : ∀ x ∈ ix, x ≠ c → τ x = 0 := fun x hx hxc => by
        have := hr x hx
        simp only [dims, if_neg hxc] at this
        omega
      refine if_pos ?_
      by_cases h0 : τ c = 0
      · refine .inl (List.map_congr_left fun x hx => ?_)
        by_cases hxc : x = c
        · rw [hxc, h0]
        · exact hz x hx hxc
      · refine .inr (List.map_congr_left fun x hy => ?_)
        by_cases hxc : x = c
        · subst hxc
          have := hr x hy
          simp only [dims, if_pos] at this
          simp only [if_pos]
          omega
        · rw [if_neg hxc, hz x hy hxc]
    have hmem : c ∈ summed inputs out := by
      simp only [summed, List.mem_filter, List.mem_dedup, List.mem_flatten]
      exact ⟨hu, by simpa using hco⟩
    rw [h2, sumOver_const, prod_two, List.count_eq_one_of_mem (show (summed inputs out).Nodup from (List.nodup_dedup _).filter _) hmem]
    rfl
  have hsq : squareSum AbsoluteValue.abs w t = 4 := by
    have := overAll_einsum h1 hd.outputOk.1 ht.elements (fun a : ℤ => |a| ^ 2) fun _ => 0
    refine this.trans ?_
    have h3 : sumOver dims out (fun σ => |Spec.einsum dims inputs (inputs.map (twoOnes c)) out σ| ^ 2) (fun _ => 0) =
        sumOver dims out (fun _ => (4 : ℤ)) fun _ => 0 := sumOver_congr fun τ _ hτ => by rw [hval τ hτ]; rfl
    rw [h3, sumOver_const, prod_two, List.count_eq_zero.2 hco]
    rfl
  have hprod := norms_prod (inputs.map (twoOnes c)) (fun _ => (0 : ℤ)) hcall.sized hcall.length
    fun sh t => overAll sh fun idx => |t idx| ^ 2
  have hprod' : (List.zipWith (squareSum AbsoluteValue.abs) (inputs.map mk) (inputs.map (twoOnes c))).prod =
      ∏ i ∈ Finset.range inputs.length, if c ∈ inputs.getD i [] then (2 : ℤ) else 1 := by
    refine hprod.trans (Finset.prod_congr rfl fun i hi => ?_)
    have hi : i < inputs.length := by simpa using hi
    have hg : (inputs.map (twoOnes c)).getD i (fun _ => 0) = twoOnes c (inputs.getD i []) := by
      simp [List.getD, hi]
    rw [hg]
    exact twoOnes_sum c _
  rw [hprod', hsq, Finset.prod_ite]
  have hcard : (Finset.filter (fun i => c ∈ inputs.getD i []) (Finset.range inputs.length)).card ≤ 1 := by
    refine Finset.card_le_one.2 fun i hi j hj => by_contra fun hij => hone ?_
    obtain ⟨hi, hci⟩ := Finset.mem_filter.1 hi
    obtain ⟨hj, hcj⟩ := Finset.mem_filter.1 hj
    have hi : i < inputs.length := by simpa using hi
    have hj : j < inputs.length := by simpa using hj
    rw [operand_get hi] at hci
    rw [operand_get hj] at hcj
    rcases Nat.lt_or_gt_of_ne hij with hlt | hlt
    · exact ⟨i, j, _, _, hlt, by simp, by simp, hci, hcj⟩
    · exact ⟨j, i, _, _, hlt, by simp, by simp, hcj, hci⟩
  simp only [Finset.prod_const, one_pow, mul_one]
  calc (2 : ℤ) ^ _ ≤ 2 ^ 1 := pow_le_pow_right₀ (by decide) hcard
    _ < 4 := by decide

end

/-! ## Examples -/

def normL : View ℤ := ⟨[1, -2, 3, 4], 0, [2, 2], [2, 1]⟩
def normR : View ℤ := ⟨[0, 1, -1, 2], 0, [2, 2], [2, 1]⟩

theorem norm_call : Call "ij,jk->ik" [normL, normR] [['i', 'j'], ['j', 'k']] ['i', 'k'] (fun _ => 2)
    [fun idx => [[1, -2], [3, 4]].getD (idx.getD 0 0) [] |>.getD (idx.getD 1 0) 0,
     fun idx => [[0, 1], [-1, 2]].getD (idx.getD 0 0) [] |>.getD (idx.getD 1 0) 0] where
  denotes := .inl ⟨by decide, ⟨by simp, by simp [Letter], by simp [Letter]⟩, by simp [OutputOk, Used]⟩
  sized := .cons rfl (.cons rfl .nil)
  elements := .cons (elements_of rfl (by decide)) (.cons (elements_of rfl (by decide)) .nil)

/-- A matrix product: the hypotheses of `C108_squares` are satisfied, and its bound is 30 · 6. -/
example (h : HashOrd) (al : Alloc ℤ) (w : View ℤ) (hw : einsum h al "ij,jk->ik" [normL, normR] = .ok (.ok w))
    (t : List Nat → ℤ) (ht : Elements w t) : squareSum AbsoluteValue.abs w t ≤ 180 :=
  C108_squares AbsoluteValue.abs h al _ _ _ _ _ _ norm_call
    (by intro c hc ho
        obtain ⟨ix, hix, hcx⟩ := hc
        have : c = 'j' := by
          simp only [List.mem_cons, List.not_mem_nil, or_false] at hix ho
          rcases hix with rfl | rfl <;> simp at hcx <;> tauto
        subst this
        exact ⟨0, 1, _, _, by decide, rfl, rfl, by simp, by simp⟩) w hw t ht

/-- The bound of the sum of absolute values of the same product is 10 · 4. -/
example (h : HashOrd) (al : Alloc ℤ) (w : View ℤ) (hw : einsum h al "ij,jk->ik" [normL, normR] = .ok (.ok w))
    (t : List Nat → ℤ) (ht : Elements w t) : absSum AbsoluteValue.abs w t ≤ 40 :=
  C108_abs AbsoluteValue.abs h al _ _ _ _ _ _ norm_call w hw t ht

/-- The bound of an element is 2 · 4 · 2. -/
example (h : HashOrd) (al : Alloc ℤ) (w : View ℤ) (hw : einsum h al "ij,jk->ik" [normL, normR] = .ok (.ok w))
    (t : List Nat → ℤ) (ht : Elements w t) (idx : List Nat) (hi : InB w.shape idx) : |t idx| ≤ 16 := by
  have := C108_max AbsoluteValue.abs h al _ _ _ _ _ _ norm_call ([4, 2] : List ℤ) rfl (by
    intro i v t b hv ht hb idx hi
    match i with
    | 0 =>
      cases hv; cases ht; cases hb
      have h2 := mem_allIdx.2 hi
      clear hi
      revert idx
      decide
    | 1 =>
      cases hv; cases ht; cases hb
      have h2 := mem_allIdx.2 hi
      clear hi
      revert idx
      decide
    | (n + 2) => simp at hv) w hw t ht idx hi
  exact this

/-- The sum of a vector: `i` is in one operand only. -/
example : ∃ (operands : List (View ℤ)) (dims : Char → Nat) (ts : List (List Nat → ℤ)),
    Call "i->" operands [['i']] [] dims ts ∧ ∀ (h : HashOrd) (al : Alloc ℤ), ∃ w t,
      einsum h al "i->" operands = .ok (.ok w) ∧ Elements w t ∧
      (List.zipWith (squareSum AbsoluteValue.abs) operands ts).prod < squareSum AbsoluteValue.abs w t :=
  C108_needed "i->" [['i']] [] (.inl ⟨by decide, ⟨by simp, by simp [Letter], by simp [Letter]⟩, by simp [OutputOk, Used]⟩)
    'i' ⟨['i'], by simp, by simp⟩ (by simp) fun ⟨i, j, p, q, hij, hp, hq, _, _⟩ => by
      match j with
      | 0 => exact absurd hij (by omega)
      | (n + 1) => simp at hq

end Einsum
