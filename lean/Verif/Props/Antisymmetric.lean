import Verif.Props.Positions
import Verif.Props.Mean

/-!
# Property C129: operands that are symmetric up to a factor
-/

namespace Einsum

open Spec Function

variable {A : Type} [CommSemiring A]

theorem prod_factors : ∀ {l l' : List A} {a : Nat → A}, l.length = l'.length →
    (∀ (k : Nat) (x y : A), l[k]? = some x → l'[k]? = some y → x = a k * y) →
    l.prod = (∏ k ∈ Finset.range l.length, a k) * l'.prod
  | [], [], _, _, _ => by simp
  | x :: l, y :: l', a, hl, h => by
    have h0 := h 0 x y rfl rfl
    have ih := prod_factors (a := fun k => a (k + 1)) (Nat.succ.inj hl) fun k x y e1 e2 => h (k + 1) x y e1 e2
    rw [List.prod_cons, List.prod_cons, ih, h0, List.length_cons, Finset.prod_range_succ']
    ring

/-- C129: a permutation `π` of the letters that keeps lengths, carries output letters to output letters and operand `k` to an
operand of the call multiplied by `a k` multiplies the result by the product of the `a k`. -/
theorem C129_factors (h : HashOrd) (al : Alloc A) (s : String) (operands operands' : List (View A))
    (inputs inputs' : List (List Char)) (out : List Char) (dims : Char → Nat) (π : Char → Char) (a : Nat → A) (r : View A)
    (hd : Denotes s inputs out) (hs : Sized dims inputs (operands.map View.shape)) (hw : ∀ v ∈ operands, v.Wf)
    (hinj : ∀ a b, Used inputs a → Used inputs b → π a = π b → a = b) (hu : ∀ c, Used inputs c → Used inputs (π c))
    (ho : ∀ c ∈ out, π c ∈ out) (hdim : ∀ c, Used inputs c → dims (π c) = dims c)
    (hl : inputs'.length = operands'.length) (hp : (inputs'.zip operands').Perm (inputs.zip operands))
    (hsym : ∀ (k : Nat) ix v jx w, inputs[k]? = some ix → operands[k]? = some v → inputs'[k]? = some jx →
      operands'[k]? = some w → ∀ σ, InRange dims jx σ →
        ∃ x, w.read (jx.map σ) = .ok x ∧ v.read (ix.map fun c => σ (π c)) = .ok (a k * x))
    (hr : einsum h al s operands = .ok (.ok r)) :
    ∀ σ, InRange dims out σ → ∃ y, r.read (out.map σ) = .ok y ∧
      r.read (out.map fun c => σ (π c)) = .ok ((∏ k ∈ Finset.range operands.length, a k) * y) := by
  intro σ hσ
  have hl0 : inputs.length = operands.length := by simpa using hs.length_eq
  have p1 : inputs'.Perm inputs := by
    have := hp.map Prod.fst
    rwa [List.map_fst_zip (by omega), List.map_fst_zip (by omega)] at this
  have i0 := isEinsum_of_returned ⟨hd, hs, forall₂_elem hw⟩ hr
  have hou := hd.outputOk
  have hrange : InRange dims out fun c => σ (π c) := fun c hc => by
    have := hσ (π c) (ho c hc)
    rwa [hdim c (hou.2 c hc)] at this
  refine ⟨_, i0.2.2 σ hσ, ?_⟩
  rw [i0.2.2 _ hrange]
  congr 1
  simp only [used_iff] at hinj hu hdim
  have hin : ∀ c ∈ out, c ∈ inputs.flatten := fun c hc => used_iff.1 (hou.2 c hc)
  have po : (out.map π).Perm out :=
    map_perm_self hou.1 (fun a ha b hb => hinj a b (hin a ha) (hin b hb)) ho
  have ps : ((summed inputs out).map π).Perm (summed inputs out) := by
    refine map_perm_self (summed_nodup _ _)
      (fun a ha b hb => hinj a b (mem_summed.1 ha).1 (mem_summed.1 hb).1) fun c hc => ?_
    obtain ⟨h1, h2⟩ := mem_summed.1 hc
    refine mem_summed.2 ⟨hu c h1, fun h3 => ?_⟩
    obtain ⟨b, hb, e⟩ := List.mem_map.1 (po.mem_iff.2 h3)
    exact h2 (hinj b c (hin b hb) h1 e ▸ hb)
  unfold Spec.einsum
  rw [← sumOver_scaled, ← sumOver_perm ps (fun τ => _ * term inputs (operands.map View.elem) τ)]
  symm
  refine sumOver_permute (S := inputs.flatten) (fun a ha b hb => hinj a b ha hb) hdim (fun σ τ hr he => ?_)
    (fun c hc => (mem_summed.1 hc).1) (fun c hc hn => ?_) fun c _ => rfl
  · have hl1 : operands'.length = operands.length := by
      have := hp.length_eq
      simp only [List.length_zip] at this
      omega
    rw [term_zip inputs operands τ, ← (hp.map _).prod_eq, ← term_zip]
    have hlen : (List.zipWith (fun ix t => t (ix.map σ)) inputs (operands.map View.elem)).length = operands.length := by
      simp [hl0]
    symm
    unfold term
    rw [← hlen]
    refine prod_factors (by simp [hl0, hl1, hl]) fun k x y e1 e2 => ?_
    simp only [List.getElem?_zipWith, List.getElem?_map] at e1 e2
    rcases f1 : inputs[k]? with _ | ix
    · simp [f1] at e1
    rcases f2 : operands[k]? with _ | v
    · simp [f2] at e1
    rcases f3 : inputs'[k]? with _ | jx
    · simp [f3] at e2
    rcases f4 : operands'[k]? with _ | w
    · simp [f4] at e2
    simp only [f1, f2, Option.map_some, Option.some.injEq] at e1
    simp only [f3, f4, Option.map_some, Option.some.injEq] at e2
    have hi1 : ∀ c ∈ ix, c ∈ inputs.flatten := fun c hc => List.mem_flatten.2 ⟨ix, List.mem_of_getElem? f1, hc⟩
    have hi2 : ∀ c ∈ jx, c ∈ inputs.flatten := fun c hc =>
      p1.flatten.mem_iff.1 (List.mem_flatten.2 ⟨jx, List.mem_of_getElem? f3, hc⟩)
    obtain ⟨z, z1, z2⟩ := hsym k ix v jx w f1 f2 f3 f4 τ fun c hc => hr c (hi2 c hc)
    have e : (ix.map fun c => τ (π c)) = ix.map σ := List.map_congr_left fun c hc => he c (hi1 c hc)
    rw [e] at z2
    rw [← e1, ← e2]
    simp [View.elem, z1, z2]
  · by_cases hco : c ∈ out
    · exact hσ c hco
    · exact absurd (ps.mem_iff.2 (mem_summed.2 ⟨hc, hco⟩)) hn

/-- C129: contracting a symmetric with an antisymmetric matrix gives an element that is its own negative. -/
theorem C129_vanish {B : Type} [CommRing B] (h : HashOrd) (al : Alloc B) (u v r : View B) (n : Nat) (hu : u.Wf) (hv : v.Wf)
    (su : u.shape = [n, n]) (sv : v.shape = [n, n]) (hsym : ∀ i j, i < n → j < n → u.read [j, i] = u.read [i, j])
    (hanti : ∀ i j, i < n → j < n → ∃ x, v.read [i, j] = .ok x ∧ v.read [j, i] = .ok (-x))
    (hr : einsum h al "ij,ij->" [u, v] = .ok (.ok r)) : ∃ x, r.read [] = .ok x ∧ x + x = 0 := by
  let π : Char → Char := fun c => if c = 'i' then 'j' else if c = 'j' then 'i' else c
  have hU : ∀ c, Used [['i', 'j'], ['i', 'j']] c → c = 'i' ∨ c = 'j' := by
    intro c hc
    simp only [Used, List.mem_cons, List.not_mem_nil, or_false, exists_eq_or_imp, exists_eq_left] at hc
    rcases hc with (rfl | rfl) | rfl | rfl <;> simp
  obtain ⟨x, h1, h2⟩ := C129_factors h al "ij,ij->" [u, v] [u, v] [['i', 'j'], ['i', 'j']] [['i', 'j'], ['i', 'j']] [] (fun _ => n) π
    (fun k => if k = 0 then 1 else -1) r
    (.inl ⟨by decide, ⟨by simp, by simp [Letter], by simp [Letter]⟩, by simp [OutputOk, Used]⟩)
    (.cons (by simp [su]) (.cons (by simp [sv]) .nil)) (by simp [hu, hv])
    (fun a b ha hb => by rcases hU a ha with rfl | rfl <;> rcases hU b hb with rfl | rfl <;> simp [π])
    (fun c hc => by rcases hU c hc with rfl | rfl <;> simp [π, Used]) (by simp) (fun _ _ => rfl) rfl (.refl _)
    (fun k ix a jx b e1 e2 e3 e4 σ hσ => by
      match k with
      | 0 =>
        simp only [List.getElem?_cons_zero, Option.some.injEq] at e1 e2 e3 e4
        subst e1 e2 e3 e4
        have hi := hσ 'i' (by simp)
        have hj := hσ 'j' (by simp)
        obtain ⟨x, hx⟩ := hu.2 [σ 'i', σ 'j'] (by rw [su]; exact ⟨hi, hj, trivial⟩)
        exact ⟨x, hx, by simp [π, hsym _ _ hi hj, hx]⟩
      | 1 =>
        simp only [List.getElem?_cons_zero, List.getElem?_cons_succ, Option.some.injEq] at e1 e2 e3 e4
        subst e1 e2 e3 e4
        obtain ⟨x, x1, x2⟩ := hanti _ _ (hσ 'i' (by simp)) (hσ 'j' (by simp))
        exact ⟨x, x1, by simp [π, x2]⟩
      | k + 2 => simp at e1) hr (fun _ => 0) (by simp [InRange])
  refine ⟨x, h1, ?_⟩
  rw [List.map_nil] at h1 h2
  have e := Except.ok.inj (h1.symm.trans h2)
  simp only [List.length_cons, List.length_nil, Finset.prod_range_succ, Finset.prod_range_zero] at e
  simp at e
  exact add_eq_zero_iff_eq_neg.2 e

/-! ## Examples -/

namespace Ex

def s129 : View ℤ := ⟨[1, 2, 3, 2, 4, 5, 3, 5, 6], 0, [3, 3], [3, 1]⟩

def n129 : View ℤ := ⟨[0, 1, 2, -1, 0, 3, -2, -3, 0], 0, [3, 3], [3, 1]⟩

end Ex

example (h : HashOrd) (al : Alloc ℤ) : ∃ r, einsum h al "ij,ij->" [Ex.s129, Ex.n129] = .ok (.ok r) ∧ r.read [] = .ok 0 := by
  have hs : Elements Ex.s129 Ex.s129.elem := elements_of rfl (by decide +kernel)
  have hn : Elements Ex.n129 Ex.n129.elem := elements_of rfl (by decide +kernel)
  obtain ⟨r, hr, -⟩ := C13_einsum h al "ij,ij->" [Ex.s129, Ex.n129] [['i', 'j'], ['i', 'j']] [] (fun _ => 3) _
    ⟨.inl ⟨by decide, ⟨by simp, by simp [Letter], by simp [Letter]⟩, by simp [OutputOk, Used]⟩, .cons rfl (.cons rfl .nil),
      .cons hs (.cons hn .nil)⟩ (by simp [NoEmptyDiagonal])
  have h1 : ∀ i < 3, ∀ j < 3, Ex.s129.read [j, i] = Ex.s129.read [i, j] := by decide +kernel
  have h2 : ∀ i < 3, ∀ j < 3, Ex.n129.read [i, j] = .ok (Ex.n129.elem [i, j]) ∧
    Ex.n129.read [j, i] = .ok (-Ex.n129.elem [i, j]) := by decide +kernel
  obtain ⟨x, e, hx⟩ := C129_vanish h al Ex.s129 Ex.n129 r 3
    hs.1 hn.1 rfl rfl
    (fun i j hi hj => h1 i hi j hj) (fun i j hi hj => ⟨_, h2 i hi j hj⟩) hr
  obtain rfl : x = 0 := by omega
  exact ⟨r, hr, e⟩

end Einsum
