import Verif.Props.Algebra
import Mathlib.Algebra.Order.BigOperators.Group.Finset
import Mathlib.Algebra.Order.Ring.Int
import Mathlib.Tactic.Linarith

/-!
# Properties C130 and C131: calls made of two mirrored halves
-/

namespace Einsum

open Spec Function

theorem sumOver_nonnegative {ι B : Type} [DecidableEq ι] [CommRing B] [LinearOrder B] [IsStrictOrderedRing B] {dims : ι → Nat}
    {f : (ι → Nat) → B} (h : ∀ σ, 0 ≤ f σ) : ∀ (cs : List ι) (σ : ι → Nat), 0 ≤ sumOver dims cs f σ
  | [], σ => h σ
  | _ :: cs, _ => Finset.sum_nonneg fun _ _ => sumOver_nonnegative h cs _

/-- Sums over renamed letters. -/
theorem sumOver_renamed {B : Type} [AddCommMonoid B] {dims : Char → Nat} {π : Char → Char} {S : List Char}
    (hinj : ∀ a ∈ S, ∀ b ∈ S, π a = π b → a = b) (hdim : ∀ c ∈ S, dims (π c) = dims c) {F G : (Char → Nat) → B}
    (hFG : ∀ σ τ, (∀ c ∈ S, τ (π c) = σ c) → G τ = F σ) {cs : List Char} (hcs : ∀ c ∈ cs, c ∈ S)
    {σ τ : Char → Nat} (h : ∀ c ∈ S, τ (π c) = σ c) : sumOver dims (cs.map π) G τ = sumOver dims cs F σ := by
  induction cs generalizing σ τ with
  | nil => exact hFG σ τ h
  | cons c cs ih =>
    have hc := hcs c (by simp)
    rw [List.map_cons, sumOver_cons, sumOver_cons, hdim c hc]
    refine Finset.sum_congr rfl fun v _ => ih (fun c hc => hcs c (by simp [hc])) fun a ha => ?_
    by_cases hac : a = c
    · subst hac; simp
    · rw [update_of_ne hac, update_of_ne fun e => hac (hinj a ha c hc e), h a ha]

theorem term_renamed {B : Type} [CommSemiring B] {π : Char → Char} {σ τ : Char → Nat} :
    ∀ {inputs : List (List Char)} {ts : List (List Nat → B)}, (∀ c ∈ inputs.flatten, τ (π c) = σ c) →
    term (inputs.map (List.map π)) ts τ = term inputs ts σ
  | [], _, _ => by simp [term]
  | _ :: _, [], _ => by simp [term]
  | ix :: inputs, t :: ts, h => by
    have ih := term_renamed (inputs := inputs) (ts := ts) fun c hc => h c (by
      rw [List.flatten_cons, List.mem_append]; exact .inr hc)
    simp only [term] at ih
    simp only [term, List.map_cons, List.zipWith_cons_cons, List.prod_cons, ih, List.map_map]
    congr 2
    exact List.map_congr_left fun c hc => h c (by simp [hc])

theorem sized_mirrored {dims : Char → Nat} {π : Char → Char} {inputs : List (List Char)} {shapes : List (List Nat)}
    (hs : Sized dims inputs shapes) (hdim : ∀ c ∈ inputs.flatten, dims (π c) = dims c) :
    Sized dims (inputs ++ inputs.map (List.map π)) (shapes ++ shapes) := by
  refine List.rel_append hs ?_
  rw [List.forall₂_map_left_iff]
  unfold Sized at hs
  induction hs with
  | nil => exact .nil
  | cons h1 _ ih =>
    refine .cons ?_ (ih fun c h => hdim c (by rw [List.flatten_cons, List.mem_append]; exact .inr h))
    rw [h1, List.map_map]
    exact List.map_congr_left fun c h => (hdim c (by simp [h])).symm

/-- The Einstein sum of two mirrored halves, by those of one half. -/
theorem einsum_mirrored {B : Type} [CommSemiring B] {dims : Char → Nat} {π : Char → Char} {inputs : List (List Char)}
    {out F : List Char} {ts ts' : List (List Nat → B)} (hl : ts.length = inputs.length)
    (hinj : ∀ a ∈ inputs.flatten, ∀ b ∈ inputs.flatten, π a = π b → a = b)
    (hdim : ∀ c ∈ inputs.flatten, dims (π c) = dims c) (hfresh : ∀ c ∈ inputs.flatten, π c = c ∨ π c ∉ inputs.flatten)
    (hn : (out ++ F).Nodup) (hu : ∀ c ∈ out ++ F, c ∈ inputs.flatten)
    (hF : ∀ c ∈ inputs.flatten, (c ∈ out ++ F ↔ π c = c)) (σ : Char → Nat) :
    Spec.einsum dims (inputs ++ inputs.map (List.map π)) (ts ++ ts') out σ =
      sumOver dims F (fun τ => Spec.einsum dims inputs ts (out ++ F) τ * Spec.einsum dims inputs ts' (out ++ F) τ) σ := by
  let N := summed inputs (out ++ F)
  have mN : ∀ c, c ∈ N ↔ c ∈ inputs.flatten ∧ π c ≠ c := fun c => by
    rw [mem_summed]
    exact and_congr_right fun hc => not_congr (hF c hc)
  have mP : ∀ c, c ∈ N.map π ↔ ∃ d ∈ inputs.flatten, π d ≠ d ∧ π d = c := fun c => by
    simp only [List.mem_map, mN, and_assoc]
  have hfr : ∀ c ∈ N.map π, c ∉ inputs.flatten := fun c hc hu => by
    obtain ⟨d, d1, d2, rfl⟩ := (mP c).1 hc
    rcases hfresh d d1 with e | e
    · exact d2 e
    · exact e hu
  have uF : ∀ c ∈ F, c ∈ inputs.flatten ∧ π c = c := fun c hc =>
    have h1 : c ∈ out ++ F := List.mem_append.2 (.inr hc)
    ⟨hu c h1, (hF c (hu c h1)).1 h1⟩
  have uO : ∀ c ∈ out, c ∈ inputs.flatten ∧ π c = c := fun c hc =>
    have h1 : c ∈ out ++ F := List.mem_append.2 (.inl hc)
    ⟨hu c h1, (hF c (hu c h1)).1 h1⟩
  rw [List.nodup_append'] at hn
  have hnd : (F ++ (N ++ N.map π)).Nodup := by
    have hN : N.Nodup := summed_nodup _ _
    rw [List.nodup_append', List.nodup_append']
    refine ⟨hn.2.1, ⟨hN, hN.map_on fun a ha b hb => hinj a ((mN a).1 ha).1 b ((mN b).1 hb).1, ?_⟩, ?_⟩
    · exact fun c h1 h2 => hfr c h2 ((mN c).1 h1).1
    · intro c h1 h2
      rcases List.mem_append.1 h2 with h2 | h2
      · exact ((mN c).1 h2).2 (uF c h1).2
      · exact hfr c h2 (uF c h1).1
  have hmem : ∀ c, c ∈ F ++ (N ++ N.map π) ↔ c ∈ (inputs ++ inputs.map (List.map π)).flatten ∧ c ∉ out := by
    intro c
    have hfl : (inputs.map (List.map π)).flatten = inputs.flatten.map π := List.map_flatten.symm
    rw [List.flatten_append, hfl, List.mem_append, List.mem_append, List.mem_append, mN, mP, List.mem_map]
    have fixed : ∀ c ∈ inputs.flatten, π c = c → c ∉ out → c ∈ F := fun c h1 h2 h3 =>
      (List.mem_append.1 ((hF c h1).2 h2)).resolve_left h3
    constructor
    · rintro (h1 | ⟨h1, h2⟩ | ⟨d, d1, d2, d3⟩)
      · exact ⟨.inl (uF c h1).1, fun g => hn.2.2 g h1⟩
      · exact ⟨.inl h1, fun g => h2 (uO c g).2⟩
      · exact ⟨.inr ⟨d, d1, d3⟩, fun g => hfr c ((mP c).2 ⟨d, d1, d2, d3⟩) (uO c g).1⟩
    · rintro ⟨h1 | ⟨d, d1, d2⟩, h2⟩
      · by_cases e : π c = c
        · exact .inl (fixed c h1 e h2)
        · exact .inr (.inl ⟨h1, e⟩)
      · by_cases e : π d = d
        · obtain rfl : d = c := e.symm.trans d2
          exact .inl (fixed d d1 e h2)
        · exact .inr (.inr ⟨d, d1, e, d2⟩)
  let T := term inputs ts
  let T' := term inputs ts'
  have hT : DependsOn T inputs.flatten := dependsOn_term _ _
  have hg : DependsOn (sumOver dims N T') (inputs.flatten.filter fun c => π c = c) := by
    refine (dependsOn_term inputs ts').sumOver fun c hc => ?_
    by_cases e : π c = c
    · exact .inl (List.mem_filter.2 ⟨hc, by simp [e]⟩)
    · exact .inr ((mN c).2 ⟨hc, e⟩)
  have key : sumOver dims (N ++ N.map π) (term (inputs ++ inputs.map (List.map π)) (ts ++ ts')) =
      fun τ => sumOver dims N T τ * sumOver dims N T' τ := by
    have e1 : term (inputs ++ inputs.map (List.map π)) (ts ++ ts') =
        fun τ => T τ * term (inputs.map (List.map π)) ts' τ := by
      funext τ
      rw [term_append _ _ _ _ hl]
    have e2 : sumOver dims (N.map π) (fun τ => T τ * term (inputs.map (List.map π)) ts' τ) =
        fun τ => T τ * sumOver dims N T' τ := by
      funext τ
      rw [sumOver_mul_left hT fun c hc hp => hfr c hp hc]
      congr 1
      rw [sumOver_renamed (S := inputs.flatten) (F := T') (σ := fun c => τ (π c)) hinj hdim
        (fun σ τ he => term_renamed he) (fun c hc => ((mN c).1 hc).1) fun _ _ => rfl]
      exact hg _ _ fun c hc => by rw [(by simpa using (List.mem_filter.1 hc).2 : π c = c)]
    rw [sumOver_append, e1, e2]
    funext τ
    exact sumOver_mul_right hg (fun c hc hn => ((mN c).1 hn).2 (by simpa using (List.mem_filter.1 hc).2)) τ
  unfold Spec.einsum
  rw [← sumOver_summed hnd hmem, sumOver_append, key]

/-- The letters that are not renamed. -/
theorem kept_letters {π : Char → Char} {inputs : List (List Char)} {out : List Char} (hn : out.Nodup)
    (ho : ∀ c ∈ out, c ∈ inputs.flatten ∧ π c = c) : ∃ F : List Char, (out ++ F).Nodup ∧
    (∀ c ∈ out ++ F, c ∈ inputs.flatten) ∧ ∀ c ∈ inputs.flatten, (c ∈ out ++ F ↔ π c = c) := by
  let F := inputs.flatten.dedup.filter fun c => π c = c ∧ c ∉ out
  have mF : ∀ c, c ∈ F ↔ c ∈ inputs.flatten ∧ π c = c ∧ c ∉ out := fun c => by simp [F]
  refine ⟨F, List.nodup_append'.2 ⟨hn, (List.nodup_dedup _).filter _, fun c h1 h2 => ((mF c).1 h2).2.2 h1⟩,
    fun c hc => (List.mem_append.1 hc).elim (fun g => (ho c g).1) fun g => ((mF c).1 g).1, fun c hc => ?_⟩
  rw [List.mem_append, mF]
  constructor
  · rintro (g | g)
    · exact (ho c g).2
    · exact g.2.1
  · intro e
    by_cases g : c ∈ out
    · exact .inl g
    · exact .inr ⟨hc, e, g⟩

theorem sized_unique {dims : Char → Nat} {inputs : List (List Char)} {sh sh' : List (List Nat)} (h : Sized dims inputs sh)
    (h' : Sized dims inputs sh') : sh = sh' := by
  unfold Sized at h h'
  induction h generalizing sh' with
  | nil => cases h'; rfl
  | cons h1 _ ih =>
    cases h' with
    | cons g1 g2 => rw [h1, g1, ih g2]

/-- C130: the second half of the operands are those of the first, with the letters renamed by `π`; output letters are not
renamed, and renamed letters are fresh.  The result is the sum of the squares of the result of the call with the first half
that keeps all letters that are not renamed. -/
theorem C130_squares {B : Type} [CommSemiring B] (h h' : HashOrd) (al al' : Alloc B) (s s' : String) (operands : List (View B))
    (inputs : List (List Char)) (out F : List Char) (dims : Char → Nat) (π : Char → Char) (r q : View B)
    (hd : Denotes s (inputs ++ inputs.map (List.map π)) out) (hd' : Denotes s' inputs (out ++ F))
    (hs : Sized dims inputs (operands.map View.shape)) (hw : ∀ v ∈ operands, v.Wf)
    (hinj : ∀ a b, Used inputs a → Used inputs b → π a = π b → a = b)
    (hdim : ∀ c, Used inputs c → dims (π c) = dims c) (hfresh : ∀ c, Used inputs c → π c = c ∨ ¬ Used inputs (π c))
    (hF : ∀ c, Used inputs c → (c ∈ out ++ F ↔ π c = c)) (hr : einsum h al s (operands ++ operands) = .ok (.ok r))
    (hq : einsum h' al' s' operands = .ok (.ok q)) :
    ∃ y : (Char → Nat) → B, (∀ τ, InRange dims (out ++ F) τ → q.read ((out ++ F).map τ) = .ok (y τ)) ∧
      ∀ σ, InRange dims out σ → r.read (out.map σ) = .ok (sumOver dims F (fun τ => y τ * y τ) σ) := by
  have hl0 : inputs.length = operands.length := by simpa using hs.length_eq
  have hou := hd'.outputOk
  simp only [used_iff] at hinj hdim hfresh hF
  have hw2 : ∀ v ∈ operands ++ operands, v.Wf := by simpa using hw
  have i0 := isEinsum_of_returned ⟨hd, List.map_append (f := View.shape) ▸ sized_mirrored hs hdim, forall₂_elem hw2⟩ hr
  refine ⟨_, (isEinsum_of_returned ⟨hd', hs, forall₂_elem hw⟩ hq).2.2, fun σ hσ => ?_⟩
  rw [i0.2.2 σ hσ, List.map_append, einsum_mirrored (by simp [hl0]) (fun a ha b hb => hinj a b ha hb) hdim hfresh hou.1
    (fun c hc => used_iff.1 (hou.2 c hc)) hF]

/-- C130: over ordered rings no element is negative. -/
theorem C130_nonneg {B : Type} [CommRing B] [LinearOrder B] [IsStrictOrderedRing B] (h : HashOrd) (al : Alloc B) (s : String)
    (operands : List (View B)) (inputs : List (List Char)) (out : List Char) (dims : Char → Nat) (π : Char → Char) (r : View B)
    (hd : Denotes s (inputs ++ inputs.map (List.map π)) out) (hs : Sized dims inputs (operands.map View.shape))
    (hw : ∀ v ∈ operands, v.Wf) (hinj : ∀ a b, Used inputs a → Used inputs b → π a = π b → a = b)
    (hdim : ∀ c, Used inputs c → dims (π c) = dims c) (hfresh : ∀ c, Used inputs c → π c = c ∨ ¬ Used inputs (π c))
    (ho : ∀ c ∈ out, Used inputs c ∧ π c = c) (hr : einsum h al s (operands ++ operands) = .ok (.ok r)) :
    ∀ σ, InRange dims out σ → ∃ x, r.read (out.map σ) = .ok x ∧ 0 ≤ x := by
  intro σ hσ
  have hl0 : inputs.length = operands.length := by simpa using hs.length_eq
  have hou := hd.outputOk
  simp only [used_iff] at hinj hdim hfresh ho
  have hw2 : ∀ v ∈ operands ++ operands, v.Wf := by simpa using hw
  have i0 := isEinsum_of_returned ⟨hd, List.map_append (f := View.shape) ▸ sized_mirrored hs hdim, forall₂_elem hw2⟩ hr
  refine ⟨_, i0.2.2 σ hσ, ?_⟩
  obtain ⟨F, hn, hu, hF⟩ := kept_letters (inputs := inputs) (π := π) hou.1 ho
  rw [List.map_append, einsum_mirrored (by simp [hl0]) (fun a ha b hb => hinj a b ha hb) hdim hfresh hn hu hF]
  exact sumOver_nonnegative (fun τ => mul_self_nonneg _) _ _

/-! ## C131 -/

section
variable {B : Type} [CommRing B] [LinearOrder B] [IsStrictOrderedRing B]

theorem sumOver_cauchy {dims : Char → Nat} (cs : List Char) (f g : (Char → Nat) → B) (σ : Char → Nat) :
    sumOver dims cs (fun τ => f τ * g τ) σ * sumOver dims cs (fun τ => f τ * g τ) σ ≤
      sumOver dims cs (fun τ => f τ * f τ) σ * sumOver dims cs (fun τ => g τ * g τ) σ := by
  have scaled : ∀ (a : B) (f : (Char → Nat) → B), sumOver dims cs (fun τ => a * f τ) σ = a * sumOver dims cs f σ := fun a f =>
    (sumOver_map (dims := dims) (fun x : B => a * x) (by simp) (by intros; exact mul_add _ _ _) cs f σ).symm
  have sq : ∀ a b : B, 0 ≤ a * a * sumOver dims cs (fun τ => f τ * f τ) σ + (2 * (a * b) * sumOver dims cs (fun τ => f τ * g τ) σ +
      b * b * sumOver dims cs (fun τ => g τ * g τ) σ) := fun a b => by
    have e : (fun τ => (a * f τ + b * g τ) * (a * f τ + b * g τ)) =
        fun τ => a * a * (f τ * f τ) + (2 * (a * b) * (f τ * g τ) + b * b * (g τ * g τ)) := by
      funext τ
      ring
    have h := sumOver_nonnegative (dims := dims) (f := fun τ => (a * f τ + b * g τ) * (a * f τ + b * g τ))
      (fun τ => mul_self_nonneg _) cs σ
    rwa [e, sumOver_add, sumOver_add, scaled, scaled, scaled] at h
  have hx : 0 ≤ sumOver dims cs (fun τ => f τ * f τ) σ := sumOver_nonnegative (fun τ => mul_self_nonneg _) cs σ
  have hz : 0 ≤ sumOver dims cs (fun τ => g τ * g τ) σ := sumOver_nonnegative (fun τ => mul_self_nonneg _) cs σ
  generalize sumOver dims cs (fun τ => f τ * f τ) σ = x at *
  generalize sumOver dims cs (fun τ => g τ * g τ) σ = z at *
  generalize sumOver dims cs (fun τ => f τ * g τ) σ = y at *
  rcases hx.lt_or_eq with h | h
  · have h1 : 0 ≤ x * (x * z - y * y) := by
      have := sq (-y) x
      have e : -y * -y * x + (2 * (-y * x) * y + x * x * z) = x * (x * z - y * y) := by ring
      rwa [e] at this
    exact sub_nonneg.1 (nonneg_of_mul_nonneg_right h1 h)
  · subst h
    rcases hz.lt_or_eq with g | g
    · have h1 : 0 ≤ z * (0 * z - y * y) := by
        have := sq z (-y)
        have e : z * z * 0 + (2 * (z * -y) * y + -y * -y * z) = z * (0 * z - y * y) := by ring
        rwa [e] at this
      exact sub_nonneg.1 (nonneg_of_mul_nonneg_right h1 g)
    · subst g
      have h1 := sq 1 1
      have h2 := sq 1 (-1)
      have e : y = 0 := by
        simp only [mul_one, mul_zero, zero_add, add_zero, mul_neg, neg_mul] at h1 h2
        linarith
      simp [e]

/-- C131: the Cauchy-Schwarz inequality. -/
theorem C131_cauchy (h h₁ h₂ : HashOrd) (al al₁ al₂ : Alloc B) (s : String) (P Q : List (View B)) (inputs : List (List Char))
    (out : List Char) (dims : Char → Nat) (π : Char → Char) (r a b : View B)
    (hd : Denotes s (inputs ++ inputs.map (List.map π)) out) (hs : Sized dims inputs (P.map View.shape))
    (hs' : Sized dims inputs (Q.map View.shape)) (hw : ∀ v ∈ P ++ Q, v.Wf)
    (hinj : ∀ a b, Used inputs a → Used inputs b → π a = π b → a = b)
    (hdim : ∀ c, Used inputs c → dims (π c) = dims c) (hfresh : ∀ c, Used inputs c → π c = c ∨ ¬ Used inputs (π c))
    (ho : ∀ c ∈ out, Used inputs c ∧ π c = c) (hr : einsum h al s (P ++ Q) = .ok (.ok r))
    (ha : einsum h₁ al₁ s (P ++ P) = .ok (.ok a)) (hb : einsum h₂ al₂ s (Q ++ Q) = .ok (.ok b)) :
    ∀ σ, InRange dims out σ → ∃ x y z, r.read (out.map σ) = .ok x ∧ a.read (out.map σ) = .ok y ∧ b.read (out.map σ) = .ok z ∧
      x * x ≤ y * z := by
  intro σ hσ
  have hou := hd.outputOk
  simp only [used_iff] at hinj hdim hfresh ho
  obtain ⟨F, hn, hu, hF⟩ := kept_letters (inputs := inputs) (π := π) hou.1 ho
  have hwP : ∀ v ∈ P, v.Wf := fun v hv => hw v (by simp [hv])
  have hwQ : ∀ v ∈ Q, v.Wf := fun v hv => hw v (by simp [hv])
  have key : ∀ {P Q : List (View B)} {h : HashOrd} {al : Alloc B} {r : View B}, Sized dims inputs (P.map View.shape) →
      Sized dims inputs (Q.map View.shape) → (∀ v ∈ P, v.Wf) → (∀ v ∈ Q, v.Wf) → einsum h al s (P ++ Q) = .ok (.ok r) →
      r.read (out.map σ) = .ok (sumOver dims F (fun τ => Spec.einsum dims inputs (P.map View.elem) (out ++ F) τ *
        Spec.einsum dims inputs (Q.map View.elem) (out ++ F) τ) σ) := by
    intro P Q h al r h1 h2 w1 w2 hr
    have hl0 : inputs.length = P.length := by simpa using h1.length_eq
    have e : P.map View.shape = Q.map View.shape := sized_unique h1 h2
    have w : ∀ v ∈ P ++ Q, v.Wf := fun v hv => (List.mem_append.1 hv).elim (w1 v) (w2 v)
    have i0 := isEinsum_of_returned (operands := P ++ Q)
      ⟨hd, by rw [List.map_append, ← e]; exact sized_mirrored h1 hdim, forall₂_elem w⟩ hr
    rw [i0.2.2 σ hσ, List.map_append, einsum_mirrored (by simp [hl0]) (fun a ha b hb => hinj a b ha hb) hdim hfresh hn hu hF]
  exact ⟨_, _, _, key hs hs' hwP hwQ hr, key hs hs hwP hwP ha, key hs' hs' hwQ hwQ hb, sumOver_cauchy _ _ _ _⟩

end

/-! ## Examples -/

namespace Ex

def m130 : View ℤ := ⟨[1, -2, 3, 0, -1, 4], 0, [2, 3], [3, 1]⟩

def k130 : View ℤ := ⟨[2, 0, -3, 1, 1, -1], 0, [2, 3], [3, 1]⟩

def x130 : View ℤ := ⟨[2, -1, -5], 0, [3], [1]⟩

theorem elements130 : Elements m130 m130.elem ∧ Elements x130 x130.elem :=
  ⟨elements_of rfl (by decide +kernel), elements_of rfl (by decide +kernel)⟩

theorem denotes130 : Denotes "ij,j,ik,k->" [['i', 'j'], ['j'], ['i', 'k'], ['k']] [] :=
  .inl ⟨by decide, ⟨by simp, by simp [Letter], by simp [Letter]⟩, by simp [OutputOk, Used]⟩

end Ex

/-- It is the squared length of the product of the matrix with the vector. -/
example (h h' : HashOrd) (al al' : Alloc ℤ) : ∃ r q, einsum h al "ij,j,ik,k->" [Ex.m130, Ex.x130, Ex.m130, Ex.x130] = .ok (.ok r) ∧
    einsum h' al' "ij,j->i" [Ex.m130, Ex.x130] = .ok (.ok q) ∧ ∃ a b, q.read [0] = .ok a ∧ q.read [1] = .ok b ∧
      r.read [] = .ok (a * a + b * b) := by
  obtain ⟨e1, e2⟩ := Ex.elements130
  obtain ⟨r, hr, -⟩ := C13_einsum h al "ij,j,ik,k->" [Ex.m130, Ex.x130, Ex.m130, Ex.x130] _ []
    (fun c => if c = 'i' then 2 else 3) _
    ⟨Ex.denotes130, .cons rfl (.cons rfl (.cons rfl (.cons rfl .nil))), .cons e1 (.cons e2 (.cons e1 (.cons e2 .nil)))⟩
    (by simp [NoEmptyDiagonal])
  have hd : Denotes "ij,j->i" [['i', 'j'], ['j']] ['i'] :=
    .inl ⟨by decide, ⟨by simp, by simp [Letter], by simp [Letter]⟩, by simp [OutputOk, Used]⟩
  obtain ⟨q, hq, -⟩ := C13_einsum h' al' "ij,j->i" [Ex.m130, Ex.x130] _ _ (fun c => if c = 'i' then 2 else 3) _
    ⟨hd, .cons rfl (.cons rfl .nil), .cons e1 (.cons e2 .nil)⟩ (by simp [NoEmptyDiagonal])
  have hU : ∀ c, Used [['i', 'j'], ['j']] c → c = 'i' ∨ c = 'j' := by
    intro c hc
    simp only [Used, List.mem_cons, List.not_mem_nil, or_false, exists_eq_or_imp, exists_eq_left] at hc
    rcases hc with (rfl | rfl) | rfl <;> simp
  obtain ⟨y, h1, h2⟩ := C130_squares h h' al al' "ij,j,ik,k->" "ij,j->i" [Ex.m130, Ex.x130] [['i', 'j'], ['j']] [] ['i']
    (fun c => if c = 'i' then 2 else 3) (fun c => if c = 'j' then 'k' else c) r q Ex.denotes130 hd (.cons rfl (.cons rfl .nil))
    (by simp [e1.1, e2.1])
    (fun a b ha hb => by rcases hU a ha with rfl | rfl <;> rcases hU b hb with rfl | rfl <;> simp)
    (fun c hc => by rcases hU c hc with rfl | rfl <;> simp)
    (fun c hc => by rcases hU c hc with rfl | rfl <;> simp [Used])
    (fun c hc => by rcases hU c hc with rfl | rfl <;> simp) hr hq
  have h3 := h2 (fun _ => 0) (by simp [InRange])
  simp only [sumOver, if_true, Finset.sum_range_succ, Finset.sum_range_zero, zero_add] at h3
  have g : ∀ k, k < 2 → q.read [k] = .ok (y (update (fun _ => 0) 'i' k)) := fun k hk => by
    simpa using h1 (update (fun _ => 0) 'i' k) (by simpa [InRange] using hk)
  exact ⟨r, q, hr, hq, _, _, g 0 (by decide), g 1 (by decide), h3⟩

/-- A quadratic form of a Gram matrix. -/
example (h : HashOrd) (al : Alloc ℤ) : ∃ r x, einsum h al "ij,j,ik,k->" [Ex.m130, Ex.x130, Ex.m130, Ex.x130] = .ok (.ok r) ∧
    r.read [] = .ok x ∧ 0 ≤ x := by
  obtain ⟨e1, e2⟩ := Ex.elements130
  obtain ⟨r, hr, -⟩ := C13_einsum h al "ij,j,ik,k->" [Ex.m130, Ex.x130, Ex.m130, Ex.x130] _ []
    (fun c => if c = 'i' then 2 else 3) _
    ⟨Ex.denotes130, .cons rfl (.cons rfl (.cons rfl (.cons rfl .nil))), .cons e1 (.cons e2 (.cons e1 (.cons e2 .nil)))⟩
    (by simp [NoEmptyDiagonal])
  have hU : ∀ c, Used [['i', 'j'], ['j']] c → c = 'i' ∨ c = 'j' := by
    intro c hc
    simp only [Used, List.mem_cons, List.not_mem_nil, or_false, exists_eq_or_imp, exists_eq_left] at hc
    rcases hc with (rfl | rfl) | rfl <;> simp
  obtain ⟨x, h1, h2⟩ := C130_nonneg h al "ij,j,ik,k->" [Ex.m130, Ex.x130] [['i', 'j'], ['j']] []
    (fun c => if c = 'i' then 2 else 3) (fun c => if c = 'j' then 'k' else c) r Ex.denotes130 (.cons rfl (.cons rfl .nil))
    (by simp [e1.1, e2.1])
    (fun a b ha hb => by rcases hU a ha with rfl | rfl <;> rcases hU b hb with rfl | rfl <;> simp)
    (fun c hc => by rcases hU c hc with rfl | rfl <;> simp)
    (fun c hc => by rcases hU c hc with rfl | rfl <;> simp [Used]) (by simp) hr (fun _ => 0) (by simp [InRange])
  exact ⟨r, x, hr, h1, h2⟩

/-- Rows of two matrices. -/
example (h : HashOrd) (al : Alloc ℤ) : ∃ r a b, einsum h al "ij,ij->i" [Ex.m130, Ex.k130] = .ok (.ok r) ∧
    einsum h al "ij,ij->i" [Ex.m130, Ex.m130] = .ok (.ok a) ∧ einsum h al "ij,ij->i" [Ex.k130, Ex.k130] = .ok (.ok b) ∧
    ∃ x y z, r.read [1] = .ok x ∧ a.read [1] = .ok y ∧ b.read [1] = .ok z ∧ x * x ≤ y * z := by
  have e1 := Ex.elements130.1
  have e2 : Elements Ex.k130 Ex.k130.elem := elements_of rfl (by decide +kernel)
  have hd : Denotes "ij,ij->i" [['i', 'j'], ['i', 'j']] ['i'] :=
    .inl ⟨by decide, ⟨by simp, by simp [Letter], by simp [Letter]⟩, by simp [OutputOk, Used]⟩
  let dims : Char → Nat := fun c => if c = 'i' then 2 else 3
  have hn : NoEmptyDiagonal dims [['i', 'j'], ['i', 'j']] := by simp [NoEmptyDiagonal]
  obtain ⟨r, hr, -⟩ := C13_einsum h al "ij,ij->i" [Ex.m130, Ex.k130] _ _ dims _
    ⟨hd, .cons rfl (.cons rfl .nil), .cons e1 (.cons e2 .nil)⟩ hn
  obtain ⟨a, ha, -⟩ := C13_einsum h al "ij,ij->i" [Ex.m130, Ex.m130] _ _ dims _
    ⟨hd, .cons rfl (.cons rfl .nil), .cons e1 (.cons e1 .nil)⟩ hn
  obtain ⟨b, hb, -⟩ := C13_einsum h al "ij,ij->i" [Ex.k130, Ex.k130] _ _ dims _
    ⟨hd, .cons rfl (.cons rfl .nil), .cons e2 (.cons e2 .nil)⟩ hn
  exact ⟨r, a, b, hr, ha, hb, C131_cauchy h h h al al al "ij,ij->i" [Ex.m130] [Ex.k130] [['i', 'j']] ['i'] dims id r a b hd
    (.cons rfl .nil) (.cons rfl .nil) (by simp [e1.1, e2.1]) (fun _ _ _ _ e => e) (fun _ _ => rfl) (fun _ _ => .inl rfl)
    (by simp [Used]) hr ha hb (fun _ => 1) (by simp [InRange, dims])⟩

end Einsum
