import Verif.Props.TreesLawless
import Verif.Props.TensordotLaws
import Mathlib.Topology.Algebra.Monoid
import Mathlib.Analysis.SpecificLimits.Basic

/-!
# Property C126: limits

For element types with a topology in which the operations are continuous.  The operands are arrays over a type `V` of
names; their elements are the values of the names, so `vals i` gives one list of operands of the same layouts for every
`i`.
-/

namespace Einsum

open Spec Filter Topology

variable {V A ι : Type} [TopologicalSpace A] [Zero A] [Add A] [Mul A] [MulAdd A] [ContinuousAdd A] [ContinuousMul A]

theorem tendsto_eval (hf : Continuous fun p : A × A × A => mulAdd p.1 p.2.1 p.2.2) {l : Filter ι} {vals : ι → V → A}
    {lim : V → A} (ht : ∀ v, Tendsto (fun i => vals i v) l (𝓝 (lim v))) (e : Expr V) :
    Tendsto (fun i => e.eval (vals i)) l (𝓝 (e.eval lim)) := by
  induction e with
  | var x => exact ht x
  | zero => exact tendsto_const_nhds
  | add a b iha ihb => exact iha.add ihb
  | mul a b iha ihb => exact iha.mul ihb
  | mulAdd a b c iha ihb ihc => exact (hf.tendsto (a.eval lim, b.eval lim, c.eval lim)).comp (iha.prodMk_nhds (ihb.prodMk_nhds ihc))

/-- C126: if the elements of the operands converge, every element of the result converges to the element of the result
for the limits.  No law of the operations is assumed. -/
theorem C126_einsum (hf : Continuous fun p : A × A × A => mulAdd p.1 p.2.1 p.2.2) (l : Filter ι) (vals : ι → V → A)
    (lim : V → A) (ht : ∀ v, Tendsto (fun i => vals i v) l (𝓝 (lim v))) (h : HashOrd) (al : UniformAlloc) (s : String)
    (operands : List (View V)) (inputs : List (List Char)) (out : List Char) (dims : Char → Nat)
    (ts : List (List Nat → V)) (hc : Call s operands inputs out dims ts) (hn : NoEmptyDiagonal dims inputs) :
    ∃ (rs : ι → View A) (r : View A),
      (∀ i, einsum h (al.alloc A) s (operands.map (View.map (vals i))) = .ok (.ok (rs i)) ∧ (rs i).shape = out.map dims) ∧
      einsum h (al.alloc A) s (operands.map (View.map lim)) = .ok (.ok r) ∧ r.shape = out.map dims ∧
      ∀ σ, InRange dims out σ → ∃ (xs : ι → A) (x : A), (∀ i, (rs i).read (out.map σ) = .ok (xs i)) ∧
        r.read (out.map σ) = .ok x ∧ Tendsto xs l (𝓝 x) := by
  obtain ⟨R, ⟨-, h1, h2⟩, h3⟩ := C52_uniform h al s operands inputs out dims ts hc hn
  refine ⟨fun i => R.map (Expr.eval (vals i)), R.map (Expr.eval lim), fun i => ⟨h3 A (vals i), h1⟩, h3 A lim, h1,
    fun σ hσ => ?_⟩
  obtain ⟨e, he, -⟩ := h2 σ hσ
  exact ⟨fun i => e.eval (vals i), e.eval lim, fun i => by rw [View.read_map, he]; rfl,
    by rw [View.read_map, he]; rfl, tendsto_eval hf ht e⟩

/-- C126: the same for every compiled order of pairs. -/
theorem C126_order (hf : Continuous fun p : A × A × A => mulAdd p.1 p.2.1 p.2.2) (l : Filter ι) (vals : ι → V → A)
    (lim : V → A) (ht : ∀ v, Tendsto (fun i => vals i v) l (𝓝 (lim v))) (h : HashOrd) (al : UniformAlloc)
    (steps : List PairStep) (inputs : List (List Char)) (out : List Char) (dims : Char → Nat) (operands : List (View V))
    (ts : List (List Nat → V)) (hc : Contracts dims out 0 (numbered inputs) steps)
    (hs : Sized dims inputs (operands.map View.shape)) (he : List.Forall₂ Elements operands ts)
    (hn : NoEmptyDiagonal dims inputs) :
    ∃ p, EinsumPath.fromPath h (.pairs steps) = .ok p ∧ ∃ (rs : ι → View A) (r : View A),
      (∀ i, p.contractOperands (al.alloc A) (operands.map (View.map (vals i))) = .ok (rs i) ∧ (rs i).shape = out.map dims) ∧
      p.contractOperands (al.alloc A) (operands.map (View.map lim)) = .ok r ∧ r.shape = out.map dims ∧
      ∀ σ, InRange dims out σ → ∃ (xs : ι → A) (x : A), (∀ i, (rs i).read (out.map σ) = .ok (xs i)) ∧
        r.read (out.map σ) = .ok x ∧ Tendsto xs l (𝓝 x) := by
  obtain ⟨p, hp, R, ⟨-, h1, h2⟩, h3⟩ := C74_uniform h al steps inputs out dims operands ts hc hs he hn
  refine ⟨p, hp, fun i => R.map (Expr.eval (vals i)), R.map (Expr.eval lim), fun i => ⟨h3 A (vals i), h1⟩, h3 A lim, h1,
    fun σ hσ => ?_⟩
  obtain ⟨e, he, -⟩ := h2 σ hσ
  exact ⟨fun i => e.eval (vals i), e.eval lim, fun i => by rw [View.read_map, he]; rfl,
    by rw [View.read_map, he]; rfl, tendsto_eval hf ht e⟩

/-- C126: the same for `tensordot`. -/
theorem C126_tensordot (hf : Continuous fun p : A × A × A => mulAdd p.1 p.2.1 p.2.2) (l : Filter ι) (vals : ι → V → A)
    (lim : V → A) (ht : ∀ v, Tendsto (fun i => vals i v) l (𝓝 (lim v))) (al : UniformAlloc) (x y : View V)
    (T U : List Nat → V) (la ra : List Nat) (hp : Paired x.shape y.shape la ra) (hx : Elements x T) (hy : Elements y U) :
    ∃ (rs : ι → View A) (r : View A),
      (∀ i, tensordot (al.alloc A) (x.map (vals i)) (y.map (vals i)) la ra = .ok (rs i)) ∧
      tensordot (al.alloc A) (x.map lim) (y.map lim) la ra = .ok r ∧
      ∀ a b, InB (lengths x.shape (kept x.shape.length la)) a → InB (lengths y.shape (kept y.shape.length ra)) b →
        ∃ (zs : ι → A) (z : A), (∀ i, (rs i).read (a ++ b) = .ok (zs i)) ∧ r.read (a ++ b) = .ok z ∧
          Tendsto zs l (𝓝 z) := by
  obtain ⟨R, -, -, h3, h4⟩ := C59_uniform al x y T U la ra hp hx hy
  refine ⟨fun i => R.map (Expr.eval (vals i)), R.map (Expr.eval lim), fun i => h3 A (vals i), h3 A lim,
    fun a b ha hb => ?_⟩
  obtain ⟨e, he, -⟩ := h4 a b ha hb
  exact ⟨fun i => e.eval (vals i), e.eval lim, fun i => by rw [View.read_map, he]; rfl,
    by rw [View.read_map, he]; rfl, tendsto_eval hf ht e⟩

/-- The usual fused multiply-add is continuous if the operations are. -/
theorem continuous_default {B : Type} [TopologicalSpace B] [Add B] [Mul B] [ContinuousAdd B] [ContinuousMul B] :
    Continuous fun p : B × B × B => mulAdd p.1 p.2.1 p.2.2 :=
  (continuous_fst.mul (continuous_fst.comp continuous_snd)).add (continuous_snd.comp continuous_snd)

namespace Ex

def m126 : View ℕ := ⟨[0, 1, 2, 3, 4, 5], 0, [2, 3], [3, 1]⟩

def n126 : View ℕ := ⟨[6, 7, 8, 9, 10, 11], 0, [3, 2], [2, 1]⟩

theorem call126 : Call "ij,jk->ik" [m126, n126] [['i', 'j'], ['j', 'k']] ['i', 'k']
    (fun c => if c = 'j' then 3 else 2) [m126.elem, n126.elem] where
  denotes := .inl ⟨by decide, ⟨by simp, by simp [Letter], by simp [Letter]⟩, by simp [OutputOk, Used]⟩
  sized := .cons rfl (.cons rfl .nil)
  elements := .cons (elements_of rfl (by decide +kernel)) (.cons (elements_of rfl (by decide +kernel)) .nil)

end Ex

/-- The product of two real matrices of twelve entries depends continuously on the entries. -/
example (h : HashOrd) (al : UniformAlloc) (lim : ℕ → ℝ) :=
  C126_einsum continuous_default (𝓝 lim) (fun v => v) lim (fun k => (continuous_apply k).tendsto lim) h al _ _ _ _ _ _
    Ex.call126 (by simp [NoEmptyDiagonal])

/-- A sequence of matrices. -/
example (h : HashOrd) (al : UniformAlloc) :=
  C126_einsum continuous_default atTop (fun (n k : ℕ) => (k : ℝ) + 1 / ((n : ℝ) + 1)) (fun k : ℕ => (k : ℝ) + 0)
    (fun k => tendsto_const_nhds.add tendsto_one_div_add_atTop_nhds_zero_nat) h al _ _ _ _ _ _
    Ex.call126 (by simp [NoEmptyDiagonal])

example (al : UniformAlloc) (lim : ℕ → ℝ) :=
  C126_tensordot continuous_default (𝓝 lim) (fun v => v) lim (fun k => (continuous_apply k).tendsto lim) al Ex.m126 Ex.n126
    _ _ [1] [0] ⟨rfl, by decide, by decide, by decide, by decide, rfl⟩
    (elements_of (t := Ex.m126.elem) rfl (by decide +kernel)) (elements_of (t := Ex.n126.elem) rfl (by decide +kernel))

example (h : HashOrd) (al : UniformAlloc) (lim : Int → ℝ) :=
  C126_order continuous_default (𝓝 lim) (fun v => v) lim (fun k => (continuous_apply k).tendsto lim) h al _ _ _ _ _ _
    Ex.contracts_tree Ex.sized_tree (forall₂_elem Ex.wf_tree) Ex.ned_tree

end Einsum
