import Verif.Props.Reproducible
import Verif.Props.Positions

/-!
# Property C93: parts of a batch are computed bit for bit as in the whole
-/

namespace Einsum

open Spec Function

section
variable {A : Type} {dims dims' : Char → Nat} {f : Char → Nat → Nat} {inputs : List (List Char)} {out : List Char}
  {operands operands' : List (View A)}

/-- The lengths after the selection, where only those of output letters can differ. -/
def partDims (out : List Char) (dims dims' : Char → Nat) : Char → Nat := fun c => if c ∈ out then dims' c else dims c

/-- The positions, where only those of output letters can differ. -/
def partSel (out : List Char) (f : Char → Nat → Nat) : Char → Nat → Nat := fun c i => if c ∈ out then f c i else i

theorem partDims_eq (hb : ∀ c, Used inputs c → c ∉ out → dims' c = dims c ∧ ∀ i < dims c, f c i = i) {c : Char}
    (hc : Used inputs c) : partDims out dims dims' c = dims' c := by
  unfold partDims
  split
  · rfl
  · rename_i h
    exact (hb c hc h).1.symm

theorem partSel_eq (hb : ∀ c, Used inputs c → c ∉ out → dims' c = dims c ∧ ∀ i < dims c, f c i = i) {c : Char}
    (hc : Used inputs c) {i : Nat} (hi : i < dims' c) : partSel out f c i = f c i := by
  unfold partSel
  split
  · rfl
  · rename_i h
    exact ((hb c hc h).2 i ((hb c hc h).1 ▸ hi)).symm

theorem part_rep [Zero A] (hs : Sized dims inputs (operands.map View.shape)) (hw : ∀ v ∈ operands, v.Wf)
    (hl : operands'.length = operands.length)
    (hsel : ∀ (k : Nat) ix v w, inputs[k]? = some ix → operands[k]? = some v → operands'[k]? = some w → Selects f dims' ix v w)
    (hf : ∀ c, Used inputs c → ∀ i < dims' c, f c i < dims c)
    (hb : ∀ c, Used inputs c → c ∉ out → dims' c = dims c ∧ ∀ i < dims c, f c i = i) (n : Nat) (R : List Char)
    (hR : inputs[n]? = some R) : ∃ y y₂ G, index operands n = .ok y ∧ index operands' n = .ok y₂ ∧ Rep y R dims G ∧
      (Rep y₂ R (partDims out dims dims') fun σ => G (sel (partSel out f) σ)) ∧ y.Wf ∧ y₂.Wf := by
  obtain ⟨y, G, y1, y2, y3⟩ := operand_rep hs hw n R hR
  have hlen : inputs.length = operands.length := by simpa using hs.length_eq
  have hn : n < operands.length := hlen ▸ (List.getElem?_eq_some_iff.1 hR).1
  have hn' : n < operands'.length := hl ▸ hn
  obtain rfl : operands[n] = y := by
    rw [index_getElem hn] at y1
    exact Except.ok.inj y1
  obtain ⟨s1, s2, s3⟩ := hsel n R operands[n] operands'[n] hR (List.getElem?_eq_getElem hn) (List.getElem?_eq_getElem hn')
  have hu : ∀ c ∈ R, Used inputs c := fun c hc => used_iff.2 (List.mem_flatten.2 ⟨R, List.mem_of_getElem? hR, hc⟩)
  refine ⟨_, operands'[n], G, y1, index_getElem hn', y2, ⟨?_, ?_, fun σ hσ => ?_⟩, y3, s1⟩
  · rw [s2]
    exact List.map_congr_left fun c hc => (partDims_eq hb (hu c hc)).symm
  · rw [s1.1, s2, List.length_map]
  · have hσ' : InRange dims' R σ := fun c hc => partDims_eq hb (hu c hc) ▸ hσ c hc
    have e : R.map (fun c => f c (σ c)) = R.map (sel (partSel out f) σ) :=
      List.map_congr_left fun c hc => (partSel_eq hb (hu c hc) (hσ' c hc)).symm
    rw [s3 σ hσ', e, y2.get]
    intro c hc
    change partSel out f c (σ c) < dims c
    rw [partSel_eq hb (hu c hc) (hσ' c hc)]
    exact hf c (hu c hc) _ (hσ' c hc)

theorem part_selects {r r₂ : View A} {H : (Char → Nat) → A} (ho : OutputOk inputs out)
    (hf : ∀ c, Used inputs c → ∀ i < dims' c, f c i < dims c) (h : Rep r out dims H)
    (h₂ : Rep r₂ out (partDims out dims dims') fun σ => H (sel (partSel out f) σ)) : Selects f dims' out r r₂ := by
  have e : ∀ c ∈ out, partDims out dims dims' c = dims' c := fun c hc => if_pos hc
  refine ⟨h₂.wf ho.1, by rw [h₂.shape]; exact List.map_congr_left e, fun τ hτ => ?_⟩
  rw [h₂.get τ fun c hc => (e c hc).symm ▸ hτ c hc]
  have e' : (out.map fun c => f c (τ c)) = out.map (sel (partSel out f) τ) :=
    List.map_congr_left fun c hc => by simp [partSel, hc]
  rw [e', h.get]
  intro c hc
  simp only [sel, partSel, if_pos hc]
  exact hf c (ho.2 c hc) _ (hτ c hc)

theorem part_sized (hs : Sized dims inputs (operands.map View.shape)) (hl : operands'.length = operands.length)
    (hsel : ∀ (k : Nat) ix v w, inputs[k]? = some ix → operands[k]? = some v → operands'[k]? = some w → Selects f dims' ix v w)
    (hb : ∀ c, Used inputs c → c ∉ out → dims' c = dims c ∧ ∀ i < dims c, f c i = i) :
    Sized (partDims out dims dims') inputs (operands'.map View.shape) := by
  have hlen : inputs.length = operands.length := by simpa using hs.length_eq
  refine List.forall₂_iff_get.2 ⟨by simp [hlen, hl], fun n h1 h2 => ?_⟩
  have hn : n < operands.length := hlen ▸ h1
  have hn' : n < operands'.length := hl ▸ hn
  obtain ⟨-, s2, -⟩ := hsel n inputs[n] operands[n] operands'[n] (List.getElem?_eq_getElem h1) (List.getElem?_eq_getElem hn)
    (List.getElem?_eq_getElem hn')
  simp only [List.get_eq_getElem, List.getElem_map]
  rw [s2]
  exact List.map_congr_left fun c hc =>
    (partDims_eq hb (used_iff.2 (List.mem_flatten.2 ⟨_, List.getElem_mem h1, hc⟩))).symm

theorem part_diag (hb : ∀ c, Used inputs c → c ∉ out → dims' c = dims c ∧ ∀ i < dims c, f c i = i)
    (hn : NoEmptyDiagonal dims' inputs) : NoEmptyDiagonal (partDims out dims dims') inputs := fun ix hix =>
  (hn ix hix).imp_right fun h c hc => by
    rw [partDims_eq hb (used_iff.2 (List.mem_flatten.2 ⟨ix, hix, hc⟩))]
    exact h c hc

end

variable {A : Type} [Zero A] [Add A] [Mul A] [MulAdd A]

/-- C93: if the order of an addition depends on the number of terms only, and each step is settled, then a call on operands
from which positions of output letters were taken returns the elements of the whole call at these positions. -/
theorem C93_einsum (f : Char → Nat → Nat) (h h' : HashOrd) (al al' : Alloc A) (t : Nat → SumTree)
    (ht : ∀ p n, al.sumOrder p n = t n) (ht' : ∀ p n, al'.sumOrder p n = t n) (s s' : String)
    (operands operands' : List (View A)) (L : List Char) (rest : List (List Char)) (out : List Char) (dims dims' : Char → Nat)
    (hd : Denotes s (L :: rest) out) (hd' : Denotes s' (L :: rest) out)
    (hs : Sized dims (L :: rest) (operands.map View.shape)) (hw : ∀ v ∈ operands, v.Wf)
    (hl : operands'.length = operands.length)
    (hsel : ∀ (k : Nat) ix v w, (L :: rest)[k]? = some ix → operands[k]? = some v → operands'[k]? = some w →
      Selects f dims' ix v w)
    (hf : ∀ c, Used (L :: rest) c → ∀ i < dims' c, f c i < dims c)
    (hb : ∀ c, Used (L :: rest) c → c ∉ out → dims' c = dims c ∧ ∀ i < dims c, f c i = i)
    (hn : NoEmptyDiagonal dims (L :: rest)) (hn' : NoEmptyDiagonal dims' (L :: rest)) (hset : Settled true L rest out) :
    ∃ r q, einsum h al s operands = .ok (.ok r) ∧ einsum h' al' s' operands' = .ok (.ok q) ∧ Selects f dims' out r q := by
  obtain ⟨r, q, H, h1, h2, h3, h4⟩ := einsums_two hd hd' hs (part_sized hs hl hsel hb) (part_rep hs hw hl hsel hf hb)
    (fun c hc => ⟨if_neg hc, fun i => if_neg hc⟩) hn (part_diag hb hn') hset ht ht' h h'
  exact ⟨r, q, h1, h2, part_selects hd.outputOk hf h3 h4⟩

/-- C93 for a path, in the order of its operands. -/
theorem C93_path {B B' : Type} (f : Char → Nat → Nat) (h h' : HashOrd) (al al' : Alloc A) (t : Nat → SumTree)
    (ht : ∀ p n, al.sumOrder p n = t n) (ht' : ∀ p n, al'.sumOrder p n = t n) (s s' : String)
    (ops : List (View B)) (ops' : List (View B')) (operands operands' : List (View A)) (inputs : List (List Char))
    (out : List Char) (dims dims' : Char → Nat) (hd : Denotes s inputs out) (hd' : Denotes s' inputs out)
    (h2 : 2 ≤ inputs.length) (m : OptimizationMethod) (p p' : EinsumPath)
    (hp : einsumPath h s ops m = .ok (.ok p)) (hp' : einsumPath h' s' ops' m = .ok (.ok p'))
    (hsh : ops.map View.shape = operands.map View.shape) (hsh' : ops'.map View.shape = operands'.map View.shape)
    (hs : Sized dims inputs (operands.map View.shape)) (hw : ∀ v ∈ operands, v.Wf)
    (hl : operands'.length = operands.length)
    (hsel : ∀ (k : Nat) ix v w, inputs[k]? = some ix → operands[k]? = some v → operands'[k]? = some w →
      Selects f dims' ix v w)
    (hf : ∀ c, Used inputs c → ∀ i < dims' c, f c i < dims c)
    (hb : ∀ c, Used inputs c → c ∉ out → dims' c = dims c ∧ ∀ i < dims c, f c i = i)
    (hn : NoEmptyDiagonal dims inputs) (hn' : NoEmptyDiagonal dims' inputs) (L : List Char) (rest : List (List Char))
    (hpick : pick inputs [] (operandOrder m inputs.length) = L :: rest) (hset : Settled true L rest out) :
    ∃ r q, p.contractOperands al operands = .ok r ∧ p'.contractOperands al' operands' = .ok q ∧ Selects f dims' out r q := by
  obtain ⟨r, q, H, h1, h2, h3, h4⟩ := paths_two ops ops' hd hd' (hsh ▸ hs) (hsh' ▸ part_sized hs hl hsel hb) h2 m h h' p p' hp hp'
    (part_rep hs hw hl hsel hf hb) (fun c hc => ⟨if_neg hc, fun i => if_neg hc⟩) hn (part_diag hb hn') hpick hset ht ht'
  exact ⟨r, q, h1, h2, part_selects hd.outputOk hf h3 h4⟩

/-! ## Examples -/

namespace Ex

/-- The second row of `m23`, twice. -/
def m23row : View Int := ⟨[4, 5, 6], 0, [2, 3], [0, 1]⟩

/-- The last column of `m32`. -/
def m32col : View Int := ⟨[1, 2, 3, 4, 5, 6], 4, [3, 1], [-2, 1]⟩

def rowSel (c : Char) (i : Nat) : Nat := if c = 'j' then i else 1

theorem wf23row : m23row.Wf := (elements_of (t := elems m23row) rfl (by decide)).1
theorem wf32col : m32col.Wf := (elements_of (t := elems m32col) rfl (by decide)).1

end Ex

theorem Ex.sel_row (k : Nat) (ix : List Char) (v w : View Int) (e1 : [['i', 'j'], ['j', 'k']][k]? = some ix)
    (e2 : [Ex.m23, Ex.m32][k]? = some v) (e3 : [Ex.m23row, Ex.m32col][k]? = some w) : Selects Ex.rowSel Ex.selDims ix v w := by
  match k with
  | 0 =>
    simp only [List.getElem?_cons_zero, Option.some.injEq] at e1 e2 e3
    subst e1 e2 e3
    refine ⟨Ex.wf23row, rfl, fun τ hτ => ?_⟩
    have := (by decide : ∀ i < 2, ∀ j < 3, Ex.m23row.read [i, j] = Ex.m23.read [1, j])
    exact this _ (hτ 'i' (by simp)) _ (hτ 'j' (by simp))
  | 1 =>
    simp only [List.getElem?_cons_zero, List.getElem?_cons_succ, Option.some.injEq] at e1 e2 e3
    subst e1 e2 e3
    refine ⟨Ex.wf32col, rfl, fun τ hτ => ?_⟩
    have := (by decide : ∀ j < 3, ∀ k < 1, Ex.m32col.read [j, k] = Ex.m32.read [j, 1])
    exact this _ (hτ 'j' (by simp)) _ (hτ 'k' (by simp))
  | k + 2 => simp at e1

theorem Ex.row_inside (c : Char) (hc : Used [['i', 'j'], ['j', 'k']] c) : ∀ i < Ex.selDims c, Ex.rowSel c i < Ex.dims c := by
  rcases Ex.used_matmul hc with rfl | rfl | rfl <;> decide

theorem Ex.row_summed (c : Char) (hc : Used [['i', 'j'], ['j', 'k']] c) (hn : c ∉ ['i', 'k']) :
    Ex.selDims c = Ex.dims c ∧ ∀ i < Ex.dims c, Ex.rowSel c i = i := by
  rcases Ex.used_matmul hc with rfl | rfl | rfl
  · simp at hn
  · decide
  · simp at hn

/-- The second row, twice, times the last column. -/
example : ∃ r q, einsum .insertion (Alloc.rowMajor Int) "ij,jk->ik" [Ex.m23, Ex.m32] = .ok (.ok r) ∧
    einsum .reversed (Alloc.rowMajor Int) "ij,jk->ik" [Ex.m23row, Ex.m32col] = .ok (.ok q) ∧
      Selects Ex.rowSel Ex.selDims ['i', 'k'] r q :=
  C93_einsum Ex.rowSel _ _ _ _ _ (fun _ _ => rfl) (fun _ _ => rfl) _ _ _ _ ['i', 'j'] [['j', 'k']] _ Ex.dims Ex.selDims
    Ex.denotes_matmul Ex.denotes_matmul Ex.call_matmul.sized (wf_of_elements Ex.call_matmul.elements) rfl Ex.sel_row Ex.row_inside
    Ex.row_summed Ex.ned_matmul (by simp [NoEmptyDiagonal]) (by decide)

/-- The same with compiled paths. -/
example : ∃ p p' r q, einsumPath .insertion "ij,jk->ik" [Ex.m23, Ex.m32] .reverse = .ok (.ok p) ∧
    einsumPath .reversed "ij,jk->ik" [Ex.m23row, Ex.m32col] .reverse = .ok (.ok p') ∧
    p.contractOperands (Alloc.rowMajor Int) [Ex.m23, Ex.m32] = .ok r ∧
    p'.contractOperands (Alloc.rowMajor Int) [Ex.m23row, Ex.m32col] = .ok q ∧ Selects Ex.rowSel Ex.selDims ['i', 'k'] r q := by
  obtain ⟨p, hp, -⟩ := einsumPath_ok (operands := [Ex.m23, Ex.m32]) Ex.denotes_matmul Ex.call_matmul.sized .insertion (.inr rfl)
  obtain ⟨p', hp', -⟩ := einsumPath_ok (operands := [Ex.m23row, Ex.m32col]) (dims := Ex.selDims) Ex.denotes_matmul
    (.cons rfl (.cons rfl .nil)) .reversed (.inr rfl)
  obtain ⟨r, q, h1, h2, h3⟩ := C93_path Ex.rowSel .insertion .reversed (Alloc.rowMajor Int) (Alloc.rowMajor Int) _
    (fun _ _ => rfl) (fun _ _ => rfl) _ _ _ _ [Ex.m23, Ex.m32] [Ex.m23row, Ex.m32col] [['i', 'j'], ['j', 'k']] ['i', 'k'] Ex.dims
    Ex.selDims Ex.denotes_matmul Ex.denotes_matmul (by decide) .reverse p p' hp hp' rfl rfl Ex.call_matmul.sized
    (wf_of_elements Ex.call_matmul.elements) rfl Ex.sel_row Ex.row_inside Ex.row_summed Ex.ned_matmul (by simp [NoEmptyDiagonal])
    ['j', 'k'] [['i', 'j']] rfl (by decide)
  exact ⟨p, p', r, q, hp, hp', h1, h2, h3⟩

end Einsum
