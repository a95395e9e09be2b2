import Verif.Props.ResizedSum
import Verif.Props.RanksMany
import Verif.Props.Related

/-!
# C119: the lengths a path of several operands accepts
-/

namespace Einsum

open Spec

/-- The lengths of the result of one call that contracts arrays with the letters `S`, of lengths `d`, and `T`, of lengths `e`,
to the letters `O`, compiled for the lengths `dims`; `none` if the call panics.  Elementwise products are broadcast, a factor that
is summed completely may have any lengths, and the other operands are reshaped to the compiled lengths. -/
def Spec.lengthsAfter (dims : Char → Nat) (S T O : Finset Char) (d e : Char → Nat) : Option (Char → Nat) :=
  if (∀ c ∈ S, c ∈ T ∨ c ∈ O → c ∈ T ∧ c ∈ O) ∧ ∀ c ∈ T, c ∈ S ∨ c ∈ O → c ∈ S ∧ c ∈ O then
    if ∀ c ∈ O, d c = e c ∨ d c = 1 ∨ e c = 1 then some fun c => if d c = 1 then e c else d c else none
  else if ∀ c ∈ S, c ∉ T ∧ c ∉ O then some e
  else if ∀ c ∈ T, c ∉ S ∧ c ∉ O then some d
  else if ∏ c ∈ S with c ∈ T ∨ c ∈ O, d c = ∏ c ∈ S with c ∈ T ∨ c ∈ O, dims c ∧
      ∏ c ∈ T with c ∈ S ∨ c ∈ O, e c = ∏ c ∈ T with c ∈ S ∨ c ∈ O, dims c then some dims
  else none

/-- The lengths of the result after further operands, given by their letters and lengths, have been taken in one by one. -/
def Spec.lengthsAlong (dims : Char → Nat) (out : List Char) :
    Finset Char → (Char → Nat) → List (List Char × (Char → Nat)) → Option (Char → Nat)
  | _, d, [] => some d
  | S, d, (R, e) :: rest =>
    let O := (S ∪ R.toFinset).filter fun c => c ∈ out ∨ ∃ q ∈ rest, c ∈ q.1
    (lengthsAfter dims S R.toFinset O d e).bind fun f => lengthsAlong dims out O f rest

/-- The lengths of the result of a path, for operands in the order in which they are contracted. -/
def Spec.lengthsOf (dims : Char → Nat) (out : List Char) : List (List Char × (Char → Nat)) → Option (Char → Nat)
  | [] => none
  | (L, d) :: rest => lengthsAlong dims out L.toFinset d rest

/-- The run returns an array with the lengths `f` for the letters `out`, or panics if there are none. -/
def Spec.ReturnsLengths {A : Type} (out : List Char) (f : Option (Char → Nat)) (m : M (View A)) : Prop :=
  match f with
  | some f => ∃ w, m = .ok w ∧ w.shape = out.map f
  | none => ∃ k, m = panic k

section
variable {A : Type} [CommSemiring A] {dims : Char → Nat} {L R o : List Char}

theorem kept_prod {N L : List Char} {P : Char → Prop} [DecidablePred P] (hL : L.Nodup) (hN : N.Perm (L.filter fun c => P c))
    (d : Char → Nat) : (N.map d).prod = ∏ c ∈ L.toFinset with P c, d c := by
  rw [(hN.map d).prod_eq, ← List.prod_toFinset d (hL.filter _)]
  congr 1
  ext c
  simp

/-- One call. -/
theorem call_lengths (ho : OutputOk [L, R] o) (hL : L.Nodup) (hR : R.Nodup) (h : HashOrd) (al : Alloc A) {l r : View A}
    (wl : l.Wf) (wr : r.Wf) {d e : Char → Nat} (sl : l.shape = L.map d) (sr : r.shape = R.map e) :
    match lengthsAfter dims L.toFinset R.toFinset o.toFinset d e with
    | some f => ∃ w, (callSC [L, R] o dims).contractOperands h al [l, r] = .ok w ∧ w.Wf ∧ w.shape = o.map f
    | none => ∃ k, (callSC [L, R] o dims).contractOperands h al [l, r] = panic k := by
  have hv := callSC_valid (dims := dims) ho
  have hops : (callSC [L, R] o dims).contraction.operandIndices = [L, R] := rfl
  have hout : (callSC [L, R] o dims).contraction.outputIndices = o := rfl
  obtain ⟨c, q1, -, -, -, -, -⟩ := pair_parts hv hops ((h.sub 1).sub 0)
  have hrun : (callSC [L, R] o dims).contractOperands h al [l, r] = c.run (al.sub 0) l r := by
    unfold SizedContraction.contractOperands
    rw [new_two _ ho, q1]
    exact contract_two
  have hrl : Rep l L d fun σ => l.elem (L.map σ) := Holds.rep (by rw [← sl]; exact wl.elements.holds)
  have hrr : Rep r R e fun σ => r.elem (R.map σ) := Holds.rep (by rw [← sr]; exact wr.elements.holds)
  have hon := ho.1
  rw [hrun]
  have fin : ∀ {w : View A} {f : Char → Nat} {F : (Char → Nat) → A}, c.run (al.sub 0) l r = .ok w → Rep w o f F →
      ∃ w, c.run (al.sub 0) l r = .ok w ∧ w.Wf ∧ w.shape = o.map f := fun h1 h2 => ⟨_, h1, h2.wf hon, h2.shape⟩
  simp only [lengthsAfter, List.mem_toFinset]
  by_cases g1 : (∀ c ∈ L, c ∈ R ∨ c ∈ o → c ∈ R ∧ c ∈ o) ∧ ∀ c ∈ R, c ∈ L ∨ c ∈ o → c ∈ L ∧ c ∈ o
  · rw [if_pos g1]
    obtain ⟨m1, m2⟩ := Rep.pair_elementwise hv hops q1 hL hR g1 hrl hrr (al.sub 0)
    by_cases g : ∀ c ∈ o, d c = e c ∨ d c = 1 ∨ e c = 1
    · rw [if_pos g]
      obtain ⟨w, w1, w2⟩ := m1 g
      exact fin w1 w2
    · rw [if_neg g]
      rw [not_forall₂] at g
      obtain ⟨x, hx, g⟩ := g
      exact ⟨_, m2 ⟨x, hx, g⟩⟩
  rw [if_neg g1]
  by_cases g2 : ∀ c ∈ L, c ∉ R ∧ c ∉ o
  · rw [if_pos g2]
    have hm : pairMethod L R o = .scalarMatrixProductGeneral := by rw [pairMethod, if_neg g1, if_pos g2]
    obtain ⟨NL, NR, red, ⟨a1, a2⟩, ⟨b1, b2⟩, ⟨d1, d2, d3⟩, c2, run⟩ := pair_summed (A := A) hv hops q1 hL hR
    obtain ⟨t', u', l', r', -, -, m3, m4, m5⟩ := run (al.sub 0) l r _ _ d e hrl hrr
    obtain rfl : NL = [] := List.eq_nil_iff_forall_not_mem.2 fun x hx => by
      have := (a2 x).1 hx
      exact this.2.elim (g2 x this.1).1 (g2 x this.1).2
    rw [hout] at b2 d3 c2
    have po : o.Perm NR := perm_of_nodup hon b1 fun x => by
      rw [b2]
      refine ⟨fun hx => ⟨?_, .inr hx⟩, fun hx => hx.2.resolve_left fun g => (g2 x g).1 hx.1⟩
      exact (hv.out_sub2 hops x hx).resolve_left fun g => (g2 x g).2 hx
    obtain ⟨op, p1, p2⟩ := scalarMatrixGeneral_ok (dims := e) d2 b1 (by rw [d3]; exact po)
    rw [hm, p1] at c2
    cases c2
    obtain ⟨w, w1, w2⟩ := p2 A ((al.sub 0).sub 2) l' r' _ _ ⟨m3.shape, m3.strides, fun σ _ => m3.get σ (by simp [InRange])⟩ m4
    rw [d3] at w2
    exact fin (m5.trans w1) w2
  rw [if_neg g2]
  by_cases g3 : ∀ c ∈ R, c ∉ L ∧ c ∉ o
  · rw [if_pos g3]
    have hm : pairMethod L R o = .matrixScalarProductGeneral := by rw [pairMethod, if_neg g1, if_neg g2, if_pos g3]
    obtain ⟨NL, NR, red, ⟨a1, a2⟩, ⟨b1, b2⟩, ⟨d1, d2, d3⟩, c2, run⟩ := pair_summed (A := A) hv hops q1 hL hR
    obtain ⟨t', u', l', r', -, -, m3, m4, m5⟩ := run (al.sub 0) l r _ _ d e hrl hrr
    obtain rfl : NR = [] := List.eq_nil_iff_forall_not_mem.2 fun x hx => by
      have := (b2 x).1 hx
      exact this.2.elim (g3 x this.1).1 (g3 x this.1).2
    rw [hout] at a2 d3 c2
    have po : o.Perm NL := perm_of_nodup hon a1 fun x => by
      rw [a2]
      refine ⟨fun hx => ⟨?_, .inr hx⟩, fun hx => hx.2.resolve_left fun g => (g3 x g).1 hx.1⟩
      exact (hv.out_sub2 hops x hx).resolve_right fun g => (g3 x g).2 hx
    obtain ⟨op, p1, p2⟩ := matrixScalarGeneral_ok (dims := d) d2 a1 (by rw [d3]; exact po)
    rw [hm, p1] at c2
    cases c2
    obtain ⟨w, w1, w2⟩ := p2 A ((al.sub 0).sub 2) l' r' _ _ m3 ⟨m4.shape, m4.strides, fun σ _ => m4.get σ (by simp [InRange])⟩
    rw [d3] at w2
    exact fin (m5.trans w1) w2
  rw [if_neg g3]
  have key : ∃ NL NR : List Char, NL.Perm (L.filter fun c => c ∈ R ∨ c ∈ o) ∧ NR.Perm (R.filter fun c => c ∈ L ∨ c ∈ o) ∧
      ((NL.map d).prod = (NL.map dims).prod → (NR.map e).prod = (NR.map dims).prod →
        ∃ w, c.run (al.sub 0) l r = .ok w ∧ w.Wf ∧ w.shape = o.map dims) ∧
      ((NL.map d).prod ≠ (NL.map dims).prod ∨ (NR.map e).prod ≠ (NR.map dims).prod →
        ∃ k, c.run (al.sub 0) l r = panic k) := by
    by_cases g4 : ∀ c ∈ L, c ∈ R → c ∉ o
    · have hm : pairMethod L R o = .tensordotGeneral := by rw [pairMethod, if_neg g1, if_neg g2, if_neg g3, if_pos g4]
      obtain ⟨NL, NR, n1, n2, run⟩ := pair_tensordot (A := A) hv hops q1 hL hR hm
        (C := sortChars (L.filter fun c => c ∈ R))
        (sortChars_strict (hL.filter _)) (fun x => by simp [sortChars])
      obtain ⟨r1, r2⟩ := run l r _ _ d e hrl hrr (al.sub 0)
      refine ⟨NL, NR, n1, n2, fun x y => ?_, r2⟩
      obtain ⟨w, _, _, _, _, w1, -, -, -, -, w2⟩ := r1 x y
      exact ⟨w, w1, w2.1, w2.2.1⟩
    · have hm : pairMethod L R o = .stackedTensordotGeneral := by
        rw [pairMethod, if_neg g1, if_neg g2, if_neg g3, if_neg g4]
      obtain ⟨NL, NR, n1, n2, run⟩ := pair_stacked (A := A) hv hops q1 hL hR hm rfl rfl rfl
      obtain ⟨r1, r2⟩ := run l r _ _ d e hrl hrr (al.sub 0) _ rfl
      refine ⟨NL, NR, n1, n2, fun x y => ?_, r2⟩
      obtain ⟨w, _, _, _, _, w1, -, -, -, -, w2⟩ := r1 x y
      exact ⟨w, w1, w2.1, w2.2.1⟩
  obtain ⟨NL, NR, n1, n2, r1, r2⟩ := key
  rw [kept_prod hL n1, kept_prod hL n1, kept_prod hR n2, kept_prod hR n2] at r1 r2
  split_ifs with g
  · exact r1 g.1 g.2
  · exact r2 (not_and_or.1 g)

/-- All calls. -/
theorem fold_lengths {inputs : List (List Char)} {out : List Char} {operands : List (View A)} (hw : ∀ v ∈ operands, v.Wf)
    (hn : ∀ S ∈ inputs, S.Nodup) (calls : List TwoCall) :
    ∀ (L : List Char) (al : Alloc A) (x : View A) (d : Char → Nat) (rest : List (List Char × (Char → Nat))), x.Wf → L.Nodup →
      x.shape = L.map d → Linked dims inputs L calls out →
      List.Forall₂ (fun (c : TwoCall) q => inputs[c.operand]? = some q.1 ∧
        ∃ v, operands[c.operand]? = some v ∧ v.shape = q.1.map q.2) calls rest →
      ReturnsLengths out (lengthsAlong dims out L.toFinset d rest) (foldCalls operands calls al x) := by
  induction calls with
  | nil =>
    intro L al x d rest hx hL sx hl hf
    cases hf
    cases hl
    exact ⟨x, rfl, sx⟩
  | cons c cs ih =>
    intro L al x d rest hx hL sx hl hf
    obtain ⟨R, o, i1, i2, i3, i4, i5⟩ := hl
    cases hf with
    | @cons _ q _ rest' hq hf =>
    obtain ⟨R', e⟩ := q
    obtain ⟨j1, v, j2, j3⟩ := hq
    obtain rfl : R = R' := Option.some.inj (i1.symm.trans j1)
    have hR := hn R (List.mem_of_getElem? i1)
    have hO : o.toFinset = (L.toFinset ∪ R.toFinset).filter fun c => c ∈ out ∨ ∃ q ∈ rest', c ∈ q.1 := by
      ext y
      simp only [List.mem_toFinset, Finset.mem_filter, Finset.mem_union, i4]
      refine and_congr_right fun _ => or_congr_right ?_
      clear * - hf
      induction hf with
      | nil => simp
      | cons h1 _ ih => simp [h1.1, ih]
    have step := call_lengths (dims := dims) i2 hL hR c.order al hx (hw v (List.mem_of_getElem? j2)) sx j3
    rw [hO] at step
    simp only [lengthsAlong, foldCalls, index_eq_ok.2 j2, bind_ok, i3]
    cases hla : lengthsAfter dims L.toFinset R.toFinset
        ((L.toFinset ∪ R.toFinset).filter fun c => c ∈ out ∨ ∃ q ∈ rest', c ∈ q.1) d e with
    | none =>
      rw [hla] at step
      obtain ⟨k, hk⟩ := step
      rw [hk]
      exact ⟨k, rfl⟩
    | some f =>
      rw [hla] at step
      obtain ⟨w, w1, w2, w3⟩ := step
      rw [w1, bind_ok, Option.bind_some, ← hO]
      exact ih o (al.sub 1) w f rest' w2 i2.1 w3 i5 hf

end

/-- C119 for element types with laws, and all allocators. -/
theorem C119_semiring {A B : Type} [CommSemiring A] (h : HashOrd) (s : String) (ops : List (View B)) (inputs : List (List Char))
    (out : List Char) (dims : Char → Nat) (hd : Denotes s inputs out) (hs : Sized dims inputs (ops.map View.shape))
    (h2 : 2 ≤ inputs.length) (m : OptimizationMethod) (p : EinsumPath) (hp : einsumPath h s ops m = .ok (.ok p))
    (hn : ∀ L ∈ inputs, L.Nodup) (operands : List (View A)) (hw : ∀ v ∈ operands, v.Wf)
    (along : List (List Char × (Char → Nat))) (ha : List.Forall₂ (fun i q => inputs[i]? = some q.1 ∧
      ∃ v, operands[i]? = some v ∧ v.shape = q.1.map q.2) (operandOrder m inputs.length) along) (al : Alloc A) :
    ReturnsLengths out (lengthsOf dims out along) (p.contractOperands al operands) := by
  obtain ⟨first, L, calls, f1, f2, f3, f4⟩ := C83_path h s ops inputs out dims hd hs h2 m p hp
  rw [← f2] at ha
  cases ha with
  | @cons _ q _ rest hq ha =>
  obtain ⟨L', d⟩ := q
  obtain ⟨j1, v, j2, j3⟩ := hq
  obtain rfl : L = L' := Option.some.inj (f1.symm.trans j1)
  rw [f4, index_eq_ok.2 j2, bind_ok]
  exact fold_lengths hw hn calls L al v d rest (hw v (List.mem_of_getElem? j2)) (hn L (List.mem_of_getElem? f1)) j3 f3
    (List.forall₂_map_left_iff.1 ha)

/-- Whether a path panics, and the lengths of the array it returns, do not depend on the elements. -/
theorem zeros_outcome {A : Type} [Zero A] [Add A] [Mul A] [MulAdd A] (p : EinsumPath) (al : UniformAlloc)
    {operands : List (View A)} (hw : ∀ v ∈ operands, v.Wf) :
    (∀ w, p.contractOperands (al.alloc Int) (operands.map (View.map fun _ => 0)) = .ok w →
      ∃ x, p.contractOperands (al.alloc A) operands = .ok x ∧ x.shape = w.shape) ∧
    (∀ k, p.contractOperands (al.alloc Int) (operands.map (View.map fun _ => 0)) = panic k →
      p.contractOperands (al.alloc A) operands = panic k) := by
  have hpr : Preserved fun (_ : A) (_ : Int) => True :=
    ⟨trivial, fun _ _ _ _ _ _ => trivial, fun _ _ _ _ _ _ => trivial, fun _ _ _ _ _ _ _ _ _ => trivial⟩
  have hrel : List.Forall₂ (Related fun (_ : A) (_ : Int) => True) operands (operands.map (View.map fun _ => 0)) := by
    rw [List.forall₂_map_right_iff, List.forall₂_same]
    exact fun v hv => ⟨rfl, rfl, ⟨hw v hv, (view_wf_map _).2 (hw v hv)⟩, fun _ _ _ _ _ => trivial⟩
  have same := C63_path hpr p al operands _ hrel
  constructor
  · intro w hw
    rw [hw] at same
    cases hm : p.contractOperands (al.alloc A) operands with
    | error e => rw [hm] at same; exact same.elim
    | ok x =>
      rw [hm] at same
      exact ⟨x, rfl, (show Related _ x w from same).shape⟩
  · intro k hk
    rw [hk] at same
    cases hm : p.contractOperands (al.alloc A) operands with
    | ok x => rw [hm] at same; exact same.elim
    | error e =>
      rw [hm] at same
      exact congrArg _ (show e = _ from same)

/-- C119: which lengths a path of several operands with distinct letters accepts, and the lengths of the result. -/
theorem C119_lengths {A B : Type} [Zero A] [Add A] [Mul A] [MulAdd A] (h : HashOrd) (s : String) (ops : List (View B))
    (inputs : List (List Char)) (out : List Char) (dims : Char → Nat) (hd : Denotes s inputs out)
    (hs : Sized dims inputs (ops.map View.shape)) (h2 : 2 ≤ inputs.length) (m : OptimizationMethod) (p : EinsumPath)
    (hp : einsumPath h s ops m = .ok (.ok p)) (hn : ∀ L ∈ inputs, L.Nodup) (operands : List (View A))
    (hw : ∀ v ∈ operands, v.Wf) (along : List (List Char × (Char → Nat)))
    (ha : List.Forall₂ (fun i q => inputs[i]? = some q.1 ∧ ∃ v, operands[i]? = some v ∧ v.shape = q.1.map q.2)
      (operandOrder m inputs.length) along) (al : UniformAlloc) :
    ReturnsLengths out (lengthsOf dims out along) (p.contractOperands (al.alloc A) operands) := by
  have key := C119_semiring h s ops inputs out dims hd hs h2 m p hp hn (operands.map (View.map fun _ => (0 : Int)))
    (by
      intro v hv
      obtain ⟨u, hu, rfl⟩ := List.mem_map.1 hv
      exact (view_wf_map _).2 (hw u hu)) along
    (ha.imp fun i q hq => ⟨hq.1, by
      obtain ⟨v, v1, v2⟩ := hq.2
      exact ⟨v.map fun _ => 0, by rw [List.getElem?_map, v1]; rfl, v2⟩⟩) (al.alloc Int)
  obtain ⟨z1, z2⟩ := zeros_outcome p al hw
  revert key
  cases lengthsOf dims out along with
  | none =>
    rintro ⟨k, hk⟩
    exact ⟨k, z2 k hk⟩
  | some f =>
    rintro ⟨w, w1, w2⟩
    obtain ⟨x, x1, x2⟩ := z1 w w1
    exact ⟨x, x1, x2.trans w2⟩

/-! ### Paths that contract a letter in every step -/

/-- The letters of the operand `q` that are in the output, in `P` or in another operand have the compiled number of positions. -/
def Spec.SameNumber (dims : Char → Nat) (out : List Char) (P : Char → Prop) (others : List (List Char × (Char → Nat)))
    (q : List Char × (Char → Nat)) : Prop :=
  ∀ K : Finset Char, (∀ c, c ∈ K ↔ c ∈ q.1 ∧ (c ∈ out ∨ P c ∨ ∃ x ∈ others, c ∈ x.1)) → ∏ c ∈ K, q.2 c = ∏ c ∈ K, dims c

theorem sameNumber_iff {dims : Char → Nat} {out : List Char} {P : Char → Prop} {others : List (List Char × (Char → Nat))}
    {q : List Char × (Char → Nat)} {K : Finset Char}
    (hK : ∀ c, c ∈ K ↔ c ∈ q.1 ∧ (c ∈ out ∨ P c ∨ ∃ x ∈ others, c ∈ x.1)) :
    SameNumber dims out P others q ↔ ∏ c ∈ K, q.2 c = ∏ c ∈ K, dims c := by
  refine ⟨fun h => h K hK, fun h K' hK' => ?_⟩
  obtain rfl : K' = K := by
    ext c
    rw [hK, hK']
  exact h

theorem lengthsAfter_contracting {dims d e : Char → Nat} {S T O : Finset Char} {c : Char} (h1 : c ∈ S) (h2 : c ∈ T)
    (h3 : c ∉ O) : lengthsAfter dims S T O d e =
      if ∏ c ∈ S with c ∈ T ∨ c ∈ O, d c = ∏ c ∈ S with c ∈ T ∨ c ∈ O, dims c ∧
        ∏ c ∈ T with c ∈ S ∨ c ∈ O, e c = ∏ c ∈ T with c ∈ S ∨ c ∈ O, dims c then some dims else none := by
  rw [lengthsAfter, if_neg fun h => h3 (h.1 c h1 (.inl h2)).2, if_neg fun h => (h c h1).1 h2, if_neg fun h => (h c h2).1 h1]

theorem along_contracting {dims : Char → Nat} {out : List Char} (rest : List (List Char × (Char → Nat))) :
    ∀ (P S : Finset Char), S ⊆ P → (∀ c ∈ P, (c ∈ out ∨ ∃ q ∈ rest, c ∈ q.1) → c ∈ S) →
      (∀ pre q suf, rest = pre ++ q :: suf → ∃ c ∈ q.1, c ∉ out ∧ (c ∈ P ∨ ∃ x ∈ pre, c ∈ x.1) ∧ ∀ x ∈ suf, c ∉ x.1) →
      ((∀ pre q suf, rest = pre ++ q :: suf → SameNumber dims out (· ∈ P) (pre ++ suf) q) →
        lengthsAlong dims out S dims rest = some dims) ∧
      ((∃ pre q suf, rest = pre ++ q :: suf ∧ ¬ SameNumber dims out (· ∈ P) (pre ++ suf) q) →
        lengthsAlong dims out S dims rest = none) := by
  induction rest with
  | nil => exact fun _ _ _ _ _ => ⟨fun _ => rfl, fun ⟨pre, q, suf, h, _⟩ => by simp at h⟩
  | cons q rest ih =>
    obtain ⟨R, e⟩ := q
    intro P S h1 h2 h3
    set O := (S ∪ R.toFinset).filter fun c => c ∈ out ∨ ∃ q ∈ rest, c ∈ q.1 with hO
    have mO : ∀ c, c ∈ O ↔ (c ∈ S ∨ c ∈ R) ∧ (c ∈ out ∨ ∃ q ∈ rest, c ∈ q.1) := fun c => by simp [hO]
    obtain ⟨c₀, c1, c2, c3, c4⟩ := h3 [] (R, e) rest rfl
    have c3 : c₀ ∈ P := by simpa using c3
    have cS : c₀ ∈ S := h2 c₀ c3 (.inr ⟨(R, e), by simp, c1⟩)
    have cO : c₀ ∉ O := fun h => ((mO c₀).1 h).2.elim c2 fun ⟨x, x1, x2⟩ => c4 x x1 x2
    have first : SameNumber dims out (· ∈ P) rest (R, e) ↔ ∏ c ∈ R.toFinset with c ∈ S ∨ c ∈ O, e c =
        ∏ c ∈ R.toFinset with c ∈ S ∨ c ∈ O, dims c := sameNumber_iff fun c => by
      simp only [Finset.mem_filter, List.mem_toFinset, mO]
      refine and_congr_right fun hc => ⟨fun h => ?_, fun h => ?_⟩
      · rcases h with h | h
        · exact .inr (.inl (h1 h))
        · exact h.2.imp_right .inr
      · rcases h with h | h | h
        · exact .inr ⟨.inr hc, .inl h⟩
        · exact .inl (h2 c h (.inr ⟨(R, e), by simp, hc⟩))
        · exact .inr ⟨.inr hc, .inr h⟩
    have later : ∀ pre suf x, SameNumber dims out (· ∈ P) ((R, e) :: pre ++ suf) x ↔
        SameNumber dims out (· ∈ P ∪ R.toFinset) (pre ++ suf) x := fun pre suf x => by
      refine forall_congr' fun K => ?_
      have : ∀ c, (c ∈ out ∨ c ∈ P ∨ ∃ y ∈ (R, e) :: pre ++ suf, c ∈ y.1) ↔
          (c ∈ out ∨ c ∈ P ∪ R.toFinset ∨ ∃ y ∈ pre ++ suf, c ∈ y.1) := fun c => by
        simp only [List.cons_append, List.mem_cons, Finset.mem_union, List.mem_toFinset, exists_eq_or_imp]
        tauto
      simp only [this]
    obtain ⟨i1, i2⟩ := ih (P ∪ R.toFinset) O (fun c hc => by
        rw [Finset.mem_union, List.mem_toFinset]
        exact ((mO c).1 hc).1.imp_left fun g => h1 g)
      (fun c hc hn => (mO c).2 ⟨by
        rw [Finset.mem_union, List.mem_toFinset] at hc
        exact hc.imp_left fun g => h2 c g (hn.imp_right fun ⟨x, x1, x2⟩ => ⟨x, List.mem_cons_of_mem _ x1, x2⟩), hn⟩)
      (fun pre q suf h => by
        obtain ⟨c, d1, d2, d3, d4⟩ := h3 ((R, e) :: pre) q suf (by rw [h]; rfl)
        refine ⟨c, d1, d2, ?_, d4⟩
        rw [Finset.mem_union, List.mem_toFinset]
        rcases d3 with d3 | ⟨x, x1, x2⟩
        · exact .inl (.inl d3)
        · rcases List.mem_cons.1 x1 with rfl | x1
          · exact .inl (.inr x2)
          · exact .inr ⟨x, x1, x2⟩)
    have unfold : lengthsAlong dims out S dims ((R, e) :: rest) =
        (lengthsAfter dims S R.toFinset O dims e).bind fun f => lengthsAlong dims out O f rest := rfl
    rw [unfold, lengthsAfter_contracting cS (by simpa using c1) cO]
    constructor
    · intro h
      rw [if_pos ⟨rfl, first.1 (h [] (R, e) rest rfl)⟩, Option.bind_some]
      exact i1 fun pre q suf hs => (later pre suf q).1 (h ((R, e) :: pre) q suf (by rw [hs]; rfl))
    · rintro ⟨pre, q, suf, hs, hq⟩
      split_ifs with g
      · rw [Option.bind_some]
        cases pre with
        | nil =>
          simp only [List.nil_append, List.cons.injEq] at hs hq
          obtain ⟨rfl, rfl⟩ := hs
          exact absurd (first.2 g.2) hq
        | cons y pre =>
          simp only [List.cons_append, List.cons.injEq] at hs
          obtain ⟨rfl, hs⟩ := hs
          exact i2 ⟨pre, q, suf, hs, fun h => hq ((later pre suf q).2 h)⟩
      · rfl

/-- The lengths for paths that contract a letter in every step. -/
theorem lengthsOf_contracting {dims : Char → Nat} {out : List Char} {along : List (List Char × (Char → Nat))}
    (h2 : 2 ≤ along.length)
    (hc : ∀ pre q suf, along = pre ++ q :: suf → pre ≠ [] →
      ∃ c ∈ q.1, c ∉ out ∧ (∃ x ∈ pre, c ∈ x.1) ∧ ∀ x ∈ suf, c ∉ x.1) :
    ((∀ pre q suf, along = pre ++ q :: suf → SameNumber dims out (fun _ => False) (pre ++ suf) q) →
      lengthsOf dims out along = some dims) ∧
    ((∃ pre q suf, along = pre ++ q :: suf ∧ ¬ SameNumber dims out (fun _ => False) (pre ++ suf) q) →
      lengthsOf dims out along = none) := by
  match along, h2 with
  | (L, d) :: (R, e) :: rest, _ =>
    set S := L.toFinset with hS
    set O := (S ∪ R.toFinset).filter fun c => c ∈ out ∨ ∃ q ∈ rest, c ∈ q.1 with hO
    have mO : ∀ c, c ∈ O ↔ (c ∈ L ∨ c ∈ R) ∧ (c ∈ out ∨ ∃ q ∈ rest, c ∈ q.1) := fun c => by simp [hO, hS]
    obtain ⟨c₀, c1, c2, c3, c4⟩ := hc [(L, d)] (R, e) rest rfl (by simp)
    have c3 : c₀ ∈ L := by simpa using c3
    have cO : c₀ ∉ O := fun h => ((mO c₀).1 h).2.elim c2 fun ⟨x, x1, x2⟩ => c4 x x1 x2
    have n1 : SameNumber dims out (fun _ => False) ((R, e) :: rest) (L, d) ↔ ∏ c ∈ S with c ∈ R.toFinset ∨ c ∈ O, d c =
        ∏ c ∈ S with c ∈ R.toFinset ∨ c ∈ O, dims c := sameNumber_iff fun c => by
      simp only [Finset.mem_filter, List.mem_toFinset, mO, hS, List.mem_cons, exists_eq_or_imp, false_or]
      tauto
    have n2 : SameNumber dims out (fun _ => False) ((L, d) :: rest) (R, e) ↔ ∏ c ∈ R.toFinset with c ∈ S ∨ c ∈ O, e c =
        ∏ c ∈ R.toFinset with c ∈ S ∨ c ∈ O, dims c := sameNumber_iff fun c => by
      simp only [Finset.mem_filter, List.mem_toFinset, mO, hS, List.mem_cons, exists_eq_or_imp, false_or]
      tauto
    have later : ∀ pre suf x, SameNumber dims out (fun _ => False) ((L, d) :: (R, e) :: pre ++ suf) x ↔
        SameNumber dims out (· ∈ S ∪ R.toFinset) (pre ++ suf) x := fun pre suf x => by
      refine forall_congr' fun K => ?_
      have : ∀ c, (c ∈ out ∨ False ∨ ∃ y ∈ (L, d) :: (R, e) :: pre ++ suf, c ∈ y.1) ↔
          (c ∈ out ∨ c ∈ S ∪ R.toFinset ∨ ∃ y ∈ pre ++ suf, c ∈ y.1) := fun c => by
        simp only [List.cons_append, List.mem_cons, Finset.mem_union, List.mem_toFinset, exists_eq_or_imp, false_or, hS]
        tauto
      simp only [this]
    obtain ⟨i1, i2⟩ := along_contracting (dims := dims) (out := out) rest (S ∪ R.toFinset) O (Finset.filter_subset _ _)
      (fun c hc hn => Finset.mem_filter.2 ⟨hc, hn⟩)
      (fun pre q suf h => by
        obtain ⟨c, d1, d2, ⟨x, x1, x2⟩, d4⟩ := hc ((L, d) :: (R, e) :: pre) q suf (by rw [h]; rfl) (by simp)
        refine ⟨c, d1, d2, ?_, d4⟩
        rw [Finset.mem_union, List.mem_toFinset, List.mem_toFinset]
        rcases List.mem_cons.1 x1 with rfl | x1
        · exact .inl (.inl x2)
        · rcases List.mem_cons.1 x1 with rfl | x1
          · exact .inl (.inr x2)
          · exact .inr ⟨x, x1, x2⟩)
    have unfold : lengthsOf dims out ((L, d) :: (R, e) :: rest) =
        (lengthsAfter dims S R.toFinset O d e).bind fun f => lengthsAlong dims out O f rest := rfl
    rw [unfold, lengthsAfter_contracting (c := c₀) (by simpa [hS] using c3) (by simpa using c1) cO]
    constructor
    · intro h
      rw [if_pos ⟨n1.1 (h [] (L, d) _ rfl), n2.1 (h [(L, d)] (R, e) rest rfl)⟩, Option.bind_some]
      exact i1 fun pre q suf hs => (later pre suf q).1 (h ((L, d) :: (R, e) :: pre) q suf (by rw [hs]; rfl))
    · rintro ⟨pre, q, suf, hs, hq⟩
      split_ifs with g
      · rw [Option.bind_some]
        match pre with
        | [] =>
          simp only [List.nil_append, List.cons.injEq] at hs hq
          obtain ⟨rfl, rfl⟩ := hs
          exact absurd (n1.2 g.1) hq
        | [y] =>
          simp only [List.cons_append, List.nil_append, List.cons.injEq] at hs hq
          obtain ⟨rfl, rfl, rfl⟩ := hs
          exact absurd (n2.2 g.2) hq
        | y :: z :: pre =>
          simp only [List.cons_append, List.cons.injEq] at hs
          obtain ⟨rfl, rfl, hs⟩ := hs
          exact i2 ⟨pre, q, suf, hs, fun h => hq ((later pre suf q).2 h)⟩
      · rfl

/-- C119, finding: if every operand, from the second on, has a letter in common with an earlier one that is in no later operand
and not in the output, as in chains of matrix products, the path checks for each operand only the product of the lengths of the
letters that are in the output or another operand, and the result always has the compiled lengths. -/
theorem C119_contracting {A B : Type} [Zero A] [Add A] [Mul A] [MulAdd A] (h : HashOrd) (s : String) (ops : List (View B))
    (inputs : List (List Char)) (out : List Char) (dims : Char → Nat) (hd : Denotes s inputs out)
    (hs : Sized dims inputs (ops.map View.shape)) (h2 : 2 ≤ inputs.length) (m : OptimizationMethod) (p : EinsumPath)
    (hp : einsumPath h s ops m = .ok (.ok p)) (hn : ∀ L ∈ inputs, L.Nodup) (operands : List (View A))
    (hw : ∀ v ∈ operands, v.Wf) (along : List (List Char × (Char → Nat)))
    (ha : List.Forall₂ (fun i q => inputs[i]? = some q.1 ∧ ∃ v, operands[i]? = some v ∧ v.shape = q.1.map q.2)
      (operandOrder m inputs.length) along)
    (hc : ∀ pre q suf, along = pre ++ q :: suf → pre ≠ [] →
      ∃ c ∈ q.1, c ∉ out ∧ (∃ x ∈ pre, c ∈ x.1) ∧ ∀ x ∈ suf, c ∉ x.1) (al : UniformAlloc) :
    ((∀ pre q suf, along = pre ++ q :: suf → SameNumber dims out (fun _ => False) (pre ++ suf) q) →
      ∃ w, p.contractOperands (al.alloc A) operands = .ok w ∧ w.shape = out.map dims) ∧
    ((∃ pre q suf, along = pre ++ q :: suf ∧ ¬ SameNumber dims out (fun _ => False) (pre ++ suf) q) →
      ∃ k, p.contractOperands (al.alloc A) operands = panic k) := by
  have key := C119_lengths h s ops inputs out dims hd hs h2 m p hp hn operands hw along ha al
  have hlen : along.length = inputs.length := by
    rw [← ha.length_eq]
    cases m <;> simp [operandOrder]
  obtain ⟨k1, k2⟩ := lengthsOf_contracting (dims := dims) (by rw [hlen]; exact h2) hc
  exact ⟨fun g => by rw [k1 g] at key; exact key, fun g => by rw [k2 g] at key; exact key⟩

/-! ### Cases -/

theorem Ex.denotes_chain_119 : Denotes "ij,jk,kl->il" [['i', 'j'], ['j', 'k'], ['k', 'l']] ['i', 'l'] :=
  .inl ⟨by decide, ⟨by simp, by simp [Letter], by simp [Letter]⟩, by simp [OutputOk, Used]⟩

def Ex.v41_119 : View Int := ⟨[1, 2, 3, 4], 0, [4, 1], [1, 1]⟩
def Ex.v14_119 : View Int := ⟨[1, 2, 3, 4], 0, [1, 4], [4, 1]⟩
def Ex.v22_119 : View Int := ⟨[1, 2, 3, 4], 0, [2, 2], [2, 1]⟩

theorem Ex.wf_chain_119 : ∀ v ∈ [Ex.v41_119, Ex.v14_119, Ex.v22_119], v.Wf := by
  simp only [List.mem_cons, List.not_mem_nil, or_false]
  rintro v (rfl | rfl | rfl)
  · exact (elements_of (t := Ex.elems Ex.v41_119) rfl (by decide)).1
  · exact (elements_of (t := Ex.elems Ex.v14_119) rfl (by decide)).1
  · exact (elements_of (t := Ex.elems Ex.v22_119) rfl (by decide)).1

/-- The letters and lengths of the arrays. -/
def Ex.along119 : List (List Char × (Char → Nat)) :=
  [(['i', 'j'], fun c => if c = 'i' then 4 else 1), (['j', 'k'], fun c => if c = 'j' then 1 else 4), (['k', 'l'], fun _ => 2)]

/-- The hypotheses of `C119_lengths` and `C119_contracting`: a path for three matrices of 2 by 2 takes arrays of shapes (4, 1),
(1, 4) and (2, 2) and returns a matrix of 2 by 2. -/
example (h : HashOrd) (al : UniformAlloc) : ∃ p, einsumPath h "ij,jk,kl->il" [Ex.v22_119, Ex.v22_119, Ex.v22_119] .naive = .ok (.ok p) ∧
    ReturnsLengths ['i', 'l'] (lengthsOf (fun _ => 2) ['i', 'l'] Ex.along119)
      (p.contractOperands (al.alloc Int) [Ex.v41_119, Ex.v14_119, Ex.v22_119]) ∧
    (∀ pre q suf, Ex.along119 = pre ++ q :: suf → pre ≠ [] →
      ∃ c ∈ q.1, c ∉ ['i', 'l'] ∧ (∃ x ∈ pre, c ∈ x.1) ∧ ∀ x ∈ suf, c ∉ x.1) ∧
    (∀ pre q suf, Ex.along119 = pre ++ q :: suf → SameNumber (fun _ => 2) ['i', 'l'] (fun _ => False) (pre ++ suf) q) ∧
    ∃ w, p.contractOperands (al.alloc Int) [Ex.v41_119, Ex.v14_119, Ex.v22_119] = .ok w ∧ w.shape = [2, 2] := by
  have s1 : Sized (fun _ => 2) [['i', 'j'], ['j', 'k'], ['k', 'l']] ([Ex.v22_119, Ex.v22_119, Ex.v22_119].map View.shape) :=
    .cons rfl (.cons rfl (.cons rfl .nil))
  obtain ⟨p, hp, -⟩ := einsumPath_ok (operands := [Ex.v22_119, Ex.v22_119, Ex.v22_119]) Ex.denotes_chain_119 s1 h (.inl rfl)
  have ha : List.Forall₂ (fun i (q : List Char × (Char → Nat)) => [['i', 'j'], ['j', 'k'], ['k', 'l']][i]? = some q.1 ∧
      ∃ v, [Ex.v41_119, Ex.v14_119, Ex.v22_119][i]? = some v ∧ v.shape = q.1.map q.2) (operandOrder .naive 3) Ex.along119 :=
    .cons ⟨rfl, _, rfl, by decide⟩ (.cons ⟨rfl, _, rfl, by decide⟩ (.cons ⟨rfl, _, rfl, by decide⟩ .nil))
  have hc : ∀ pre q suf, Ex.along119 = pre ++ q :: suf → pre ≠ [] →
      ∃ c ∈ q.1, c ∉ ['i', 'l'] ∧ (∃ x ∈ pre, c ∈ x.1) ∧ ∀ x ∈ suf, c ∉ x.1 := by
    rintro (_ | ⟨a, _ | ⟨b, _ | ⟨c, pre⟩⟩⟩) q suf hs hn
    · exact absurd rfl hn
    · simp only [Ex.along119, List.cons_append, List.nil_append, List.cons.injEq] at hs
      obtain ⟨rfl, rfl, rfl⟩ := hs
      exact ⟨'j', by simp⟩
    · simp only [Ex.along119, List.cons_append, List.nil_append, List.cons.injEq] at hs
      obtain ⟨rfl, rfl, rfl, rfl⟩ := hs
      exact ⟨'k', by simp⟩
    · simp [Ex.along119] at hs
  have hn : ∀ pre q suf, Ex.along119 = pre ++ q :: suf →
      SameNumber (fun _ => 2) ['i', 'l'] (fun _ => False) (pre ++ suf) q := by
    rintro (_ | ⟨a, _ | ⟨b, _ | ⟨c, pre⟩⟩⟩) q suf hs
    · simp only [Ex.along119, List.nil_append, List.cons.injEq] at hs
      obtain ⟨rfl, rfl⟩ := hs
      exact (sameNumber_iff (K := {'i', 'j'}) (fun c => by simp; tauto)).2 (by decide)
    · simp only [Ex.along119, List.cons_append, List.nil_append, List.cons.injEq] at hs
      obtain ⟨rfl, rfl, rfl⟩ := hs
      exact (sameNumber_iff (K := {'j', 'k'}) (fun c => by simp; tauto)).2 (by decide)
    · simp only [Ex.along119, List.cons_append, List.nil_append, List.cons.injEq] at hs
      obtain ⟨rfl, rfl, rfl, rfl⟩ := hs
      exact (sameNumber_iff (K := {'k', 'l'}) (fun c => by simp; tauto)).2 (by decide)
    · simp [Ex.along119] at hs
  exact ⟨p, hp, C119_lengths h _ _ _ _ _ Ex.denotes_chain_119 s1 (by simp) .naive p hp (by decide) _ Ex.wf_chain_119 _ ha al, hc, hn,
    (C119_contracting h _ _ _ _ _ Ex.denotes_chain_119 s1 (by simp) .naive p hp (by decide) _ Ex.wf_chain_119 _ ha hc al).1 hn⟩

/-- A path that multiplies elementwise, sums a factor and contracts: which lengths it takes is computed. -/
example : (lengthsOf (fun _ => 2) ['i', 'l'] Ex.along119).map (['i', 'l'].map ·) = some [2, 2] ∧
    (lengthsOf (fun _ => 2) ['i'] [(['i'], fun _ => 3), (['i'], fun _ => 1), (['j'], fun _ => 7)]).map (['i'].map ·) = some [3] ∧
    (lengthsOf (fun _ => 2) ['i'] [(['i'], fun _ => 3), (['i'], fun _ => 2)]).map (['i'].map ·) = none := by
  decide +kernel

end Einsum
