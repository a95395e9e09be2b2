import Verif.Props.Fold
import Verif.Props.Related
import Verif.Props.TensordotLaws
import Verif.Proofs.Dataflow

/-!
# Property C84: inside a two-operand call
-/

namespace Einsum

open Spec

variable {L R o : List Char} {dims : Char → Nat}

/-- The path of a sized contraction of one operand. -/
theorem new_one (h : HashOrd) (ho : OutputOk [L] o) :
    EinsumPath.new h (callSC [L] o dims) = (SingletonContraction.new (callSC [L] o dims)).map
      fun c => ⟨.singleton (callSC [L] o dims), .singletonContraction c⟩ := by
  have e1 : generateOptimizedOrder (h.sub 0) (callSC [L] o dims) .naive = .ok (.singleton (callSC [L] o dims)) := by
    show generatePath (h.sub 0) (callSC [L] o dims) [0] = _
    have p1 : generatePermutedContraction ((h.sub 0).sub 0) (callSC [L] o dims) [0] = .ok (callSC [L] o dims) := by
      show unwrapR ((callSC [L] o dims).subset _ [L] o) = _
      rw [subset_callSC _ (fun _ h => h) ho]
      rfl
    unfold generatePath
    rw [p1, bind_ok]
    rfl
  unfold EinsumPath.new
  rw [e1, bind_ok]
  show (do let c ← SingletonContraction.new _; return _) = _
  cases SingletonContraction.new (callSC [L] o dims) <;> rfl

/-- A simplification is a call for one operand. -/
theorem simplify_call {inputs : List (List Char)} {out : List Char} {k : HashOrd} {x : SimplificationMethodAndOutput}
    (hL : ∀ c ∈ L, c ∈ inputs.flatten)
    (hx : SimplificationMethodAndOutput.fromIndicesAndSizes k L R o (callSC inputs out dims) = .ok (some x))
    (h : HashOrd) {A : Type} [Zero A] [Add A] [Mul A] [MulAdd A] (al : Alloc A) (v : View A) :
    (callSC [L] x.newIndices dims).contractOperands h al [v] = x.op.run al v := by
  have ho : OutputOk [L] (desiredIndices (k.sub 0) L R o) :=
    ⟨nodup_desired, fun c hc => used_iff.2 (by simpa using (mem_desired.1 hc).1)⟩
  unfold SimplificationMethodAndOutput.fromIndicesAndSizes at hx
  simp only [subset_callSC (ops := [L]) (k.sub 1) (by simpa using hL) ho, unwrapR_ok, bind_ok] at hx
  obtain ⟨c, c1, hx⟩ := bind_eq_ok.1 hx
  have hs : ∃ s, x = ⟨c.method, c.op, desiredIndices (k.sub 0) L R o, s⟩ := by
    cases hm : c.method <;> rw [hm] at hx <;> simp only at hx
    all_goals first
      | (cases hx; done)
      | (obtain ⟨s, -, hx⟩ := bind_eq_ok.1 hx; cases hx; exact ⟨s, rfl⟩)
  obtain ⟨s, rfl⟩ := hs
  unfold SizedContraction.contractOperands
  rw [new_one _ ho, c1]
  rfl

instance (this other out : List Char) : Decidable (NeedsSimplification this other out) :=
  inferInstanceAs (Decidable (¬ this.Nodup ∨ ∃ c ∈ this, c ∉ other ∧ c ∉ out))

/-- The letters an operand is reduced to, and the call that does it. -/
theorem reduce_parts {inputs : List (List Char)} {out : List Char} (hi : OutputOk inputs out) {k : HashOrd}
    {s : Option SimplificationMethodAndOutput} (hL : ∀ c ∈ L, c ∈ inputs.flatten)
    (hs : SimplificationMethodAndOutput.fromIndicesAndSizes k L R o (callSC inputs out dims) = .ok s) :
    (newIndicesOr s L).Nodup ∧ (∀ x, x ∈ newIndicesOr s L ↔ x ∈ L ∧ (x ∈ R ∨ x ∈ o)) ∧
      (¬ NeedsSimplification L R o → newIndicesOr s L = L) ∧
      ∀ (A : Type) [Zero A] [Add A] [Mul A] [MulAdd A] (h : HashOrd) (al : Alloc A) (v : View A),
        simplifyOperand al s v =
          if NeedsSimplification L R o then (callSC [L] (newIndicesOr s L) dims).contractOperands h al [v] else .ok v := by
  obtain ⟨s', h1, h2⟩ := simplification_parts (callSC_valid (dims := dims) hi) k (R := R) (out := o)
    (show ∀ c ∈ L, c ∈ inputs.flatten from hL)
  obtain ⟨s'', g1, g2, g3, -⟩ := simplification_ok (callSC_valid (dims := dims) hi) k (R := R) (out := o)
    (show ∀ c ∈ L, c ∈ inputs.flatten from hL)
  rw [hs] at h1 g1
  cases h1
  cases g1
  refine ⟨g2, g3, ?_, ?_⟩
  · rcases h2 with ⟨rfl, hn⟩ | ⟨hn, -⟩
    · exact fun _ => rfl
    · exact fun h => absurd hn h
  · intro A _ _ _ _ h al v
    rcases h2 with ⟨rfl, hn⟩ | ⟨hn, x, rfl, -⟩
    · rw [if_neg hn]
      rfl
    · rw [if_pos hn]
      exact (simplify_call hL hs h al v).symm

/-- An operand whose letters are all needed, once each, is not simplified. -/
theorem simplify_none {inputs : List (List Char)} {out : List Char} (hi : OutputOk inputs out) (k : HashOrd)
    (hL : ∀ c ∈ L, c ∈ inputs.flatten) (hn : L.Nodup) (hm : ∀ c ∈ L, c ∈ R ∨ c ∈ o) :
    SimplificationMethodAndOutput.fromIndicesAndSizes k L R o (callSC inputs out dims) = .ok none := by
  obtain ⟨s, h1, h2⟩ := simplification_parts (callSC_valid (dims := dims) hi) k (R := R) (out := o)
    (show ∀ c ∈ L, c ∈ inputs.flatten from hL)
  rcases h2 with ⟨rfl, -⟩ | ⟨hN, -⟩
  · exact h1
  · exfalso
    rcases hN with h | ⟨c, c1, c2, c3⟩
    · exact h hn
    · exact (hm c c1).elim c2 c3

/-- The parts of a compiled two-operand call. -/
theorem pair_split (ho : OutputOk [L, R] o) (k : HashOrd) (c : PairContraction)
    (hc : PairContraction.new k (callSC [L, R] o dims) = .ok c) :
    ∃ (L' R' : List Char) (c' : PairContraction),
      L'.Nodup ∧ (∀ x, x ∈ L' ↔ x ∈ L ∧ (x ∈ R ∨ x ∈ o)) ∧ (¬ NeedsSimplification L R o → L' = L) ∧
      R'.Nodup ∧ (∀ x, x ∈ R' ↔ x ∈ R ∧ (x ∈ L ∨ x ∈ o)) ∧ (¬ NeedsSimplification R L o → R' = R) ∧
      OutputOk [L', R'] o ∧ PairContraction.new k (callSC [L', R'] o dims) = .ok c' ∧
      c'.lhsSimplification = none ∧ c'.rhsSimplification = none ∧ c'.method = c.method ∧ c'.op = c.op ∧
      (∀ (A : Type) [Zero A] [Add A] [Mul A] [MulAdd A] (h : HashOrd) (al : Alloc A) (v : View A),
        simplifyOperand al c.lhsSimplification v =
          if NeedsSimplification L R o then (callSC [L] L' dims).contractOperands h al [v] else .ok v) ∧
      ∀ (A : Type) [Zero A] [Add A] [Mul A] [MulAdd A] (h : HashOrd) (al : Alloc A) (v : View A),
        simplifyOperand al c.rhsSimplification v =
          if NeedsSimplification R L o then (callSC [R] R' dims).contractOperands h al [v] else .ok v := by
  unfold PairContraction.new at hc
  obtain ⟨-, -, hc⟩ := bind_eq_ok.1 hc
  obtain ⟨_, e, hc⟩ := bind_eq_ok.1 hc
  cases e
  obtain ⟨_, e, hc⟩ := bind_eq_ok.1 hc
  cases e
  obtain ⟨ls, l1, hc⟩ := bind_eq_ok.1 hc
  obtain ⟨rs, r1, hc⟩ := bind_eq_ok.1 hc
  obtain ⟨red, e, hc⟩ := bind_eq_ok.1 hc
  obtain ⟨sum, s1, hc⟩ := bind_eq_ok.1 hc
  obtain ⟨op, op1, hc⟩ := bind_eq_ok.1 hc
  obtain ⟨str, str1, hc⟩ := bind_eq_ok.1 hc
  cases hc
  change SimplificationMethodAndOutput.fromIndicesAndSizes (k.sub 0) L R o _ = _ at l1
  change SimplificationMethodAndOutput.fromIndicesAndSizes (k.sub 1) R L o _ = _ at r1
  obtain ⟨a1, a2, a3, a4⟩ := reduce_parts ho (by simp; tauto) l1
  obtain ⟨b1, b2, b3, b4⟩ := reduce_parts ho (by simp; tauto) r1
  set L' := newIndicesOr ls L
  set R' := newIndicesOr rs R
  have ho' : OutputOk [L', R'] o := ⟨ho.1, fun x hx => used_iff.2 (by
    have := used_iff.1 (ho.2 x hx)
    simp only [List.flatten_cons, List.flatten_nil, List.append_nil, List.mem_append, a2, b2] at this ⊢
    tauto)⟩
  change unwrapR ((callSC [L, R] o dims).subset (k.sub 2) [L', R'] o) = _ at e
  rw [subset_callSC (k.sub 2) (by
    intro x hx
    simp only [List.flatten_cons, List.flatten_nil, List.append_nil, List.mem_append, a2, b2] at hx ⊢
    tauto) ho'] at e
  cases e
  refine ⟨L', R', ⟨none, none, sum.getStrategy, op, str⟩, a1, a2, a3, b1, b2, b3, ho', ?_, rfl, rfl, rfl, rfl, a4, b4⟩
  unfold PairContraction.new
  have n1 := simplify_none (dims := dims) ho' (k.sub 0) (L := L') (R := R') (o := o) (by simp; tauto) a1 (fun x hx => by
    rw [b2]; have := (a2 x).1 hx; tauto)
  have n2 := simplify_none (dims := dims) ho' (k.sub 1) (L := R') (R := L') (o := o) (by simp; tauto) b1 (fun x hx => by
    rw [a2]; have := (b2 x).1 hx; tauto)
  show (assertThat _ >>= fun _ => SimplificationMethodAndOutput.fromIndicesAndSizes (k.sub 0) L' R' o _ >>= _) = _
  rw [show assertThat ((callSC [L', R'] o dims).contraction.operandIndices.length = 2) = .ok () from rfl, bind_ok, n1, bind_ok]
  show (SimplificationMethodAndOutput.fromIndicesAndSizes (k.sub 1) R' L' o _ >>= _) = _
  rw [n2, bind_ok]
  show (unwrapR ((callSC [L', R'] o dims).subset (k.sub 2) [L', R'] o) >>= _) = _
  rw [subset_callSC (k.sub 2) (fun _ h => h) ho', unwrapR_ok, bind_ok, s1, bind_ok]
  simp only [op1, bind_ok, str1]
  rfl

/-- C84: the operands are first reduced by calls for one operand. -/
theorem C84_pair (ho : OutputOk [L, R] o) (k : HashOrd) (c : PairContraction)
    (hc : PairContraction.new k (callSC [L, R] o dims) = .ok c) :
    ∃ (L' R' : List Char) (c' : PairContraction),
      L'.Nodup ∧ (∀ x, x ∈ L' ↔ x ∈ L ∧ (x ∈ R ∨ x ∈ o)) ∧ (¬ NeedsSimplification L R o → L' = L) ∧
      R'.Nodup ∧ (∀ x, x ∈ R' ↔ x ∈ R ∧ (x ∈ L ∨ x ∈ o)) ∧ (¬ NeedsSimplification R L o → R' = R) ∧
      OutputOk [L', R'] o ∧ PairContraction.new k (callSC [L', R'] o dims) = .ok c' ∧
      c'.lhsSimplification = none ∧ c'.rhsSimplification = none ∧ c'.method = c.method ∧ c'.op = c.op ∧
      ∀ (A : Type) [Zero A] [Add A] [Mul A] [MulAdd A] (h : HashOrd) (al : Alloc A) (l r : View A),
        c.run al l r =
          (if NeedsSimplification L R o then (callSC [L] L' dims).contractOperands h (al.sub 0) [l] else .ok l) >>= fun l' =>
          (if NeedsSimplification R L o then (callSC [R] R' dims).contractOperands h (al.sub 1) [r] else .ok r) >>= fun r' =>
          c'.run al l' r' := by
  obtain ⟨L', R', c', a1, a2, a3, b1, b2, b3, ho', hc', c1, c2, c3, c4, d1, d2⟩ := pair_split ho k c hc
  refine ⟨L', R', c', a1, a2, a3, b1, b2, b3, ho', hc', c1, c2, c3, c4, fun A _ _ _ _ h al l r => ?_⟩
  simp only [PairContraction.run, d1 A h, d2 A h, c1, c2, c4]
  rfl

/-! ## The elements of a reduced call -/

/-- A reduced call runs one operation on its operands. -/
theorem reduced_run (ho : OutputOk [L, R] o) (hr : Reduced L R o) :
    ∃ op, PairOp.new (callSC [L, R] o dims) (pairMethod L R o) = .ok op ∧
      ∀ (A : Type) [Zero A] [Add A] [Mul A] [MulAdd A] (h : HashOrd) (al : Alloc A) (l r : View A),
        (callSC [L, R] o dims).contractOperands h al [l, r] = op.run ((al.sub 0).sub 2) l r := by
  have key : ∀ k : HashOrd, ∃ op s, PairOp.new (callSC [L, R] o dims) (pairMethod L R o) = .ok op ∧
      PairContraction.new k (callSC [L, R] o dims) = .ok ⟨none, none, pairMethod L R o, op, s⟩ := by
    intro k
    obtain ⟨p, p1, p2, p3, p4, -⟩ := pair_parts (callSC_valid (dims := dims) ho) rfl k
    have n1 := simplify_none (dims := dims) ho (k.sub 0) (L := L) (R := R) (o := o) (by simp; tauto) hr.left hr.leftNeeded
    have n2 := simplify_none (dims := dims) ho (k.sub 1) (L := R) (R := L) (o := o) (by simp; tauto) hr.right hr.rightNeeded
    have p1' := p1
    unfold PairContraction.new at p1
    obtain ⟨-, -, p1⟩ := bind_eq_ok.1 p1
    obtain ⟨_, e, p1⟩ := bind_eq_ok.1 p1
    cases e
    obtain ⟨_, e, p1⟩ := bind_eq_ok.1 p1
    cases e
    obtain ⟨ls, l1, p1⟩ := bind_eq_ok.1 p1
    obtain ⟨rs, r1, p1⟩ := bind_eq_ok.1 p1
    obtain ⟨red, e, p1⟩ := bind_eq_ok.1 p1
    obtain ⟨sum, s1, p1⟩ := bind_eq_ok.1 p1
    obtain ⟨op, op1, p1⟩ := bind_eq_ok.1 p1
    obtain ⟨str, str1, p1⟩ := bind_eq_ok.1 p1
    cases p1
    change SimplificationMethodAndOutput.fromIndicesAndSizes (k.sub 0) L R o _ = _ at l1
    change SimplificationMethodAndOutput.fromIndicesAndSizes (k.sub 1) R L o _ = _ at r1
    rw [n1] at l1
    rw [n2] at r1
    cases l1
    cases r1
    change unwrapR ((callSC [L, R] o dims).subset (k.sub 2) [L, R] o) = _ at e
    rw [subset_callSC (k.sub 2) (fun _ h => h) ho] at e
    cases e
    change sum.getStrategy = pairMethod L R o at p4
    simp only [p4] at op1 p1'
    exact ⟨op, str, op1, p1'⟩
  obtain ⟨op, -, e1, -⟩ := key HashOrd.insertion
  refine ⟨op, e1, fun A _ _ _ _ h al l r => ?_⟩
  obtain ⟨op', s, e2, e3⟩ := key ((h.sub 1).sub 0)
  rw [e1] at e2
  cases e2
  unfold SizedContraction.contractOperands
  rw [new_two _ ho]
  show (do let path ← (PairContraction.new _ _).map _; _) = _
  rw [e3]
  exact contract_two

variable {A : Type} [Zero A] [Add A] [Mul A] [MulAdd A] {l r : View A} {T U : List Nat → A}

omit [Zero A] [Add A] [Mul A] [MulAdd A] in
theorem rep_of {v : View A} {X : List Char} {T : List Nat → A} (he : Elements v T) (hs : v.shape = X.map dims) :
    Rep v X dims fun σ => T (X.map σ) := by
  have := he.holds
  rw [hs] at this
  exact this.rep

/-- C84: all letters are in both operands and in the output: the elements are multiplied. -/
theorem C84_product (ho : OutputOk [L, R] o) (hr : Reduced L R o) (hL : ∀ c ∈ L, c ∈ R ∧ c ∈ o) (hR : ∀ c ∈ R, c ∈ L ∧ c ∈ o)
    (h : HashOrd) (al : Alloc A) (el : Elements l T) (er : Elements r U) (sl : l.shape = L.map dims) (sr : r.shape = R.map dims) :
    ∃ w, (callSC [L, R] o dims).contractOperands h al [l, r] = .ok w ∧
      Rep w o dims fun σ => T (L.map σ) * U (R.map σ) := by
  obtain ⟨op, e1, e2⟩ := reduced_run (dims := dims) ho hr
  have hsub : ∀ c ∈ o, c ∈ L ∨ c ∈ R := fun c hc => by simpa using used_iff.1 (ho.2 c hc)
  have pL : o.Perm L := perm_of_nodup ho.1 hr.left fun c => ⟨fun hc => (hsub c hc).elim id fun h => (hR c h).1, fun hc => (hL c hc).2⟩
  have pR : o.Perm R := perm_of_nodup ho.1 hr.right fun c => ⟨fun hc => (hsub c hc).elim (fun h => (hL c h).1) id, fun hc => (hR c hc).2⟩
  rw [pairMethod, if_pos ⟨fun c hc _ => hL c hc, fun c hc _ => hR c hc⟩,
    hadamardGeneral_new (sc := callSC [L, R] o dims) rfl hr.left hr.right pL pR] at e1
  cases e1
  obtain ⟨l', l1, l2⟩ := (rep_of el sl).permute hr.left pL
  obtain ⟨r', r1, r2⟩ := (rep_of er sr).permute hr.right pR
  obtain ⟨w, h1, h2⟩ := l2.mul r2 (pL.nodup_iff.2 hr.left) ((al.sub 0).sub 2)
  refine ⟨w, ?_, h2⟩
  rw [e2 A]
  simp only [PairOp.run, HadamardProductGeneral.run, Permutation.view, callSC]
  simp only [l1, r1, bind_ok, HadamardProduct.run, h1]

/-- C84: the left operand has no letters: it is the second factor. -/
theorem C84_scalar_left (ho : OutputOk [[], R] o) (hr : Reduced [] R o) (hR : R ≠ []) (h : HashOrd) (al : Alloc A)
    (el : Elements l T) (er : Elements r U) (sl : l.shape = []) (sr : r.shape = R.map dims) :
    ∃ w, (callSC [[], R] o dims).contractOperands h al [l, r] = .ok w ∧
      Rep w o dims fun σ => U (R.map σ) * T [] := by
  obtain ⟨op, e1, e2⟩ := reduced_run (dims := dims) ho hr
  have hRo : ∀ c ∈ R, c ∈ o := fun c hc => (hr.rightNeeded c hc).resolve_left (by simp)
  have pR : o.Perm R := perm_of_nodup ho.1 hr.right fun c =>
    ⟨fun hc => by simpa using used_iff.1 (ho.2 c hc), hRo c⟩
  obtain ⟨d, hd⟩ := List.exists_mem_of_ne_nil R hR
  rw [pairMethod, if_neg (by rintro ⟨-, g⟩; simpa using (g d hd (.inr (hRo d hd))).1), if_pos (by simp),
    scalarMatrixGeneral_new (sc := callSC [[], R] o dims) rfl hr.right pR] at e1
  cases e1
  obtain ⟨r', r1, r2⟩ := (rep_of er sr).permute hr.right pR
  have hf := ((rep_of (X := []) (dims := dims) el sl).holds (by simp)).first (by simp)
  simp only [List.map_nil] at hf
  obtain ⟨w, h1, h2⟩ := r2.mapv (pR.nodup_iff.2 hr.right) ((al.sub 0).sub 2) fun x => x * T []
  refine ⟨w, ?_, h2⟩
  rw [e2 A]
  simp only [PairOp.run, ScalarMatrixProductGeneral.run, Permutation.view, callSC]
  simp [r1, ScalarMatrixProduct.run, hf, h1]

/-- C84: the right operand has no letters: it is the second factor. -/
theorem C84_scalar_right (ho : OutputOk [L, []] o) (hr : Reduced L [] o) (hL : L ≠ []) (h : HashOrd) (al : Alloc A)
    (el : Elements l T) (er : Elements r U) (sl : l.shape = L.map dims) (sr : r.shape = []) :
    ∃ w, (callSC [L, []] o dims).contractOperands h al [l, r] = .ok w ∧
      Rep w o dims fun σ => T (L.map σ) * U [] := by
  obtain ⟨op, e1, e2⟩ := reduced_run (dims := dims) ho hr
  have hLo : ∀ c ∈ L, c ∈ o := fun c hc => (hr.leftNeeded c hc).resolve_left (by simp)
  have pL : o.Perm L := perm_of_nodup ho.1 hr.left fun c =>
    ⟨fun hc => by simpa using used_iff.1 (ho.2 c hc), hLo c⟩
  obtain ⟨d, hd⟩ := List.exists_mem_of_ne_nil L hL
  rw [pairMethod, if_neg (by rintro ⟨g, -⟩; simpa using (g d hd (.inr (hLo d hd))).1),
    if_neg (fun g => (g d hd).2 (hLo d hd)), if_pos (by simp),
    matrixScalarGeneral_new (sc := callSC [L, []] o dims) rfl hr.left pL] at e1
  cases e1
  obtain ⟨l', l1, l2⟩ := (rep_of el sl).permute hr.left pL
  have hf := ((rep_of (X := []) (dims := dims) er sr).holds (by simp)).first (by simp)
  simp only [List.map_nil] at hf
  obtain ⟨w, h1, h2⟩ := l2.mapv (pL.nodup_iff.2 hr.left) ((al.sub 0).sub 2) fun x => x * U []
  refine ⟨w, ?_, h2⟩
  rw [e2 A]
  simp only [PairOp.run, MatrixScalarProductGeneral.run, Permutation.view, callSC]
  simp [l1, MatrixScalarProduct.run, hf, h1]

/-- C84: no letter is in both operands and the output: the products of the contracted letters, in alphabetical order, are added. -/
theorem C84_contraction (ho : OutputOk [L, R] o) (hr : Reduced L R o) (hL : L ≠ []) (hR : R ≠ [])
    (h0 : ∀ c ∈ L, c ∈ R → c ∉ o) (C : List Char) (hs : C.Pairwise (· < ·)) (hC : ∀ c, c ∈ C ↔ c ∈ L ∧ c ∈ R)
    (h : HashOrd) (al : Alloc A) (el : Elements l T) (er : Elements r U) (sl : l.shape = L.map dims) (sr : r.shape = R.map dims) :
    ∃ w, (callSC [L, R] o dims).contractOperands h al [l, r] = .ok w ∧
      Rep w o dims fun σ => product (al.sumOrder [0, 2, 0, rank dims (L.filter fun c => c ∉ R) σ,
        rank dims (R.filter fun c => c ∉ L) σ] (C.map dims).prod) dims C (fun τ => T (L.map τ)) (fun τ => U (R.map τ)) σ := by
  obtain ⟨op, e1, e2⟩ := reduced_run (dims := dims) ho hr
  obtain ⟨a, ha⟩ := List.exists_mem_of_ne_nil L hL
  obtain ⟨b, hb⟩ := List.exists_mem_of_ne_nil R hR
  have f1 : ¬ ((∀ c ∈ L, c ∈ R ∨ c ∈ o → c ∈ R ∧ c ∈ o) ∧ (∀ c ∈ R, c ∈ L ∨ c ∈ o → c ∈ L ∧ c ∈ o)) := by
    rintro ⟨g, -⟩
    obtain ⟨g1, g2⟩ := g a ha (hr.leftNeeded a ha)
    exact h0 a ha g1 g2
  have f2 : ¬ ∀ c ∈ L, c ∉ R ∧ c ∉ o := fun g => (hr.leftNeeded a ha).elim (g a ha).1 (g a ha).2
  have f3 : ¬ ∀ c ∈ R, c ∉ L ∧ c ∉ o := fun g => (hr.rightNeeded b hb).elim (g b hb).1 (g b hb).2
  rw [pairMethod, if_neg f1, if_neg f2, if_neg f3, if_pos h0] at e1
  obtain ⟨D, ⟨d1, d2, d3, d4, d5, d6, d7⟩, d8⟩ := tensordotGeneral_new (callSC_valid (dims := dims) ho) rfl hr.left hr.right
    hr.leftNeeded hr.rightNeeded h0
  have hDC : D = C := by
    refine List.Perm.eq_of_pairwise (le := (· < ·)) (fun x y _ _ h1 h2 => absurd (lt_trans h1 h2) (lt_irrefl x)) d1 hs
      (perm_of_nodup d2 (hs.imp fun h => ne_of_lt h) fun c => ?_)
    rw [hC]
    exact ⟨fun hc => ⟨d4 c hc, d5 c hc⟩, fun hc => (d3 c).2 ⟨.inl hc.1, h0 c hc.1 hc.2⟩⟩
  subst hDC
  have kL : (L.filter fun c => c ∉ D) = L.filter fun c => c ∉ R := List.filter_congr fun c hc => by simp [hC, hc]
  have kR : (R.filter fun c => c ∉ D) = R.filter fun c => c ∉ L := List.filter_congr fun c hc => by simp [hC, hc]
  rw [d8] at e1
  cases e1
  obtain ⟨w, w1, w2⟩ := (rep_of el sl).tensordotT (rep_of er sr) hr.left hr.right d2 d4 d5 d6 d7 ((al.sub 0).sub 2)
  rw [kL, kR] at w2
  refine ⟨w, ?_, w2⟩
  rw [e2 A]
  exact w1

/-- C84: the elements of `tensordot`. -/
theorem C84_tensordot (hL : L.Nodup) (hR : R.Nodup) (C : List Char) (hCn : C.Nodup) (hC : ∀ c, c ∈ C ↔ c ∈ L ∧ c ∈ R)
    (al : Alloc A) (el : Elements l T) (er : Elements r U) (sl : l.shape = L.map dims) (sr : r.shape = R.map dims) :
    ∃ w, tensordot al l r (C.map L.idxOf) (C.map R.idxOf) = .ok w ∧
      Rep w ((L.filter fun c => c ∉ R) ++ R.filter fun c => c ∉ L) dims fun σ =>
        product (al.sumOrder [0, rank dims (L.filter fun c => c ∉ R) σ, rank dims (R.filter fun c => c ∉ L) σ]
          (C.map dims).prod) dims C (fun τ => T (L.map τ)) (fun τ => U (R.map τ)) σ := by
  have hCL : ∀ c ∈ C, c ∈ L := fun c hc => ((hC c).1 hc).1
  have hCR : ∀ c ∈ C, c ∈ R := fun c hc => ((hC c).1 hc).2
  have kL : (L.filter fun c => c ∉ C) = L.filter fun c => c ∉ R := List.filter_congr fun c hc => by simp [hC, hc]
  have kR : (R.filter fun c => c ∉ C) = R.filter fun c => c ∉ L := List.filter_congr fun c hc => by simp [hC, hc]
  have hn : ((L.filter fun c => c ∉ C) ++ R.filter fun c => c ∉ C).Nodup := by
    rw [kL, kR, List.nodup_append]
    refine ⟨hL.filter _, hR.filter _, ?_⟩
    rintro x hx y hy rfl
    simp only [List.mem_filter, decide_eq_true_eq] at hx hy
    exact hx.2 hy.1
  have hpos : ∀ (X : List Char), X.Nodup → (∀ c ∈ C, c ∈ X) → C.map X.idxOf = C.map fun c => pos c X := by
    intro X hX hCX
    refine List.map_congr_left fun c hc => ?_
    have hlt := List.idxOf_lt_length_of_mem (hCX c hc)
    have := pos_getElem hX hlt
    rw [List.getElem_idxOf] at this
    exact this.symm
  obtain ⟨w, w1, w2⟩ := (rep_of el sl).tensordotT (rep_of er sr) hL hR hCn hCL hCR hn (.refl _) al
  rw [kL, kR] at w2
  refine ⟨w, ?_, w2⟩
  set out := (L.filter fun c => c ∉ C) ++ R.filter fun c => c ∉ C with ho
  have hord : (out.map fun c => pos c out) = List.range out.length := by
    refine List.ext_getElem (by simp) fun i h1 h2 => ?_
    simp only [List.getElem_map, List.getElem_range]
    exact pos_getElem hn _
  have p1 := (filter_append_perm_of hL hCn hCL).length_eq
  have p2 := (filter_append_perm_of hR hCn hCR).length_eq
  unfold tensordot
  have hlen : out.length = l.shape.length + r.shape.length - 2 * (C.map L.idxOf).length := by
    rw [sl, sr, ho]
    simp only [List.length_append, List.length_map] at p1 p2 ⊢
    omega
  have hle : 2 * (C.map L.idxOf).length ≤ l.shape.length + r.shape.length := by
    rw [sl, sr]
    simp only [List.length_append, List.length_map] at p1 p2 ⊢
    omega
  rw [assertThat_of (by simp), bind_ok, usub_of_le hle, bind_ok, ← hlen, sl, sr,
    hpos L hL hCL, hpos R hR hCR, fromAxisNumbers_ok hL hR hCn hCL hCR, bind_ok, ← hord]
  exact w1

theorem tensordot_holdsT {ls rs la ra : List Nat} (hl : Holds l ls T) (hr : Holds r rs U) (h : TensordotArgs ls rs la ra)
    (al : Alloc A) :
    ∃ w T', tensordot al l r la ra = .ok w ∧
      Holds w (lengths ls (kept ls.length la) ++ lengths rs (kept rs.length ra)) T' ∧
      ∀ a b, InB (lengths ls (kept ls.length la)) a → InB (lengths rs (kept rs.length ra)) b →
        T' (a ++ b) = (al.sumOrder [0, ravel (lengths ls (kept ls.length la)) a, ravel (lengths rs (kept rs.length ra)) b]
            (lengths ls la).prod).dot
          ((List.range (lengths ls la).prod).map fun x =>
            (T (place ls.length (kept ls.length la ++ la) (a ++ unravel (lengths ls la) x)),
             U (place rs.length (ra ++ kept rs.length ra) (unravel (lengths rs ra) x ++ b)))) := by
  obtain ⟨hlen, hla, hra, hal, har, hprod⟩ := h
  have pl := kept_perm hla hal
  have pr := List.perm_append_comm.trans (kept_perm hra har)
  obtain ⟨l', l1, l2⟩ := hl.permutedAxes pl
  obtain ⟨r', r1, r2⟩ := hr.permutedAxes pr
  change Holds l' (lengths ls _) _ at l2
  change Holds r' (lengths rs _) _ at r2
  rw [lengths_append] at l2 r2
  obtain ⟨t, T', t1, t2, t3⟩ := l2.fixedRunT r2 hprod.symm (al.sub 0)
  set O := lengths ls (kept ls.length la) ++ lengths rs (kept rs.length ra) with hO
  obtain ⟨p, p1, p2⟩ := t2.permutedAxes (List.Perm.refl (List.range O.length))
  obtain ⟨w, w1, w2⟩ := p2.toOwned (al.sub 1)
  have e1 : ((List.range O.length).map fun a => O.getD a 0) = O := (eq_map_range_getD O 0).symm
  rw [e1] at w2
  have n1 := pl.length_eq
  have n2 := pr.length_eq
  simp only [List.length_append, List.length_range] at n1 n2
  have hOl : O.length = ls.length + rs.length - 2 * la.length := by
    simp only [hO, List.length_append, lengths, List.length_map]
    omega
  refine ⟨w, T', ?_, w2.congr fun idx hi => ?_, fun a b ha hb => ?_⟩
  · unfold tensordot
    rw [assertThat_of (by simpa using hlen), bind_ok, hl.shape, hr.shape,
      usub_of_le (by omega), bind_ok, fromAxes_ok hlen hla hra hal har, if_pos hprod.symm, bind_ok]
    unfold TensordotGeneral.run Permutation.view Permutation.run
    rw [l1, bind_ok, r1, bind_ok, t1, bind_ok, ← hOl, p1, bind_ok, w1]
  · congr 1
    have := eq_map_unperm (List.Perm.refl (List.range O.length)) (idx := idx) hi.length_eq
    have e2 := unperm_map (List.Perm.refl (List.range O.length))
      (fun a => idx.getD (pos a (List.range O.length)) 0)
    rw [← this] at e2
    exact e2
  · rw [t3 a b ha hb]
    simp only [unperm_eq_place pl, unperm_eq_place pr]
    rfl

/-- C84: the elements of `tensordot` for any paired axes: the products, listed in row-major order of the paired axes as they
are given. -/
theorem C84_axes {la ra : List Nat} (hp : Paired l.shape r.shape la ra) (al : Alloc A) (el : Elements l T) (er : Elements r U) :
    ∃ w, tensordot al l r la ra = .ok w ∧ w.Wf ∧
      w.shape = lengths l.shape (kept l.shape.length la) ++ lengths r.shape (kept r.shape.length ra) ∧
      ∀ a b, InB (lengths l.shape (kept l.shape.length la)) a → InB (lengths r.shape (kept r.shape.length ra)) b →
        w.read (a ++ b) = .ok ((al.sumOrder [0, ravel (lengths l.shape (kept l.shape.length la)) a,
            ravel (lengths r.shape (kept r.shape.length ra)) b] (lengths l.shape la).prod).dot
          ((allIdx (lengths l.shape la)).map fun c =>
            (T (place l.shape.length (kept l.shape.length la ++ la) (a ++ c)),
             U (place r.shape.length (kept r.shape.length ra ++ ra) (b ++ c))))) := by
  obtain ⟨hlen, hla, hra, hal, har, heq⟩ := hp
  obtain ⟨w, T', w1, w2, w3⟩ := tensordot_holdsT el.holds er.holds ⟨hlen, hla, hra, hal, har, by rw [heq]⟩ al
  refine ⟨w, w1, w2.wf, w2.shape, fun a b ha hb => ?_⟩
  rw [w2.get (a ++ b) ((InB_append ha.length_eq).2 ⟨ha, hb⟩), w3 a b ha hb, allIdx_eq, List.map_map]
  congr 2
  refine List.map_congr_left fun x _ => ?_
  simp only [Function.comp]
  congr 2
  rw [← heq]
  set c := unravel (lengths l.shape la) x with hc
  have hcl : c.length = ra.length := by rw [hc, unravel_length]; simp [lengths, hlen]
  have hbl : b.length = (kept r.shape.length ra).length := by rw [hb.length_eq]; simp [lengths]
  unfold place
  refine List.map_congr_left fun i hi => ?_
  have hi' : i < r.shape.length := List.mem_range.1 hi
  by_cases hm : i ∈ ra
  · have hk : i ∉ kept r.shape.length ra := by simp [kept, hm]
    have hlt := List.idxOf_lt_length_of_mem hm
    rw [List.idxOf_append_of_mem hm, List.idxOf_append_of_notMem hk,
      getD_append_left' (by omega), getD_append_right' (by omega)]
    congr 1
    omega
  · have hk : i ∈ kept r.shape.length ra := by simp [kept, hm, hi']
    have hlt := List.idxOf_lt_length_of_mem hk
    rw [List.idxOf_append_of_mem hk, List.idxOf_append_of_notMem hm,
      getD_append_right' (by omega), getD_append_left' (by omega)]
    congr 1
    omega

/-- C84: literally `tensordot` for the positions of the contracted letters in alphabetical order, up to the order of the axes. -/
theorem C84_as_tensordot (ho : OutputOk [L, R] o) (hr : Reduced L R o) (hL : L ≠ []) (hR : R ≠ [])
    (h0 : ∀ c ∈ L, c ∈ R → c ∉ o) (C : List Char) (hs : C.Pairwise (· < ·)) (hC : ∀ c, c ∈ C ↔ c ∈ L ∧ c ∈ R)
    (h : HashOrd) (al : Alloc A) (hl : l.Wf) (hr' : r.Wf) (sl : l.shape = L.map dims) (sr : r.shape = R.map dims) :
    ∃ w w', (callSC [L, R] o dims).contractOperands h al [l, r] = .ok w ∧
      tensordot ((al.sub 0).sub 2) l r (C.map L.idxOf) (C.map R.idxOf) = .ok w' ∧
      w.shape = o.map dims ∧ w'.shape = ((L.filter fun c => c ∉ R) ++ R.filter fun c => c ∉ L).map dims ∧
      ∀ σ, InRange dims o σ → ∃ x, w.read (o.map σ) = .ok x ∧
        w'.read (((L.filter fun c => c ∉ R) ++ R.filter fun c => c ∉ L).map σ) = .ok x := by
  obtain ⟨w, w1, w2⟩ := C84_contraction ho hr hL hR h0 C hs hC h al hl.elements hr'.elements sl sr
  obtain ⟨w', w3, w4⟩ := C84_tensordot hr.left hr.right C (hs.imp fun h => ne_of_lt h) hC ((al.sub 0).sub 2)
    hl.elements hr'.elements sl sr
  refine ⟨w, w', w1, w3, w2.shape, w4.shape, fun σ hσ => ⟨_, w2.get σ hσ, w4.get σ fun c hc => hσ c ?_⟩⟩
  simp only [List.mem_append, List.mem_filter, decide_eq_true_eq] at hc
  rcases hc with hc | hc
  · exact (hr.leftNeeded c hc.1).resolve_left hc.2
  · exact (hr.rightNeeded c hc.1).resolve_left hc.2

/-- C84: some letter is in both operands and the output, and another letter is not: for the contracted letters in the order of
the left operand. -/
theorem C84_stack (ho : OutputOk [L, R] o) (hr : Reduced L R o) (h0 : ∃ c ∈ L, c ∈ R ∧ c ∈ o)
    (h1 : (∃ c ∈ L, ¬ (c ∈ R ∧ c ∈ o)) ∨ ∃ c ∈ R, ¬ (c ∈ L ∧ c ∈ o))
    (h : HashOrd) (al : Alloc A) (el : Elements l T) (er : Elements r U) (sl : l.shape = L.map dims) (sr : r.shape = R.map dims) :
    ∃ w, (callSC [L, R] o dims).contractOperands h al [l, r] = .ok w ∧
      Rep w o dims fun σ => product (al.sumOrder [0, 2, 0, rank dims (o.filter fun c => c ∈ L ∧ c ∈ R) σ,
        rank dims (o.filter fun c => c ∈ L ∧ c ∉ R) σ, rank dims (o.filter fun c => c ∉ L ∧ c ∈ R) σ]
          ((L.filter fun c => c ∉ o).map dims).prod) dims (L.filter fun c => c ∉ o)
          (fun τ => T (L.map τ)) (fun τ => U (R.map τ)) σ := by
  obtain ⟨op, e1, e2⟩ := reduced_run (dims := dims) ho hr
  obtain ⟨a, ha, ha', ha''⟩ := h0
  have f1 : ¬ ((∀ c ∈ L, c ∈ R ∨ c ∈ o → c ∈ R ∧ c ∈ o) ∧ (∀ c ∈ R, c ∈ L ∨ c ∈ o → c ∈ L ∧ c ∈ o)) := by
    rintro ⟨g, g'⟩
    rcases h1 with ⟨c, hc, hc'⟩ | ⟨c, hc, hc'⟩
    · exact hc' (g c hc (hr.leftNeeded c hc))
    · exact hc' (g' c hc (hr.rightNeeded c hc))
  have f2 : ¬ ∀ c ∈ L, c ∉ R ∧ c ∉ o := fun g => (g a ha).1 ha'
  have f3 : ¬ ∀ c ∈ R, c ∉ L ∧ c ∉ o := fun g => (g a ha').1 ha
  have f4 : ¬ ∀ c ∈ L, c ∈ R → c ∉ o := fun g => g a ha ha' ha''
  rw [pairMethod, if_neg f1, if_neg f2, if_neg f3, if_neg f4] at e1
  obtain ⟨S, X, Y, C, ⟨hS, hX, hY, hC⟩, ⟨pL, pR, po, hn, nC⟩, hnew⟩ := stackedGeneral_new (callSC_valid (dims := dims) ho) rfl
    hr.left hr.right hr.leftNeeded hr.rightNeeded
  change S = o.filter _ at hS
  change X = o.filter _ at hX
  change Y = o.filter _ at hY
  change C = L.filter (fun c => c ∉ o) at hC
  rw [hnew] at e1
  cases e1
  obtain ⟨w, w1, w2⟩ := (rep_of el sl).stackedT (rep_of er sr) hr.left hr.right pL pR po hn ((al.sub 0).sub 2)
  rw [hS, hX, hY, hC] at w2
  refine ⟨w, ?_, w2⟩
  rw [e2 A]
  exact w1

/-- C84: if the order of additions depends on their number only, then literally `tensordot` of the subarrays for the values of
the shared letters of the output, for the contracted letters in the order of the left operand. -/
theorem C84_slice (ho : OutputOk [L, R] o) (hr : Reduced L R o) (h0 : ∃ c ∈ L, c ∈ R ∧ c ∈ o)
    (h1 : (∃ c ∈ L, ¬ (c ∈ R ∧ c ∈ o)) ∨ ∃ c ∈ R, ¬ (c ∈ L ∧ c ∈ o)) (h : HashOrd) (al al' : Alloc A) (t : Nat → SumTree)
    (ht : ∀ p n, al.sumOrder p n = t n) (ht' : ∀ p n, al'.sumOrder p n = t n)
    (el : Elements l T) (er : Elements r U) (sl : l.shape = L.map dims) (sr : r.shape = R.map dims)
    (L' R' : List Char) (hL' : L' = L.filter fun c => ¬ (c ∈ R ∧ c ∈ o)) (hR' : R' = R.filter fun c => ¬ (c ∈ L ∧ c ∈ o))
    (σ : Char → Nat) (hσ : InRange dims o σ) (l' r' : View A) (wl : l'.Wf) (wr : r'.Wf)
    (sl' : l'.shape = L'.map dims) (sr' : r'.shape = R'.map dims)
    (el' : ∀ τ, InRange dims L' τ → l'.read (L'.map τ) = .ok (T (L.map fun c => if c ∈ L' then τ c else σ c)))
    (er' : ∀ τ, InRange dims R' τ → r'.read (R'.map τ) = .ok (U (R.map fun c => if c ∈ R' then τ c else σ c))) :
    ∃ w w', (callSC [L, R] o dims).contractOperands h al [l, r] = .ok w ∧
      tensordot al' l' r' ((L.filter fun c => c ∉ o).map L'.idxOf) ((L.filter fun c => c ∉ o).map R'.idxOf) = .ok w' ∧
      ∃ x, w.read (o.map σ) = .ok x ∧
        w'.read (((L'.filter fun c => c ∉ R') ++ R'.filter fun c => c ∉ L').map σ) = .ok x := by
  set C := L.filter fun c => c ∉ o with hC
  have mC : ∀ c, c ∈ C ↔ c ∈ L ∧ c ∉ o := fun c => by simp [hC]
  have mL : ∀ c, c ∈ L' ↔ c ∈ L ∧ ¬ (c ∈ R ∧ c ∈ o) := fun c => by
    rw [hL', List.mem_filter, decide_eq_true_eq]
  have mR : ∀ c, c ∈ R' ↔ c ∈ R ∧ ¬ (c ∈ L ∧ c ∈ o) := fun c => by
    rw [hR', List.mem_filter, decide_eq_true_eq]
  have nC : C.Nodup := hr.left.filter _
  obtain ⟨w, w1, w2⟩ := C84_stack ho hr h0 h1 h al el er sl sr
  obtain ⟨w', w3, w4⟩ := C84_tensordot (dims := dims) (L := L') (R := R') (hL' ▸ hr.left.filter _) (hR' ▸ hr.right.filter _) C nC
    (fun c => by
      rw [mC, mL, mR]
      have := hr.leftNeeded c
      tauto) al' wl.elements wr.elements sl' sr'
  refine ⟨w, w', w1, w3, _, w2.get σ hσ, ?_⟩
  rw [w4.get σ fun c hc => hσ c (by
    simp only [List.mem_append, List.mem_filter, decide_eq_true_eq, mL, mR] at hc
    have := hr.leftNeeded c
    have := hr.rightNeeded c
    tauto), ht, ht']
  congr 1
  unfold product
  congr 1
  refine List.map_congr_left fun σ' hσ' => ?_
  obtain ⟨g1, g2⟩ := mem_cells hσ' nC
  have rL : InRange dims L' σ' := fun c hc => by
    by_cases hc' : c ∈ C
    · exact g2 c hc'
    · rw [g1 c hc']
      exact hσ c (by rw [mC] at hc'; rw [mL] at hc; tauto)
  have rR : InRange dims R' σ' := fun c hc => by
    by_cases hc' : c ∈ C
    · exact g2 c hc'
    · rw [g1 c hc']
      exact hσ c (by rw [mC] at hc'; rw [mR] at hc; have := hr.rightNeeded c; tauto)
  have a1 := el' σ' rL
  have a2 := er' σ' rR
  rw [(rep_of wl.elements sl').get σ' rL] at a1
  rw [(rep_of wr.elements sr').get σ' rR] at a2
  beta_reduce
  rw [Except.ok.inj a1, Except.ok.inj a2]
  congr 2
  · refine List.map_congr_left fun c hc => ?_
    split
    · rfl
    · refine (g1 c ?_).symm
      rw [mC]
      rw [mL] at *
      tauto
  · refine List.map_congr_left fun c hc => ?_
    split
    · rfl
    · refine (g1 c ?_).symm
      rw [mC]
      rw [mR] at *
      tauto

/-- C84: `einsum` of a string is the call for the letters it denotes. -/
theorem C84_einsum {inputs : List (List Char)} {out : List Char} {s : String} {operands : List (View A)}
    (hd : Denotes s inputs out) (hs : Sized dims inputs (operands.map View.shape)) (h : HashOrd) (al : Alloc A) :
    einsum h al s operands = ((callSC inputs out dims).contractOperands (h.sub 1) al operands).map .ok := by
  unfold einsum
  rw [validateAndSize_ok _ hd hs]
  show (do let r ← (callSC inputs out dims).contractOperands (h.sub 1) al operands; return Except.ok r) = _
  cases (callSC inputs out dims).contractOperands (h.sub 1) al operands <;> rfl

/-! ## Examples -/

namespace Ex

/-- Sizes for `zba,zba->z`. -/
def dz : Char → Nat := fun c => if c = 'z' then 1 else 2

/-- The elements `1, 1 + 2⁻⁵², -1, 0` in a batch of one matrix. -/
def big3 : View Fl := ⟨[⟨1⟩, ⟨1 + 2⁻¹ ^ 52⟩, ⟨-1⟩, ⟨0⟩], 0, [1, 2, 2], [4, 2, 1]⟩

/-- The same matrix alone. -/
def big2 : View Fl := ⟨[⟨1⟩, ⟨1 + 2⁻¹ ^ 52⟩, ⟨-1⟩, ⟨0⟩], 0, [2, 2], [2, 1]⟩

def ones3 : View Fl := ⟨[⟨1⟩, ⟨1⟩, ⟨1⟩, ⟨1⟩], 0, [1, 2, 2], [4, 2, 1]⟩

def ones2 : View Fl := ⟨[⟨1⟩, ⟨1⟩, ⟨1⟩, ⟨1⟩], 0, [2, 2], [2, 1]⟩

theorem den_zba : Denotes "zba,zba->z" [['z', 'b', 'a'], ['z', 'b', 'a']] ['z'] :=
  .inl ⟨by decide, ⟨by simp, by simp [Letter], by simp [Letter]⟩, by simp [OutputOk, Used]⟩

theorem den_ba : Denotes "ba,ba->" [['b', 'a'], ['b', 'a']] [] :=
  .inl ⟨by decide, ⟨by simp, by simp [Letter], by simp [Letter]⟩, by simp [OutputOk, Used]⟩

theorem red_zba : Reduced ['z', 'b', 'a'] ['z', 'b', 'a'] ['z'] := ⟨by decide, by decide, by decide, by decide⟩

theorem red_ba : Reduced ['b', 'a'] ['b', 'a'] [] := ⟨by decide, by decide, by decide, by decide⟩

end Ex

/-- C84: a batch need not be bit for bit the contractions made one by one: with the elements `1, 1 + 2⁻⁵², -1, 0` multiplied
by ones, the sum is `1 + 2⁻⁵¹` in a batch of one and `1 + 2⁻⁵²` alone. -/
theorem C84_batch_differs (h : HashOrd) : ∃ r r', einsum h (Alloc.rowMajor Fl) "zba,zba->z" [Ex.big3, Ex.ones3] = .ok (.ok r) ∧
    r.read [0] = .ok ⟨1 + 2⁻¹ ^ 51⟩ ∧ einsum h (Alloc.rowMajor Fl) "ba,ba->" [Ex.big2, Ex.ones2] = .ok (.ok r') ∧
    r'.read [] = .ok ⟨1 + 2⁻¹ ^ 52⟩ := by
  have w1 : Ex.big3.Wf := (elements_of (t := Ex.big3.elem) rfl (by decide +kernel)).1
  have w2 : Ex.ones3.Wf := (elements_of (t := Ex.ones3.elem) rfl (by decide +kernel)).1
  have w3 : Ex.big2.Wf := (elements_of (t := Ex.big2.elem) rfl (by decide +kernel)).1
  have w4 : Ex.ones2.Wf := (elements_of (t := Ex.ones2.elem) rfl (by decide +kernel)).1
  obtain ⟨r, r1, r2⟩ := C84_stack (dims := Ex.dz) Ex.den_zba.outputOk Ex.red_zba ⟨'z', by decide⟩ (.inl ⟨'b', by decide⟩) (h.sub 1)
    (Alloc.rowMajor Fl) w1.elements w2.elements rfl rfl
  obtain ⟨r', r3, r4⟩ := C84_contraction (dims := Ex.dz) Ex.den_ba.outputOk Ex.red_ba (by simp) (by simp) (by simp) ['a', 'b']
    (by decide) (by simp; tauto) (h.sub 1) (Alloc.rowMajor Fl) w3.elements w4.elements rfl rfl
  refine ⟨r, r', ?_, ?_, ?_, ?_⟩
  · rw [C84_einsum (operands := [Ex.big3, Ex.ones3]) Ex.den_zba (dims := Ex.dz) (.cons rfl (.cons rfl .nil)), r1]
    rfl
  · rw [← show ['z'].map (fun _ => 0) = [0] from rfl, r2.get (fun _ => 0) (by simp [InRange, Ex.dz])]
    congr 1
    decide +kernel
  · rw [C84_einsum (operands := [Ex.big2, Ex.ones2]) Ex.den_ba (dims := Ex.dz) (.cons rfl (.cons rfl .nil)), r3]
    rfl
  · rw [← show ([] : List Char).map (fun _ => 0) = [] from rfl, r4.get (fun _ => 0) (by simp [InRange])]
    congr 1
    decide +kernel

/-- `iij,jk->k`: the left operand is first reduced to the letter `j`; then a matrix-vector product. -/
example (h k : HashOrd) (al : Alloc Int) (l r : View Int) (c : PairContraction)
    (hc : PairContraction.new k (callSC [['i', 'i', 'j'], ['j', 'k']] ['k'] Ex.dims) = .ok c) :
    ∃ c', PairContraction.new k (callSC [['j'], ['j', 'k']] ['k'] Ex.dims) = .ok c' ∧
      c.run al l r = (do
        let l' ← (callSC [['i', 'i', 'j']] ['j'] Ex.dims).contractOperands h (al.sub 0) [l]
        c'.run al l' r) := by
  obtain ⟨L', R', c', a1, a2, a3, b1, b2, b3, -, hc', -, -, -, -, hrun⟩ := C84_pair (by simp [OutputOk, Used]) k c hc
  have eL : L' = ['j'] := by
    refine List.perm_singleton.1 (perm_of_nodup a1 (by simp) fun x => ?_)
    rw [a2]
    simp only [List.mem_cons, List.not_mem_nil, or_false]
    constructor
    · rintro ⟨rfl | rfl | rfl, h | h⟩ <;> simp_all
    · rintro rfl
      simp
  have eR : R' = ['j', 'k'] := b3 (by decide)
  subst eL eR
  refine ⟨c', hc', ?_⟩
  rw [hrun Int h, if_pos (by decide)]
  simp only [show ¬ NeedsSimplification ['j', 'k'] ['i', 'i', 'j'] ['k'] by decide, if_false]
  rfl

/-- `ij,ji->ij`: an elementwise product. -/
example (h : HashOrd) (al : Alloc Int) : ∃ w,
    (callSC [['i', 'j'], ['j', 'i']] ['i', 'j'] Ex.dims).contractOperands h al [Ex.m23, Ex.m32'] = .ok w ∧
      Rep w ['i', 'j'] Ex.dims fun σ => Ex.elems Ex.m23 [σ 'i', σ 'j'] * Ex.elems Ex.m32' [σ 'j', σ 'i'] :=
  C84_product (by simp [OutputOk, Used]) ⟨by decide, by decide, by decide, by decide⟩ (by decide) (by decide) h al Ex.e23 Ex.e32'
    (by decide) (by decide)

/-- A number times a matrix, as after all letters of the left operand have been summed: the matrix is the left factor. -/
example (h : HashOrd) (al : Alloc Int) : ∃ w,
    (callSC [[], ['i', 'j']] ['j', 'i'] Ex.dims).contractOperands h al [⟨[7], 0, [], []⟩, Ex.m23] = .ok w ∧
      Rep w ['j', 'i'] Ex.dims fun σ => Ex.elems Ex.m23 [σ 'i', σ 'j'] * 7 :=
  C84_scalar_left (T := fun _ => 7) (by simp [OutputOk, Used]) ⟨by decide, by decide, by decide, by decide⟩ (by decide) h al
    (elements_of rfl (by decide)) Ex.e23 rfl (by decide)

example (h : HashOrd) (al : Alloc Int) : ∃ w,
    (callSC [['i', 'j'], []] ['j', 'i'] Ex.dims).contractOperands h al [Ex.m23, ⟨[7], 0, [], []⟩] = .ok w ∧
      Rep w ['j', 'i'] Ex.dims fun σ => Ex.elems Ex.m23 [σ 'i', σ 'j'] * 7 :=
  C84_scalar_right (U := fun _ => 7) (by simp [OutputOk, Used]) ⟨by decide, by decide, by decide, by decide⟩ (by decide) h al
    Ex.e23 (elements_of rfl (by decide)) (by decide) rfl

/-- `ij,jk->ki` is `tensordot` for the axes 1 and 0, transposed. -/
example (h : HashOrd) (al : Alloc Int) : ∃ w w',
    (callSC [['i', 'j'], ['j', 'k']] ['k', 'i'] Ex.dims).contractOperands h al [Ex.m23, Ex.m32] = .ok w ∧
      tensordot ((al.sub 0).sub 2) Ex.m23 Ex.m32 [1] [0] = .ok w' ∧
      ∀ σ, InRange Ex.dims ['k', 'i'] σ → ∃ x, w.read [σ 'k', σ 'i'] = .ok x ∧ w'.read [σ 'i', σ 'k'] = .ok x := by
  obtain ⟨w, w', h1, h2, -, -, h3⟩ := C84_as_tensordot (dims := Ex.dims) (L := ['i', 'j']) (R := ['j', 'k']) (o := ['k', 'i'])
    (by simp [OutputOk, Used]) ⟨by decide, by decide, by decide, by decide⟩ (by simp) (by simp) (by decide) ['j'] (by decide)
    (by simp only [List.mem_cons, List.not_mem_nil, or_false]
        intro c
        constructor
        · rintro rfl; simp
        · rintro ⟨rfl | rfl, h | h⟩ <;> simp_all) h al Ex.e23.1 Ex.e32.1 (by decide) (by decide)
  exact ⟨w, w', h1, h2, h3⟩

/-- `zba,zba->z`: the element is `tensordot` of the only matrices, for the axes `b` and `a` in this order. -/
example (h : HashOrd) : ∃ w w',
    (callSC [['z', 'b', 'a'], ['z', 'b', 'a']] ['z'] Ex.dz).contractOperands h (Alloc.rowMajor Fl) [Ex.big3, Ex.ones3] = .ok w ∧
      tensordot (Alloc.rowMajor Fl) Ex.big2 Ex.ones2 [0, 1] [0, 1] = .ok w' ∧
      ∃ x, w.read [0] = .ok x ∧ w'.read [] = .ok x := by
  have w3 : Ex.big2.Wf := (elements_of (t := Ex.big2.elem) rfl (by decide +kernel)).1
  have w4 : Ex.ones2.Wf := (elements_of (t := Ex.ones2.elem) rfl (by decide +kernel)).1
  have key : ∀ τ : Char → Nat, InRange Ex.dz ['b', 'a'] τ →
      [τ 'b', τ 'a'] ∈ [[0, 0], [0, 1], [1, 0], [1, 1]] := by
    intro τ hτ
    have h1 : τ 'b' < 2 := hτ 'b' (by simp)
    have h2 : τ 'a' < 2 := hτ 'a' (by simp)
    generalize τ 'b' = x at *
    generalize τ 'a' = y at *
    obtain rfl | rfl : x = 0 ∨ x = 1 := by omega
    all_goals obtain rfl | rfl : y = 0 ∨ y = 1 := by omega
    all_goals simp
  exact C84_slice (dims := Ex.dz) (T := Ex.big3.elem) (U := Ex.ones3.elem) Ex.den_zba.outputOk Ex.red_zba ⟨'z', by decide⟩
    (.inl ⟨'b', by decide⟩) h (Alloc.rowMajor Fl) (Alloc.rowMajor Fl) (fun n => SumTree.sequential n) (fun _ _ => rfl) (fun _ _ => rfl)
    (elements_of rfl (by decide +kernel)) (elements_of rfl (by decide +kernel)) rfl rfl ['b', 'a'] ['b', 'a'] (by decide) (by decide)
    (fun _ => 0) (by simp [InRange, Ex.dz]) Ex.big2 Ex.ones2 w3 w4 rfl rfl
    (fun τ hτ => by
      have := key τ hτ
      show Ex.big2.read [τ 'b', τ 'a'] = .ok (Ex.big3.elem [0, τ 'b', τ 'a'])
      revert this
      generalize [τ 'b', τ 'a'] = p
      revert p
      decide +kernel)
    (fun τ hτ => by
      have := key τ hτ
      show Ex.ones2.read [τ 'b', τ 'a'] = .ok (Ex.ones3.elem [0, τ 'b', τ 'a'])
      revert this
      generalize [τ 'b', τ 'a'] = p
      revert p
      decide +kernel)

/-- The indices of the last axis of the left operand, which is paired first, vary slowest. -/
example : ∃ w, tensordot (Alloc.rowMajor (Expr Int)) (Ex.m332.map Expr.var) (Ex.m32.map Expr.var) [2, 1] [1, 0] = .ok w ∧
    w.shape = [3] ∧ w.read [1] = .ok ((SumTree.sequential 6).dot [(.var 1, .var 6), (.var 3, .var 4), (.var 5, .var 2),
      (.var 2, .var 5), (.var 4, .var 3), (.var 6, .var 1)]) := by
  obtain ⟨w, h1, -, h2, h3⟩ := C84_axes (l := Ex.m332.map Expr.var) (r := Ex.m32.map Expr.var) Ex.paired
    (Alloc.rowMajor (Expr Int)) (Ex.e332.map Expr.var) (Ex.e32.map Expr.var)
  exact ⟨w, h1, h2, h3 [1] [] (by decide) (by decide)⟩

end Einsum
