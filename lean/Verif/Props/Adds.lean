import Verif.SpecAdds
import Verif.Props.Depth

/-!
# The number of additions: C88
-/

namespace Einsum

open Spec Function

/-! ## Counting what a path does -/

/-- `contract_pair` (`PairContraction.run`), on elements that count the additions of each simplification and of the
contraction. -/
def PairContraction.tally {A : Type} [Zero A] [Add A] [Mul A] [MulAdd A] (c : PairContraction) (al : Alloc (Tallied A))
    (l r : View A) : M (Nat × View A) := do
  let l' ← simplifyOperand (al.sub 0) c.lhsSimplification (l.map Tallied.fresh)
  let r' ← simplifyOperand (al.sub 1) c.rhsSimplification (r.map Tallied.fresh)
  let xs ← l'.toVec
  let ys ← r'.toVec
  let w ← c.op.run (al.sub 2) ((l'.map Tallied.val).map Tallied.fresh) ((r'.map Tallied.val).map Tallied.fresh)
  let zs ← w.toVec
  return ((xs.map Tallied.adds).sum + (ys.map Tallied.adds).sum + (zs.map Tallied.adds).sum, w.map Tallied.val)

/-- The loop of `contract_operands` (`runSteps`), counting the additions of each step. -/
def tallySteps {A : Type} [Zero A] [Add A] [Mul A] [MulAdd A] (al : Alloc (Tallied A)) (operands : List (View A)) :
    List (PairContraction × PairStep) → List (View A) → M Nat
  | [], _ => .ok 0
  | (step, orderStep) :: rest, inter => do
    let lhs ← fetch operands inter orderStep.operandNums.lhs
    let rhs ← fetch operands inter orderStep.operandNums.rhs
    let w ← step.tally (al.sub 0) lhs rhs
    let n ← tallySteps (al.sub 1) operands rest (inter ++ [w.2])
    return w.1 + n

/-- The number of additions made by `contract_operands`. -/
def EinsumPath.countAdds {A : Type} [Zero A] [Add A] [Mul A] [MulAdd A] (p : EinsumPath) (al : Alloc (Tallied A))
    (operands : List (View A)) : M Nat :=
  match p.steps, p.contractionOrder with
  | .singletonContraction c, .singleton _ => do
    let t ← index operands 0
    let r ← c.run al (t.map Tallied.fresh)
    let xs ← r.toVec
    return (xs.map Tallied.adds).sum
  | .pairContractions steps, .pairs orderSteps => tallySteps al operands (steps.zip orderSteps) []
  | _, _ => panic .explicit

/-! ## Trees -/

theorem additions_ge (t : SumTree) : t.leaves.length - 1 ≤ additions t := by
  induction t with
  | zero => simp [additions, SumTree.leaves]
  | leaf i => simp [additions, SumTree.leaves]
  | add l r ihl ihr =>
    simp only [additions, SumTree.leaves, List.length_append]
    omega
  | fused i t ih =>
    simp only [additions, SumTree.leaves, List.length_cons]
    omega

section
variable {A : Type} [Zero A] [Add A] [Mul A] [MulAdd A] {L R o : List Char} {dims : Char → Nat}
  {F G : (Char → Nat) → Tallied A} {a : Nat → Nat}

omit [Mul A] [MulAdd A] in
theorem sum_adds {xs : List (Tallied A)} {m : Nat} (h : ∀ x ∈ xs, x.adds = m) (t : SumTree)
    (ht : ∀ i ∈ t.leaves, i < xs.length) : (t.sum xs).adds = t.leaves.length * m + additions t := by
  have hg : ∀ i < xs.length, (xs.getD i 0).adds = m := fun i hi => by
    rw [List.getD_eq_getElem?_getD, List.getElem?_eq_getElem hi]
    exact h _ (List.getElem_mem hi)
  induction t with
  | zero => simp [SumTree.sum, additions, SumTree.leaves]; rfl
  | leaf i => simpa [SumTree.sum, additions, SumTree.leaves] using hg i (ht i (by simp [SumTree.leaves]))
  | add l r ihl ihr =>
    have h1 := ihl fun i hi => ht i (by simp [SumTree.leaves, hi])
    have h2 := ihr fun i hi => ht i (by simp [SumTree.leaves, hi])
    change (l.sum xs).adds + (r.sum xs).adds + 1 = _
    simp only [additions, SumTree.leaves, List.length_append, h1, h2]
    ring
  | fused i t ih =>
    have h1 := hg i (ht i (by simp [SumTree.leaves]))
    have h2 := ih fun i hi => ht i (by simp [SumTree.leaves, hi])
    change (xs.getD i 0).adds + (t.sum xs).adds + 1 = _
    simp only [additions, SumTree.leaves, List.length_cons, h1, h2]
    ring

theorem dot_adds {ps : List (Tallied A × Tallied A)} (h : ∀ p ∈ ps, p.1.adds = 0 ∧ p.2.adds = 0) (t : SumTree) :
    (t.dot ps).adds = additions t := by
  have hg : ∀ i, (ps.getD i (0, 0)).1.adds = 0 ∧ (ps.getD i (0, 0)).2.adds = 0 := fun i => by
    rw [List.getD_eq_getElem?_getD]
    cases e : ps[i]? with
    | none => exact ⟨rfl, rfl⟩
    | some x => exact h x (List.mem_of_getElem? e)
  induction t with
  | zero => rfl
  | leaf i =>
    change (ps.getD i (0, 0)).1.adds + (ps.getD i (0, 0)).2.adds = 0
    rw [(hg i).1, (hg i).2]
  | add l r ihl ihr =>
    change (l.dot ps).adds + (r.dot ps).adds + 1 = _
    rw [ihl, ihr]
    rfl
  | fused i t ih =>
    change (ps.getD i (0, 0)).1.adds + (ps.getD i (0, 0)).2.adds + (t.dot ps).adds + 1 = _
    rw [(hg i).1, (hg i).2, ih]
    simp [additions]

/-! ## Arrays whose elements have the same tally -/

/-- The additions behind an element, if each letter is summed in turn. -/
def tallyOf (a : Nat → Nat) (dims : Char → Nat) : List Char → Nat → Nat
  | [], m => m
  | c :: b, m => tallyOf a dims b (dims c * m + a (dims c))

omit A F G in
theorem tallyOf_eq (keep b : List Char) (m : Nat) :
    (keep.map dims).prod * tallyOf a dims b m = ((keep ++ b).map dims).prod * m + sumAdds a dims keep b := by
  induction b generalizing m with
  | nil => simp [tallyOf, sumAdds]
  | cons c b ih =>
    rw [tallyOf, ih, sumAdds]
    simp only [List.map_append, List.map_cons, List.prod_append, List.prod_cons]
    ring

omit [Mul A] [MulAdd A] in
theorem sums_adds {keep b : List Char} {al : Alloc (Tallied A)} (ha : ∀ p n, additions (al.sumOrder p n) = a n) {m : Nat}
    (h : ∀ σ, InRange dims (keep ++ b) σ → (F σ).adds = m) (σ : Char → Nat) (hσ : InRange dims keep σ) :
    (sums dims keep b al F σ).adds = tallyOf a dims b m := by
  induction b generalizing al F m with
  | nil => exact h σ (by simpa using hσ)
  | cons c b ih =>
    refine ih (al := al.sub 1) (fun p n => ha (1 :: p) n) fun τ hτ => ?_
    have hp := al.sumOrder_perm (0 :: (keep ++ b).map τ) (dims c)
    rw [sum_adds (m := m) ?_ _ (fun i hi => by simpa using hp.mem_iff.1 hi), ha, hp.length_eq, List.length_range]
    intro x hx
    obtain ⟨i, hi, rfl⟩ := List.mem_map.1 hx
    refine h _ fun e he => ?_
    by_cases hec : e = c
    · subst hec
      rw [update_self]
      exact List.mem_range.1 hi
    · rw [update_of_ne hec]
      refine hτ e ?_
      simp only [List.mem_append, List.mem_cons] at he ⊢
      tauto

omit [Zero A] [Add A] [Mul A] [MulAdd A] in
theorem total_adds {w : View (Tallied A)} (hn : o.Nodup) (hw : Rep w o dims F) {n : Nat}
    (hF : ∀ σ, InRange dims o σ → (F σ).adds = n) :
    ∃ xs, w.toVec = .ok xs ∧ (xs.map Tallied.adds).sum = (o.map dims).prod * n := by
  have hT := hw.holds hn
  have hg : ∀ idx ∈ allIdx w.shape, w.read idx = .ok (F (assign o idx)) := fun idx hi => by
    rw [hw.shape] at hi
    exact hT.get idx (mem_allIdx.1 hi)
  refine ⟨_, mapE_ok hg, ?_⟩
  rw [List.map_map, List.sum_eq_card_nsmul _ n, List.length_map, allIdx_length, hw.shape, smul_eq_mul]
  intro x hx
  obtain ⟨idx, hi, rfl⟩ := List.mem_map.1 hx
  rw [hw.shape] at hi
  obtain ⟨σ, hσ, rfl⟩ := exists_assign hn (mem_allIdx.1 hi)
  exact (congrArg Tallied.adds (hw.agree_assign hσ)).trans (hF σ hσ)

omit [Zero A] [Add A] [Mul A] [MulAdd A] in
theorem rep_fresh {v : View A} {f : (Char → Nat) → A} (h : Rep v L dims f) :
    Rep (v.map Tallied.fresh) L dims fun σ => Tallied.fresh (f σ) := by
  refine ⟨by rw [View.map_shape, h.shape], by simpa using h.strides, fun σ hσ => ?_⟩
  rw [View.read_map, h.get σ hσ]
  rfl

omit [Zero A] [Add A] [Mul A] [MulAdd A] in
theorem rep_val {v : View (Tallied A)} (h : Rep v L dims F) : Rep (v.map Tallied.val) L dims fun σ => (F σ).val := by
  refine ⟨by rw [View.map_shape, h.shape], by simpa using h.strides, fun σ hσ => ?_⟩
  rw [View.read_map, h.get σ hσ]
  rfl

/-! ## One operand -/

theorem one_adds (ho : OutputOk [L] o) (hp : L.Nodup ∨ ∀ c ∈ L, dims c ≠ 0) (h : HashOrd) {al : Alloc (Tallied A)}
    (ha : ∀ p n, additions (al.sumOrder p n) = a n) {v : View (Tallied A)} (hv : Rep v L dims F) (wv : v.Wf)
    (hF : ∀ σ, InRange dims L σ → (F σ).adds = 0) :
    ∃ w H xs, (callSC [L] o dims).contractOperands h al [v] = .ok w ∧ Rep w o dims H ∧ w.toVec = .ok xs ∧
      (xs.map Tallied.adds).sum = sumAdds a dims o (fresh o L) := by
  obtain ⟨p, p1, p2⟩ := singletonT (callSC_valid (dims := dims) ho) (L := L) rfl
  obtain ⟨w, w1, w2⟩ := p2 (Tallied A) al v _ hv wv (hp.imp_right prod_dims_pos)
  obtain ⟨xs, x1, x2⟩ := total_adds ho.1 w2 (n := tallyOf a dims (fresh o L) 0) fun σ hσ =>
    sums_adds (by split <;> intro p n <;> simp [Alloc.sub, ha]) (fun τ hτ => hF τ fun c hc => hτ c (by
      rw [List.mem_append]
      exact (em (c ∈ o)).imp_right fun hco => mem_fresh.2 ⟨hc, hco⟩)) σ hσ
  refine ⟨w, _, xs, by rw [one_run ho p1, w1], w2, x1, x2.trans ?_⟩
  rw [tallyOf_eq, mul_zero, zero_add]

/-! ## Two operands -/

theorem product_adds {t : SumTree} {C : List Char} {σ : Char → Nat} (hn : C.Nodup)
    (h : ∀ τ, (∀ c ∈ C, τ c < dims c) → (∀ c, c ∉ C → τ c = σ c) → (F τ).adds = 0 ∧ (G τ).adds = 0) :
    (product t dims C F G σ).adds = additions t := by
  refine dot_adds (fun p hp => ?_) t
  obtain ⟨τ, hτ, rfl⟩ := List.mem_map.1 hp
  obtain ⟨h1, h2⟩ := mem_cells hτ hn
  exact h τ h2 h1

theorem reduced_adds (ho : OutputOk [L, R] o) (hr : Reduced L R o) (h : HashOrd) {al : Alloc (Tallied A)}
    (ha : ∀ p n, additions (al.sumOrder p n) = a n) {l r : View (Tallied A)} (hl : Rep l L dims F) (hr' : Rep r R dims G)
    (hF : ∀ σ, InRange dims L σ → (F σ).adds = 0) (hG : ∀ σ, InRange dims R σ → (G σ).adds = 0) :
    ∃ w H, (callSC [L, R] o dims).contractOperands h al [l, r] = .ok w ∧ Rep w o dims H ∧
      ∀ σ, InRange dims o σ → (H σ).adds =
        if (∀ c ∈ L ++ R, c ∈ L ∧ c ∈ R ∧ c ∈ o) ∨ L = [] ∨ R = [] then 0
        else a ((L.filter fun c => c ∉ o).map dims).prod := by
  have el := (hl.holds hr.left).elements
  have er := (hr'.holds hr.right).elements
  have aL : ∀ σ, InRange dims L σ → (F (assign L (L.map σ))).adds = 0 := fun σ hσ => by
    rw [hl.agree_assign hσ]; exact hF σ hσ
  have aR : ∀ σ, InRange dims R σ → (G (assign R (R.map σ))).adds = 0 := fun σ hσ => by
    rw [hr'.agree_assign hσ]; exact hG σ hσ
  have mul : ∀ x y : Tallied A, x.adds = 0 → y.adds = 0 → (x * y).adds = 0 := fun x y hx hy => by
    change x.adds + y.adds = 0
    omega
  -- the products for a list of contracted letters
  have fin : ∀ {C : List Char} {t : SumTree} {σ : Char → Nat}, C.Nodup → (∀ c, c ∈ C ↔ c ∈ L.filter fun c => c ∉ o) →
      additions t = a (C.map dims).prod → InRange dims o σ →
      (product t dims C (fun τ => F (assign L (L.map τ))) (fun τ => G (assign R (R.map τ))) σ).adds =
        a ((L.filter fun c => c ∉ o).map dims).prod := by
    intro C t σ hn hC ht hσ
    rw [← prod_of_mem hn (hr.left.filter _) hC, ← ht]
    refine product_adds hn fun τ t1 t2 => ?_
    have hτ : ∀ c, (c ∈ o ∨ c ∈ C) → τ c < dims c := by
      intro c hc
      by_cases hcC : c ∈ C
      · exact t1 c hcC
      · rw [t2 c hcC]
        exact hσ c (hc.resolve_right hcC)
    refine ⟨aL τ fun c hc => hτ c ?_, aR τ fun c hc => hτ c ?_⟩
    · rw [hC]
      exact (em (c ∈ o)).imp_right fun hco => List.mem_filter.2 ⟨hc, by simpa using hco⟩
    · rw [hC]
      exact (em (c ∈ o)).imp_right fun hco => List.mem_filter.2 ⟨(hr.rightNeeded c hc).resolve_right hco, by simpa using hco⟩
  by_cases c1 : ∀ c ∈ L ++ R, c ∈ L ∧ c ∈ R ∧ c ∈ o
  · have hL : ∀ c ∈ L, c ∈ R ∧ c ∈ o := fun c hc => (c1 c (by simp [hc])).2
    have hR : ∀ c ∈ R, c ∈ L ∧ c ∈ o := fun c hc => by
      have := c1 c (by simp [hc])
      exact ⟨this.1, this.2.2⟩
    obtain ⟨w, w1, w2⟩ := C84_product ho hr hL hR h al el er hl.shape hr'.shape
    refine ⟨w, _, w1, w2, fun σ hσ => ?_⟩
    rw [if_pos (.inl c1)]
    exact mul _ _ (aL σ fun c hc => hσ c (hL c hc).2) (aR σ fun c hc => hσ c (hR c hc).2)
  by_cases c2 : L = []
  · subst c2
    have c3 : R ≠ [] := by rintro rfl; simp at c1
    obtain ⟨w, w1, w2⟩ := C84_scalar_left ho hr c3 h al el er hl.shape hr'.shape
    refine ⟨w, _, w1, w2, fun σ hσ => ?_⟩
    rw [if_pos (.inr (.inl rfl))]
    exact mul _ _ (aR σ fun c hc => hσ c ((hr.rightNeeded c hc).resolve_left (by simp))) (aL σ (by simp [InRange]))
  by_cases c3 : R = []
  · subst c3
    obtain ⟨w, w1, w2⟩ := C84_scalar_right ho hr c2 h al el er hl.shape hr'.shape
    refine ⟨w, _, w1, w2, fun σ hσ => ?_⟩
    rw [if_pos (.inr (.inr rfl))]
    exact mul _ _ (aL σ fun c hc => hσ c ((hr.leftNeeded c hc).resolve_left (by simp))) (aR σ (by simp [InRange]))
  rw [if_neg (by tauto)]
  by_cases c4 : ∀ c ∈ L, c ∈ R → c ∉ o
  · obtain ⟨C, C1, C2⟩ : ∃ C : List Char, C.Pairwise (· < ·) ∧ ∀ c, c ∈ C ↔ c ∈ L ∧ c ∈ R := by
      obtain ⟨D, ⟨d1, d2, d3, d4, d5, d6, d7⟩, -⟩ := tensordotGeneral_new (callSC_valid (dims := dims) ho) rfl hr.left hr.right
        hr.leftNeeded hr.rightNeeded c4
      exact ⟨D, d1, fun c => ⟨fun hc => ⟨d4 c hc, d5 c hc⟩, fun hc => (d3 c).2 ⟨.inl hc.1, c4 c hc.1 hc.2⟩⟩⟩
    obtain ⟨w, w1, w2⟩ := C84_contraction ho hr c2 c3 c4 C C1 C2 h al el er hl.shape hr'.shape
    refine ⟨w, _, w1, w2, fun σ hσ => fin (C1.imp fun h => ne_of_lt h) (fun c => ?_) (ha _ _) hσ⟩
    rw [C2, List.mem_filter]
    have h1 := hr.leftNeeded c
    have h2 := c4 c
    simp only [decide_eq_true_eq]
    tauto
  · have c4' : ∃ c ∈ L, c ∈ R ∧ c ∈ o := by
      by_contra hx
      exact c4 fun c hc hc' hco => hx ⟨c, hc, hc', hco⟩
    have c5 : (∃ c ∈ L, ¬ (c ∈ R ∧ c ∈ o)) ∨ ∃ c ∈ R, ¬ (c ∈ L ∧ c ∈ o) := by
      by_contra hx
      simp only [not_or, not_exists, not_and] at hx
      refine c1 fun c hc => ?_
      have h1 := hx.1 c
      have h2 := hx.2 c
      rw [List.mem_append] at hc
      tauto
    obtain ⟨w, w1, w2⟩ := C84_stack ho hr c4' c5 h al el er hl.shape hr'.shape
    exact ⟨w, _, w1, w2, fun σ hσ => fin (hr.left.filter _) (fun c => Iff.rfl) (ha _ _) hσ⟩

/-- The oracle whose sub-computations all have the oracle `al`. -/
def above {B : Type} (al : Alloc B) : Alloc B where
  make := fun p => al.make p.tail
  wf := fun p => al.wf p.tail
  shape_eq := fun p => al.shape_eq p.tail
  toVec_eq := fun p => al.toVec_eq p.tail
  sumOrder := fun p => al.sumOrder p.tail
  sumOrder_perm := fun p => al.sumOrder_perm p.tail

omit [Zero A] [Add A] [Mul A] [MulAdd A] F G in
theorem sumAdds_congr {keep keep₂ b : List Char} (h : keep.Perm keep₂) : sumAdds a dims keep b = sumAdds a dims keep₂ b := by
  induction b with
  | nil => rfl
  | cons c b ih => rw [sumAdds, sumAdds, ih, ((h.append_right b).map dims).prod_eq]

theorem mem_needed {c : Char} : c ∈ needed L R o ↔ c ∈ L ∧ (c ∈ R ∨ c ∈ o) := by simp [needed]

theorem nodup_needed : (needed L R o).Nodup := L.nodup_dedup.filter _

theorem pair_adds (ho : OutputOk [L, R] o) (hpL : L.Nodup ∨ ∀ c ∈ L, dims c ≠ 0) (hpR : R.Nodup ∨ ∀ c ∈ R, dims c ≠ 0)
    {k : HashOrd} {c : PairContraction} (hc : PairContraction.new k (callSC [L, R] o dims) = .ok c) {al : Alloc (Tallied A)}
    (ha : ∀ p n, additions (al.sumOrder p n) = a n) {l r : View A} {f g : (Char → Nat) → A} (hl : Rep l L dims f)
    (hr : Rep r R dims g) (wl : l.Wf) (wr : r.Wf) :
    ∃ w H, c.tally al l r = .ok (pairAdds a dims L R o, w) ∧ Rep w o dims H := by
  obtain ⟨L', R', c', a1, a2, a3, b1, b2, b3, ho', hc', n1, n2, -, n4, d1, d2⟩ := pair_split ho k c hc
  have hred : Reduced L' R' o := ⟨a1, b1, fun x hx => by rw [b2]; have := (a2 x).1 hx; tauto,
    fun x hx => by rw [a2]; have := (b2 x).1 hx; tauto⟩
  have oL : OutputOk [L] L' := ⟨a1, fun c hc => used_iff.2 (by simpa using ((a2 c).1 hc).1)⟩
  have oR : OutputOk [R] R' := ⟨b1, fun c hc => used_iff.2 (by simpa using ((b2 c).1 hc).1)⟩
  have pL : L'.Perm (needed L R o) := perm_of_nodup a1 nodup_needed fun c => by rw [a2, mem_needed]
  have pR : R'.Perm (needed R L o) := perm_of_nodup b1 nodup_needed fun c => by rw [b2, mem_needed]
  have side : ∀ {X X' Y : List Char} {x : View A} {f : (Char → Nat) → A} {al : Alloc (Tallied A)}
      {s : Option SimplificationMethodAndOutput}, (∀ p n, additions (al.sumOrder p n) = a n) → OutputOk [X] X' →
      (X.Nodup ∨ ∀ c ∈ X, dims c ≠ 0) → X'.Perm (needed X Y o) → (¬ NeedsSimplification X Y o → X' = X) →
      Rep x X dims f → x.Wf →
      (∀ v : View (Tallied A), simplifyOperand al s v =
          if NeedsSimplification X Y o then (callSC [X] X' dims).contractOperands k al [v] else .ok v) →
      ∃ w H xs, simplifyOperand al s (x.map Tallied.fresh) = .ok w ∧ Rep w X' dims H ∧ w.toVec = .ok xs ∧
        (xs.map Tallied.adds).sum = sumAdds a dims (needed X Y o) (fresh (needed X Y o) X) := by
    intro X X' Y x f al s ha oX hpX pX hN hx wx hs
    rw [hs, ← fresh_congr (s := X') fun c _ => pX.mem_iff, ← sumAdds_congr pX]
    by_cases hn : NeedsSimplification X Y o
    · rw [if_pos hn]
      exact one_adds oX hpX k ha (rep_fresh hx) (wx.map _) fun _ _ => rfl
    · rw [if_neg hn]
      have e := hN hn
      subst e
      obtain ⟨xs, x1, x2⟩ := total_adds oX.1 (rep_fresh hx) (n := 0) fun _ _ => rfl
      refine ⟨_, _, xs, rfl, rep_fresh hx, x1, x2.trans ?_⟩
      rw [show fresh X' X' = [] from List.eq_nil_iff_forall_not_mem.2 fun c hc => (mem_fresh.1 hc).2 (mem_fresh.1 hc).1]
      simp [sumAdds]
  obtain ⟨x, X, xs, x1, x2, x3, x4⟩ := side (al := al.sub 0) (fun p n => ha (0 :: p) n) oL hpL pL a3 hl wl
    fun v => d1 _ k (al.sub 0) v
  obtain ⟨y, Y, ys, y1, y2, y3, y4⟩ := side (al := al.sub 1) (fun p n => ha (1 :: p) n) oR hpR pR b3 hr wr
    fun v => d2 _ k (al.sub 1) v
  obtain ⟨h, hrun⟩ := C83_call ho' _ c' hc'
  obtain ⟨w, W, w1, w2, w3⟩ := reduced_adds ho' hred h (al := above al) (fun p n => ha p.tail n) (rep_fresh (rep_val x2))
    (rep_fresh (rep_val y2)) (fun _ _ => rfl) fun _ _ => rfl
  rw [hrun] at w1
  have w1' : c.op.run (al.sub 2) ((x.map Tallied.val).map Tallied.fresh) ((y.map Tallied.val).map Tallied.fresh) = .ok w := by
    rw [← n4, ← w1]
    simp only [PairContraction.run, n1, n2, simplifyOperand, bind_ok]
    rfl
  obtain ⟨zs, z1, z2⟩ := total_adds ho.1 w2 w3
  refine ⟨w.map Tallied.val, _, ?_, rep_val w2⟩
  simp only [PairContraction.tally, x1, y1, x3, y3, bind_ok, w1', z1]
  rw [x4, y4, z2]
  unfold pairAdds
  have e1 : ((∀ c ∈ L' ++ R', c ∈ L' ∧ c ∈ R' ∧ c ∈ o) ∨ L' = [] ∨ R' = []) ↔
      ((∀ c ∈ needed L R o ++ needed R L o, c ∈ L ∧ c ∈ R ∧ c ∈ o) ∨ needed L R o = [] ∨ needed R L o = []) := by
    refine or_congr ⟨fun h c hc => ?_, fun h c hc => ?_⟩ (or_congr ?_ ?_)
    · obtain ⟨h1, h2, h3⟩ := h c (by rw [List.mem_append, pL.mem_iff, pR.mem_iff, ← List.mem_append]; exact hc)
      exact ⟨((a2 c).1 h1).1, ((b2 c).1 h2).1, h3⟩
    · obtain ⟨h1, h2, h3⟩ := h c (by rw [List.mem_append, ← pL.mem_iff, ← pR.mem_iff, ← List.mem_append]; exact hc)
      exact ⟨(a2 c).2 ⟨h1, .inl h2⟩, (b2 c).2 ⟨h2, .inl h1⟩, h3⟩
    · exact ⟨fun e => by subst e; exact pL.nil_eq.symm, fun e => by rw [e] at pL; exact pL.eq_nil⟩
    · exact ⟨fun e => by subst e; exact pR.nil_eq.symm, fun e => by rw [e] at pR; exact pR.eq_nil⟩
  have e2 : ((L'.filter fun c => c ∉ o).map dims).prod = (((needed L R o).filter fun c => c ∉ o).map dims).prod :=
    ((pL.filter _).map dims).prod_eq
  by_cases hz : (∀ c ∈ L' ++ R', c ∈ L' ∧ c ∈ R' ∧ c ∈ o) ∨ L' = [] ∨ R' = []
  · rw [if_pos hz, if_pos (e1.1 hz), mul_zero]
    rfl
  · rw [if_neg hz, if_neg (mt e1.2 hz), e2]
    rfl

/-! ## All steps -/

omit [Zero A] [Add A] [Mul A] [MulAdd A] F G in
theorem pairAdds_congr {L₂ o₂ : List Char} (hL : L.Perm L₂) (hoo : o.Perm o₂)
    (h : L₂ = L ∨ ∀ c ∈ L, c ∈ R ∨ c ∈ o) : pairAdds a dims L R o = pairAdds a dims L₂ R o₂ := by
  have pL : (needed L R o).Perm (needed L₂ R o₂) := perm_of_nodup nodup_needed nodup_needed fun c => by
    rw [mem_needed, mem_needed, hL.mem_iff, hoo.mem_iff]
  have pR : (needed R L o).Perm (needed R L₂ o₂) := perm_of_nodup nodup_needed nodup_needed fun c => by
    rw [mem_needed, mem_needed, hL.mem_iff, hoo.mem_iff]
  have e1 : sumAdds a dims (needed L R o) (fresh (needed L R o) L) =
      sumAdds a dims (needed L₂ R o₂) (fresh (needed L₂ R o₂) L₂) := by
    rcases h with rfl | h
    · rw [sumAdds_congr pL, fresh_congr fun c _ => pL.mem_iff]
    · have z : fresh (needed L R o) L = [] := List.eq_nil_iff_forall_not_mem.2 fun c hc =>
        (mem_fresh.1 hc).2 (mem_needed.2 ⟨(mem_fresh.1 hc).1, h c (mem_fresh.1 hc).1⟩)
      have z₂ : fresh (needed L₂ R o₂) L₂ = [] := List.eq_nil_iff_forall_not_mem.2 fun c hc =>
        (mem_fresh.1 hc).2 (mem_needed.2 ⟨(mem_fresh.1 hc).1, by
          rw [← hoo.mem_iff]; exact h c (hL.mem_iff.2 (mem_fresh.1 hc).1)⟩)
      rw [z, z₂]
      rfl
  have e2 : sumAdds a dims (needed R L o) (fresh (needed R L o) R) =
      sumAdds a dims (needed R L₂ o₂) (fresh (needed R L₂ o₂) R) := by
    rw [sumAdds_congr pR, fresh_congr fun c _ => pR.mem_iff]
  have e3 : (((needed L R o).filter fun c => c ∉ o).map dims).prod =
      (((needed L₂ R o₂).filter fun c => c ∉ o₂).map dims).prod := by
    rw [((pL.filter fun c => c ∉ o).map dims).prod_eq]
    simp only [hoo.mem_iff]
  have e4 : ((∀ c ∈ needed L R o ++ needed R L o, c ∈ L ∧ c ∈ R ∧ c ∈ o) ∨ needed L R o = [] ∨ needed R L o = []) ↔
      ((∀ c ∈ needed L₂ R o₂ ++ needed R L₂ o₂, c ∈ L₂ ∧ c ∈ R ∧ c ∈ o₂) ∨ needed L₂ R o₂ = [] ∨ needed R L₂ o₂ = []) := by
    refine or_congr ?_ (or_congr ?_ ?_)
    · simp only [(pL.append pR).mem_iff, hL.mem_iff, hoo.mem_iff]
    · exact ⟨fun e => by rw [e] at pL; exact pL.nil_eq.symm, fun e => by rw [e] at pL; exact pL.eq_nil⟩
    · exact ⟨fun e => by rw [e] at pR; exact pR.nil_eq.symm, fun e => by rw [e] at pR; exact pR.eq_nil⟩
  unfold pairAdds
  rw [e1, e2, e3, (hoo.map dims).prod_eq]
  simp only [e4]

omit [Zero A] [Add A] [Mul A] [MulAdd A] F G in
theorem addCount_congr {L₂ : List Char} {rest : List (List Char)} {out : List Char} (hL : L.Perm L₂)
    (h : L₂ = L ∨ ∀ c ∈ L, c ∈ rest.flatten ++ out) : addCount a dims L rest out = addCount a dims L₂ rest out := by
  induction rest generalizing L L₂ with
  | nil =>
    rcases h with rfl | h
    · rfl
    · have z : ∀ X : List Char, (∀ c ∈ X, c ∈ out) → fresh out X = [] := fun X hX =>
        List.eq_nil_iff_forall_not_mem.2 fun c hc => (mem_fresh.1 hc).2 (hX c (mem_fresh.1 hc).1)
      rw [addCount, addCount, z L (by simpa using h), z L₂ fun c hc => by simpa using h c (hL.mem_iff.2 hc)]
  | cons R rest ih =>
    have po : ((L ++ R).dedup.filter fun c => c ∈ rest.flatten ++ out).Perm
        ((L₂ ++ R).dedup.filter fun c => c ∈ rest.flatten ++ out) := (hL.append_right R).dedup.filter _
    rw [addCount, addCount, ih po (.inr fun c hc => by simpa using (List.mem_filter.1 hc).2), pairAdds_congr hL po]
    refine h.imp_right fun h c hc => ?_
    have := h c hc
    rw [List.flatten_cons, List.append_assoc, List.mem_append] at this
    refine this.imp_right fun hm => List.mem_filter.2 ⟨by simp [hc], by simpa using hm⟩

theorem steps_adds {inputs pin : List (List Char)} {out : List Char} {operands : List (View A)}
    (hop : ∀ n R, inputs[n]? = some R → ∃ y G, index operands n = .ok y ∧ Rep y R dims G ∧ y.Wf)
    (hdiag : NoEmptyDiagonal dims inputs) (h : HashOrd) (first : Nat) (hon : out.Nodup) (rest : List (List Char)) :
    ∀ (idx : Nat) (lhs : List Char) (nums : List Nat) (steps : List PairStep) (k : HashOrd) (cs : List PairContraction)
      (al : Alloc (Tallied A)) (inter : List (View A)) (x : View A) (f : (Char → Nat) → A),
    List.Forall₂ (fun R n => inputs[n]? = some R) rest nums → (rest = [] → lhs = out) →
    (∀ c ∈ lhs, c ∈ pin.flatten) → (∀ c ∈ rest.flatten, c ∈ pin.flatten) →
    (∀ c ∈ out, c ∈ lhs ∨ c ∈ rest.flatten) →
    generateSteps h (callSC pin out dims) first idx lhs rest nums = .ok steps → compileSteps k steps = .ok cs →
    (∀ p n, additions (al.sumOrder p n) = a n) → inter.length = idx →
    (if idx = 0 then index operands first = .ok x else inter.getLast? = some x) → Rep x lhs dims f → x.Wf →
    (lhs.Nodup ∨ ∀ c ∈ lhs, dims c ≠ 0) →
    tallySteps al operands (cs.zip steps) inter = .ok (addCount a dims lhs rest out) := by
  induction rest with
  | nil =>
    intro idx lhs nums steps k cs al inter x f hf hlo _ _ _ hg hc _ _ _ _ _ _
    cases hf
    simp only [generateSteps] at hg
    cases hg
    simp only [compileSteps] at hc
    cases hc
    rw [hlo rfl, addCount, show fresh out out = [] from
      List.eq_nil_iff_forall_not_mem.2 fun c hc => (mem_fresh.1 hc).2 (mem_fresh.1 hc).1]
    rfl
  | cons rhs later ih =>
    intro idx lhs nums steps k cs al inter x f hf _ hlhs hrest hout hg hc ha hl hx rx wx hp
    obtain - | @⟨_, num, _, nums, hnum, hf⟩ := hf
    simp only [generateSteps, generateSizedContractionPair] at hg
    obtain ⟨n1, n2⟩ := stepOutput_spec (h := h.sub (2 * idx)) (lhs := lhs) (rhs := rhs) (later := later) hon
      fun c hc => by simpa using hout c hc
    have hN : stepOutput (h.sub (2 * idx)) lhs rhs later (callSC pin out dims).contraction.outputIndices =
      stepOutput (h.sub (2 * idx)) lhs rhs later out := rfl
    rw [hN] at hg
    have hlast : later = [] → stepOutput (h.sub (2 * idx)) lhs rhs later out = out := by rintro rfl; rfl
    generalize stepOutput (h.sub (2 * idx)) lhs rhs later out = N at n1 n2 hg hlast
    have ho : OutputOk [lhs, rhs] N := ⟨n1, fun c hc => used_iff.2 (by simpa using ((n2 c).1 hc).1)⟩
    rw [subset_callSC (h.sub (2 * idx + 1)) (ops := [lhs, rhs]) (by
          intro c hc
          simp only [List.flatten_cons, List.flatten_nil, List.append_nil, List.mem_append] at hc
          rcases hc with hc | hc
          · exact hlhs c hc
          · exact hrest c (by simp [hc])) ho, unwrapR_ok, bind_ok] at hg
    obtain ⟨steps', g1, g2⟩ := bind_eq_ok.1 hg
    cases g2
    obtain ⟨c, c1, hc⟩ := bind_eq_ok.1 hc
    obtain ⟨cs', c2, hc⟩ := bind_eq_ok.1 hc
    cases hc
    obtain ⟨y, G, y1, y2, y3⟩ := hop _ _ hnum
    obtain ⟨w, H, w1, w2⟩ := pair_adds ho hp (hdiag rhs (List.mem_of_getElem? hnum)) c1 (al := al.sub 0)
      (fun p n => ha (0 :: p) n) rx y2 wx y3
    have key := ih (idx + 1) N nums steps' (k.sub 1) cs' (al.sub 1) (inter ++ [w]) w H hf hlast
      (fun c hc => by
        rcases ((n2 c).1 hc).1 with h | h
        · exact hlhs c h
        · exact hrest c (by simp [h]))
      (fun c hc => hrest c (by rw [List.flatten_cons]; simp only [List.mem_append]; exact .inr hc))
      (fun c hc => by
        rw [n2]
        have h1 := hout c hc
        rw [List.flatten_cons, List.mem_append] at h1
        tauto) g1 c2 (fun p n => ha (1 :: p) n) (by simp [hl]) (by simp) w2 (w2.wf n1) (.inl n1)
    have e1 : fetch operands inter (if idx = 0 then (⟨.input first, .input num⟩ : OperandNumPair)
        else ⟨.intermediateResult (idx - 1), .input num⟩).lhs = .ok x := by
      split
      · rw [if_pos ‹_›] at hx
        exact hx
      · rw [if_neg ‹_›] at hx
        rw [List.getLast?_eq_getElem?, hl] at hx
        exact index_eq_ok.2 hx
    have e2 : fetch operands inter (if idx = 0 then (⟨.input first, .input num⟩ : OperandNumPair)
        else ⟨.intermediateResult (idx - 1), .input num⟩).rhs = index operands num := by
      split <;> rfl
    have pN : N.Perm ((lhs ++ rhs).dedup.filter fun c => c ∈ later.flatten ++ out) :=
      perm_of_nodup n1 ((List.nodup_dedup _).filter _) fun c => by
        rw [n2, List.mem_filter, List.mem_dedup, List.mem_append, decide_eq_true_eq, List.mem_append]
    simp only [List.zip_cons_cons, tallySteps]
    rw [e1, e2, bind_ok, y1, bind_ok, w1, bind_ok, key, bind_ok, addCount, pairAdds_congr (.refl lhs) pN (.inl rfl),
      addCount_congr pN (.inr fun c hc => by rw [List.mem_append]; exact ((n2 c).1 hc).2)]
    rfl

end

/-! ## C88 -/

section
variable {A : Type} [Zero A] [Add A] [Mul A] [MulAdd A] {dims : Char → Nat} {inputs : List (List Char)} {out : List Char}
  {s : String} {operands : List (View A)} {a : Nat → Nat} {al : Alloc (Tallied A)}

theorem order_adds (ho : OutputOk inputs out) (hs : Sized dims inputs (operands.map View.shape))
    (hw : ∀ v ∈ operands, v.Wf) (hn : NoEmptyDiagonal dims inputs) (ha : ∀ p n, additions (al.sumOrder p n) = a n)
    {m : OptimizationMethod} {h k : HashOrd} {or : ContractionOrder} {p : EinsumPath}
    (hor : generateOptimizedOrder h (callSC inputs out dims) m = .ok or) (hp : EinsumPath.fromPath k or = .ok p)
    {L : List Char} {rest : List (List Char)} (hm : m = .naive ∧ inputs = L :: rest ∨ m = .reverse ∧ inputs.reverse = L :: rest) :
    p.countAdds al operands = .ok (addCount a dims L rest out) := by
  have hop := operand_rep hs hw
  have hpick : pick inputs [] (operandOrder m inputs.length) = L :: rest := by
    rcases hm with ⟨rfl, e⟩ | ⟨rfl, e⟩
    · exact (pick_range inputs []).trans e
    · rw [← e]
      show (List.range inputs.length).reverse.map _ = _
      rw [List.map_reverse]
      exact congrArg List.reverse (pick_range inputs [])
  have hlen : inputs.length = (L :: rest).length := by
    rcases hm with ⟨-, e⟩ | ⟨-, e⟩
    · rw [e]
    · rw [← e, List.length_reverse]
  cases rest with
  | nil =>
    obtain ⟨L', rfl⟩ := List.length_eq_one_iff.1 hlen
    obtain rfl : L' = L := by
      rcases hm with ⟨-, e⟩ | ⟨-, e⟩
      · exact (List.cons.inj e).1
      · exact (by simpa using e)
    obtain ⟨x, f, x1, x2, x3⟩ := hop 0 L' rfl
    have e : generatePath h (callSC [L'] out dims) [0] = .ok or := by
      rcases hm with ⟨rfl, -⟩ | ⟨rfl, -⟩ <;> exact hor
    have p1 : generatePermutedContraction (h.sub 0) (callSC [L'] out dims) [0] = .ok (callSC [L'] out dims) := by
      show unwrapR ((callSC [L'] out dims).subset _ [L'] out) = _
      rw [subset_callSC _ (fun _ h => h) ho]
      rfl
    unfold generatePath at e
    rw [p1, bind_ok] at e
    cases e
    obtain ⟨c, c1, c2⟩ := bind_eq_ok.1 hp
    cases c2
    obtain ⟨w, H, xs, w1, w2, w3, w4⟩ := one_adds (F := fun σ => Tallied.fresh (f σ)) ho (hn L' (by simp)) h ha (rep_fresh x2)
      (x3.map _) fun _ _ => rfl
    rw [one_run ho c1] at w1
    show (index operands 0 >>= fun t => c.op.run al (t.map Tallied.fresh) >>= fun r => r.toVec >>= fun xs =>
      pure (xs.map Tallied.adds).sum) = _
    rw [x1, bind_ok, w1, bind_ok, w3, bind_ok, w4]
    rfl
  | cons R rest =>
    obtain ⟨first, lhs, rest', nums, h', steps, a1, a2, a3, a4, a5, a6, rfl⟩ := order_parts ho (by simp [hlen]) m h or hor
    have hlr : lhs :: rest' = L :: R :: rest := by
      rw [← hpick, ← a3, pick]
      have : ∀ {X : List (List Char)} {Y : List Nat}, List.Forall₂ (fun R n => inputs[n]? = some R) X Y →
          X = Y.map fun i => inputs.getD i [] := by
        intro X Y hXY
        induction hXY with
        | nil => rfl
        | cons h _ ih => rw [List.map_cons, ← ih, List.getD_eq_getElem?_getD, h]; rfl
      exact this (.cons a1 a2)
    cases hlr
    obtain ⟨cs, c1, c2⟩ := bind_eq_ok.1 hp
    cases c2
    obtain ⟨x, f, x1, x2, x3⟩ := hop first L a1
    exact steps_adds hop hn h' first ho.1 (R :: rest) 0 L nums steps k cs al [] x f a2 (by simp) (fun c hc => by simp [hc])
      (fun c hc => by rw [List.flatten_cons, List.mem_append]; exact .inr hc)
      (fun c hc => by simpa using used_iff.1 (a5.2 c hc)) a6 c1 ha rfl x1 x2 x3 (hn L (List.mem_of_getElem? a1))

/-- C88: a compiled path, for both orders. -/
theorem C88_path {B : Type} (h : HashOrd) (s : String) (operands₀ : List (View B)) (inputs : List (List Char))
    (out : List Char) (dims : Char → Nat) (hd : Denotes s inputs out) (hs : Sized dims inputs (operands₀.map View.shape))
    (hn : NoEmptyDiagonal dims inputs) (m : OptimizationMethod) (L : List Char) (rest : List (List Char))
    (hm : m = .naive ∧ inputs = L :: rest ∨ m = .reverse ∧ inputs.reverse = L :: rest) :
    ∃ p, einsumPath h s operands₀ m = .ok (.ok p) ∧
      ∀ (A : Type) [Zero A] [Add A] [Mul A] [MulAdd A] (al : Alloc (Tallied A)) (a : Nat → Nat) (operands : List (View A)),
        (∀ p n, additions (al.sumOrder p n) = a n) → (∀ v ∈ operands, v.Wf) →
        operands.map View.shape = operands₀.map View.shape →
        p.countAdds al operands = .ok (addCount a dims L rest out) := by
  have hsc := validateAndSize_ok ((h.sub 0).sub 0) hd hs
  obtain ⟨o, p, c1, c2, -⟩ := C11_compiles ((h.sub 0).sub 0) ((h.sub 0).sub 1) (h.sub 1) s _ _ hsc m (hm.imp And.left And.left)
  refine ⟨p, ?_, ?_⟩
  · simp only [einsumPath, validateAndOptimizeOrder, hsc, c1, bind_ok, pure_bind, c2]
    rfl
  · intro A _ _ _ _ al a operands ha hw he
    exact order_adds hd.outputOk (he ▸ hs) hw hn ha c1 c2 hm

/-- C88: the path that `einsum` runs. -/
theorem C88_einsum (h : HashOrd) (L : List Char) (rest : List (List Char)) (hd : Denotes s (L :: rest) out)
    (hs : Sized dims (L :: rest) (operands.map View.shape)) (hw : ∀ v ∈ operands, v.Wf)
    (hn : NoEmptyDiagonal dims (L :: rest)) (ha : ∀ p n, additions (al.sumOrder p n) = a n) :
    ∃ sc p, validateAndSize (h.sub 0) s operands = .ok sc ∧ EinsumPath.new (h.sub 1) sc = .ok p ∧
      (∀ al' : Alloc A, einsum h al' s operands = (p.contractOperands al' operands).map .ok) ∧
      p.countAdds al operands = .ok (addCount a dims L rest out) := by
  have hsc := validateAndSize_ok (h.sub 0) hd hs
  obtain ⟨o, p, c1, c2, -⟩ := C11_compiles (h.sub 0) ((h.sub 1).sub 0) ((h.sub 1).sub 1) s _ _ hsc .naive (.inl rfl)
  have hp : EinsumPath.new (h.sub 1) (callSC (L :: rest) out dims) = .ok p := by
    unfold EinsumPath.new
    rw [c1, bind_ok, c2]
  refine ⟨_, p, hsc, hp, fun al' => ?_, order_adds hd.outputOk hs hw hn ha c1 c2 (.inl ⟨rfl, rfl⟩)⟩
  simp only [einsum, hsc, SizedContraction.contractOperands, hp, bind_ok]
  cases p.contractOperands al' operands <;> rfl

/-- C88: `tensordot` makes the additions of one sum over the paired axes for each element. -/
theorem C88_tensordot {l r : View A} {la ra : List Nat} (hp : Paired l.shape r.shape la ra) (hl : l.Wf) (hr : r.Wf)
    (ha : ∀ p n, additions (al.sumOrder p n) = a n) :
    ∃ w : View (Tallied A), tensordot al (l.map Tallied.fresh) (r.map Tallied.fresh) la ra = .ok w ∧ w.Wf ∧
      w.shape = lengths l.shape (kept l.shape.length la) ++ lengths r.shape (kept r.shape.length ra) ∧
      ∀ idx x, w.read idx = .ok x → x.adds = a (lengths l.shape la).prod := by
  obtain ⟨w, w1, w2, w3, w4⟩ := C84_axes (l := l.map Tallied.fresh) (r := r.map Tallied.fresh) hp al
    (hl.elements.map Tallied.fresh) (hr.elements.map Tallied.fresh)
  refine ⟨w, w1, w2, w3, fun idx x hx => ?_⟩
  have hi : InB (lengths l.shape (kept l.shape.length la) ++ lengths r.shape (kept r.shape.length ra)) idx := by
    by_contra hi
    unfold View.read at hx
    rw [if_neg (by rw [w3]; exact hi)] at hx
    cases hx
  obtain ⟨i, j, rfl, hi, hj⟩ := InB_split hi
  rw [w4 i j hi hj] at hx
  cases hx
  rw [dot_adds, ha]
  · rfl
  · intro p hp
    obtain ⟨c, -, rfl⟩ := List.mem_map.1 hp
    exact ⟨rfl, rfl⟩

end

/-- C88: adding `n` numbers takes at least `n - 1` additions in any order. -/
theorem C88_any {B : Type} (al : Alloc B) (p : List Nat) (n : Nat) : n - 1 ≤ additions (al.sumOrder p n) := by
  simpa [(al.sumOrder_perm p n).length_eq] using additions_ge (al.sumOrder p n)

/-- C88: an accumulator that starts at zero takes `n` additions. -/
theorem C88_sequential (n : Nat) : additions (SumTree.sequential n) = n := by
  induction n with
  | zero => rfl
  | succ n ih => simp [SumTree.sequential, additions, ih]

/-- C88: pairwise sums take `n - 1` additions. -/
theorem C88_pairwise (lo n : Nat) : additions (halves lo n) = n - 1 := by
  induction n using Nat.strong_induction_on generalizing lo with
  | _ n ih =>
    unfold halves
    split
    · simp [additions, *]
    · split
      · simp [additions, *]
      · rw [additions, ih (n / 2) (by omega) lo, ih (n - n / 2) (by omega) (lo + n / 2)]
        omega

theorem sumAdds_mono {a b : Nat → Nat} (h : ∀ n, a n ≤ b n) (dims : Char → Nat) (keep s : List Char) :
    sumAdds a dims keep s ≤ sumAdds b dims keep s := by
  induction s with
  | nil => exact le_rfl
  | cons c s ih => exact Nat.add_le_add (Nat.mul_le_mul_left _ (h _)) ih

/-- C88: `n - 1` gives the least number. -/
theorem C88_least {a : Nat → Nat} (h : ∀ n, n - 1 ≤ a n) (dims : Char → Nat) (L : List Char) (rest : List (List Char))
    (out : List Char) : addCount (· - 1) dims L rest out ≤ addCount a dims L rest out := by
  induction rest generalizing L with
  | nil => exact sumAdds_mono h _ _ _
  | cons R rest ih =>
    refine Nat.add_le_add (Nat.add_le_add (Nat.add_le_add (sumAdds_mono h _ _ _) (sumAdds_mono h _ _ _)) ?_) (ih _)
    split
    · exact le_rfl
    · exact Nat.mul_le_mul_left _ (h _)

/-- C88: summing letters one after the other takes, at least, as many additions as there are elements less. -/
theorem C88_sums (dims : Char → Nat) (keep b : List Char) (h0 : ∀ c ∈ b, dims c ≠ 0) :
    sumAdds (· - 1) dims keep b + (keep.map dims).prod = ((keep ++ b).map dims).prod := by
  induction b with
  | nil => simp [sumAdds]
  | cons c b ih =>
    have ih := ih fun c hc => h0 c (by simp [hc])
    have hc : dims c - 1 + 1 = dims c := Nat.succ_pred_eq_of_ne_zero (h0 c (by simp))
    rw [sumAdds, Nat.add_assoc, ih, ← Nat.mul_add_one, hc, (List.perm_middle.map dims).prod_eq, List.map_cons, List.prod_cons,
      Nat.mul_comm]

theorem prod_le_of_subset {dims : Char → Nat} {X Y : List Char} (hn : X.Nodup) (hs : X ⊆ Y) (h0 : ∀ c ∈ Y, dims c ≠ 0) :
    (X.map dims).prod ≤ (Y.map dims).prod := by
  obtain ⟨l', p1, p2⟩ := hn.subperm hs
  obtain ⟨l, hl⟩ := p2.exists_perm_append
  rw [← (p1.map dims).prod_eq, (hl.map dims).prod_eq, List.map_append, List.prod_append]
  refine Nat.le_mul_of_pos_right _ (prod_of_pos fun d hd => ?_)
  obtain ⟨c, hc, rfl⟩ := List.mem_map.1 hd
  exact Nat.pos_of_ne_zero (h0 c (hl.mem_iff.2 (List.mem_append_right _ hc)))

theorem sumAdds_le {dims : Char → Nat} {keep L : List Char} (hn : keep.Nodup) (hs : keep ⊆ L) (h0 : ∀ c ∈ L, dims c ≠ 0) :
    sumAdds (· - 1) dims keep (fresh keep L) + (keep.map dims).prod ≤ (L.map dims).prod := by
  rw [C88_sums _ _ _ fun c hc => h0 c (mem_fresh.1 hc).1]
  refine prod_le_of_subset ?_ (fun c hc => ?_) h0
  · rw [List.nodup_append]
    refine ⟨hn, nodup_fresh, ?_⟩
    rintro x hx y hy rfl
    exact (mem_fresh.1 hy).2 hx
  · rcases List.mem_append.1 hc with h | h
    · exact hs h
    · exact (mem_fresh.1 h).1

theorem multCount_cons (dims : Char → Nat) (L R : List Char) (rest : List (List Char)) (out : List Char) :
    multCount dims (L :: R :: rest) out = ((stepLetters (L :: R :: rest) out 0).map dims).prod +
      multCount dims (((L ++ R).dedup.filter fun c => c ∈ rest.flatten ++ out) :: rest) out := by
  simp only [multCount, List.length_cons, Nat.add_sub_cancel, List.range_succ_eq_map, List.map_cons, List.sum_cons, List.map_map]
  congr 2
  refine List.map_congr_left fun k hk => ?_
  have hk : k < rest.length := by simpa using hk
  simp only [Function.comp]
  refine ((perm_of_nodup ((List.nodup_dedup _).filter _) ((List.nodup_dedup _).filter _) fun c => ?_).map dims).prod_eq
  simp only [List.take_succ_cons, List.drop_succ_cons, List.getD_cons_succ, List.mem_filter, List.mem_dedup,
    List.flatten_cons, List.mem_append, decide_eq_true_eq, Nat.succ_eq_add_one]
  have h2 : c ∈ (rest.take (k + 1)).flatten ↔ c ∈ (rest.take k).flatten ∨ c ∈ rest.getD k [] := by
    rw [List.take_succ_eq_append_getElem hk, List.flatten_append, List.mem_append, List.getD_eq_getElem?_getD,
      List.getElem?_eq_getElem hk]
    simp
  have h1 : c ∈ rest.flatten ↔ (c ∈ (rest.take k).flatten ∨ c ∈ rest.getD k []) ∨ c ∈ (rest.drop (k + 1)).flatten := by
    rw [← h2, ← List.mem_append, ← List.flatten_append, List.take_append_drop]
  rw [h1, h2]
  clear * -
  generalize (c ∈ L) = p1, (c ∈ R) = p2, (c ∈ (rest.take k).flatten) = p3, (c ∈ rest.getD k []) = p4,
    (c ∈ (rest.drop (k + 1)).flatten) = p5, (c ∈ out) = p6
  tauto

/-- C88: without empty axes, the least number of additions, together with the number of elements of the result, is at most the
number of elements of the operands together with the number of multiplications. -/
theorem C88_bound (dims : Char → Nat) (L : List Char) (rest : List (List Char)) (out : List Char)
    (ho : OutputOk (L :: rest) out) (h0 : ∀ c ∈ (L :: rest).flatten, dims c ≠ 0) :
    addCount (· - 1) dims L rest out + (out.map dims).prod ≤
      ((L :: rest).map fun S => (S.map dims).prod).sum + multCount dims (L :: rest) out := by
  induction rest generalizing L with
  | nil =>
    have := sumAdds_le ho.1 (L := L) (fun c hc => by simpa using used_iff.1 (ho.2 c hc)) fun c hc => h0 c (by simp [hc])
    simpa [addCount, multCount] using this
  | cons R rest ih =>
    rw [addCount, multCount_cons]
    set o := (L ++ R).dedup.filter fun c => c ∈ rest.flatten ++ out with hodef
    have mo : ∀ c, c ∈ o ↔ (c ∈ L ∨ c ∈ R) ∧ (c ∈ rest.flatten ∨ c ∈ out) := fun c => by simp [hodef]
    have no : o.Nodup := (List.nodup_dedup _).filter _
    have h0L : ∀ c ∈ L, dims c ≠ 0 := fun c hc => h0 c (by simp [hc])
    have h0R : ∀ c ∈ R, dims c ≠ 0 := fun c hc => h0 c (by simp [hc])
    have h0o : ∀ c ∈ o, dims c ≠ 0 := fun c hc => ((mo c).1 hc).1.elim (h0L c) (h0R c)
    have key := ih o ⟨ho.1, fun c hc => used_iff.2 (by
        have h := used_iff.1 (ho.2 c hc)
        simp only [List.flatten_cons, List.mem_append] at h ⊢
        rw [mo]
        tauto)⟩ fun c hc => by
      simp only [List.flatten_cons, List.mem_append] at hc
      rcases hc with h | h
      · exact h0o c h
      · exact h0 c (by simp only [List.flatten_cons, List.mem_append]; exact .inr (.inr h))
    have k1 := sumAdds_le (nodup_needed (L := L) (R := R) (o := o)) (fun c hc => (mem_needed.1 hc).1) h0L
    have k2 := sumAdds_le (nodup_needed (L := R) (R := L) (o := o)) (fun c hc => (mem_needed.1 hc).1) h0R
    set C := (needed L R o).filter fun c => c ∉ o with hC
    have mC : ∀ c, c ∈ C ↔ c ∈ L ∧ c ∈ R ∧ c ∉ o := fun c => by
      simp only [hC, List.mem_filter, mem_needed, decide_eq_true_eq]
      tauto
    have hst : (stepLetters (L :: R :: rest) out 0).Perm (o ++ C) := by
      refine perm_of_nodup ((List.nodup_dedup _).filter _) ?_ fun c => ?_
      · rw [List.nodup_append]
        refine ⟨no, nodup_needed.filter _, ?_⟩
        rintro x hx y hy rfl
        exact ((mC x).1 hy).2.2 hx
      · rw [List.mem_append, mC, mo]
        have e : c ∈ stepLetters (L :: R :: rest) out 0 ↔
            (c ∈ L ∨ c ∈ R) ∧ (c ∈ rest.flatten ∨ c ∈ out ∨ c ∈ L ∧ c ∈ R) := by simp [stepLetters]
        rw [e]
        clear * -
        generalize (c ∈ L) = p1, (c ∈ R) = p2, (c ∈ rest.flatten) = p3, (c ∈ out) = p4
        tauto
    have k3 : (o.map dims).prod * ((C.map dims).prod - 1) + (o.map dims).prod = ((o ++ C).map dims).prod := by
      have hp : 0 < (C.map dims).prod := prod_of_pos fun d hd => by
        obtain ⟨c, hc, rfl⟩ := List.mem_map.1 hd
        exact Nat.pos_of_ne_zero (h0L c ((mC c).1 hc).1)
      rw [← Nat.mul_add_one, Nat.sub_add_cancel hp, List.map_append, List.prod_append]
    rw [(hst.map dims).prod_eq]
    simp only [List.map_cons, List.sum_cons] at key ⊢
    unfold pairAdds
    rw [← hC]
    have k4 : (if (∀ c ∈ needed L R o ++ needed R L o, c ∈ L ∧ c ∈ R ∧ c ∈ o) ∨ needed L R o = [] ∨ needed R L o = [] then 0
        else (o.map dims).prod * ((C.map dims).prod - 1)) ≤ (o.map dims).prod * ((C.map dims).prod - 1) := by
      split
      · exact Nat.zero_le _
      · exact le_rfl
    beta_reduce
    omega

/-! ## Examples -/

example : additions (.add (.add .zero (.leaf 0)) (.fused 2 (.leaf 1))) = 3 := by decide

/-- A product of a `2 × 3`, a `3 × 4` and a `4 × 5` matrix, from the left: `8` sums of `3` and `10` sums of `4` numbers. -/
example : addCount (· - 1) Ex.chainDims ['i', 'j'] [['j', 'k'], ['k', 'l']] ['i', 'l'] = 8 * 2 + 10 * 3 := by decide
/-- From the right: `15` sums of `4` and `10` sums of `3` numbers. -/
example : addCount (· - 1) Ex.chainDims ['k', 'l'] [['j', 'k'], ['i', 'j']] ['i', 'l'] = 15 * 3 + 10 * 2 := by decide
/-- `i` and `l` are summed first, then there are `0` letters on each side. -/
example : addCount (· - 1) Ex.chainDims ['i', 'j'] [['k', 'l']] [] = (3 * 1 + 2) + (5 * 3 + 4) := by decide
/-- Elements are only multiplied. -/
example (a : Nat → Nat) : addCount a Ex.chainDims ['i', 'j'] [['j', 'i']] ['i', 'j'] = 0 := rfl

/-- `"ij,jjk,kj->ij"`, with sums that start at zero: twelve sums of one number, then six of two. -/
example : ∃ sc p, validateAndSize (HashOrd.reversed.sub 0) "ij,jjk,kj->ij" [Ex.m23, Ex.m332, Ex.m23] = .ok sc ∧
    EinsumPath.new (HashOrd.reversed.sub 1) sc = .ok p ∧
    (∀ al : Alloc Int, einsum HashOrd.reversed al "ij,jjk,kj->ij" [Ex.m23, Ex.m332, Ex.m23] =
      (p.contractOperands al [Ex.m23, Ex.m332, Ex.m23]).map .ok) ∧
    p.countAdds (Alloc.rowMajor (Tallied Int)) [Ex.m23, Ex.m332, Ex.m23] = .ok 24 :=
  C88_einsum (a := id) HashOrd.reversed ['i', 'j'] _ Ex.denotes_three Ex.call_three.sized Ex.wf_three Ex.ned_three
    fun _ n => C88_sequential n

/-- In the other order, with pairwise sums: three sums of two numbers. -/
example : ∃ p, einsumPath HashOrd.insertion "ij,jjk,kj->ij" [Ex.m23, Ex.m332, Ex.m23] .reverse = .ok (.ok p) ∧
    p.countAdds (UniformAlloc.pairwise.alloc (Tallied Int)) [Ex.m23, Ex.m332, Ex.m23] = .ok 3 := by
  obtain ⟨p, h1, h2⟩ := C88_path HashOrd.insertion _ _ _ _ _ Ex.denotes_three Ex.call_three.sized Ex.ned_three .reverse
    ['k', 'j'] [['j', 'j', 'k'], ['i', 'j']] (.inr ⟨rfl, rfl⟩)
  exact ⟨p, h1, h2 Int _ (· - 1) _ (fun _ n => C88_pairwise 0 n) Ex.wf_three rfl⟩

/-- Five additions for each of the three elements. -/
example : ∃ w : View (Tallied Int), tensordot (UniformAlloc.pairwise.alloc (Tallied Int)) (Ex.m332.map Tallied.fresh)
    (Ex.m32.map Tallied.fresh) [2, 1] [1, 0] = .ok w ∧ w.shape = [3] ∧ ∀ idx x, w.read idx = .ok x → x.adds = 5 := by
  obtain ⟨w, h1, -, h2, h3⟩ := C88_tensordot (al := UniformAlloc.pairwise.alloc (Tallied Int)) (a := (· - 1)) Ex.paired Ex.e332.1
    Ex.e32.1 fun _ n => C88_pairwise 0 n
  exact ⟨w, h1, h2, h3⟩

example : 3 ≤ additions ((Alloc.colMajor Int).sumOrder [0, 7] 4) := C88_any _ _ 4

example : addCount (· - 1) Ex.chainDims ['i', 'j'] [['j', 'k'], ['k', 'l']] ['i', 'l'] ≤
    addCount id Ex.chainDims ['i', 'j'] [['j', 'k'], ['k', 'l']] ['i', 'l'] :=
  C88_least (fun n => Nat.sub_le n 1) _ _ _ _

/-- `4 · 5` elements before, `5` after. -/
example : sumAdds (· - 1) Ex.chainDims ['l'] ['k'] + 5 = 20 := C88_sums Ex.chainDims ['l'] ['k'] (by decide)

/-- `46 + 10 ≤ 6 + 12 + 20 + 64` -/
example : addCount (· - 1) Ex.chainDims ['i', 'j'] [['j', 'k'], ['k', 'l']] ['i', 'l'] + 10 ≤ 38 + 64 :=
  C88_bound Ex.chainDims ['i', 'j'] [['j', 'k'], ['k', 'l']] ['i', 'l'] (by simp [OutputOk, Used]) (by decide)

end Einsum
