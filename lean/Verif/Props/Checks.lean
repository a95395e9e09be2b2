import Verif.Props.Contractors
import Verif.Props.HandBuilt

/-!
# C73: contractors that check their own labels

The constructors of the contractors take any sized contraction; the crate calls each of them only for the label lists
for which its own choice selects it.  Here they are given every label list.
-/

namespace Einsum

open Spec

/-! ## The label lists for which a contractor can be built, and for which it can be used -/

/-- No letter of `out` is repeated in `labels`. -/
def Once (out labels : List Char) : Prop := ∀ c ∈ out, labels.count c ≤ 1

/-- The label lists that the assertions of the constructor of a pair contractor let through. -/
def Buildable (L R out : List Char) : PairMethod → Prop
  | .hadamardProduct => L = out ∧ R = out
  | .hadamardProductGeneral => L.Perm out ∧ R.Perm out
  | .scalarMatrixProduct => L = [] ∧ R = out
  | .scalarMatrixProductGeneral => L = [] ∧ R.Perm out
  | .matrixScalarProduct => L = out ∧ R = []
  | .matrixScalarProductGeneral => L.Perm out ∧ R = []
  | .tensordotGeneral => Simplified L R out ∧ ∀ c ∈ L, c ∈ R → c ∉ out
  | .stackedTensordotGeneral => Once out L ∧ Once out R ∧ ∀ c ∈ L, c ∉ out → c ∈ R
  | .broadcastProductGeneral => Once out L ∧ Once out R
  | .tensordotFixedPosition => False

/-- The documented domain of a pair contractor. -/
def Usable (L R out : List Char) : PairMethod → Prop
  | .stackedTensordotGeneral => Simplified L R out
  | .broadcastProductGeneral => L.Nodup ∧ R.Nodup ∧ (∀ c ∈ L, c ∈ out) ∧ ∀ c ∈ R, c ∈ out
  | m => Buildable L R out m

/-! ## Looking up positions -/

theorem position_drop_none {c : Char} {l : List Char} {p : Nat} (h : position c l = some p) :
    (position c (l.drop (p + 1))).isNone = true ↔ l.count c ≤ 1 := by
  rw [position_isNone, decide_eq_true_eq]
  obtain ⟨h1, h2⟩ := position_eq_some.1 h
  obtain ⟨hp, hc⟩ := List.getElem?_eq_some_iff.1 h1
  have e : l = l.take p ++ c :: l.drop (p + 1) := by
    rw [← hc, List.getElem_cons_drop, List.take_append_drop]
  have h3 : (l.take p).count c = 0 := by
    rw [List.count_eq_zero]
    intro hm
    obtain ⟨j, hj, e'⟩ := List.mem_iff_getElem.1 hm
    simp only [List.length_take] at hj
    refine h2 j (by omega) ?_
    rw [List.getElem_take] at e'
    rw [List.getElem?_eq_getElem (by omega), e']
  have h4 : l.count c = (l.drop (p + 1)).count c + 1 := by
    conv_lhs => rw [e]
    rw [List.count_append, h3, List.count_cons_self, Nat.zero_add]
  rw [h4, ← List.count_eq_zero]
  omega

theorem mapE_mem {α β : Type} {f : α → M β} {l : List α} {r : List β} (h : mapE f l = .ok r) {a : α} (ha : a ∈ l) :
    ∃ b, f a = .ok b := by
  have := mapE_eq_ok.1 h
  clear h
  induction this with
  | nil => simp at ha
  | cons h1 _ ih =>
    rcases List.mem_cons.1 ha with rfl | ha
    · exact ⟨_, h1⟩
    · exact ih ha

theorem maybeFind_eq (out input : List Char) : maybeFindOutputsInInputsUnique out input =
    mapE (fun c => if input.count c ≤ 1 then (.ok (position c input) : M _) else panic .assertFailed) out := by
  unfold maybeFindOutputsInInputsUnique
  congr 1
  funext c
  cases hp : position c input with
  | none =>
    have : input.count c = 0 := List.count_eq_zero.2 (position_eq_none.1 hp)
    simp [this]
  | some p =>
    have := position_drop_none hp
    by_cases h : input.count c ≤ 1
    · simp [this.2 h, h]
    · have h' : (position c (input.drop (p + 1))).isNone = false := by
        cases hb : (position c (input.drop (p + 1))).isNone with
        | false => rfl
        | true => exact absurd (this.1 hb) h
      rw [if_neg h]
      simp only [h', assertThat]
      rfl

theorem maybeFind_iff {out input : List Char} {ps : List (Option Nat)} :
    maybeFindOutputsInInputsUnique out input = .ok ps ↔
      ps = (out.map fun c => position c input) ∧ Once out input := by
  rw [maybeFind_eq]
  constructor
  · intro h
    have h2 : Once out input := by
      intro c hc
      obtain ⟨b, hb⟩ := mapE_mem h hc
      by_contra hn
      rw [if_neg hn] at hb
      cases hb
    rw [mapE_ok (g := fun c => position c input) fun c hc => if_pos (h2 c hc)] at h
    exact ⟨(Except.ok.inj h).symm, h2⟩
  · rintro ⟨rfl, h⟩
    exact mapE_ok fun c hc => if_pos (h c hc)

theorem find_iff {out input : List Char} {ps : List Nat} :
    findOutputsInInputsUnique out input = .ok ps ↔
      ps = (out.map fun c => pos c input) ∧ Once out input ∧ ∀ c ∈ out, c ∈ input := by
  unfold findOutputsInInputsUnique
  constructor
  · intro h
    obtain ⟨qs, h1, h2⟩ := bind_eq_ok.1 h
    obtain ⟨rfl, h3⟩ := maybeFind_iff.1 h1
    have hm : ∀ c ∈ out, c ∈ input := by
      intro c hc
      by_contra hn
      obtain ⟨b, hb⟩ := mapE_mem h2 (List.mem_map_of_mem (f := fun c => position c input) hc)
      rw [position_eq_none.2 hn] at hb
      cases hb
    refine ⟨?_, h3, hm⟩
    rw [List.map_congr_left (g := fun c => some (pos c input)) fun c hc => position_of_mem (hm c hc)] at h2
    rw [mapE_ok (g := fun o => o.getD 0)] at h2
    · rw [← Except.ok.inj h2]; simp
    · intro a ha
      obtain ⟨c, _, rfl⟩ := List.mem_map.1 ha
      rfl
  · rintro ⟨rfl, h, hm⟩
    rw [maybeFind_iff.2 ⟨rfl, h⟩, bind_ok]
    rw [List.map_congr_left (g := fun c => some (pos c input)) fun c hc => position_of_mem (hm c hc)]
    rw [mapE_ok (g := fun o => o.getD 0)]
    · simp
    · intro a ha
      obtain ⟨c, _, rfl⟩ := List.mem_map.1 ha
      rfl

/-- If the positions of `ls` in `L` are all positions, then `L` is a rearrangement of `ls`. -/
theorem perm_of_positions {ls L : List Char} (hm : ∀ c ∈ ls, c ∈ L)
    (hp : (ls.map fun c => pos c L).Perm (List.range L.length)) : L.Perm ls := by
  have h1 := hp.map fun i => L.getD i 'a'
  have e1 : ((ls.map fun c => pos c L).map fun i => L.getD i 'a') = ls := by
    rw [List.map_map]
    conv_rhs => rw [← List.map_id ls]
    refine List.map_congr_left fun c hc => ?_
    simp [List.getD_eq_getElem?_getD, getElem?_pos (hm c hc)]
  have e2 : ((List.range L.length).map fun i => L.getD i 'a') = L := (eq_map_range_getD L 'a').symm
  rw [e1, e2] at h1
  exact h1.symm

theorem permutedAxes_inv {A : Type} {v w : View A} {axes : List Nat} (h : v.permutedAxes axes = .ok w) :
    axes.Perm (List.range v.shape.length) := by
  by_contra hn
  rw [View.permutedAxes_panic hn] at h
  cases h

theorem once_of_nodup {out l : List Char} (h : l.Nodup) : Once out l := fun c _ => List.nodup_iff_count_le_one.1 h c

theorem perm_of_once {out l : List Char} (ho : out.Nodup) (hm : ∀ c ∈ out, c ∈ l) (hl : l.length = out.length) :
    l.Perm out :=
  ((List.subperm_of_subset ho hm).perm_of_length_le (by omega)).symm

/-! ## Building -/

section
variable {L R out : List Char} {dims : Char → Nat}

theorem assertThat_inv {b : Bool} {u : Unit} (h : assertThat b = .ok u) : b = true := by
  cases b with
  | true => rfl
  | false => cases h

theorem new_hadamard : (∃ op, PairOp.new (callSC [L, R] out dims) .hadamardProduct = .ok op) ↔ L = out ∧ R = out := by
  simp only [PairOp.new, HadamardProduct.new, callSC, List.length_cons, List.length_nil, Nat.zero_add, Nat.reduceAdd,
    decide_true, assertThat_true, bind_ok, index_cons_zero, index_one]
  constructor
  · rintro ⟨op, h⟩
    obtain ⟨_, h1, h⟩ := bind_eq_ok.1 h
    obtain ⟨_, h2, h⟩ := bind_eq_ok.1 h1
    have e1 := of_decide_eq_true (assertThat_inv h2)
    have e2 := of_decide_eq_true (assertThat_inv h)
    exact ⟨e2, e1 ▸ e2⟩
  · rintro ⟨rfl, rfl⟩
    exact ⟨.hadamardProduct, by simp⟩

theorem new_hadamardGeneral (ho : out.Nodup) :
    (∃ op, PairOp.new (callSC [L, R] out dims) .hadamardProductGeneral = .ok op) ↔ L.Perm out ∧ R.Perm out := by
  constructor
  · rintro ⟨op, h⟩
    simp only [PairOp.new, HadamardProductGeneral.new, callSC, List.length_cons, List.length_nil, Nat.zero_add,
      Nat.reduceAdd, decide_true, assertThat_true, bind_ok, index_cons_zero, index_one] at h
    obtain ⟨_, h, _⟩ := bind_eq_ok.1 h
    obtain ⟨_, h1, h⟩ := bind_eq_ok.1 h
    obtain ⟨_, h2, h⟩ := bind_eq_ok.1 h
    obtain ⟨_, h3, h⟩ := bind_eq_ok.1 h
    obtain ⟨_, h4, _⟩ := bind_eq_ok.1 h
    have e1 := of_decide_eq_true (assertThat_inv h1)
    have e2 := of_decide_eq_true (assertThat_inv h2)
    exact ⟨perm_of_once ho (find_iff.1 h3).2.2 e2, perm_of_once ho (find_iff.1 h4).2.2 (by omega)⟩
  · rintro ⟨h1, h2⟩
    obtain ⟨op, h, _⟩ := hadamardGeneral_ok (sc := callSC [L, R] out dims) (dims := dims) (L := L) (R := R) rfl
      (h1.nodup_iff.2 ho) (h2.nodup_iff.2 ho) h1.symm h2.symm
    exact ⟨op, h⟩

theorem new_scalarMatrix :
    (∃ op, PairOp.new (callSC [L, R] out dims) .scalarMatrixProduct = .ok op) ↔ L = [] ∧ R = out := by
  simp only [PairOp.new, ScalarMatrixProduct.new, callSC, List.length_cons, List.length_nil, Nat.zero_add, Nat.reduceAdd,
    decide_true, assertThat_true, bind_ok, index_cons_zero, index_one]
  constructor
  · rintro ⟨op, h⟩
    obtain ⟨_, h1, h⟩ := bind_eq_ok.1 h
    obtain ⟨_, h2, h⟩ := bind_eq_ok.1 h1
    have e1 := of_decide_eq_true (assertThat_inv h2)
    have e2 := of_decide_eq_true (assertThat_inv h)
    exact ⟨List.length_eq_zero_iff.1 e1, e2.symm⟩
  · rintro ⟨rfl, rfl⟩
    exact ⟨.scalarMatrixProduct, by simp⟩

theorem new_scalarMatrixGeneral (ho : out.Nodup) :
    (∃ op, PairOp.new (callSC [L, R] out dims) .scalarMatrixProductGeneral = .ok op) ↔ L = [] ∧ R.Perm out := by
  constructor
  · rintro ⟨op, h⟩
    simp only [PairOp.new, ScalarMatrixProductGeneral.new, callSC, List.length_cons, List.length_nil, Nat.zero_add,
      Nat.reduceAdd, decide_true, assertThat_true, bind_ok, index_cons_zero, index_one] at h
    obtain ⟨_, h, _⟩ := bind_eq_ok.1 h
    obtain ⟨_, h1, h⟩ := bind_eq_ok.1 h
    obtain ⟨_, h2, h⟩ := bind_eq_ok.1 h
    obtain ⟨_, h3, _⟩ := bind_eq_ok.1 h
    have e1 := of_decide_eq_true (assertThat_inv h1)
    have e2 := of_decide_eq_true (assertThat_inv h2)
    exact ⟨List.length_eq_zero_iff.1 e1, perm_of_once ho (find_iff.1 h3).2.2 e2⟩
  · rintro ⟨rfl, h2⟩
    obtain ⟨op, h, _⟩ := scalarMatrixGeneral_ok (sc := callSC [[], R] out dims) (dims := dims) (R := R) rfl
      (h2.nodup_iff.2 ho) h2.symm
    exact ⟨op, h⟩

theorem new_matrixScalar :
    (∃ op, PairOp.new (callSC [L, R] out dims) .matrixScalarProduct = .ok op) ↔ L = out ∧ R = [] := by
  simp only [PairOp.new, MatrixScalarProduct.new, callSC, List.length_cons, List.length_nil, Nat.zero_add, Nat.reduceAdd,
    decide_true, assertThat_true, bind_ok, index_cons_zero, index_one]
  constructor
  · rintro ⟨op, h⟩
    obtain ⟨_, h1, h⟩ := bind_eq_ok.1 h
    obtain ⟨_, h2, h⟩ := bind_eq_ok.1 h1
    have e1 := of_decide_eq_true (assertThat_inv h2)
    have e2 := of_decide_eq_true (assertThat_inv h)
    exact ⟨e2.symm, List.length_eq_zero_iff.1 e1⟩
  · rintro ⟨rfl, rfl⟩
    exact ⟨.matrixScalarProduct, by simp⟩

theorem new_matrixScalarGeneral (ho : out.Nodup) :
    (∃ op, PairOp.new (callSC [L, R] out dims) .matrixScalarProductGeneral = .ok op) ↔ L.Perm out ∧ R = [] := by
  constructor
  · rintro ⟨op, h⟩
    simp only [PairOp.new, MatrixScalarProductGeneral.new, callSC, List.length_cons, List.length_nil, Nat.zero_add,
      Nat.reduceAdd, decide_true, assertThat_true, bind_ok, index_cons_zero, index_one] at h
    obtain ⟨_, h, _⟩ := bind_eq_ok.1 h
    obtain ⟨_, h1, h⟩ := bind_eq_ok.1 h
    obtain ⟨_, h2, h⟩ := bind_eq_ok.1 h
    obtain ⟨_, h3, _⟩ := bind_eq_ok.1 h
    have e1 := of_decide_eq_true (assertThat_inv h1)
    have e2 := of_decide_eq_true (assertThat_inv h2)
    exact ⟨perm_of_once ho (find_iff.1 h3).2.2 e2, List.length_eq_zero_iff.1 e1⟩
  · rintro ⟨h2, rfl⟩
    obtain ⟨op, h, _⟩ := matrixScalarGeneral_ok (sc := callSC [L, []] out dims) (dims := dims) (L := L) rfl
      (h2.nodup_iff.2 ho) h2.symm
    exact ⟨op, h⟩

theorem new_tensordotGeneral (ho : OutputOk [L, R] out) :
    (∃ op, PairOp.new (callSC [L, R] out dims) .tensordotGeneral = .ok op) ↔
      Simplified L R out ∧ ∀ c ∈ L, c ∈ R → c ∉ out := by
  constructor
  · rintro ⟨op, h⟩
    simp only [PairOp.new, TensordotGeneral.new, callSC, List.length_cons, List.length_nil, Nat.zero_add,
      Nat.reduceAdd, decide_true, assertThat_true, bind_ok, index_cons_zero, index_one] at h
    obtain ⟨_, h, _⟩ := bind_eq_ok.1 h
    obtain ⟨_, _, h⟩ := bind_eq_ok.1 h
    obtain ⟨_, _, h⟩ := bind_eq_ok.1 h
    unfold TensordotGeneral.fromShapesAndIndices at h
    obtain ⟨_, h1, h⟩ := bind_eq_ok.1 h
    obtain ⟨_, h2, h⟩ := bind_eq_ok.1 h
    obtain ⟨_, h3, _⟩ := bind_eq_ok.1 h
    obtain ⟨_, o1, m1⟩ := find_iff.1 h1
    obtain ⟨_, o2, m2⟩ := find_iff.1 h2
    obtain ⟨_, o3, _⟩ := find_iff.1 h3
    have mC : ∀ c, c ∈ summationOf [L, R] out ↔ (c ∈ L ∨ c ∈ R) ∧ c ∉ out := fun c => by
      rw [mem_summationOf]; simp [List.mem_append]
    have cnt : ∀ c ∈ out, L.count c + R.count c ≤ 1 := by
      intro c hc
      have := o3 c hc
      rw [List.count_append, List.count_filter (by simp [position_isSome, hc]),
        List.count_filter (by simp [position_isSome, hc])] at this
      exact this
    refine ⟨⟨?_, ?_, ?_, ?_⟩, ?_⟩
    · rw [List.nodup_iff_count_le_one]
      intro c
      by_cases hc : c ∈ out
      · have := cnt c hc; omega
      · by_cases hm : c ∈ L
        · exact o1 c ((mC c).2 ⟨.inl hm, hc⟩)
        · rw [List.count_eq_zero.2 hm]; omega
    · rw [List.nodup_iff_count_le_one]
      intro c
      by_cases hc : c ∈ out
      · have := cnt c hc; omega
      · by_cases hm : c ∈ R
        · exact o2 c ((mC c).2 ⟨.inr hm, hc⟩)
        · rw [List.count_eq_zero.2 hm]; omega
    · intro c hc
      by_cases h : c ∈ out
      · exact .inr h
      · exact .inl (m2 c ((mC c).2 ⟨.inl hc, h⟩))
    · intro c hc
      by_cases h : c ∈ out
      · exact .inr h
      · exact .inl (m1 c ((mC c).2 ⟨.inr hc, h⟩))
    · intro c h1 h2 h3
      have := cnt c h3
      have := List.count_pos_iff.2 h1
      have := List.count_pos_iff.2 h2
      omega
  · rintro ⟨hs, h0⟩
    obtain ⟨op, h, _⟩ := tensordotGeneral_ok (callSC_valid (dims := dims) ho) (L := L) (R := R) rfl hs.lhs_nodup
      hs.rhs_nodup hs.lhs_used hs.rhs_used h0
    exact ⟨op, h⟩

theorem new_broadcast (ho : OutputOk [L, R] out) {op : PairOp} :
    PairOp.new (callSC [L, R] out dims) .broadcastProductGeneral = .ok op ↔ (Once out L ∧ Once out R) ∧
      op = .broadcastProductGeneral ⟨⟨(out.map fun c => position c L).filterMap id⟩,
        ⟨(out.map fun c => position c R).filterMap id⟩, nonePositions 0 (out.map fun c => position c L),
        nonePositions 0 (out.map fun c => position c R), out.map dims⟩ := by
  have hz : sizesOf (callSC [L, R] out dims) out = .ok (out.map dims) :=
    sizesOf_ok (callSC_valid ho) fun c hc => used_iff.1 (ho.2 c hc)
  simp only [PairOp.new, BroadcastProductGeneral.new]
  constructor
  · intro h
    simp only [callSC, List.length_cons, List.length_nil, Nat.zero_add,
      Nat.reduceAdd, decide_true, assertThat_true, bind_ok, index_cons_zero, index_one] at h
    obtain ⟨_, h, h'⟩ := bind_eq_ok.1 h
    obtain ⟨_, h1, h⟩ := bind_eq_ok.1 h
    obtain ⟨_, h2, h⟩ := bind_eq_ok.1 h
    obtain ⟨_, h3, h⟩ := bind_eq_ok.1 h
    obtain ⟨rfl, o1⟩ := maybeFind_iff.1 h1
    obtain ⟨rfl, o2⟩ := maybeFind_iff.1 h2
    change sizesOf (callSC [L, R] out dims) out = _ at h3
    rw [hz] at h3
    cases h3
    cases h
    cases h'
    exact ⟨⟨o1, o2⟩, rfl⟩
  · rintro ⟨⟨o1, o2⟩, rfl⟩
    change (do let p ← (do
      let m1 ← maybeFindOutputsInInputsUnique out L
      let m2 ← maybeFindOutputsInInputsUnique out R
      let z ← sizesOf (callSC [L, R] out dims) out
      pure (⟨⟨m1.filterMap id⟩, ⟨m2.filterMap id⟩, nonePositions 0 m1, nonePositions 0 m2, z⟩ : BroadcastProductGeneral) :
        M BroadcastProductGeneral); pure (PairOp.broadcastProductGeneral p)) = _
    rw [maybeFind_iff.2 ⟨rfl, o1⟩, maybeFind_iff.2 ⟨rfl, o2⟩, hz]
    rfl

theorem stackContracted_any {sc : SizedContraction} (hz : ∀ c ∈ L, sc.outputSize.get c = .ok (dims c)) (l : List Char)
    (hl : ∀ c ∈ l, c ∈ L) (hR : ∀ c ∈ l, c ∉ out → c ∈ R) : ∀ n, ∃ ls, stackContracted sc R out n l =
      .ok (ls, (l.filter fun c => c ∉ out).map fun c => pos c R, (l.filter fun c => c ∉ out).map dims) ∧
      ls.length = (l.filter fun c => c ∉ out).length := by
  induction l with
  | nil => intro n; exact ⟨[], rfl, rfl⟩
  | cons c l ih =>
    intro n
    obtain ⟨ls, h1, h2⟩ := ih (fun d hd => hl d (by simp [hd])) (fun d hd => hR d (by simp [hd])) (n + 1)
    by_cases hc : c ∈ out
    · refine ⟨ls, ?_, by simpa [hc] using h2⟩
      simp only [stackContracted, position_of_mem hc]
      rw [h1]
      simp [hc]
    · have hcR := hR c (by simp) hc
      refine ⟨n :: ls, ?_, by simpa [hc] using h2⟩
      simp only [stackContracted, position_eq_none.2 hc, position_of_mem hcR, unwrapO_some, bind_ok, hz c (hl c (by simp))]
      rw [h1]
      simp [hc]

theorem stackContracted_inv {sc : SizedContraction} (l : List Char) :
    ∀ {n : Nat} {r : List Nat × List Nat × List Nat}, stackContracted sc R out n l = .ok r →
      ∀ c ∈ l, c ∉ out → c ∈ R := by
  induction l with
  | nil => intro n r _ c hc; simp at hc
  | cons d l ih =>
    intro n r h c hc hco
    simp only [stackContracted] at h
    split at h
    · rename_i hp
      rcases List.mem_cons.1 hc with rfl | hc
      · rw [position_eq_none.2 hco] at hp; cases hp
      · exact ih h c hc hco
    · obtain ⟨p, h1, h⟩ := bind_eq_ok.1 h
      obtain ⟨_, _, h⟩ := bind_eq_ok.1 h
      obtain ⟨_, h2, h⟩ := bind_eq_ok.1 h
      rcases List.mem_cons.1 hc with rfl | hc
      · by_contra hn
        rw [position_eq_none.2 hn] at h1
        cases h1
      · exact ih h2 c hc hco

theorem new_stacked_inv {op : PairOp} (h : PairOp.new (callSC [L, R] out dims) .stackedTensordotGeneral = .ok op) :
    Once out L ∧ Once out R ∧ ∀ c ∈ L, c ∉ out → c ∈ R := by
  simp only [PairOp.new, StackedTensordotGeneral.new, callSC, List.length_cons, List.length_nil, Nat.zero_add,
    Nat.reduceAdd, decide_true, assertThat_true, bind_ok, index_cons_zero, index_one] at h
  obtain ⟨_, h, h'⟩ := bind_eq_ok.1 h
  obtain ⟨_, h1, h⟩ := bind_eq_ok.1 h
  obtain ⟨_, h2, h⟩ := bind_eq_ok.1 h
  obtain ⟨_, _, h⟩ := bind_eq_ok.1 h
  obtain ⟨_, h3, _⟩ := bind_eq_ok.1 h
  exact ⟨(maybeFind_iff.1 h1).2, (maybeFind_iff.1 h2).2, stackContracted_inv _ h3⟩

theorem new_stacked_ok (ho : OutputOk [L, R] out) (h1 : Once out L) (h2 : Once out R)
    (h3 : ∀ c ∈ L, c ∉ out → c ∈ R) :
    ∃ p, PairOp.new (callSC [L, R] out dims) .stackedTensordotGeneral = .ok (.stackedTensordotGeneral p) ∧
      p.rhsPermutation.permutation = ((out.filter fun c => c ∈ L ∧ c ∈ R) ++ ((L.filter fun c => c ∉ out) ++
        out.filter fun c => c ∉ L ∧ c ∈ R)).map fun c => pos c R := by
  have hv := callSC_valid (dims := dims) ho
  have hsub : ∀ c ∈ out, c ∈ L ∨ c ∈ R := fun c hc => by simpa using used_iff.1 (ho.2 c hc)
  have hon := ho.1
  set S := out.filter fun c => c ∈ L ∧ c ∈ R with hS
  set U := out.filter fun c => c ∈ L ∧ c ∉ R with hU
  set V := out.filter fun c => c ∉ L ∧ c ∈ R with hV
  have mS : ∀ c, c ∈ S ↔ c ∈ out ∧ c ∈ L ∧ c ∈ R := fun c => by simp [hS]
  have mU : ∀ c, c ∈ U ↔ c ∈ out ∧ c ∈ L ∧ c ∉ R := fun c => by simp [hU]
  have mV : ∀ c, c ∈ V ↔ c ∈ out ∧ c ∉ L ∧ c ∈ R := fun c => by simp [hV]
  have hn : (S ++ (U ++ V)).Nodup := by
    rw [List.nodup_append, List.nodup_append]
    refine ⟨hon.filter _, ⟨hon.filter _, hon.filter _, ?_⟩, ?_⟩
    · rintro a ha b hb rfl
      exact ((mV a).1 hb).2.1 ((mU a).1 ha).2.1
    · rintro a ha b hb rfl
      rcases List.mem_append.1 hb with h | h
      · exact ((mU a).1 h).2.2 ((mS a).1 ha).2.2
      · exact ((mV a).1 h).2.1 ((mS a).1 ha).2.1
  have po : ∀ c, c ∈ out ↔ c ∈ S ++ (U ++ V) := by
    intro c
    simp only [List.mem_append, mS, mU, mV]
    have := hsub c
    tauto
  have hz : ∀ c, c ∈ L ∨ c ∈ R → (callSC [L, R] out dims).outputSize.get c = .ok (dims c) := fun c hc => by
    have := hv.size c (by change c ∈ [L, R].flatten; simpa using hc)
    simp [OutputSize.get, this]
  have hzs : ∀ l : List Char, (∀ c ∈ l, c ∈ L ∨ c ∈ R) → sizesOf (callSC [L, R] out dims) l = .ok (l.map dims) :=
    fun l hl => mapE_ok fun c hc => hz c (hl c hc)
  obtain ⟨ls, c1, c2⟩ := stackContracted_any (L := L) (R := R) (out := out) (fun c hc => hz c (.inl hc)) L (fun c hc => hc)
    h3 0
  set C := L.filter fun c => c ∉ out with hC
  refine ⟨⟨⟨(S.map fun c => pos c L) ++ (U.map fun c => pos c L) ++ ls⟩, ⟨(S ++ (C ++ V)).map fun c => pos c R⟩,
    (S.map dims).prod :: (U.map dims ++ C.map dims), (S.map dims).prod :: (C.map dims ++ V.map dims),
    (S.map dims).prod :: (U.map dims ++ V.map dims),
    ⟨(U.map dims).prod, (V.map dims).prod, (C.map dims).prod, U.map dims ++ V.map dims⟩,
    (S ++ (U ++ V)).map dims, ⟨out.map fun c => pos c (S ++ (U ++ V))⟩⟩, ?_, rfl⟩
  · simp only [PairOp.new, StackedTensordotGeneral.new]
    have e1 : (callSC [L, R] out dims).contraction.operandIndices = [L, R] := rfl
    have e2 : (callSC [L, R] out dims).contraction.outputIndices = out := rfl
    simp only [e1, e2, List.length_cons, List.length_nil, Nat.zero_add, Nat.reduceAdd, decide_true,
      assertThat_true, bind_ok, index_cons_zero, index_one]
    rw [maybeFind_iff.2 ⟨rfl, h1⟩, bind_ok, maybeFind_iff.2 ⟨rfl, h2⟩, bind_ok, zip_maybe,
      stackClassify_ok hv rfl out hsub, bind_ok, c1, bind_ok]
    simp only [List.nil_append, ← hS, ← hU, ← hV, Nat.one_mul]
    rw [hzs U fun c hc => .inl ((mU c).1 hc).2.1, bind_ok,
      hzs V fun c hc => .inr ((mV c).1 hc).2.2, bind_ok, List.append_assoc, find_ok hn fun c hc => (po c).1 hc,
      bind_ok, hzs _ fun c hc => hsub c ((po c).2 hc), bind_ok]
    simp only [List.tail_cons]
    rw [fromShapes_split (by simp [c2]) (by simp [c2]), if_pos rfl]
    simp

end

/-- C73: the constructor of a pair contractor accepts exactly the label lists its assertions describe, and panics for
all others. -/
theorem C73_built (h : HashOrd) (L R out : List Char) (shapes : List (List Nat)) (sc : SizedContraction)
    (hsc : SizingOf h [L, R] out shapes sc) (m : PairMethod) (hm : m ≠ .tensordotFixedPosition) :
    ((∃ op, PairOp.new sc m = .ok op) ↔ Buildable L R out m) ∧
    ((∃ k, PairOp.new sc m = panic k) ↔ ¬ Buildable L R out m) := by
  obtain ⟨dims, hs⟩ := hsc.sized
  obtain ⟨ho, rfl⟩ := hsc.eq hs
  have key : (∃ op, PairOp.new (callSC [L, R] out dims) m = .ok op) ↔ Buildable L R out m := by
    cases m with
    | tensordotFixedPosition => exact absurd rfl hm
    | hadamardProduct => exact new_hadamard
    | hadamardProductGeneral => exact new_hadamardGeneral ho.1
    | scalarMatrixProduct => exact new_scalarMatrix
    | scalarMatrixProductGeneral => exact new_scalarMatrixGeneral ho.1
    | matrixScalarProduct => exact new_matrixScalar
    | matrixScalarProductGeneral => exact new_matrixScalarGeneral ho.1
    | tensordotGeneral => exact new_tensordotGeneral ho
    | broadcastProductGeneral =>
      exact ⟨fun ⟨op, h⟩ => ((new_broadcast ho).1 h).1, fun h => ⟨_, (new_broadcast ho).2 ⟨h, rfl⟩⟩⟩
    | stackedTensordotGeneral =>
      refine ⟨fun ⟨op, h⟩ => new_stacked_inv h, fun ⟨h1, h2, h3⟩ => ?_⟩
      obtain ⟨p, h, _⟩ := new_stacked_ok (dims := dims) ho h1 h2 h3
      exact ⟨_, h⟩
  refine ⟨key, ?_⟩
  rw [← key]
  rcases noUb_pairOp (callSC [L, R] out dims) m with ⟨k, hk⟩ | ⟨op, hop⟩
  · rw [hk]
    exact ⟨fun _ ⟨op, h⟩ => (by cases h), fun _ => ⟨k, rfl⟩⟩
  · rw [hop]
    exact ⟨fun ⟨k, h⟩ => (by cases h), fun h => absurd ⟨op, rfl⟩ h⟩

theorem filterMap_positions (out L : List Char) :
    (out.map fun c => position c L).filterMap id = (out.filter fun c => c ∈ L).map fun c => pos c L := by
  induction out with
  | nil => rfl
  | cons c out ih =>
    by_cases hc : c ∈ L
    · simp only [List.map_cons, position_of_mem hc, List.filterMap_cons, id, hc, decide_true, List.filter_cons, if_true,
        ← ih]
    · simp only [List.map_cons, position_eq_none.2 hc, List.filterMap_cons, id, hc, decide_false, List.filter_cons,
        Bool.false_eq_true, if_false, ← ih]

section
variable {A : Type} [CommSemiring A] {L R out : List Char}

omit [CommSemiring A] in
theorem PairSetting.shapes {h : HashOrd} {l r : View A} {t u : List Nat → A} {dims : Char → Nat}
    {sc : SizedContraction} (hp : PairSetting h L R out l r t u dims sc) :
    l.shape = L.map dims ∧ r.shape = R.map dims := by
  have := hp.sized
  cases this with
  | cons h1 h2 =>
    cases h2 with
    | cons h2 _ => exact ⟨h1, h2⟩

/-- What builds and runs is inside the documented domain. -/
theorem usable_of_run {h : HashOrd} {al : Alloc A} {l r : View A} {t u : List Nat → A} {dims : Char → Nat}
    {sc : SizedContraction} (hp : PairSetting h L R out l r t u dims sc) {m : PairMethod}
    (hm : m ≠ .tensordotFixedPosition) {op : PairOp} {w : View A} (hn : PairOp.new sc m = .ok op)
    (hr : op.run al l r = .ok w) : Usable L R out m := by
  have hb := (C73_built h L R out _ sc hp.sizing m hm).1.1 ⟨op, hn⟩
  obtain ⟨ho, rfl⟩ := hp.sizing.eq hp.sized
  obtain ⟨sl, sr⟩ := hp.shapes
  cases m with
  | tensordotFixedPosition => exact absurd rfl hm
  | stackedTensordotGeneral =>
    obtain ⟨h1, h2, h3⟩ := hb
    obtain ⟨p, e1, e2⟩ := new_stacked_ok (dims := dims) ho h1 h2 h3
    rw [e1] at hn
    cases hn
    simp only [PairOp.run, StackedTensordotGeneral.run] at hr
    obtain ⟨_, _, hr⟩ := bind_eq_ok.1 hr
    obtain ⟨_, _, hr⟩ := bind_eq_ok.1 hr
    split at hr
    · cases hr
    · obtain ⟨_, hv, _⟩ := bind_eq_ok.1 hr
      have hperm := permutedAxes_inv hv
      rw [e2, sr, List.length_map] at hperm
      have hmem : ∀ c ∈ (out.filter fun c => c ∈ L ∧ c ∈ R) ++ ((L.filter fun c => c ∉ out) ++
          out.filter fun c => c ∉ L ∧ c ∈ R), c ∈ R := by
        intro c hc
        simp only [List.mem_append, List.mem_filter, decide_eq_true_eq] at hc
        rcases hc with hc | hc | hc
        · exact hc.2.2
        · exact h3 c hc.1 hc.2
        · exact hc.2.2
      have hR := perm_of_positions hmem hperm
      have hRn : R.Nodup := by
        have hd := hperm.nodup_iff.2 List.nodup_range
        exact hR.nodup_iff.2 hd.of_map
      have hC : (L.filter fun c => c ∉ out).Nodup :=
        (List.nodup_append.1 (List.nodup_append.1 (hR.nodup_iff.1 hRn)).2.1).1
      refine ⟨?_, hRn, ?_, ?_⟩
      · rw [List.nodup_iff_count_le_one]
        intro c
        by_cases hc : c ∈ out
        · exact h1 c hc
        · have := List.nodup_iff_count_le_one.1 hC c
          rwa [List.count_filter (by simpa using hc)] at this
      · intro c hc
        by_cases h : c ∈ out
        · exact .inr h
        · exact .inl (h3 c hc h)
      · intro c hc
        have := hR.mem_iff.1 hc
        simp only [List.mem_append, List.mem_filter, decide_eq_true_eq] at this
        rcases this with h | h | h
        · exact .inr h.1
        · exact .inl h.1
        · exact .inr h.1
  | broadcastProductGeneral =>
    obtain ⟨_, rfl⟩ := (new_broadcast ho).1 hn
    simp only [PairOp.run, BroadcastProductGeneral.run] at hr
    obtain ⟨_, hl', hr⟩ := bind_eq_ok.1 hr
    obtain ⟨_, hr', _⟩ := bind_eq_ok.1 hr
    have pl := permutedAxes_inv hl'
    have pr := permutedAxes_inv hr'
    rw [filterMap_positions, sl, List.length_map] at pl
    rw [filterMap_positions, sr, List.length_map] at pr
    have hL := perm_of_positions (fun c hc => by simpa using (List.mem_filter.1 hc).2) pl
    have hR := perm_of_positions (fun c hc => by simpa using (List.mem_filter.1 hc).2) pr
    exact ⟨hL.nodup_iff.2 (ho.1.filter _), hR.nodup_iff.2 (ho.1.filter _),
      fun c hc => (List.mem_filter.1 (hL.mem_iff.1 hc)).1, fun c hc => (List.mem_filter.1 (hR.mem_iff.1 hc)).1⟩
  | hadamardProduct => exact hb
  | hadamardProductGeneral => exact hb
  | scalarMatrixProduct => exact hb
  | scalarMatrixProductGeneral => exact hb
  | matrixScalarProduct => exact hb
  | matrixScalarProductGeneral => exact hb
  | tensordotGeneral => exact hb

/-- C73: a pair contractor of any kind except `TensordotFixedPosition`, built for any validated contraction and run on
arrays of its sizes: on the documented domain of that kind the result is the Einstein sum, outside it building or
running panics. -/
theorem C73_pair (h : HashOrd) (al : Alloc A) (l r : View A) (t u : List Nat → A) (dims : Char → Nat)
    (sc : SizedContraction) (hp : PairSetting h L R out l r t u dims sc) (m : PairMethod)
    (hm : m ≠ .tensordotFixedPosition) :
    (Usable L R out m → ∃ w, (do let op ← PairOp.new sc m; op.run al l r) = .ok w ∧
      IsEinsum dims [L, R] [t, u] out w) ∧
    (¬ Usable L R out m → ∃ k, (do let op ← PairOp.new sc m; op.run al l r) = panic k) := by
  constructor
  · intro hu
    suffices ∃ op w, PairOp.new sc m = .ok op ∧ op.run al l r = .ok w ∧ IsEinsum dims [L, R] [t, u] out w by
      obtain ⟨op, w, h1, h2, h3⟩ := this
      exact ⟨w, by rw [h1, bind_ok, h2], h3⟩
    cases m with
    | tensordotFixedPosition => exact absurd rfl hm
    | hadamardProduct =>
      obtain ⟨rfl, rfl⟩ := hu
      obtain ⟨h1, h2⟩ := C44_hadamard h al l r t u dims sc hp
      obtain ⟨w, h3, h4⟩ := h2 rfl rfl
      exact ⟨.hadamardProduct, w, by simp [PairOp.new, h1.2 ⟨rfl, rfl⟩], h3, h4⟩
    | hadamardProductGeneral =>
      obtain ⟨p, w, h1, h2, h3⟩ := C44_hadamard_general h al l r t u dims sc hp hu.1 hu.2
      exact ⟨.hadamardProductGeneral p, w, by simp [PairOp.new, h1], h2, h3⟩
    | scalarMatrixProduct =>
      obtain ⟨rfl, rfl⟩ := hu
      obtain ⟨h1, h2⟩ := C44_scalar_matrix h al l r t u dims sc hp
      obtain ⟨w, h3, h4⟩ := h2 rfl rfl
      exact ⟨.scalarMatrixProduct, w, by simp [PairOp.new, h1.2 ⟨rfl, rfl⟩], h3, h4⟩
    | scalarMatrixProductGeneral =>
      obtain ⟨rfl, hu⟩ := hu
      obtain ⟨p, w, h1, h2, h3⟩ := C44_scalar_matrix_general h al l r t u dims sc hp hu
      exact ⟨.scalarMatrixProductGeneral p, w, by simp [PairOp.new, h1], h2, h3⟩
    | matrixScalarProduct =>
      obtain ⟨rfl, rfl⟩ := hu
      obtain ⟨h1, h2⟩ := C44_matrix_scalar h al l r t u dims sc hp
      obtain ⟨w, h3, h4⟩ := h2 rfl rfl
      exact ⟨.matrixScalarProduct, w, by simp [PairOp.new, h1.2 ⟨rfl, rfl⟩], h3, h4⟩
    | matrixScalarProductGeneral =>
      obtain ⟨hu, rfl⟩ := hu
      obtain ⟨p, w, h1, h2, h3⟩ := C44_matrix_scalar_general h al l r t u dims sc hp hu
      exact ⟨.matrixScalarProductGeneral p, w, by simp [PairOp.new, h1], h2, h3⟩
    | tensordotGeneral =>
      obtain ⟨p, w, h1, h2, h3⟩ := C44_tensordot_general h al l r t u dims sc hp hu.1 hu.2
      exact ⟨.tensordotGeneral p, w, by simp [PairOp.new, h1], h2, h3⟩
    | stackedTensordotGeneral =>
      obtain ⟨p, w, h1, h2, h3⟩ := C37_stacked h al L R out l r t u dims sc hp.sized hp.sizing hu hp.lhs hp.rhs
      exact ⟨.stackedTensordotGeneral p, w, by simp [PairOp.new, h1], h2, h3⟩
    | broadcastProductGeneral =>
      obtain ⟨p, w, h1, h2, h3⟩ := C38_broadcast h al L R out l r t u dims sc hp.sized hp.sizing hu.1 hu.2.1 hu.2.2.1
        hu.2.2.2 hp.lhs hp.rhs
      exact ⟨.broadcastProductGeneral p, w, by simp [PairOp.new, h1], h2, h3⟩
  · intro hu
    rcases noUb_pairOp sc m with ⟨k, hk⟩ | ⟨op, hop⟩
    · exact ⟨k, by rw [hk]; rfl⟩
    · rw [hop, bind_ok]
      rcases op.run_safe hp.lhs.1 hp.rhs.1 al with ⟨k, hk⟩ | ⟨w, hw, _⟩
      · exact ⟨k, hk⟩
      · exact absurd (usable_of_run hp hm hop hw) hu

/-- C73: so whatever any of these contractors returns is the Einstein sum. -/
theorem C73_sound (h : HashOrd) (al : Alloc A) (l r w : View A) (t u : List Nat → A) (dims : Char → Nat)
    (sc : SizedContraction) (hp : PairSetting h L R out l r t u dims sc) (m : PairMethod)
    (hm : m ≠ .tensordotFixedPosition) (op : PairOp) (hn : PairOp.new sc m = .ok op) (hr : op.run al l r = .ok w) :
    IsEinsum dims [L, R] [t, u] out w := by
  obtain ⟨w', h1, h2⟩ := (C73_pair h al l r t u dims sc hp m hm).1 (usable_of_run hp hm hn hr)
  rw [hn, bind_ok, hr] at h1
  cases h1
  exact h2

/-- C73: `Permutation` can be built exactly when the output is a rearrangement of the operand's labels, and then
rearranges the axes. -/
theorem C73_permutation (h : HashOrd) (al : Alloc A) (v : View A) (t : List Nat → A) (dims : Char → Nat)
    (sc : SizedContraction) (hp : SingleSetting h L out v t dims sc) :
    (L.Perm out → ∃ w, (do let op ← SingletonOp.new sc .permutation; op.run al v) = .ok w ∧
      IsEinsum dims [L] [t] out w) ∧
    (¬ L.Perm out → ∃ k, SingletonOp.new sc .permutation = panic k) := by
  constructor
  · intro hu
    obtain ⟨p, w, h1, h2, h3⟩ := C46_permutation h al v t dims sc hp hu.symm
    exact ⟨w, by simp [SingletonOp.new, h1, SingletonOp.run, h2], h3⟩
  · intro hu
    obtain ⟨ho, rfl⟩ := hp.sizing.eq hp.sized
    rcases noUb_singletonOp (callSC [L] out dims) .permutation with hk | ⟨op, hop⟩
    · exact hk
    · exfalso
      simp only [SingletonOp.new, Permutation.new, callSC, List.length_cons, List.length_nil, Nat.zero_add,
        decide_true, assertThat_true, bind_ok, index_cons_zero] at hop
      obtain ⟨_, hop, _⟩ := bind_eq_ok.1 hop
      obtain ⟨_, h1, h2⟩ := bind_eq_ok.1 hop
      have e1 := of_decide_eq_true (assertThat_inv h1)
      obtain ⟨_, h2, _⟩ := bind_eq_ok.1 h2
      refine hu (perm_of_once ho.1 (fun c hc => ?_) e1)
      by_contra hn
      obtain ⟨b, hb⟩ := mapE_mem h2 hc
      rw [position_eq_none.2 hn] at hb
      cases hb

end

/-- A 2 by 2 matrix. -/
def Ex.square22 : View Int := ⟨[1, 2, 3, 4], 0, [2, 2], [2, 1]⟩

theorem Ex.esquare22 : Elements Ex.square22 (Ex.elems Ex.square22) := elements_of rfl (by decide)

/-- C73: the other singleton contractors do not compare labels.  `Identity` can be used for "ij->ji", `Summation` for
"ij->j" (it sums over `j`), `Diagonalization` for "ij->i" (it sums over nothing) and `PermutationAndSummation` for
"ii->" (it adds up the whole matrix, not the diagonal). -/
theorem C73_unchecked : ∀ m ∈ [SingletonMethod.identity, .summation, .diagonalization, .permutationAndSummation],
    ∃ (L out : List Char) (v : View Int) (sc : SizedContraction) (op : SingletonOp) (w : View Int),
      (SingleSetting HashOrd.insertion L out v (Ex.elems v) Ex.dims sc ∧ SingletonOp.new sc m = .ok op ∧
        op.run (Alloc.rowMajor Int) v = .ok w) ∧ ¬ IsEinsum Ex.dims [L] [Ex.elems v] out w := by
  intro m hm
  simp only [List.mem_cons, List.not_mem_nil, or_false] at hm
  rcases hm with rfl | rfl | rfl | rfl
  · refine ⟨['i', 'j'], ['j', 'i'], Ex.m23, callSC [['i', 'j']] ['j', 'i'] Ex.dims, .identity,
      ⟨[1, 2, 3, 4, 5, 6], 0, [2, 3], [3, 1]⟩, ⟨Ex.single _ (by simp [OutputOk, Used]) (by decide) Ex.e23, rfl, rfl⟩,
      fun h => absurd h.2.1 (by decide)⟩
  · refine ⟨['i', 'j'], ['j'], Ex.m23, callSC [['i', 'j']] ['j'] Ex.dims, .summation ⟨[1], [1]⟩,
      ⟨[6, 15], 0, [2], [1]⟩, ⟨Ex.single _ (by simp [OutputOk, Used]) (by decide) Ex.e23, rfl, rfl⟩,
      fun h => absurd h.2.1 (by decide)⟩
  · have e : strideOrder [3, 1] = [1, 0] := by
      simp [strideOrder, List.range_succ, List.mergeSort, List.MergeSort.Internal.splitInTwo]
    refine ⟨['i', 'j'], ['i'], Ex.m23, callSC [['i', 'j']] ['i'] Ex.dims, .diagonalization ⟨[0, 1], [2, 3]⟩,
      ⟨[1, 2, 3, 4, 5, 6], 0, [2, 3], [3, 1]⟩,
      ⟨Ex.single _ (by simp [OutputOk, Used]) (by decide) Ex.e23, rfl, ?_⟩,
      fun h => absurd h.2.1 (by decide)⟩
    have e1 : fromShapeStrides [2, 3] [3, 1] ([1, 2, 3, 4, 5, 6] : List Int) =
        some ⟨[1, 2, 3, 4, 5, 6], 0, [2, 3], [3, 1]⟩ := by
      unfold fromShapeStrides
      have : ([3, 1] : List Nat).map Int.ofNat = [3, 1] := rfl
      rw [this, e]
      rfl
    have e2 : (⟨[0, 1], [2, 3]⟩ : Diagonalization).view (⟨[1, 2, 3, 4, 5, 6], 0, [2, 3], [3, 1]⟩ : View Int) =
        .ok ⟨[1, 2, 3, 4, 5, 6], 0, [2, 3], [3, 1]⟩ := by
      have e3 : diagStrides [0, 1] (([2, 3] : List Nat).map fun _ => 0) 0 [3, 1] = .ok [3, 1] := rfl
      have e4 : (⟨[1, 2, 3, 4, 5, 6], 0, [2, 3], [3, 1]⟩ : View Int).asSliceMemoryOrder = some [1, 2, 3, 4, 5, 6] := rfl
      unfold Diagonalization.view
      simp only [e3, e4, unwrapO_some]
      simp only [bind_ok, e1]
    simp only [SingletonOp.run, Diagonalization.run]
    change (do
      let v ← (⟨[0, 1], [2, 3]⟩ : Diagonalization).view (⟨[1, 2, 3, 4, 5, 6], 0, [2, 3], [3, 1]⟩ : View Int)
      v.toOwned (Alloc.rowMajor Int)) = _
    rw [e2]
    rfl
  · refine ⟨['i', 'i'], [], Ex.square22, callSC [['i', 'i']] [] Ex.dims,
      .permutationAndSummation ⟨⟨[0, 1]⟩, ⟨[0, 1], [0, 0]⟩⟩, ⟨[10], 0, [], []⟩,
      ⟨Ex.single _ (by simp [OutputOk]) (by decide) Ex.esquare22, rfl, rfl⟩, fun h => ?_⟩
    have key := h.2.2 (fun _ => 0) (by simp [InRange])
    have hs : summed [['i', 'i']] [] = ['i'] := by decide
    rw [Spec.einsum, hs] at key
    revert key
    decide

/-- The setting of "ij,ji->i", with the letter `j` summed and the letter `i` in both operands and the output. -/
theorem Ex.setting_stacked : PairSetting HashOrd.insertion ['i', 'j'] ['j', 'i'] ['i'] Ex.m23 Ex.m32 (Ex.elems Ex.m23)
    (Ex.elems Ex.m32) Ex.dims (callSC [['i', 'j'], ['j', 'i']] ['i'] Ex.dims) :=
  have hs : Sized Ex.dims [['i', 'j'], ['j', 'i']] [Ex.m23.shape, Ex.m32.shape] := .cons (by decide) (.cons (by decide) .nil)
  ⟨hs, sizes_callSC (by simp [OutputOk, Used]) hs, Ex.e23, Ex.e32⟩

/-- C73: "ij,ji->i", the row sums of an elementwise product with a transpose, is in the domain of the stacked
contractor; -/
example : ∃ w, (do
      let op ← PairOp.new (callSC [['i', 'j'], ['j', 'i']] ['i'] Ex.dims) .stackedTensordotGeneral
      op.run (Alloc.colMajor Int) Ex.m23 Ex.m32) = .ok w ∧
    IsEinsum Ex.dims [['i', 'j'], ['j', 'i']] [Ex.elems Ex.m23, Ex.elems Ex.m32] ['i'] w :=
  (C73_pair HashOrd.insertion _ _ _ _ _ _ _ Ex.setting_stacked .stackedTensordotGeneral (by decide)).1
    ⟨by decide, by decide, by decide, by decide⟩

/-- the broadcasting contractor can be built for it but does not run; -/
example : (∃ op, PairOp.new (callSC [['i', 'j'], ['j', 'i']] ['i'] Ex.dims) .broadcastProductGeneral = .ok op) ∧
    ∃ k, (do
      let op ← PairOp.new (callSC [['i', 'j'], ['j', 'i']] ['i'] Ex.dims) .broadcastProductGeneral
      op.run (Alloc.colMajor Int) Ex.m23 Ex.m32) = panic k :=
  ⟨(C73_built HashOrd.insertion _ _ _ _ _ Ex.setting_stacked.sizing .broadcastProductGeneral (by decide)).1.2
      ⟨once_of_nodup (by decide), once_of_nodup (by decide)⟩,
    (C73_pair HashOrd.insertion _ _ _ _ _ _ _ Ex.setting_stacked .broadcastProductGeneral (by decide)).2
      fun h => absurd (h.2.2.1 'j' (by decide)) (by decide)⟩

/-- and the tensordot contractor cannot be built. -/
example : ∃ k, PairOp.new (callSC [['i', 'j'], ['j', 'i']] ['i'] Ex.dims) .tensordotGeneral = panic k :=
  (C73_built HashOrd.insertion _ _ _ _ _ Ex.setting_stacked.sizing .tensordotGeneral (by decide)).2.2
    fun h => h.2 'i' (by decide) (by decide) (by decide)

/-- C73 for a method that is never chosen: a matrix times a number. -/
example (op : PairOp) (w : View Int)
    (hn : PairOp.new (callSC [['i', 'j'], []] ['i', 'j'] Ex.dims) .matrixScalarProduct = .ok op)
    (hr : op.run (Alloc.rowMajor Int) Ex.m23 ⟨[5], 0, [], []⟩ = .ok w) :
    IsEinsum Ex.dims [['i', 'j'], []] [Ex.elems Ex.m23, fun _ => 5] ['i', 'j'] w :=
  have hs : Sized Ex.dims [['i', 'j'], []] [Ex.m23.shape, []] := .cons (by decide) (.cons (by decide) .nil)
  C73_sound HashOrd.insertion _ _ _ _ _ _ _ _ ⟨hs, sizes_callSC (by simp [OutputOk, Used]) hs, Ex.e23,
    elements_of rfl (by decide)⟩ .matrixScalarProduct (by decide) op hn hr

/-- C73: a transposition. -/
example : ∃ w, (do
      let op ← SingletonOp.new (callSC [['j', 'i']] ['i', 'j'] Ex.dims) .permutation
      op.run (Alloc.colMajor Int) Ex.m32) = .ok w ∧ IsEinsum Ex.dims [['j', 'i']] [Ex.elems Ex.m32] ['i', 'j'] w :=
  (C73_permutation HashOrd.insertion _ _ _ _ _ (Ex.single _ (by simp [OutputOk, Used]) (by decide) Ex.e32)).1 (by decide)

/-- C73: a transposition cannot be built for "ji->j". -/
example : ∃ k, SingletonOp.new (callSC [['j', 'i']] ['j'] Ex.dims) .permutation = panic k :=
  (C73_permutation HashOrd.insertion (Alloc.colMajor Int) _ _ _ _
    (Ex.single _ (by simp [OutputOk, Used]) (by decide) Ex.e32)).2 (by decide)

/-- C73: whatever its labels and sizes, a contraction that does not have two operands is refused by every pair
contractor. -/
theorem C73_count_pair (h : HashOrd) (sc : SizedContraction) (hn : sc.contraction.operandIndices.length ≠ 2) :
    (∀ m, PairOp.new sc m = panic .assertFailed) ∧ PairContraction.new h sc = panic .assertFailed := by
  have e : (decide (sc.contraction.operandIndices.length = 2)) = false := by simp [hn]
  refine ⟨fun m => ?_, by simp [PairContraction.new, assertThat, e]⟩
  cases m <;> simp [PairOp.new, HadamardProduct.new, HadamardProductGeneral.new, ScalarMatrixProduct.new,
    ScalarMatrixProductGeneral.new, MatrixScalarProduct.new, MatrixScalarProductGeneral.new, TensordotFixedPosition.new,
    TensordotGeneral.new, StackedTensordotGeneral.new, BroadcastProductGeneral.new, assertThat, e]

/-- C73: likewise for `Permutation` and the two that take diagonals when there is not one operand, and for choosing a
contractor. -/
theorem C73_count_singleton (sc : SizedContraction) (hn : sc.contraction.operandIndices.length ≠ 1) :
    (∀ m ∈ [SingletonMethod.permutation, .diagonalization, .diagonalizationAndSummation],
      SingletonOp.new sc m = panic .assertFailed) ∧ SingletonContraction.new sc = panic .assertFailed := by
  have e : (decide (sc.contraction.operandIndices.length = 1)) = false := by simp [hn]
  refine ⟨fun m hm => ?_, by simp [SingletonContraction.new, SingletonSummary.new, assertThat, e]⟩
  simp only [List.mem_cons, List.not_mem_nil, or_false] at hm
  rcases hm with rfl | rfl | rfl <;>
    simp [SingletonOp.new, Permutation.new, Diagonalization.new, DiagonalizationAndSummation.new, assertThat, e]

/-- C73: three vectors are no Hadamard product of two. -/
example : PairOp.new (callSC [['i'], ['i'], ['i']] ['i'] Ex.dims) .hadamardProduct = panic .assertFailed :=
  (C73_count_pair HashOrd.insertion _ (by simp [callSC])).1 _

/-- C73: two vectors are no diagonal. -/
example : SingletonOp.new (callSC [['i'], ['i']] ['i'] Ex.dims) .diagonalization = panic .assertFailed :=
  (C73_count_singleton _ (by simp [callSC])).1 _ (by simp)

end Einsum
