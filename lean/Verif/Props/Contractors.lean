import Verif.Proofs.Broadcast
import Verif.Proofs.Call
import Verif.Proofs.Safe
import Verif.Props.Examples

/-!
# The contractors on their own: C36-C39, C44-C46

The contractor structs are public: a user can build one from a `SizedContraction` and run it.
-/

namespace Einsum

open Spec

/-- `sc` is the sized contraction that the library builds for the given labels and shapes. -/
def SizingOf (h : HashOrd) (ops : List (List Char)) (out : List Char) (shapes : List (List Nat))
    (sc : SizedContraction) : Prop :=
  ∃ c, Contraction.fromIndices h ops out = .ok c ∧
    SizedContraction.fromContractionAndShapes c shapes = .ok sc

/-- No letter is repeated within an operand, and every letter is in the other operand or the output. -/
structure Simplified (L R out : List Char) : Prop where
  lhs_nodup : L.Nodup
  rhs_nodup : R.Nodup
  lhs_used : ∀ c ∈ L, c ∈ R ∨ c ∈ out
  rhs_used : ∀ c ∈ R, c ∈ L ∨ c ∈ out

section
variable {h : HashOrd} {ops : List (List Char)} {out : List Char} {shapes : List (List Nat)}
  {sc : SizedContraction} {dims : Char → Nat}

theorem sizes_callSC (ho : OutputOk ops out) (hs : Sized dims ops shapes) :
    SizingOf h ops out shapes (callSC ops out dims) := by
  refine ⟨_, fromIndices_ok ho, ?_⟩
  simp only [SizedContraction.fromContractionAndShapes, Bind.bind, Except.bind]
  rw [sizing_iff.2 ⟨dims, hs, fun c => rfl⟩]
  rfl

theorem SizingOf.eq (hsc : SizingOf h ops out shapes sc) (hs : Sized dims ops shapes) :
    OutputOk ops out ∧ sc = callSC ops out dims := by
  obtain ⟨c, h1, h2⟩ := hsc
  obtain ⟨ho, -⟩ := fromIndices_iff.1 h1
  refine ⟨ho, ?_⟩
  obtain ⟨c', g1, g2⟩ := sizes_callSC (h := h) ho hs
  rw [h1] at g1
  cases g1
  rw [h2] at g2
  exact Except.ok.inj g2

theorem SizingOf.sized (hsc : SizingOf h ops out shapes sc) : ∃ dims, Sized dims ops shapes := by
  obtain ⟨c, h1, h2⟩ := hsc
  obtain ⟨-, rfl⟩ := fromIndices_iff.1 h1
  simp only [SizedContraction.fromContractionAndShapes, Bind.bind, Except.bind] at h2
  split at h2
  · simp at h2
  · rename_i m hm
    obtain ⟨dims, hd, -⟩ := sizing_iff.1 hm
    exact ⟨dims, hd⟩

end

section
variable {A : Type}

theorem rep_of_elements {v : View A} {t : List Nat → A} {L : List Char} {dims : Char → Nat}
    (he : Elements v t) (hs : v.shape = L.map dims) : Rep v L dims fun σ => t (L.map σ) := by
  have := he.holds
  rw [hs] at this
  exact this.rep

theorem PairOp.Computes.isEinsum [CommSemiring A] {op : PairOp} {sw : Bool} {dims : Char → Nat}
    {L R out : List Char} (hc : op.Computes sw dims L R out) (hn : out.Nodup) {l r : View A} {t u : List Nat → A}
    (hs : Sized dims [L, R] [l.shape, r.shape]) (hl : Elements l t) (hr : Elements r u) (al : Alloc A) :
    ∃ w, op.run al l r = .ok w ∧ IsEinsum dims [L, R] [t, u] out w := by
  cases hs with
  | cons h1 h2 =>
    cases h2 with
    | cons h2 _ =>
      obtain ⟨w, g1, g2⟩ := hc A al l r _ _ (rep_of_elements hl h1) (rep_of_elements hr h2)
      refine ⟨w, g1, Rep.isEinsum hn (g2.congr fun σ _ => ?_)⟩
      rw [Spec.einsum]
      congr 1
      funext σ
      simp [term, mulAs_comm]

theorem Rep.isEinsum_one [CommSemiring A] {dims : Char → Nat} {L out : List Char}
    (hn : out.Nodup) {t : List Nat → A} {w : View A}
    (h : Rep w out dims (sumOver dims (summed [L] out) fun σ => t (L.map σ))) :
    IsEinsum dims [L] [t] out w := by
  refine Rep.isEinsum hn (h.congr fun σ _ => ?_)
  rw [Spec.einsum]
  congr 1
  funext σ
  simp [term]

end

/-! ## C36: the diagonal view -/

section C36
variable {A : Type} [Zero A]

/-- C36: for a non-empty contiguous array with positive strides, whatever the order of its axes in memory,
and any pattern of repeated letters: building the strided view passes ndarray's bounds and overlap checks, the
view has one axis per distinct letter (the output letters first), it is a valid array, and its element for
any values of the letters is the array's element for those values. -/
theorem C36_diagonal_view (h : HashOrd) (L out : List Char) (v : View A) (hv : v.Wf) (sc : SizedContraction)
    (hsc : SizingOf h [L] out [v.shape] sc) (hne : 0 < v.shape.prod)
    (hc : v.asSliceMemoryOrder.isSome) (hp : ∀ s ∈ v.strides, 0 < s) :
    ∃ d w new, Diagonalization.new sc = .ok d ∧ d.view v = .ok w ∧ w.Wf ∧
      (out ++ new).Nodup ∧ (∀ c, c ∈ new ↔ c ∈ L ∧ c ∉ out) ∧
      w.shape.length = (out ++ new).length ∧
      ∀ σ : Char → Nat, (InB w.shape ((out ++ new).map σ) ↔ InB v.shape (L.map σ)) ∧
        (InB v.shape (L.map σ) → w.read ((out ++ new).map σ) = v.read (L.map σ)) := by
  obtain ⟨dims, hs⟩ := hsc.sized
  obtain ⟨ho, rfl⟩ := hsc.eq hs
  have hshape : v.shape = L.map dims := by cases hs; assumption
  have hval := callSC_valid (dims := dims) ho
  obtain ⟨new, h1, h2, h3⟩ := Diagonalization.new_ok hval (L := L) rfl
  change Diagonalization.new _ = .ok ⟨L.map fun c => pos c (out ++ new), (out ++ new).map dims⟩ at h1
  change (out ++ new).Nodup at h2
  change ∀ c, c ∈ new ↔ c ∈ L ∧ c ∉ out at h3
  have hcont : isContiguous v.shape v.strides = true := by
    unfold View.asSliceMemoryOrder at hc
    split at hc
    · assumption
    · simp at hc
  have hsub : ∀ c ∈ out, c ∈ L := hval.out_sub (L := L) rfl
  have hLa : ∀ c ∈ L, c ∈ out ++ new := fun c hc => by
    rw [List.mem_append, h3]
    by_cases hco : c ∈ out
    · exact .inl hco
    · exact .inr ⟨hc, hco⟩
  have haL : ∀ c ∈ out ++ new, c ∈ L := fun c hc => by
    rcases List.mem_append.1 hc with h | h
    · exact hsub c h
    · exact ((h3 c).1 h).1
  have hrep := rep_of_elements hv.elements hshape
  obtain ⟨w, w1, w2⟩ := hrep.diagView hv (by rw [← hshape]; exact hne) hcont hp h2 hLa haL
  have hiff : ∀ σ : Char → Nat, InB w.shape ((out ++ new).map σ) ↔ InB v.shape (L.map σ) := fun σ => by
    rw [w2.shape, hshape, InB_map, InB_map]
    exact ⟨fun g c hc => g c (hLa c hc), fun g c hc => g c (haL c hc)⟩
  refine ⟨_, w, new, h1, w1, w2.wf h2, h2, h3, by rw [w2.shape]; simp, fun σ => ⟨hiff σ, fun hi => ?_⟩⟩
  have hr : InRange dims (out ++ new) σ := by
    have := (hiff σ).2 hi
    rw [w2.shape, InB_map] at this
    exact this
  rw [w2.get σ hr, hrep.get σ fun c hc => hr c (hLa c hc)]

/-- A 3 by 2 by 3 array in column-major order. -/
def Ex.m323 : View Int := ⟨List.range 18 |>.map Int.ofNat, 0, [3, 2, 3], [1, 3, 6]⟩

example : ∃ d w new, Diagonalization.new (callSC [['j', 'i', 'j']] ['i'] Ex.dims) = .ok d ∧
    d.view Ex.m323 = .ok w ∧ w.Wf ∧ (['i'] ++ new).Nodup ∧
    (∀ c, c ∈ new ↔ c ∈ ['j', 'i', 'j'] ∧ c ∉ ['i']) ∧ w.shape.length = (['i'] ++ new).length ∧
      ∀ σ : Char → Nat, (InB w.shape ((['i'] ++ new).map σ) ↔ InB Ex.m323.shape (['j', 'i', 'j'].map σ)) ∧
        (InB Ex.m323.shape (['j', 'i', 'j'].map σ) →
          w.read ((['i'] ++ new).map σ) = Ex.m323.read (['j', 'i', 'j'].map σ)) :=
  C36_diagonal_view HashOrd.insertion _ _ Ex.m323
    (elements_of (t := Ex.elems Ex.m323) rfl (by decide)).1 _
    (sizes_callSC (by simp [OutputOk, Used]) (.cons rfl .nil)) (by decide)
    (by simp [View.asSliceMemoryOrder, isContiguous, Ex.m323, List.range_succ, List.mergeSort,
      List.MergeSort.Internal.splitInTwo, strideOrder, contigLoop]) (by decide)

end C36

/-! ## C37, C38, C44: pair contractors -/

section pairs
variable {A : Type} [CommSemiring A]

/-- C37: the stacked contractor can be built for every simplified pair (with or without stack letters,
contracted letters or outer letters) and then computes the Einstein sum. -/
theorem C37_stacked (h : HashOrd) (al : Alloc A) (L R out : List Char) (l r : View A) (t u : List Nat → A)
    (dims : Char → Nat) (sc : SizedContraction) (hs : Sized dims [L, R] [l.shape, r.shape])
    (hsc : SizingOf h [L, R] out [l.shape, r.shape] sc) (hp : Simplified L R out)
    (hl : Elements l t) (hr : Elements r u) :
    ∃ p w, StackedTensordotGeneral.new sc = .ok p ∧ p.run al l r = .ok w ∧
      IsEinsum dims [L, R] [t, u] out w := by
  obtain ⟨ho, rfl⟩ := hsc.eq hs
  obtain ⟨op, h1, h2⟩ := stackedGeneral_ok (callSC_valid (dims := dims) ho) (L := L) (R := R) rfl hp.lhs_nodup
    hp.rhs_nodup hp.lhs_used hp.rhs_used
  obtain ⟨p, h3, h4⟩ := bind_eq_ok.1 h1
  cases h4
  obtain ⟨w, h5, h6⟩ := PairOp.Computes.isEinsum h2 ho.1 hs hl hr al
  exact ⟨p, w, h3, h5, h6⟩

/-- C38: the broadcast contractor can be built for every pair with distinct letters all of which are in the
output, and then computes the product. -/
theorem C38_broadcast (h : HashOrd) (al : Alloc A) (L R out : List Char) (l r : View A) (t u : List Nat → A)
    (dims : Char → Nat) (sc : SizedContraction) (hs : Sized dims [L, R] [l.shape, r.shape])
    (hsc : SizingOf h [L, R] out [l.shape, r.shape] sc) (hL : L.Nodup) (hR : R.Nodup)
    (hLo : ∀ c ∈ L, c ∈ out) (hRo : ∀ c ∈ R, c ∈ out) (hl : Elements l t) (hr : Elements r u) :
    ∃ p w, BroadcastProductGeneral.new sc = .ok p ∧ p.run al l r = .ok w ∧
      IsEinsum dims [L, R] [t, u] out w := by
  obtain ⟨ho, rfl⟩ := hsc.eq hs
  obtain ⟨op, h1, h2⟩ := broadcastGeneral_ok (callSC_valid (dims := dims) ho) (L := L) (R := R) rfl hL hR hLo hRo
  obtain ⟨p, h3, h4⟩ := bind_eq_ok.1 h1
  cases h4
  obtain ⟨w, h5, h6⟩ := PairOp.Computes.isEinsum h2 ho.1 hs hl hr al
  exact ⟨p, w, h3, h5, h6⟩

end pairs

/-- C37 with stack letter `i`, contracted letter `j`, outer letter `k`; the right operand has a zero stride. -/
example : ∃ p w, StackedTensordotGeneral.new (callSC [['i', 'j'], ['j', 'l', 'i']] ['l', 'i'] fun c =>
      if c = 'i' then 2 else 3) = .ok p ∧
    p.run (Alloc.colMajor Int) Ex.m23 Ex.m332 = .ok w ∧
    IsEinsum (fun c => if c = 'i' then 2 else 3) [['i', 'j'], ['j', 'l', 'i']]
      [Ex.elems Ex.m23, Ex.elems Ex.m332] ['l', 'i'] w :=
  have hs : Sized (fun c => if c = 'i' then 2 else 3) [['i', 'j'], ['j', 'l', 'i']]
      [Ex.m23.shape, Ex.m332.shape] := .cons (by decide) (.cons (by decide) .nil)
  C37_stacked HashOrd.reversed _ _ _ _ _ _ _ _ _ _ hs
    (sizes_callSC (by simp [OutputOk, Used]) hs)
    ⟨by simp, by simp, by simp, by simp⟩ Ex.e23 Ex.e332

/-- C38: one shared letter `j` and outer letters on both sides. -/
example : ∃ p w, BroadcastProductGeneral.new (callSC [['i', 'j'], ['j', 'k']] ['k', 'j', 'i'] Ex.dims) = .ok p ∧
    p.run (Alloc.colMajor Int) Ex.m23 Ex.m32 = .ok w ∧
    IsEinsum Ex.dims [['i', 'j'], ['j', 'k']] [Ex.elems Ex.m23, Ex.elems Ex.m32] ['k', 'j', 'i'] w :=
  have hs : Sized Ex.dims [['i', 'j'], ['j', 'k']] [Ex.m23.shape, Ex.m32.shape] := Ex.call_matmul.sized
  C38_broadcast HashOrd.reversed _ _ _ _ _ _ _ _ _ _ hs (sizes_callSC (by simp [OutputOk, Used]) hs)
    (by simp) (by simp) (by simp) (by simp) Ex.e23 Ex.e32

/-! ## C39: DiagonalizationAndSummation -/

section C39
variable {A : Type}

theorem diagAndSum_new {h : HashOrd} {L out : List Char} {shape : List Nat} {sc : SizedContraction}
    {dims : Char → Nat} (hs : Sized dims [L] [shape]) (hsc : SizingOf h [L] out [shape] sc) :
    OutputOk [L] out ∧ ∃ new, (out ++ new).Nodup ∧ (∀ c, c ∈ new ↔ c ∈ L ∧ c ∉ out) ∧
      DiagonalizationAndSummation.new sc =
        if new = [] then panic .assertFailed
        else .ok ⟨⟨L.map fun c => pos c (out ++ new), (out ++ new).map dims⟩,
          ⟨(List.range new.length).map (out.length + ·), List.replicate new.length out.length⟩⟩ := by
  obtain ⟨ho, rfl⟩ := hsc.eq hs
  have hval := callSC_valid (dims := dims) ho
  obtain ⟨new, h1, h2, h3⟩ := Diagonalization.new_ok hval (L := L) rfl
  change Diagonalization.new _ = .ok ⟨L.map fun c => pos c (out ++ new), (out ++ new).map dims⟩ at h1
  refine ⟨ho, new, h2, h3, ?_⟩
  have e : usub ((out ++ new).map dims).length out.length = .ok new.length := by
    rw [usub_of_le (by simp)]; simp
  simp only [DiagonalizationAndSummation.new, h1, bind_ok]
  change (usub ((out ++ new).map dims).length out.length >>= fun n => _) = _
  rw [e, bind_ok]
  by_cases hn : new = []
  · subst hn
    rw [if_pos rfl]
    rfl
  · rw [if_neg hn, Summation.fromSizes_ok (List.length_pos_iff.2 hn)]
    rfl

/-- C39: building `DiagonalizationAndSummation` panics exactly when no letter is summed, so it does not
accommodate all singleton contractions. -/
theorem C39_panics_iff (h : HashOrd) (L out : List Char) (shape : List Nat) (sc : SizedContraction)
    (hsc : SizingOf h [L] out [shape] sc) :
    (∃ k, DiagonalizationAndSummation.new sc = panic k) ↔ ∀ c ∈ L, c ∈ out := by
  obtain ⟨dims, hs⟩ := hsc.sized
  obtain ⟨ho, new, h1, h2, h3⟩ := diagAndSum_new hs hsc
  rw [h3]
  constructor
  · rintro ⟨k, hk⟩ c hc
    by_contra hco
    have : new ≠ [] := List.ne_nil_of_mem ((h2 c).2 ⟨hc, hco⟩)
    rw [if_neg this] at hk
    cases hk
  · intro hall
    have : new = [] := List.eq_nil_iff_forall_not_mem.2 fun c hc => ((h2 c).1 hc).2 (hall c ((h2 c).1 hc).1)
    exact ⟨_, if_pos this⟩

/-- C39: it is right on every non-empty array whenever some letter is summed (also when no letter is
repeated). -/
theorem C39_right [CommSemiring A] (h : HashOrd) (al : Alloc A) (L out : List Char) (v : View A)
    (t : List Nat → A) (dims : Char → Nat) (sc : SizedContraction) (hs : Sized dims [L] [v.shape])
    (hsc : SizingOf h [L] out [v.shape] sc) (hv : Elements v t) (hne : 0 < v.shape.prod)
    (c : Char) (hc : c ∈ L) (hco : c ∉ out) :
    ∃ d w, DiagonalizationAndSummation.new sc = .ok d ∧ d.run al v = .ok w ∧
      IsEinsum dims [L] [t] out w := by
  obtain ⟨ho, new, h1, h2, h3⟩ := diagAndSum_new hs hsc
  have hnew : new ≠ [] := List.ne_nil_of_mem ((h2 c).2 ⟨hc, hco⟩)
  rw [if_neg hnew] at h3
  have hshape : v.shape = L.map dims := by cases hs; assumption
  have hsub : ∀ c ∈ out, c ∈ L := fun c hc => by simpa using used_iff.1 (ho.2 c hc)
  have hLa : ∀ c ∈ L, c ∈ out ++ new := fun c hc => by
    rw [List.mem_append, h2]
    by_cases hco : c ∈ out
    · exact .inl hco
    · exact .inr ⟨hc, hco⟩
  have haL : ∀ c ∈ out ++ new, c ∈ L := fun c hc => by
    rcases List.mem_append.1 hc with h | h
    · exact hsub c h
    · exact ((h2 c).1 h).1
  obtain ⟨w, w1, w2⟩ := (rep_of_elements hv hshape).diagEither hv.1 (by rw [← hshape]; exact hne) h1 hLa haL
    (al.sub 0)
  obtain ⟨x, x1, x2⟩ := w2.summation h1 hnew ((List.range new.length).map (out.length + ·)) (al.sub 1)
  refine ⟨_, x, h3, ?_, Rep.isEinsum_one ho.1 ?_⟩
  · simp only [DiagonalizationAndSummation.run]
    split at w1
    · rename_i hcond
      rw [if_pos hcond, w1, bind_ok, x1]
    · rename_i hcond
      rw [if_neg hcond, w1, bind_ok, x1]
  · rw [← sumOver_summed (S := new) (List.nodup_append.1 h1).2.1]
    · exact x2
    · intro c; simpa using h2 c

end C39

/-- C39: "ij->ji" is a singleton contraction for which it cannot be built. -/
example : ∃ k, DiagonalizationAndSummation.new (callSC [['i', 'j']] ['j', 'i'] Ex.dims) = panic k :=
  (C39_panics_iff HashOrd.insertion _ _ [2, 3] _
    (sizes_callSC (by simp [OutputOk, Used]) (.cons (by decide) .nil))).2 (by simp)

/-- C39: "ij->j", without a repeated letter. -/
example : ∃ d w, DiagonalizationAndSummation.new (callSC [['i', 'j']] ['j'] Ex.dims) = .ok d ∧
    d.run (Alloc.rowMajor Int) Ex.m23 = .ok w ∧
    IsEinsum Ex.dims [['i', 'j']] [Ex.elems Ex.m23] ['j'] w :=
  have hs : Sized Ex.dims [['i', 'j']] [Ex.m23.shape] := .cons (by decide) .nil
  C39_right HashOrd.insertion _ _ _ _ _ _ _ hs (sizes_callSC (by simp [OutputOk, Used]) hs) Ex.e23
    (by decide) 'i' (by simp) (by simp)

/-! ## C44: the other pair contractors on their documented domains -/

section C44
variable {A : Type} [CommSemiring A] {L R out : List Char}

/-- Shared setting: labels, lengths and elements of a pair of operands, and the sized contraction. -/
structure PairSetting (h : HashOrd) (L R out : List Char) (l r : View A) (t u : List Nat → A)
    (dims : Char → Nat) (sc : SizedContraction) : Prop where
  sized : Sized dims [L, R] [l.shape, r.shape]
  sizing : SizingOf h [L, R] out [l.shape, r.shape] sc
  lhs : Elements l t
  rhs : Elements r u

omit [CommSemiring A] in
theorem PairSetting.lhs_rep {h : HashOrd} {l r : View A} {t u : List Nat → A} {dims : Char → Nat}
    {sc : SizedContraction} (hp : PairSetting h L R out l r t u dims sc) :
    Rep l L dims fun σ => t (L.map σ) := by
  have := hp.sized
  cases this with
  | cons h1 _ => exact rep_of_elements hp.lhs h1

omit [CommSemiring A] in
theorem PairSetting.rhs_rep {h : HashOrd} {l r : View A} {t u : List Nat → A} {dims : Char → Nat}
    {sc : SizedContraction} (hp : PairSetting h L R out l r t u dims sc) :
    Rep r R dims fun σ => u (R.map σ) := by
  have := hp.sized
  cases this with
  | cons _ h2 =>
    cases h2 with
    | cons h2 _ => exact rep_of_elements hp.rhs h2

theorem Rep.isEinsum_two {dims : Char → Nat} (hn : out.Nodup) {t u : List Nat → A} {w : View A} {C : List Char}
    (hC : C.Nodup) (mC : ∀ c, c ∈ C ↔ (c ∈ L ∨ c ∈ R) ∧ c ∉ out)
    (h : Rep w out dims (sumOver dims C fun σ => t (L.map σ) * u (R.map σ))) :
    IsEinsum dims [L, R] [t, u] out w := by
  refine Rep.isEinsum hn (h.congr fun σ _ => ?_)
  rw [Spec.einsum, sumOver_summed (inputs := [L, R]) (out := out) hC fun c => by simpa using mC c]
  congr 1
  funext σ
  simp [term]

/-- C44: `HadamardProduct` can be built exactly for equal label lists, and multiplies elementwise. -/
theorem C44_hadamard (h : HashOrd) (al : Alloc A) (l r : View A) (t u : List Nat → A) (dims : Char → Nat)
    (sc : SizedContraction) (hp : PairSetting h L R out l r t u dims sc) :
    (HadamardProduct.new sc = .ok () ↔ L = R ∧ L = out) ∧
    (L = R → L = out → ∃ w, HadamardProduct.run al l r = .ok w ∧ IsEinsum dims [L, R] [t, u] out w) := by
  obtain ⟨ho, rfl⟩ := hp.sizing.eq hp.sized
  refine ⟨?_, ?_⟩
  · simp only [HadamardProduct.new, callSC, List.length_cons, List.length_nil, Nat.zero_add, Nat.reduceAdd,
      decide_true, assertThat_true, bind_ok, index_cons_zero, index_one]
    by_cases h1 : L = R
    · subst h1
      simp only [decide_true, assertThat_true, bind_ok, true_and]
      by_cases h2 : L = out
      · simp [h2]
      · simp [h2, assertThat, panic]
    · simp [h1, assertThat, panic]
  · rintro rfl rfl
    have hn := ho.1
    obtain ⟨w, h1, h2⟩ := hp.lhs_rep.mul hp.rhs_rep hn al
    refine ⟨w, h1, Rep.isEinsum_two (C := []) hn (by simp) (fun c => by simp) ?_⟩
    exact h2

/-- C44: `HadamardProductGeneral` for label lists that are rearrangements of the output. -/
theorem C44_hadamard_general (h : HashOrd) (al : Alloc A) (l r : View A) (t u : List Nat → A)
    (dims : Char → Nat) (sc : SizedContraction) (hp : PairSetting h L R out l r t u dims sc)
    (hL : L.Perm out) (hR : R.Perm out) :
    ∃ p w, HadamardProductGeneral.new sc = .ok p ∧ p.run al l r = .ok w ∧
      IsEinsum dims [L, R] [t, u] out w := by
  obtain ⟨ho, rfl⟩ := hp.sizing.eq hp.sized
  obtain ⟨op, h1, h2⟩ := hadamardGeneral_ok (sc := callSC [L, R] out dims) (dims := dims) (L := L) (R := R) rfl
    (hL.nodup_iff.2 ho.1) (hR.nodup_iff.2 ho.1) hL.symm hR.symm
  obtain ⟨p, h3, h4⟩ := bind_eq_ok.1 h1
  cases h4
  obtain ⟨w, h5, h6⟩ := PairOp.Computes.isEinsum h2 ho.1 hp.sized hp.lhs hp.rhs al
  exact ⟨p, w, h3, h5, h6⟩

/-- C44: `ScalarMatrixProduct` can be built exactly for a scalar times an array with the output's labels. -/
theorem C44_scalar_matrix (h : HashOrd) (al : Alloc A) (l r : View A) (t u : List Nat → A)
    (dims : Char → Nat) (sc : SizedContraction) (hp : PairSetting h L R out l r t u dims sc) :
    (ScalarMatrixProduct.new sc = .ok () ↔ L = [] ∧ out = R) ∧
    (L = [] → out = R → ∃ w, ScalarMatrixProduct.run al l r = .ok w ∧
      IsEinsum dims [L, R] [t, u] out w) := by
  obtain ⟨ho, rfl⟩ := hp.sizing.eq hp.sized
  refine ⟨?_, ?_⟩
  · simp only [ScalarMatrixProduct.new, callSC, List.length_cons, List.length_nil, Nat.zero_add, Nat.reduceAdd,
      decide_true, assertThat_true, bind_ok, index_cons_zero, index_one]
    by_cases h1 : L = []
    · subst h1
      simp only [List.length_nil, decide_true, assertThat_true, bind_ok, true_and]
      by_cases h2 : out = R
      · simp [h2]
      · simp [h2, assertThat, panic]
    · simp [h1, assertThat, panic]
  · rintro rfl rfl
    have hn := ho.1
    have hl := hp.lhs_rep.holds (by simp)
    have e1 := hl.first (by simp)
    obtain ⟨w, h1, h2⟩ := hp.rhs_rep.mapv hn al fun x => x * t []
    refine ⟨w, ?_, Rep.isEinsum_two (C := []) hn (by simp) (fun c => by simp) ?_⟩
    · simp only [ScalarMatrixProduct.run, e1, bind_ok, unwrapO]
      exact h1
    · refine h2.congr fun σ _ => ?_
      simp only [sumOver_nil, List.map_nil]
      ring

/-- C44: `ScalarMatrixProductGeneral`. -/
theorem C44_scalar_matrix_general (h : HashOrd) (al : Alloc A) (l r : View A) (t u : List Nat → A)
    (dims : Char → Nat) (sc : SizedContraction) (hp : PairSetting h [] R out l r t u dims sc)
    (hR : R.Perm out) :
    ∃ p w, ScalarMatrixProductGeneral.new sc = .ok p ∧ p.run al l r = .ok w ∧
      IsEinsum dims [[], R] [t, u] out w := by
  obtain ⟨ho, rfl⟩ := hp.sizing.eq hp.sized
  obtain ⟨op, h1, h2⟩ := scalarMatrixGeneral_ok (sc := callSC [[], R] out dims) (dims := dims) (R := R) rfl
    (hR.nodup_iff.2 ho.1) hR.symm
  obtain ⟨p, h3, h4⟩ := bind_eq_ok.1 h1
  cases h4
  obtain ⟨w, h5, h6⟩ := PairOp.Computes.isEinsum h2 ho.1 hp.sized hp.lhs hp.rhs al
  exact ⟨p, w, h3, h5, h6⟩

/-- C44: `MatrixScalarProduct` can be built exactly for an array with the output's labels times a scalar. -/
theorem C44_matrix_scalar (h : HashOrd) (al : Alloc A) (l r : View A) (t u : List Nat → A)
    (dims : Char → Nat) (sc : SizedContraction) (hp : PairSetting h L R out l r t u dims sc) :
    (MatrixScalarProduct.new sc = .ok () ↔ R = [] ∧ out = L) ∧
    (R = [] → out = L → ∃ w, MatrixScalarProduct.run al l r = .ok w ∧
      IsEinsum dims [L, R] [t, u] out w) := by
  obtain ⟨ho, rfl⟩ := hp.sizing.eq hp.sized
  refine ⟨?_, ?_⟩
  · simp only [MatrixScalarProduct.new, callSC, List.length_cons, List.length_nil, Nat.zero_add, Nat.reduceAdd,
      decide_true, assertThat_true, bind_ok, index_cons_zero, index_one]
    by_cases h1 : R = []
    · subst h1
      simp only [List.length_nil, decide_true, assertThat_true, bind_ok, true_and]
      by_cases h2 : out = L
      · simp [h2]
      · simp [h2, assertThat, panic]
    · simp [h1, assertThat, panic]
  · rintro rfl rfl
    have hn := ho.1
    have hr := hp.rhs_rep.holds (by simp)
    have e1 := hr.first (by simp)
    obtain ⟨w, h1, h2⟩ := hp.lhs_rep.mapv hn al fun x => x * u []
    refine ⟨w, ?_, Rep.isEinsum_two (C := []) hn (by simp) (fun c => by simp) ?_⟩
    · simp only [MatrixScalarProduct.run, e1, bind_ok, unwrapO]
      exact h1
    · refine h2.congr fun σ _ => ?_
      simp only [sumOver_nil, List.map_nil]

/-- C44: `MatrixScalarProductGeneral`. -/
theorem C44_matrix_scalar_general (h : HashOrd) (al : Alloc A) (l r : View A) (t u : List Nat → A)
    (dims : Char → Nat) (sc : SizedContraction) (hp : PairSetting h L [] out l r t u dims sc)
    (hL : L.Perm out) :
    ∃ p w, MatrixScalarProductGeneral.new sc = .ok p ∧ p.run al l r = .ok w ∧
      IsEinsum dims [L, []] [t, u] out w := by
  obtain ⟨ho, rfl⟩ := hp.sizing.eq hp.sized
  obtain ⟨op, h1, h2⟩ := matrixScalarGeneral_ok (sc := callSC [L, []] out dims) (dims := dims) (L := L) rfl
    (hL.nodup_iff.2 ho.1) hL.symm
  obtain ⟨p, h3, h4⟩ := bind_eq_ok.1 h1
  cases h4
  obtain ⟨w, h5, h6⟩ := PairOp.Computes.isEinsum h2 ho.1 hp.sized hp.lhs hp.rhs al
  exact ⟨p, w, h3, h5, h6⟩

/-- C44: `TensordotGeneral` for every simplified pair without a letter common to both operands and the
output. -/
theorem C44_tensordot_general (h : HashOrd) (al : Alloc A) (l r : View A) (t u : List Nat → A)
    (dims : Char → Nat) (sc : SizedContraction) (hp : PairSetting h L R out l r t u dims sc)
    (hs : Simplified L R out) (h0 : ∀ c ∈ L, c ∈ R → c ∉ out) :
    ∃ p w, TensordotGeneral.new sc = .ok p ∧ p.run al l r = .ok w ∧
      IsEinsum dims [L, R] [t, u] out w := by
  obtain ⟨ho, rfl⟩ := hp.sizing.eq hp.sized
  obtain ⟨op, h1, h2⟩ := tensordotGeneral_ok (callSC_valid (dims := dims) ho) (L := L) (R := R) rfl hs.lhs_nodup
    hs.rhs_nodup hs.lhs_used hs.rhs_used h0
  obtain ⟨p, h3, h4⟩ := bind_eq_ok.1 h1
  cases h4
  obtain ⟨w, h5, h6⟩ := PairOp.Computes.isEinsum h2 ho.1 hp.sized hp.lhs hp.rhs al
  exact ⟨p, w, h3, h5, h6⟩

/-- C44: `TensordotFixedPosition` when the contracted letters `C` are last in the left and first in the right
operand and the output is the remaining letters in order. -/
theorem C44_tensordot_fixed (h : HashOrd) (al : Alloc A) (U C V : List Char) (l r : View A) (t u : List Nat → A)
    (dims : Char → Nat) (sc : SizedContraction)
    (hp : PairSetting h (U ++ C) (C ++ V) (U ++ V) l r t u dims sc)
    (hL : (U ++ C).Nodup) (hR : (C ++ V).Nodup) :
    ∃ p w, TensordotFixedPosition.new sc = .ok p ∧ p.run al l r = .ok w ∧
      IsEinsum dims [U ++ C, C ++ V] [t, u] (U ++ V) w := by
  obtain ⟨ho, rfl⟩ := hp.sizing.eq hp.sized
  have hval := callSC_valid (dims := dims) ho
  obtain ⟨w, h1, h2⟩ := Rep.fixed hp.lhs_rep hp.rhs_rep hL hR al
  refine ⟨_, w, ?_, h1, Rep.isEinsum_two (C := C) ho.1 (List.nodup_append.1 hL).2.1 (fun c => ?_) h2⟩
  · have e1 : usub ((U ++ C).length + (C ++ V).length) (U ++ V).length = .ok (C.length * 2) := by
      rw [usub_of_le (by simp; omega)]
      congr 1
      simp; omega
    have z1 : sizesOf (callSC [U ++ C, C ++ V] (U ++ V) dims) (U ++ C) = .ok (U.map dims ++ C.map dims) := by
      rw [sizesOf_ok hval fun c hc => by simp [callSC] at hc ⊢; tauto]
      simp
    have z2 : sizesOf (callSC [U ++ C, C ++ V] (U ++ V) dims) (C ++ V) = .ok (C.map dims ++ V.map dims) := by
      rw [sizesOf_ok hval fun c hc => by simp [callSC] at hc ⊢; tauto]
      simp
    simp only [TensordotFixedPosition.new]
    change (assertThat _ >>= fun _ => index [U ++ C, C ++ V] 0 >>= fun lhs => index [U ++ C, C ++ V] 1 >>= fun rhs =>
      usub (lhs.length + rhs.length) (U ++ V).length >>= fun twice => _) = _
    rw [assertThat_of (by simp [callSC]), bind_ok, index_cons_zero, bind_ok, index_one, bind_ok, e1, bind_ok,
      assertThat_of (by simp), bind_ok, z1, bind_ok, z2, bind_ok, Nat.mul_div_cancel _ (by decide),
      fromShapes_split (by simp) (by simp), if_pos rfl, List.map_append]
  · have hd1 := (List.nodup_append.1 hL).2.2
    have hd2 := (List.nodup_append.1 hR).2.2
    simp only [List.mem_append]
    constructor
    · intro hc
      refine ⟨.inl (.inr hc), ?_⟩
      rintro (h | h)
      · exact hd1 c h c hc rfl
      · exact hd2 c hc c h rfl
    · rintro ⟨(h | h) | (h | h), h'⟩
      · exact absurd (Or.inl h) h'
      · exact h
      · exact h
      · exact absurd (Or.inr h) h'

end C44

/-- A scalar, stored somewhere in a larger buffer. -/
def Ex.m0 : View Int := ⟨[7, 8, 9], 1, [], []⟩

theorem Ex.e0 : Elements Ex.m0 (Ex.elems Ex.m0) := elements_of rfl (by decide)

theorem Ex.setting_matmul (h : HashOrd) : PairSetting h (['i'] ++ ['j']) (['j'] ++ ['k']) (['i'] ++ ['k']) Ex.m23 Ex.m32
    (Ex.elems Ex.m23) (Ex.elems Ex.m32) Ex.dims (callSC [['i', 'j'], ['j', 'k']] ['i', 'k'] Ex.dims) :=
  ⟨Ex.call_matmul.sized, sizes_callSC (by simp [OutputOk, Used]) Ex.call_matmul.sized, Ex.e23, Ex.e32⟩

theorem Ex.setting_hadamard (h : HashOrd) : PairSetting h ['i', 'j'] ['j', 'i'] ['j', 'i'] Ex.m23 Ex.m32
    (Ex.elems Ex.m23) (Ex.elems Ex.m32) Ex.dims (callSC [['i', 'j'], ['j', 'i']] ['j', 'i'] Ex.dims) :=
  have hs : Sized Ex.dims [['i', 'j'], ['j', 'i']] [Ex.m23.shape, Ex.m32.shape] :=
    .cons (by decide) (.cons (by decide) .nil)
  ⟨hs, sizes_callSC (by simp [OutputOk, Used]) hs, Ex.e23, Ex.e32⟩

theorem Ex.setting_same (h : HashOrd) : PairSetting h ['j', 'i'] ['j', 'i'] ['j', 'i'] Ex.m32' Ex.m32
    (Ex.elems Ex.m32') (Ex.elems Ex.m32) Ex.dims (callSC [['j', 'i'], ['j', 'i']] ['j', 'i'] Ex.dims) :=
  have hs : Sized Ex.dims [['j', 'i'], ['j', 'i']] [Ex.m32'.shape, Ex.m32.shape] :=
    .cons (by decide) (.cons (by decide) .nil)
  ⟨hs, sizes_callSC (by simp [OutputOk, Used]) hs, Ex.e32', Ex.e32⟩

theorem Ex.setting_scalar (h : HashOrd) : PairSetting h [] ['j', 'i'] ['i', 'j'] Ex.m0 Ex.m32
    (Ex.elems Ex.m0) (Ex.elems Ex.m32) Ex.dims (callSC [[], ['j', 'i']] ['i', 'j'] Ex.dims) :=
  have hs : Sized Ex.dims [[], ['j', 'i']] [Ex.m0.shape, Ex.m32.shape] :=
    .cons (by decide) (.cons (by decide) .nil)
  ⟨hs, sizes_callSC (by simp [OutputOk, Used]) hs, Ex.e0, Ex.e32⟩

theorem Ex.setting_scalar' (h : HashOrd) : PairSetting h ['j', 'i'] [] ['i', 'j'] Ex.m32 Ex.m0
    (Ex.elems Ex.m32) (Ex.elems Ex.m0) Ex.dims (callSC [['j', 'i'], []] ['i', 'j'] Ex.dims) :=
  have hs : Sized Ex.dims [['j', 'i'], []] [Ex.m32.shape, Ex.m0.shape] :=
    .cons (by decide) (.cons (by decide) .nil)
  ⟨hs, sizes_callSC (by simp [OutputOk, Used]) hs, Ex.e32, Ex.e0⟩

example : ∃ w, HadamardProduct.run (Alloc.colMajor Int) Ex.m32' Ex.m32 = .ok w ∧
    IsEinsum Ex.dims [['j', 'i'], ['j', 'i']] [Ex.elems Ex.m32', Ex.elems Ex.m32] ['j', 'i'] w :=
  (C44_hadamard HashOrd.insertion _ _ _ _ _ _ _ (Ex.setting_same _)).2 rfl rfl

example : ∃ p w, HadamardProductGeneral.new (callSC [['i', 'j'], ['j', 'i']] ['j', 'i'] Ex.dims) = .ok p ∧
    p.run (Alloc.colMajor Int) Ex.m23 Ex.m32 = .ok w ∧
    IsEinsum Ex.dims [['i', 'j'], ['j', 'i']] [Ex.elems Ex.m23, Ex.elems Ex.m32] ['j', 'i'] w :=
  C44_hadamard_general HashOrd.insertion _ _ _ _ _ _ _ (Ex.setting_hadamard _) (by decide) (by decide)

example : ¬ ScalarMatrixProduct.new (callSC [[], ['j', 'i']] ['i', 'j'] Ex.dims) = .ok () := fun h =>
  absurd ((C44_scalar_matrix HashOrd.insertion (Alloc.rowMajor Int) _ _ _ _ _ _ (Ex.setting_scalar _)).1.1 h)
    (by simp)

example : ∃ p w, ScalarMatrixProductGeneral.new (callSC [[], ['j', 'i']] ['i', 'j'] Ex.dims) = .ok p ∧
    p.run (Alloc.colMajor Int) Ex.m0 Ex.m32 = .ok w ∧
    IsEinsum Ex.dims [[], ['j', 'i']] [Ex.elems Ex.m0, Ex.elems Ex.m32] ['i', 'j'] w :=
  C44_scalar_matrix_general HashOrd.insertion _ _ _ _ _ _ _ (Ex.setting_scalar _) (by decide)

example : ¬ MatrixScalarProduct.new (callSC [['j', 'i'], []] ['i', 'j'] Ex.dims) = .ok () := fun h =>
  absurd ((C44_matrix_scalar HashOrd.insertion (Alloc.rowMajor Int) _ _ _ _ _ _ (Ex.setting_scalar' _)).1.1 h)
    (by simp)

example : ∃ p w, MatrixScalarProductGeneral.new (callSC [['j', 'i'], []] ['i', 'j'] Ex.dims) = .ok p ∧
    p.run (Alloc.colMajor Int) Ex.m32 Ex.m0 = .ok w ∧
    IsEinsum Ex.dims [['j', 'i'], []] [Ex.elems Ex.m32, Ex.elems Ex.m0] ['i', 'j'] w :=
  C44_matrix_scalar_general HashOrd.insertion _ _ _ _ _ _ _ (Ex.setting_scalar' _) (by decide)

example : ∃ p w, TensordotGeneral.new (callSC [['i', 'j'], ['j', 'k']] ['i', 'k'] Ex.dims) = .ok p ∧
    p.run (Alloc.colMajor Int) Ex.m23 Ex.m32 = .ok w ∧
    IsEinsum Ex.dims [['i', 'j'], ['j', 'k']] [Ex.elems Ex.m23, Ex.elems Ex.m32] ['i', 'k'] w :=
  C44_tensordot_general HashOrd.insertion _ _ _ _ _ _ _ (Ex.setting_matmul _)
    ⟨by simp, by simp, by simp, by simp⟩ (by simp)

example : ∃ p w, TensordotFixedPosition.new (callSC [['i', 'j'], ['j', 'k']] ['i', 'k'] Ex.dims) = .ok p ∧
    p.run (Alloc.colMajor Int) Ex.m23 Ex.m32 = .ok w ∧
    IsEinsum Ex.dims [['i', 'j'], ['j', 'k']] [Ex.elems Ex.m23, Ex.elems Ex.m32] ['i', 'k'] w :=
  C44_tensordot_fixed HashOrd.insertion _ ['i'] ['j'] ['k'] _ _ _ _ _ _ (Ex.setting_matmul _) (by simp) (by simp)

/-! ## C45: TensordotFixedPosition does not check positions -/

/-- The lengths of a call of "ij,kj->ik": the second axis of the left and the first axis of the right operand
have the same length. -/
def Ex.dims45 (c : Char) : Nat := if c = 'i' then 2 else 3

/-- A 3 by 3 matrix. -/
def Ex.m33 : View Int := ⟨[1, 2, 3, 4, 5, 6, 7, 8, 9], 0, [3, 3], [3, 1]⟩

/-- C45: `TensordotFixedPosition::new` checks only the number of contracted axes and the product of their
lengths (there is a TODO in the code).  For "ij,kj->ik", which is not of the documented form, it is accepted
and multiplies by the untransposed right operand: the result is not the Einstein sum. -/
theorem C45_positions_unchecked : ∃ (sc : SizedContraction) (l r w : View Int) (p : TensordotFixedPosition),
    SizingOf HashOrd.insertion [['i', 'j'], ['k', 'j']] ['i', 'k'] [l.shape, r.shape] sc ∧
    Sized Ex.dims45 [['i', 'j'], ['k', 'j']] [l.shape, r.shape] ∧ l.Wf ∧ r.Wf ∧
    TensordotFixedPosition.new sc = .ok p ∧ p.run (Alloc.rowMajor Int) l r = .ok w ∧
    ∀ t u, Elements l t → Elements r u → ¬ IsEinsum Ex.dims45 [['i', 'j'], ['k', 'j']] [t, u] ['i', 'k'] w := by
  have hs : Sized Ex.dims45 [['i', 'j'], ['k', 'j']] [Ex.m23.shape, Ex.m33.shape] :=
    .cons (by decide) (.cons (by decide) .nil)
  refine ⟨callSC [['i', 'j'], ['k', 'j']] ['i', 'k'] Ex.dims45, Ex.m23, Ex.m33,
    ⟨[30, 36, 42, 66, 81, 96], 0, [2, 3], [3, 1]⟩, ⟨2, 3, 3, [2, 3]⟩,
    sizes_callSC (by simp [OutputOk, Used]) hs, hs, Ex.e23.1,
    (elements_of (t := Ex.elems Ex.m33) rfl (by decide)).1, rfl, rfl, fun t u ht hu hE => ?_⟩
  have key := hE.2.2 (fun _ => 0) (by simp [InRange, Ex.dims45])
  have ht' : ∀ idx ∈ allIdx [2, 3], Ex.m23.read idx = .ok (t idx) := fun idx hi => ht.2 idx (mem_allIdx.1 hi)
  have hu' : ∀ idx ∈ allIdx [3, 3], Ex.m33.read idx = .ok (u idx) := fun idx hi => hu.2 idx (mem_allIdx.1 hi)
  have v0 : t [0, 0] = 1 := (Except.ok.inj (ht' [0, 0] (by decide))).symm
  have v1 : t [0, 1] = 2 := (Except.ok.inj (ht' [0, 1] (by decide))).symm
  have v2 : t [0, 2] = 3 := (Except.ok.inj (ht' [0, 2] (by decide))).symm
  have w0 : u [0, 0] = 1 := (Except.ok.inj (hu' [0, 0] (by decide))).symm
  have w1 : u [0, 1] = 2 := (Except.ok.inj (hu' [0, 1] (by decide))).symm
  have w2 : u [0, 2] = 3 := (Except.ok.inj (hu' [0, 2] (by decide))).symm
  have e : Spec.einsum Ex.dims45 [['i', 'j'], ['k', 'j']] [t, u] ['i', 'k'] (fun _ => 0) = 14 := by
    have es : summed [['i', 'j'], ['k', 'j']] ['i', 'k'] = ['j'] := by decide
    simp [Spec.einsum, es, sumOver, Ex.dims45, Finset.sum_range_succ, term, Function.update, v0, v1, v2, w0, w1, w2]
  rw [e] at key
  exact absurd (Except.ok.inj key) (by decide)

/-! ## C46: singleton contractors on their documented domains -/

section C46
variable {A : Type} [CommSemiring A] {L out : List Char}

/-- Shared setting: labels, lengths and elements of one operand, and the sized contraction. -/
structure SingleSetting (h : HashOrd) (L out : List Char) (v : View A) (t : List Nat → A)
    (dims : Char → Nat) (sc : SizedContraction) : Prop where
  sized : Sized dims [L] [v.shape]
  sizing : SizingOf h [L] out [v.shape] sc
  elements : Elements v t

omit [CommSemiring A] in
theorem SingleSetting.rep {h : HashOrd} {v : View A} {t : List Nat → A} {dims : Char → Nat}
    {sc : SizedContraction} (hp : SingleSetting h L out v t dims sc) : Rep v L dims fun σ => t (L.map σ) := by
  have := hp.sized
  cases this with
  | cons h1 _ => exact rep_of_elements hp.elements h1

theorem summed_one_nil {L out : List Char} (h : ∀ c ∈ L, c ∈ out) : summed [L] out = [] := by
  rw [List.eq_nil_iff_forall_not_mem]
  intro c hc
  have := mem_summed.1 hc
  simp only [List.flatten_cons, List.flatten_nil, List.append_nil] at this
  exact this.2 (h c this.1)

/-- C46: `Identity` copies. -/
theorem C46_identity (h : HashOrd) (al : Alloc A) (v : View A) (t : List Nat → A) (dims : Char → Nat)
    (sc : SizedContraction) (hp : SingleSetting h L L v t dims sc) :
    ∃ w, Identity.run al v = .ok w ∧ IsEinsum dims [L] [t] L w := by
  obtain ⟨ho, rfl⟩ := hp.sizing.eq hp.sized
  obtain ⟨w, h1, h2⟩ := hp.rep.toOwned ho.1 al
  refine ⟨w, h1, Rep.isEinsum_one ho.1 ?_⟩
  rw [summed_one_nil fun c hc => hc]
  exact h2

/-- C46: `Permutation` for any rearrangement of the labels. -/
theorem C46_permutation (h : HashOrd) (al : Alloc A) (v : View A) (t : List Nat → A) (dims : Char → Nat)
    (sc : SizedContraction) (hp : SingleSetting h L out v t dims sc) (hperm : out.Perm L) :
    ∃ p w, Permutation.new sc = .ok p ∧ p.run al v = .ok w ∧ IsEinsum dims [L] [t] out w := by
  obtain ⟨ho, rfl⟩ := hp.sizing.eq hp.sized
  obtain ⟨w, h1, h2⟩ := hp.rep.permutationRun (hperm.nodup_iff.1 ho.1) hperm al
  refine ⟨_, w, Permutation.new_ok (L := L) rfl hperm.length_eq.symm fun c hc => hperm.mem_iff.1 hc, h1,
    Rep.isEinsum_one ho.1 ?_⟩
  rw [summed_one_nil fun c hc => hperm.mem_iff.2 hc]
  exact h2

/-- C46: `Summation` for the trailing axes; it cannot be built when there is none. -/
theorem C46_summation (h : HashOrd) (al : Alloc A) (S : List Char) (v : View A) (t : List Nat → A)
    (dims : Char → Nat) (sc : SizedContraction) (hp : SingleSetting h (out ++ S) out v t dims sc)
    (hn : (out ++ S).Nodup) (hS : S ≠ []) :
    ∃ p w, Summation.new sc = .ok p ∧ p.run al v = .ok w ∧ IsEinsum dims [out ++ S] [t] out w := by
  obtain ⟨ho, rfl⟩ := hp.sizing.eq hp.sized
  obtain ⟨w, h1, h2⟩ := hp.rep.summation hn hS ((List.range S.length).map (out.length + ·)) al
  have hd := List.nodup_append.1 hn
  refine ⟨_, w, ?_, h1, Rep.isEinsum_one ho.1 ?_⟩
  · have e : usub (out ++ S).length out.length = .ok S.length := by
      rw [usub_of_le (by simp)]; simp
    simp only [Summation.new]
    change (index [out ++ S] 0 >>= fun input => usub input.length out.length >>= fun n => _) = _
    rw [index_cons_zero, bind_ok, e, bind_ok]
    exact Summation.fromSizes_ok (List.length_pos_iff.2 hS)
  · rw [← sumOver_summed (S := S) hd.2.1]
    · exact h2
    · intro c
      simp only [List.flatten_cons, List.flatten_nil, List.append_nil, List.mem_append]
      constructor
      · intro hc; exact ⟨.inr hc, fun ho => hd.2.2 c ho c hc rfl⟩
      · rintro ⟨h | h, h'⟩
        · exact absurd h h'
        · exact h

/-- C46: `PermutationAndSummation` for any operand with distinct letters of which at least one is summed. -/
theorem C46_permutation_summation (h : HashOrd) (al : Alloc A) (v : View A) (t : List Nat → A)
    (dims : Char → Nat) (sc : SizedContraction) (hp : SingleSetting h L out v t dims sc) (hn : L.Nodup)
    (hlt : out.length < L.length) :
    ∃ p w, PermutationAndSummation.new sc = .ok p ∧ p.run al v = .ok w ∧ IsEinsum dims [L] [t] out w := by
  obtain ⟨ho, rfl⟩ := hp.sizing.eq hp.sized
  have hsub : ∀ c ∈ out, c ∈ L := fun c hc => by simpa using used_iff.1 (ho.2 c hc)
  have hnew := PermutationAndSummation.new_ok (sc := callSC [L] out dims) (L := L) rfl hlt hn hsub
  change PermutationAndSummation.new _ = .ok ⟨⟨(out ++ L.filter fun c => c ∉ out).map fun c => pos c L⟩,
    ⟨(List.range (L.length - out.length)).map (out.length + ·),
      List.replicate (L.length - out.length) out.length⟩⟩ at hnew
  set S := L.filter fun c => c ∉ out with hSdef
  have hmS : ∀ c, c ∈ S ↔ c ∈ L ∧ c ∉ out := fun c => by simp [hSdef]
  have hnS : (out ++ S).Nodup := by
    rw [List.nodup_append]
    exact ⟨ho.1, hn.filter _, fun a ha b hb => by rintro rfl; exact ((hmS a).1 hb).2 ha⟩
  have hperm : (out ++ S).Perm L := perm_of_nodup hnS hn fun c => by
    rw [List.mem_append, hmS]
    constructor
    · rintro (h | h)
      · exact hsub c h
      · exact h.1
    · intro h
      by_cases hc : c ∈ out
      · exact .inl hc
      · exact .inr ⟨h, hc⟩
  obtain ⟨w, h1, h2⟩ := hp.rep.permute hn hperm
  have hlen : L.length - out.length = S.length := by
    have := hperm.length_eq
    rw [List.length_append] at this; omega
  have hS : S ≠ [] := by
    intro e
    rw [e, List.length_nil] at hlen
    omega
  obtain ⟨w', h3, h4⟩ := h2.summation hnS hS ((List.range (L.length - out.length)).map (out.length + ·)) al
  refine ⟨_, w', hnew, ?_, Rep.isEinsum_one ho.1 ?_⟩
  · simp only [PermutationAndSummation.run, Permutation.view]
    rw [h1]
    simp only [bind_ok]
    rw [hlen] at h3 ⊢
    exact h3
  · rw [← sumOver_summed (S := S) (hn.filter _)]
    · exact h4
    · intro c; simpa using hmS c

/-- C46: `Diagonalization` for a non-empty operand all of whose letters are in the output. -/
theorem C46_diagonalization (h : HashOrd) (al : Alloc A) (v : View A) (t : List Nat → A)
    (dims : Char → Nat) (sc : SizedContraction) (hp : SingleSetting h L out v t dims sc)
    (hall : ∀ c ∈ L, c ∈ out) (hne : 0 < v.shape.prod) :
    ∃ p w, Diagonalization.new sc = .ok p ∧ p.run al v = .ok w ∧ IsEinsum dims [L] [t] out w := by
  obtain ⟨ho, rfl⟩ := hp.sizing.eq hp.sized
  have hval := callSC_valid (dims := dims) ho
  have hsub : ∀ c ∈ out, c ∈ L := fun c hc => by simpa using used_iff.1 (ho.2 c hc)
  obtain ⟨new, h1, h2, h3⟩ := Diagonalization.new_ok hval (L := L) rfl
  change Diagonalization.new _ = .ok ⟨L.map fun c => pos c (out ++ new), (out ++ new).map dims⟩ at h1
  have hnil : new = [] := List.eq_nil_iff_forall_not_mem.2 fun c hc => ((h3 c).1 hc).2 (hall c ((h3 c).1 hc).1)
  rw [hnil, List.append_nil] at h1
  obtain ⟨w, w1, w2⟩ := hp.rep.diagRun hp.elements.1 (by rw [← hp.rep.shape]; exact hne) ho.1 hall hsub al
  refine ⟨_, w, h1, w1, Rep.isEinsum_one ho.1 ?_⟩
  rw [summed_one_nil hall]
  exact w2

end C46

theorem Ex.single {L out : List Char} {v : View Int} (h : HashOrd) (ho : OutputOk [L] out)
    (hs : v.shape = L.map Ex.dims) (he : Elements v (Ex.elems v)) :
    SingleSetting h L out v (Ex.elems v) Ex.dims (callSC [L] out Ex.dims) :=
  ⟨.cons hs .nil, sizes_callSC ho (.cons hs .nil), he⟩

example : ∃ w, Identity.run (Alloc.colMajor Int) Ex.m32 = .ok w ∧
    IsEinsum Ex.dims [['j', 'i']] [Ex.elems Ex.m32] ['j', 'i'] w :=
  C46_identity HashOrd.insertion _ _ _ _ _ (Ex.single _ (by simp [OutputOk, Used]) (by decide) Ex.e32)

example : ∃ p w, Permutation.new (callSC [['j', 'i']] ['i', 'j'] Ex.dims) = .ok p ∧
    p.run (Alloc.colMajor Int) Ex.m32 = .ok w ∧ IsEinsum Ex.dims [['j', 'i']] [Ex.elems Ex.m32] ['i', 'j'] w :=
  C46_permutation HashOrd.insertion _ _ _ _ _ (Ex.single _ (by simp [OutputOk, Used]) (by decide) Ex.e32)
    (by decide)

example : ∃ p w, Summation.new (callSC [['j'] ++ ['i']] ['j'] Ex.dims) = .ok p ∧
    p.run (Alloc.colMajor Int) Ex.m32 = .ok w ∧ IsEinsum Ex.dims [['j'] ++ ['i']] [Ex.elems Ex.m32] ['j'] w :=
  C46_summation HashOrd.insertion _ ['i'] _ _ _ _ (Ex.single _ (by simp [OutputOk, Used]) (by decide) Ex.e32)
    (by simp) (by simp)

example : ∃ p w, PermutationAndSummation.new (callSC [['j', 'i']] ['i'] Ex.dims) = .ok p ∧
    p.run (Alloc.colMajor Int) Ex.m32 = .ok w ∧ IsEinsum Ex.dims [['j', 'i']] [Ex.elems Ex.m32] ['i'] w :=
  C46_permutation_summation HashOrd.insertion _ _ _ _ _
    (Ex.single _ (by simp [OutputOk, Used]) (by decide) Ex.e32) (by simp) (by simp)

example : ∃ p w, Diagonalization.new (callSC [['j', 'j', 'k']] ['k', 'j'] Ex.dims) = .ok p ∧
    p.run (Alloc.colMajor Int) Ex.m332 = .ok w ∧
    IsEinsum Ex.dims [['j', 'j', 'k']] [Ex.elems Ex.m332] ['k', 'j'] w :=
  C46_diagonalization HashOrd.insertion _ _ _ _ _
    (Ex.single _ (by simp [OutputOk, Used]) (by decide) Ex.e332) (by simp) (by decide)

end Einsum
