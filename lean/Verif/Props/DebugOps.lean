import Verif.Props.DebugForms

/-!
# `Debug` output of contractors and compiled steps (C106)
-/

namespace Einsum

open Spec

variable {α : Type}

/-- A struct that is determined by its fields. -/
theorem reads_struct {form : Form} {name : String} {fields : List (String × (α → String))} (hne : fields ≠ [])
    (hf : ∀ f ∈ fields, ∀ k, At form k → Free (fun _ => True) fun x => deeper k (f.2 x))
    (hi : ∀ k, At form k → ∀ x y, (∀ f ∈ fields, deeper k (f.2 x) = deeper k (f.2 y)) → x = y) :
    ReadsIn form (fun _ => True) fun x => showStruct form name (fields.map fun f => (f.1, f.2 x)) := by
  intro k hk x y s t hx hy hs ht he
  obtain ⟨⟨k', h1, h2⟩, h3⟩ := fields_read hne hf hk hx hy hs ht he
  exact ⟨hi k' h1 x y h2, h3⟩

theorem reads_natsIn (form : Form) : ReadsIn form (fun _ => True) (showNats form) :=
  (reads_items (reads_natIn form) "[" "]" ']' (by decide) (by decide) (by decide) (by decide) (by decide)
    fun n => by
      have h : n.repr.toList ≠ [] := by rw [Nat.toList_repr]; exact Nat.toDigits_ne_nil
      obtain ⟨c, l, hc⟩ := List.exists_cons_of_ne_nil h
      refine ⟨c, l, hc, fun he => ?_⟩
      have hm : c ∈ n.repr.toList := by rw [hc]; simp
      rw [Nat.toList_repr] at hm
      have := Nat.isDigit_of_mem_toDigits (by decide) (by decide) hm
      subst he
      simp at this).all fun _ => by simp

theorem shown_permutation (form : Form) : ReadsIn form (fun _ => True) (Permutation.show form) := by
  refine reads_struct (name := "Permutation") (fields := [("permutation",
      fun x : Permutation => showNats form x.permutation)]) (by simp) ?_ ?_
  · simp only [List.forall_mem_cons, List.not_mem_nil, false_implies, implies_true, and_true]
    exact (reads_natsIn form).free Permutation.permutation (by simp)
  · intro k hk x y h
    simp only [List.forall_mem_cons, List.not_mem_nil, false_implies, implies_true, and_true] at h
    have e0 := (reads_natsIn form k hk).inj trivial trivial h
    cases x; cases y; simp_all

theorem shown_summation (form : Form) : ReadsIn form (fun _ => True) (Summation.show form) := by
  refine reads_struct (name := "Summation") (fields := [("orig_axis_list",
      fun x : Summation => showNats form x.origAxisList), ("adjusted_axis_list",
      fun x => showNats form x.adjustedAxisList)]) (by simp) ?_ ?_
  · simp only [List.forall_mem_cons, List.not_mem_nil, false_implies, implies_true, and_true]
    exact ⟨(reads_natsIn form).free Summation.origAxisList (by simp),
      (reads_natsIn form).free Summation.adjustedAxisList (by simp)⟩
  · intro k hk x y h
    simp only [List.forall_mem_cons, List.not_mem_nil, false_implies, implies_true, and_true] at h
    have e0 := (reads_natsIn form k hk).inj trivial trivial h.1
    have e1 := (reads_natsIn form k hk).inj trivial trivial h.2
    cases x; cases y; simp_all

theorem shown_diagonalization (form : Form) : ReadsIn form (fun _ => True) (Diagonalization.show form) := by
  refine reads_struct (name := "Diagonalization") (fields := [("input_to_output_mapping",
      fun x : Diagonalization => showNats form x.inputToOutputMapping), ("output_shape",
      fun x => showNats form x.outputShape)]) (by simp) ?_ ?_
  · simp only [List.forall_mem_cons, List.not_mem_nil, false_implies, implies_true, and_true]
    exact ⟨(reads_natsIn form).free Diagonalization.inputToOutputMapping (by simp),
      (reads_natsIn form).free Diagonalization.outputShape (by simp)⟩
  · intro k hk x y h
    simp only [List.forall_mem_cons, List.not_mem_nil, false_implies, implies_true, and_true] at h
    have e0 := (reads_natsIn form k hk).inj trivial trivial h.1
    have e1 := (reads_natsIn form k hk).inj trivial trivial h.2
    cases x; cases y; simp_all

theorem shown_permutationAndSummation (form : Form) : ReadsIn form (fun _ => True) (PermutationAndSummation.show form) := by
  refine reads_struct (name := "PermutationAndSummation") (fields := [("permutation",
      fun x : PermutationAndSummation => x.permutation.show form), ("summation",
      fun x => x.summation.show form)]) (by simp) ?_ ?_
  · simp only [List.forall_mem_cons, List.not_mem_nil, false_implies, implies_true, and_true]
    exact ⟨(shown_permutation form).free PermutationAndSummation.permutation (by simp),
      (shown_summation form).free PermutationAndSummation.summation (by simp)⟩
  · intro k hk x y h
    simp only [List.forall_mem_cons, List.not_mem_nil, false_implies, implies_true, and_true] at h
    have e0 := (shown_permutation form k hk).inj trivial trivial h.1
    have e1 := (shown_summation form k hk).inj trivial trivial h.2
    cases x; cases y; simp_all

theorem shown_diagonalizationAndSummation (form : Form) : ReadsIn form (fun _ => True) (DiagonalizationAndSummation.show form) := by
  refine reads_struct (name := "DiagonalizationAndSummation") (fields := [("diagonalization",
      fun x : DiagonalizationAndSummation => x.diagonalization.show form), ("summation",
      fun x => x.summation.show form)]) (by simp) ?_ ?_
  · simp only [List.forall_mem_cons, List.not_mem_nil, false_implies, implies_true, and_true]
    exact ⟨(shown_diagonalization form).free DiagonalizationAndSummation.diagonalization (by simp),
      (shown_summation form).free DiagonalizationAndSummation.summation (by simp)⟩
  · intro k hk x y h
    simp only [List.forall_mem_cons, List.not_mem_nil, false_implies, implies_true, and_true] at h
    have e0 := (shown_diagonalization form k hk).inj trivial trivial h.1
    have e1 := (shown_summation form k hk).inj trivial trivial h.2
    cases x; cases y; simp_all

theorem shown_fixed (form : Form) : ReadsIn form (fun _ => True) (TensordotFixedPosition.show form) := by
  refine reads_struct (name := "TensordotFixedPosition") (fields := [("len_uncontracted_lhs",
      fun x : TensordotFixedPosition => x.lenUncontractedLhs.repr), ("len_uncontracted_rhs",
      fun x => x.lenUncontractedRhs.repr), ("len_contracted_axes", fun x => x.lenContractedAxes.repr),
      ("output_shape", fun x => showNats form x.outputShape)]) (by simp) ?_ ?_
  · simp only [List.forall_mem_cons, List.not_mem_nil, false_implies, implies_true, and_true]
    exact ⟨(reads_natIn form).free TensordotFixedPosition.lenUncontractedLhs (by simp),
      (reads_natIn form).free TensordotFixedPosition.lenUncontractedRhs (by simp),
      (reads_natIn form).free TensordotFixedPosition.lenContractedAxes (by simp),
      (reads_natsIn form).free TensordotFixedPosition.outputShape (by simp)⟩
  · intro k hk x y h
    simp only [List.forall_mem_cons, List.not_mem_nil, false_implies, implies_true, and_true] at h
    have e0 := (reads_natIn form k hk).inj trivial trivial h.1
    have e1 := (reads_natIn form k hk).inj trivial trivial h.2.1
    have e2 := (reads_natIn form k hk).inj trivial trivial h.2.2.1
    have e3 := (reads_natsIn form k hk).inj trivial trivial h.2.2.2
    cases x; cases y; simp_all

theorem shown_general (form : Form) : ReadsIn form (fun _ => True) (TensordotGeneral.show form) := by
  refine reads_struct (name := "TensordotGeneral") (fields := [("lhs_permutation",
      fun x : TensordotGeneral => x.lhsPermutation.show form), ("rhs_permutation",
      fun x => x.rhsPermutation.show form), ("tensordot_fixed_position",
      fun x => x.tensordotFixedPosition.show form), ("output_permutation",
      fun x => x.outputPermutation.show form)]) (by simp) ?_ ?_
  · simp only [List.forall_mem_cons, List.not_mem_nil, false_implies, implies_true, and_true]
    exact ⟨(shown_permutation form).free TensordotGeneral.lhsPermutation (by simp),
      (shown_permutation form).free TensordotGeneral.rhsPermutation (by simp),
      (shown_fixed form).free TensordotGeneral.tensordotFixedPosition (by simp),
      (shown_permutation form).free TensordotGeneral.outputPermutation (by simp)⟩
  · intro k hk x y h
    simp only [List.forall_mem_cons, List.not_mem_nil, false_implies, implies_true, and_true] at h
    have e0 := (shown_permutation form k hk).inj trivial trivial h.1
    have e1 := (shown_permutation form k hk).inj trivial trivial h.2.1
    have e2 := (shown_fixed form k hk).inj trivial trivial h.2.2.1
    have e3 := (shown_permutation form k hk).inj trivial trivial h.2.2.2
    cases x; cases y; simp_all

theorem shown_hadamard (form : Form) : ReadsIn form (fun _ => True) (HadamardProductGeneral.show form) := by
  refine reads_struct (name := "HadamardProductGeneral") (fields := [("lhs_permutation",
      fun x : HadamardProductGeneral => x.lhsPermutation.show form), ("rhs_permutation",
      fun x => x.rhsPermutation.show form), ("hadamard_product", fun _ => "HadamardProduct")]) (by simp) ?_ ?_
  · simp only [List.forall_mem_cons, List.not_mem_nil, false_implies, implies_true, and_true]
    exact ⟨(shown_permutation form).free HadamardProductGeneral.lhsPermutation (by simp),
      (shown_permutation form).free HadamardProductGeneral.rhsPermutation (by simp), fun _ _ => free_const _⟩
  · intro k hk x y h
    simp only [List.forall_mem_cons, List.not_mem_nil, false_implies, implies_true, and_true] at h
    have e0 := (shown_permutation form k hk).inj trivial trivial h.1
    have e1 := (shown_permutation form k hk).inj trivial trivial h.2
    cases x; cases y; simp_all

theorem shown_scalarMatrix (form : Form) : ReadsIn form (fun _ => True) (ScalarMatrixProductGeneral.show form) := by
  refine reads_struct (name := "ScalarMatrixProductGeneral") (fields := [("rhs_permutation",
      fun x : ScalarMatrixProductGeneral => x.rhsPermutation.show form), ("scalar_matrix_product",
      fun _ => "ScalarMatrixProduct")]) (by simp) ?_ ?_
  · simp only [List.forall_mem_cons, List.not_mem_nil, false_implies, implies_true, and_true]
    exact ⟨(shown_permutation form).free ScalarMatrixProductGeneral.rhsPermutation (by simp), fun _ _ => free_const _⟩
  · intro k hk x y h
    simp only [List.forall_mem_cons, List.not_mem_nil, false_implies, implies_true, and_true] at h
    have e0 := (shown_permutation form k hk).inj trivial trivial h
    cases x; cases y; simp_all

theorem shown_matrixScalar (form : Form) : ReadsIn form (fun _ => True) (MatrixScalarProductGeneral.show form) := by
  refine reads_struct (name := "MatrixScalarProductGeneral") (fields := [("lhs_permutation",
      fun x : MatrixScalarProductGeneral => x.lhsPermutation.show form), ("matrix_scalar_product",
      fun _ => "MatrixScalarProduct")]) (by simp) ?_ ?_
  · simp only [List.forall_mem_cons, List.not_mem_nil, false_implies, implies_true, and_true]
    exact ⟨(shown_permutation form).free MatrixScalarProductGeneral.lhsPermutation (by simp), fun _ _ => free_const _⟩
  · intro k hk x y h
    simp only [List.forall_mem_cons, List.not_mem_nil, false_implies, implies_true, and_true] at h
    have e0 := (shown_permutation form k hk).inj trivial trivial h
    cases x; cases y; simp_all

theorem shown_broadcast (form : Form) : ReadsIn form (fun _ => True) (BroadcastProductGeneral.show form) := by
  refine reads_struct (name := "BroadcastProductGeneral") (fields := [("lhs_permutation",
      fun x : BroadcastProductGeneral => x.lhsPermutation.show form), ("rhs_permutation",
      fun x => x.rhsPermutation.show form), ("lhs_insertions", fun x => showNats form x.lhsInsertions),
      ("rhs_insertions", fun x => showNats form x.rhsInsertions), ("output_sizes",
      fun x => showNats form x.outputSizes), ("hadamard_product", fun _ => "HadamardProduct")]) (by simp) ?_ ?_
  · simp only [List.forall_mem_cons, List.not_mem_nil, false_implies, implies_true, and_true]
    exact ⟨(shown_permutation form).free BroadcastProductGeneral.lhsPermutation (by simp),
      (shown_permutation form).free BroadcastProductGeneral.rhsPermutation (by simp),
      (reads_natsIn form).free BroadcastProductGeneral.lhsInsertions (by simp),
      (reads_natsIn form).free BroadcastProductGeneral.rhsInsertions (by simp),
      (reads_natsIn form).free BroadcastProductGeneral.outputSizes (by simp), fun _ _ => free_const _⟩
  · intro k hk x y h
    simp only [List.forall_mem_cons, List.not_mem_nil, false_implies, implies_true, and_true] at h
    have e0 := (shown_permutation form k hk).inj trivial trivial h.1
    have e1 := (shown_permutation form k hk).inj trivial trivial h.2.1
    have e2 := (reads_natsIn form k hk).inj trivial trivial h.2.2.1
    have e3 := (reads_natsIn form k hk).inj trivial trivial h.2.2.2.1
    have e4 := (reads_natsIn form k hk).inj trivial trivial h.2.2.2.2
    cases x; cases y; simp_all

theorem shown_stacked (form : Form) : ReadsIn form (fun _ => True) (StackedTensordotGeneral.show form) := by
  refine reads_struct (name := "StackedTensordotGeneral") (fields := [("lhs_permutation",
      fun x : StackedTensordotGeneral => x.lhsPermutation.show form), ("rhs_permutation",
      fun x => x.rhsPermutation.show form), ("lhs_output_shape", fun x => showNats form x.lhsOutputShape),
      ("rhs_output_shape", fun x => showNats form x.rhsOutputShape), ("intermediate_shape",
      fun x => showNats form x.intermediateShape), ("tensordot_fixed_position",
      fun x => x.tensordotFixedPosition.show form), ("output_shape", fun x => showNats form x.outputShape),
      ("output_permutation", fun x => x.outputPermutation.show form)]) (by simp) ?_ ?_
  · simp only [List.forall_mem_cons, List.not_mem_nil, false_implies, implies_true, and_true]
    exact ⟨(shown_permutation form).free StackedTensordotGeneral.lhsPermutation (by simp),
      (shown_permutation form).free StackedTensordotGeneral.rhsPermutation (by simp),
      (reads_natsIn form).free StackedTensordotGeneral.lhsOutputShape (by simp),
      (reads_natsIn form).free StackedTensordotGeneral.rhsOutputShape (by simp),
      (reads_natsIn form).free StackedTensordotGeneral.intermediateShape (by simp),
      (shown_fixed form).free StackedTensordotGeneral.tensordotFixedPosition (by simp),
      (reads_natsIn form).free StackedTensordotGeneral.outputShape (by simp),
      (shown_permutation form).free StackedTensordotGeneral.outputPermutation (by simp)⟩
  · intro k hk x y h
    simp only [List.forall_mem_cons, List.not_mem_nil, false_implies, implies_true, and_true] at h
    have e0 := (shown_permutation form k hk).inj trivial trivial h.1
    have e1 := (shown_permutation form k hk).inj trivial trivial h.2.1
    have e2 := (reads_natsIn form k hk).inj trivial trivial h.2.2.1
    have e3 := (reads_natsIn form k hk).inj trivial trivial h.2.2.2.1
    have e4 := (reads_natsIn form k hk).inj trivial trivial h.2.2.2.2.1
    have e5 := (shown_fixed form k hk).inj trivial trivial h.2.2.2.2.2.1
    have e6 := (reads_natsIn form k hk).inj trivial trivial h.2.2.2.2.2.2.1
    have e7 := (shown_permutation form k hk).inj trivial trivial h.2.2.2.2.2.2.2
    cases x; cases y; simp_all

/-- The text of a struct begins with its name. -/
theorem shown_name (form : Form) (k : Nat) (name : String) (fields : List (String × String)) (hn : '\n' ∉ name.toList) :
    ∃ r, (deeper k (showStruct form name fields)).toList = name.toList ++ ' ' :: r := by
  have h : ∀ a : String, ∃ r, (deeper k (name ++ " {" ++ a)).toList = name.toList ++ ' ' :: r := by
    intro a
    have hb : " {".toList = [' ', '{'] := by decide
    rw [deeper_append, deeper_append, deeper_plain k hn, deeper_plain k (s := " {") (by decide)]
    exact ⟨_, by simp [hb]; rfl⟩
  cases form with
  | line =>
    obtain ⟨r, hr⟩ := h (" " ++ commaSep (fields.map fun f => f.1 ++ ": " ++ f.2) ++ " " ++ "}")
    exact ⟨r, by rw [← hr]; simp only [showStruct, debugItems, String.append_assoc]⟩
  | pretty =>
    obtain ⟨r, hr⟩ := h ((if fields.map (fun f => f.1 ++ ": " ++ f.2) = [] then "" else
      "\n" ++ writePieces ((fields.map fun f => f.1 ++ ": " ++ f.2).map prettyItem)) ++ "}")
    exact ⟨r, by rw [← hr]; simp only [showStruct, debugItems, String.append_assoc]⟩

theorem shown_tag (form : Form) (k : Nat) (name : String) (fields : List (String × String)) (hn : '\n' ∉ name.toList) :
    ∃ r, (deeper k (showStruct form name fields)).toList = name.toList ++ r ∧ Ends r := by
  obtain ⟨r, h⟩ := shown_name form k name fields hn
  exact ⟨_, h, by simp [Ends]⟩

theorem shown_word (k : Nat) (name : String) (hn : '\n' ∉ name.toList) :
    ∃ r, (deeper k name).toList = name.toList ++ r ∧ Ends r :=
  ⟨[], by rw [deeper_plain k hn]; simp, ends_nil⟩

theorem shown_singletonTag (form : Form) (k : Nat) (o : SingletonOp) :
    ∃ r, (deeper k (o.show form)).toList = o.tag.debug.toList ++ r ∧ Ends r := by
  cases o
  case identity => exact shown_word k "Identity" (by decide)
  all_goals exact shown_tag form k _ _ (by decide)

theorem shown_pairTag (form : Form) (k : Nat) (o : PairOp) :
    ∃ r, (deeper k (o.show form)).toList = o.tag.debug.toList ++ r ∧ Ends r := by
  cases o
  case hadamardProduct => exact shown_word k "HadamardProduct" (by decide)
  case scalarMatrixProduct => exact shown_word k "ScalarMatrixProduct" (by decide)
  case matrixScalarProduct => exact shown_word k "MatrixScalarProduct" (by decide)
  all_goals exact shown_tag form k _ _ (by decide)

theorem shown_singletonOp (form : Form) : ReadsIn form (fun _ => True) (SingletonOp.show form) := by
  intro k hk x y s t _ _ hs ht he
  obtain ⟨r, h1, h2⟩ := shown_singletonTag form k x
  obtain ⟨q, h3, h4⟩ := shown_singletonTag form k y
  have htag : x.tag = y.tag := by
    rw [h1, h3, List.append_assoc, List.append_assoc] at he
    exact (reads_singletonMethod _ _ _ _ trivial trivial (ends_append h2 hs) (ends_append h4 ht) he).1
  clear h1 h2 h3 h4
  cases x <;> cases y <;> first | (cases htag; done) | skip
  · exact ⟨rfl, List.append_cancel_left he⟩
  · obtain ⟨rfl, e⟩ := shown_permutation form k hk _ _ s t trivial trivial hs ht he; exact ⟨rfl, e⟩
  · obtain ⟨rfl, e⟩ := shown_summation form k hk _ _ s t trivial trivial hs ht he; exact ⟨rfl, e⟩
  · obtain ⟨rfl, e⟩ := shown_diagonalization form k hk _ _ s t trivial trivial hs ht he; exact ⟨rfl, e⟩
  · obtain ⟨rfl, e⟩ := shown_permutationAndSummation form k hk _ _ s t trivial trivial hs ht he; exact ⟨rfl, e⟩
  · obtain ⟨rfl, e⟩ := shown_diagonalizationAndSummation form k hk _ _ s t trivial trivial hs ht he; exact ⟨rfl, e⟩

theorem shown_pairOp (form : Form) : ReadsIn form (fun _ => True) (PairOp.show form) := by
  intro k hk x y s t _ _ hs ht he
  obtain ⟨r, h1, h2⟩ := shown_pairTag form k x
  obtain ⟨q, h3, h4⟩ := shown_pairTag form k y
  have htag : x.tag = y.tag := by
    rw [h1, h3, List.append_assoc, List.append_assoc] at he
    exact (reads_pairMethod _ _ _ _ trivial trivial (ends_append h2 hs) (ends_append h4 ht) he).1
  clear h1 h2 h3 h4
  cases x <;> cases y <;> first | (cases htag; done) | skip
  · exact ⟨rfl, List.append_cancel_left he⟩
  · obtain ⟨rfl, e⟩ := shown_hadamard form k hk _ _ s t trivial trivial hs ht he; exact ⟨rfl, e⟩
  · obtain ⟨rfl, e⟩ := shown_fixed form k hk _ _ s t trivial trivial hs ht he; exact ⟨rfl, e⟩
  · obtain ⟨rfl, e⟩ := shown_general form k hk _ _ s t trivial trivial hs ht he; exact ⟨rfl, e⟩
  · exact ⟨rfl, List.append_cancel_left he⟩
  · obtain ⟨rfl, e⟩ := shown_scalarMatrix form k hk _ _ s t trivial trivial hs ht he; exact ⟨rfl, e⟩
  · exact ⟨rfl, List.append_cancel_left he⟩
  · obtain ⟨rfl, e⟩ := shown_matrixScalar form k hk _ _ s t trivial trivial hs ht he; exact ⟨rfl, e⟩
  · obtain ⟨rfl, e⟩ := shown_broadcast form k hk _ _ s t trivial trivial hs ht he; exact ⟨rfl, e⟩
  · obtain ⟨rfl, e⟩ := shown_stacked form k hk _ _ s t trivial trivial hs ht he; exact ⟨rfl, e⟩

/-- C106: a contractor can be read off its `Debug` output in both forms, and which contractor it is. -/
theorem C106_contractors (form : Form) : (∀ a b : SingletonOp, a.show form = b.show form → a = b) ∧
    (∀ a b : PairOp, a.show form = b.show form → a = b) :=
  ⟨fun _ _ h => (shown_singletonOp form).reads.inj trivial trivial h,
    fun _ _ h => (shown_pairOp form).reads.inj trivial trivial h⟩

/-- C106: inside a path a contractor is printed like on its own with `{:?}`. -/
theorem C106_inside (o : SingletonOp) (p : PairOp) : o.show .line = o.debug ∧ p.show .line = p.debug := by
  constructor
  · cases o <;> simp [SingletonOp.show, SingletonOp.debug, Permutation.show, Permutation.debug, Summation.show,
      Summation.debug, Diagonalization.show, Diagonalization.debug, PermutationAndSummation.show,
      PermutationAndSummation.debug, DiagonalizationAndSummation.show, DiagonalizationAndSummation.debug, showNats,
      debugNats, showVec, debugVec, showStruct, debugStruct, debugItems, String.append_assoc]
  · cases p <;> simp [PairOp.show, PairOp.debug, Permutation.show, Permutation.debug, TensordotFixedPosition.show,
      TensordotFixedPosition.debug, TensordotGeneral.show, TensordotGeneral.debug, HadamardProductGeneral.show,
      HadamardProductGeneral.debug, ScalarMatrixProductGeneral.show, ScalarMatrixProductGeneral.debug,
      MatrixScalarProductGeneral.show, MatrixScalarProductGeneral.debug, BroadcastProductGeneral.show,
      BroadcastProductGeneral.debug, StackedTensordotGeneral.show, StackedTensordotGeneral.debug, showNats,
      debugNats, showVec, debugVec, showStruct, debugStruct, debugItems, String.append_assoc]

/-! ## Compiled steps -/

/-- The number of line feeds. -/
def feeds (s : String) : Nat := s.toList.count '\n'

theorem feeds_append (s t : String) : feeds (s ++ t) = feeds s + feeds t := by
  simp [feeds, String.toList_append, List.count_append]

theorem feeds_zero {s : String} : feeds s = 0 ↔ '\n' ∉ s.toList := List.count_eq_zero

theorem feeds_pieces (l : List String) : feeds (writePieces l) = (l.map feeds).sum := by
  induction l with
  | nil => decide
  | cons x l ih => rw [writePieces, feeds_append, ih, List.map_cons, List.sum_cons]

theorem feeds_comma (l : List String) : feeds (commaSep l) = (l.map feeds).sum := by
  have h : feeds ", " = 0 := by decide
  induction l with
  | nil => decide
  | cons x l ih =>
    cases l with
    | nil => simp [commaSep]
    | cons y l => rw [commaSep, feeds_append, feeds_append, ih, h]; simp

theorem feeds_vec (l : List String) : feeds (debugVec l) = (l.map feeds).sum := by
  have h : feeds "[" = 0 ∧ feeds "]" = 0 := by decide
  rw [debugVec, feeds_append, feeds_append, feeds_comma, h.1, h.2]
  omega

theorem feeds_repr (n : Nat) : feeds n.repr = 0 := by
  rw [feeds_zero, Nat.toList_repr]
  intro h
  have := Nat.isDigit_of_mem_toDigits (by decide) (by decide) h
  simp at this

theorem feeds_nats (l : List Nat) : feeds (debugNats l) = 0 := by
  rw [debugNats, feeds_vec, List.map_map]
  apply List.sum_eq_zero
  intro x hx
  obtain ⟨n, -, rfl⟩ := List.mem_map.1 hx
  exact feeds_repr n

theorem feeds_struct (name : String) (fields : List (String × String)) :
    feeds (debugStruct name fields) = feeds name + (fields.map fun f => feeds f.1 + feeds f.2).sum := by
  have h : feeds " { " = 0 ∧ feeds " }" = 0 ∧ feeds ": " = 0 := by decide
  rw [debugStruct, feeds_append, feeds_append, feeds_append, feeds_comma, h.1, h.2.1, List.map_map]
  have : (feeds ∘ fun f : String × String => f.1 ++ ": " ++ f.2) = fun f => feeds f.1 + feeds f.2 := by
    funext f
    simp [feeds_append, h.2.2]
  rw [this]
  omega

theorem feeds_permutation (p : Permutation) : feeds p.debug = 0 := by
  simp (decide := true) [Permutation.debug, feeds_struct, feeds_nats]

theorem feeds_summation (p : Summation) : feeds p.debug = 0 := by
  simp (decide := true) [Summation.debug, feeds_struct, feeds_nats]

theorem feeds_diagonalization (p : Diagonalization) : feeds p.debug = 0 := by
  simp (decide := true) [Diagonalization.debug, feeds_struct, feeds_nats]

theorem feeds_fixed (p : TensordotFixedPosition) : feeds p.debug = 0 := by
  simp (decide := true) [TensordotFixedPosition.debug, feeds_struct, feeds_nats, feeds_repr]

theorem feeds_singletonOp (o : SingletonOp) : feeds o.debug = 0 := by
  cases o <;> simp (decide := true) [SingletonOp.debug, PermutationAndSummation.debug, DiagonalizationAndSummation.debug,
    feeds_struct, feeds_permutation, feeds_summation, feeds_diagonalization]

theorem feeds_pairOp (o : PairOp) : feeds o.debug = 0 := by
  cases o <;> simp (decide := true) [PairOp.debug, TensordotGeneral.debug, HadamardProductGeneral.debug,
    ScalarMatrixProductGeneral.debug, MatrixScalarProductGeneral.debug, BroadcastProductGeneral.debug,
    StackedTensordotGeneral.debug, feeds_struct, feeds_nats, feeds_permutation, feeds_fixed]

theorem feeds_singletonMethod (m : SingletonMethod) : feeds m.debug = 0 := by
  cases m <;> decide

theorem feeds_pairMethod (m : PairMethod) : feeds m.debug = 0 := by
  cases m <;> decide

theorem feeds_singleton (c : SingletonContraction) : feeds c.debug = 0 := by
  simp (decide := true) [SingletonContraction.debug, feeds_pieces, feeds_singletonOp, feeds_singletonMethod]

theorem feeds_escape (plain : Char → Bool) (q : Char) (hq : q = '\'' ∨ q = '"') (c : Char) :
    feeds (escapeChar plain q c) = 0 :=
  feeds_zero.2 (escape_first plain q hq c).2

theorem feeds_string (plain : Char → Bool) (s : String) : feeds (quoteString plain s) = 0 := by
  have h : feeds "\"" = 0 := by decide
  rw [quoteString, feeds_append, feeds_append, feeds_pieces, h, List.map_map, Nat.zero_add, Nat.add_zero]
  refine List.sum_eq_zero fun x hx => ?_
  obtain ⟨c, -, rfl⟩ := List.mem_map.1 hx
  exact feeds_escape plain '"' (.inr rfl) c

theorem feeds_chars (plain : Char → Bool) (l : List Char) : feeds (showChars .line plain l) = 0 := by
  have h : feeds "'" = 0 ∧ feeds "[" = 0 ∧ feeds "]" = 0 ∧ feeds "" = 0 := by decide
  rw [showChars, showVec, debugItems, feeds_append, feeds_append, feeds_append, feeds_append, feeds_comma, h.2.1, h.2.2.1,
    h.2.2.2, List.map_map, Nat.zero_add, Nat.add_zero]
  refine List.sum_eq_zero fun x hx => ?_
  obtain ⟨c, -, rfl⟩ := List.mem_map.1 hx
  simp [quoteChar, feeds_append, h.1, feeds_escape plain '\'' (.inl rfl) c]

theorem feeds_simplification (plain : Char → Bool) (s : SimplificationMethodAndOutput) : feeds (s.show plain) = 0 := by
  simp (decide := true) [SimplificationMethodAndOutput.show, feeds_pieces, feeds_singletonOp, feeds_singletonMethod,
    feeds_chars, feeds_string]

theorem feeds_pair (plain : Char → Bool) (c : PairContraction) : feeds (c.show plain) = 0 := by
  have h : ∀ o : Option SimplificationMethodAndOutput,
      feeds (debugOption (SimplificationMethodAndOutput.show plain) o) = 0 := by
    intro o
    cases o with
    | none => exact show feeds "None" = 0 by decide
    | some s => simp (decide := true) [debugOption, feeds_pieces, feeds_simplification]
  simp (decide := true) [PairContraction.show, feeds_pieces, feeds_pairOp, feeds_pairMethod, feeds_string, h]

/-- C106: compiled steps can be read off their output; the hand-written texts in it stay on one line in both forms. -/
theorem C106_steps (form : Form) (plain : Char → Bool) (a b : EinsumPathSteps) (h : a.show form plain = b.show form plain) :
    a = b := by
  have hs := reads_tuple (form := form) (reads_oneLine reads_singletonContraction fun c _ => feeds_zero.1 (feeds_singleton c))
    "SingletonContraction"
  have hp := reads_tuple (form := form) ((reads_items (form := form) (reads_oneLine (reads_pairContraction' plain)
    fun c _ => feeds_zero.1 (feeds_pair plain c)) "[" "]" ']' (by decide) (by decide) (by decide) (by decide) (by decide)
    fun c => by
      obtain ⟨l, hl⟩ := pair_first plain c
      exact ⟨'P', l, hl, by decide⟩).all fun _ => by simp) "PairContractions"
  have h1 : "SingletonContraction".toList = 'S' :: "ingletonContraction".toList := by decide
  have h2 : "PairContractions".toList = 'P' :: "airContractions".toList := by decide
  have hd : ∀ x y, showTuple form "SingletonContraction" x ≠ showTuple form "PairContractions" y := by
    intro x y he
    obtain ⟨r, hr⟩ := tuple_name form 0 "SingletonContraction" x (by decide)
    obtain ⟨q, hq⟩ := tuple_name form 0 "PairContractions" y (by decide)
    rw [he, hq, h1, h2] at hr
    simp at hr
  cases a with
  | singletonContraction c =>
    cases b with
    | singletonContraction d => rw [hs.reads.inj trivial trivial h]
    | pairContractions d => exact absurd h (hd _ _)
  | pairContractions c =>
    cases b with
    | singletonContraction d => exact absurd h.symm (hd _ _)
    | pairContractions d => rw [hp.reads.inj trivial trivial h]

/-- C106: the names of the variants in the output are those of the serialised form. -/
theorem C106_variants (plain : Char → Bool) :
    (∀ a : EinsumPathSteps, ∃ name j x, a.write = .obj [(name, j)] ∧ a.show .line plain = name ++ "(" ++ x ++ ")") ∧
    ∀ (o : ContractionOrder) (text : String) (j : Json), o.Prints .line plain text → o.Writes j →
      ∃ name j' x, j = .obj [(name, j')] ∧ text = name ++ "(" ++ x ++ ")" := by
  refine ⟨fun a => ?_, fun o text j hp hw => ?_⟩
  · cases a <;> exact ⟨_, _, _, rfl, by simp [EinsumPathSteps.show, showTuple, debugItems]; rfl⟩
  · cases hp <;> cases hw <;> exact ⟨_, _, _, rfl, by simp [showTuple, debugItems]; rfl⟩

/-! ## Examples -/

example : ∃ text j, (ContractionOrder.pairs [Ex.matmulStep]).Prints .line (fun _ => true) text ∧
    (ContractionOrder.pairs [Ex.matmulStep]).Writes j :=
  ⟨_, _, Ex.matmulPrints _ _, .pairs _ _ (.cons ⟨_, ⟨_, Ex.matmulEntries⟩⟩ .nil)⟩

example : (SingletonOp.permutationAndSummation ⟨⟨[1, 0]⟩, ⟨[1], [1]⟩⟩).show .pretty =
    "PermutationAndSummation {\n    permutation: Permutation {\n        permutation: [\n            1,\n" ++
      "            0,\n        ],\n    },\n    summation: Summation {\n        orig_axis_list: [\n            1,\n" ++
      "        ],\n        adjusted_axis_list: [\n            1,\n        ],\n    },\n}" := by
  decide +kernel

/-- A label that is escaped in the text of a step. -/
example : (EinsumPathSteps.pairContractions [⟨none, some ⟨.identity, .identity, ['\n'], "\n"⟩, .scalarMatrixProduct,
    .scalarMatrixProduct, ","⟩]).show .pretty (fun _ => true) = "PairContractions(\n    [\n        " ++
      "PairContraction { lhs_simplification: None, rhs_simplification: Some(SingletonContraction { method: Identity, " ++
      "op: Identity, new_indices: ['\\n'], einsum_string: \"\\n\" }), method: ScalarMatrixProduct, " ++
      "op: ScalarMatrixProduct, simplified_einsum_string: \",\",\n    ],\n)" := by
  decide +kernel

end Einsum
