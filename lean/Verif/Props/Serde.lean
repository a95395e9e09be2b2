import Verif.Model.Serde
import Verif.Props.HandBuilt
import Verif.Props.Safety

/-! # C60: serialised forms -/

namespace Einsum

open Spec

variable {A α β : Type}

/-! ## Standard library types -/

theorem mapO_map {f : α → β} {g : β → Option α} (h : ∀ a, g (f a) = some a) (l : List α) :
    mapO g (l.map f) = some l := by
  induction l with
  | nil => rfl
  | cons a l ih => simp only [List.map_cons, mapO, h, ih]; rfl

theorem mapO_forall₂ {R : α → Json → Prop} {g : Json → Option α} (h : ∀ a j, R a j → g j = some a) {l : List α}
    {js : List Json} (hl : List.Forall₂ R l js) : mapO g js = some l := by
  induction hl with
  | nil => rfl
  | cons h1 _ ih => simp only [mapO, h _ _ h1, ih]; rfl

theorem readChar_write (c : Char) : readChar (writeChar c) = some c := by
  simp [readChar, writeChar]

theorem readNats_write (l : List Nat) : readNats (writeNats l) = some l :=
  mapO_map (f := Json.num) (g := readNat) (fun _ => rfl) l

theorem readChars_write (l : List Char) : readChars (writeChars l) = some l := mapO_map readChar_write l

theorem insertEntries_eq (e : List (Char × Nat)) (hn : (e.map Prod.fst).Nodup) (m : OutputSize) :
    ∃ m', insertEntries (e.map fun e => (String.singleton e.1, Json.num e.2)) m = some m' ∧
      (∀ c n, (c, n) ∈ e → m' c = some n) ∧ ∀ c, c ∉ e.map Prod.fst → m' c = m c := by
  induction e generalizing m with
  | nil => exact ⟨m, rfl, by simp, fun _ _ => rfl⟩
  | cons x e ih =>
    obtain ⟨hx, hn⟩ := List.nodup_cons.1 hn
    obtain ⟨m', h1, h2, h3⟩ := ih hn (m.insert x.1 x.2)
    refine ⟨m', ?_, fun c n hc => ?_, fun c hc => ?_⟩
    · have := readChar_write x.1
      unfold writeChar at this
      simp only [List.map_cons, insertEntries, this, readNat]
      exact h1
    · rcases List.mem_cons.1 hc with rfl | hc
      · rw [h3 _ hx]; simp [OutputSize.insert]
      · exact h2 c n hc
    · rw [h3 c fun h => hc (List.mem_cons_of_mem _ h)]
      have : c ≠ x.1 := fun h => hc (by simp [h])
      simp [OutputSize.insert, this]

theorem readSizes_write {m : OutputSize} {e : List (Char × Nat)} (h : m.Entries e) :
    readSizes (writeSizes e) = some m := by
  obtain ⟨m', h1, h2, h3⟩ := insertEntries_eq e h.1 OutputSize.empty
  unfold readSizes writeSizes
  simp only
  rw [h1]
  congr 1
  funext c
  by_cases hc : c ∈ e.map Prod.fst
  · obtain ⟨⟨c, n⟩, hx, rfl⟩ := List.mem_map.1 hc
    rw [h2 c n hx, (h.2 c n).1 hx]
  · rw [h3 c hc]
    cases hm : m c with
    | none => rfl
    | some n => exact absurd (List.mem_map.2 ⟨(c, n), (h.2 c n).2 hm, rfl⟩) hc

/-! ## Derived implementations -/

theorem Contraction.read_write (c : Contraction) : Contraction.read c.write = some c := by
  have h : readVec readChars (writeVec writeChars c.operandIndices) = some c.operandIndices :=
    mapO_map readChars_write _
  simp [Contraction.read, Contraction.write, structFields, mapO, fieldOf, readChars_write, h]

theorem SizedContraction.read_writes {sc : SizedContraction} {j : Json} (h : sc.Writes j) :
    SizedContraction.read j = some sc := by
  obtain ⟨e, he⟩ := h
  simp [SizedContraction.read, structFields, mapO, fieldOf, Contraction.read_write, readSizes_write he]

theorem OperandNumber.read_write (n : OperandNumber) : OperandNumber.read n.write = some n := by
  cases n <;> rfl

theorem OperandNumPair.read_write (p : OperandNumPair) : OperandNumPair.read p.write = some p := by
  simp [OperandNumPair.read, OperandNumPair.write, structFields, mapO, fieldOf, OperandNumber.read_write]

theorem PairStep.read_writes {p : PairStep} {j : Json} (h : p.Writes j) : PairStep.read j = some p := by
  obtain ⟨j, hj⟩ := h
  simp [PairStep.read, structFields, mapO, fieldOf, SizedContraction.read_writes hj, OperandNumPair.read_write]

theorem ContractionOrder.read_writes {o : ContractionOrder} {j : Json} (h : o.Writes j) :
    ContractionOrder.read j = some o := by
  cases h with
  | singleton sc j h => simp [ContractionOrder.read, variant, SizedContraction.read_writes h]
  | pairs steps js h =>
    have : readVec PairStep.read (.arr js) = some steps := 
      mapO_forall₂ (R := PairStep.Writes) (fun _ _ h => PairStep.read_writes h) h
    simp [ContractionOrder.read, variant, this]

theorem Permutation.read_write (p : Permutation) : Permutation.read p.write = some p := by
  simp [Permutation.read, Permutation.write, structFields, mapO, fieldOf, readNats_write]

theorem Summation.read_write (p : Summation) : Summation.read p.write = some p := by
  simp [Summation.read, Summation.write, structFields, mapO, fieldOf, readNats_write]

theorem Diagonalization.read_write (p : Diagonalization) : Diagonalization.read p.write = some p := by
  simp [Diagonalization.read, Diagonalization.write, structFields, mapO, fieldOf, readNats_write]

theorem TensordotFixedPosition.read_write (p : TensordotFixedPosition) :
    TensordotFixedPosition.read p.write = some p := by
  simp [TensordotFixedPosition.read, TensordotFixedPosition.write, structFields, mapO, fieldOf, readNats_write,
    readNat]

theorem readUnit_write : readUnit writeUnit = some () := rfl

/-- C60: every method, summary and contractor is read back from its serialised form as itself. -/
theorem C60_contractors :
    readUnit writeUnit = some () ∧
    (∀ x : OptimizationMethod, OptimizationMethod.read x.write = some x) ∧
    (∀ x : SingletonMethod, SingletonMethod.read x.write = some x) ∧
    (∀ x : SingletonSummary, SingletonSummary.read x.write = some x) ∧
    (∀ x : PairMethod, PairMethod.read x.write = some x) ∧
    (∀ x : PairSummary, PairSummary.read x.write = some x) ∧
    (∀ x : Permutation, Permutation.read x.write = some x) ∧
    (∀ x : Summation, Summation.read x.write = some x) ∧
    (∀ x : Diagonalization, Diagonalization.read x.write = some x) ∧
    (∀ x : PermutationAndSummation, PermutationAndSummation.read x.write = some x) ∧
    (∀ x : DiagonalizationAndSummation, DiagonalizationAndSummation.read x.write = some x) ∧
    (∀ x : TensordotFixedPosition, TensordotFixedPosition.read x.write = some x) ∧
    (∀ x : TensordotGeneral, TensordotGeneral.read x.write = some x) ∧
    (∀ x : HadamardProductGeneral, HadamardProductGeneral.read x.write = some x) ∧
    (∀ x : ScalarMatrixProductGeneral, ScalarMatrixProductGeneral.read x.write = some x) ∧
    (∀ x : MatrixScalarProductGeneral, MatrixScalarProductGeneral.read x.write = some x) ∧
    (∀ x : BroadcastProductGeneral, BroadcastProductGeneral.read x.write = some x) ∧
    (∀ x : StackedTensordotGeneral, StackedTensordotGeneral.read x.write = some x) := by
  refine ⟨rfl, fun x => ?_, fun x => ?_, fun x => rfl, fun x => ?_, fun x => rfl, Permutation.read_write,
    Summation.read_write, Diagonalization.read_write, fun x => ?_, fun x => ?_, TensordotFixedPosition.read_write,
    fun x => ?_, fun x => ?_, fun x => ?_, fun x => ?_, fun x => ?_, fun x => ?_⟩
  · cases x <;> rfl
  · cases x <;> rfl
  · cases x <;> rfl
  · simp [PermutationAndSummation.read, PermutationAndSummation.write, structFields, mapO, fieldOf,
      Permutation.read_write, Summation.read_write]
  · simp [DiagonalizationAndSummation.read, DiagonalizationAndSummation.write, structFields, mapO, fieldOf,
      Diagonalization.read_write, Summation.read_write]
  · simp [TensordotGeneral.read, TensordotGeneral.write, structFields, mapO, fieldOf, Permutation.read_write,
      TensordotFixedPosition.read_write]
  · simp [HadamardProductGeneral.read, HadamardProductGeneral.write, structFields, mapO, fieldOf,
      Permutation.read_write, readUnit_write]
  · simp [ScalarMatrixProductGeneral.read, ScalarMatrixProductGeneral.write, structFields, mapO, fieldOf,
      Permutation.read_write, readUnit_write]
  · simp [MatrixScalarProductGeneral.read, MatrixScalarProductGeneral.write, structFields, mapO, fieldOf,
      Permutation.read_write, readUnit_write]
  · simp [BroadcastProductGeneral.read, BroadcastProductGeneral.write, structFields, mapO, fieldOf,
      Permutation.read_write, readUnit_write, readNats_write]
  · simp [StackedTensordotGeneral.read, StackedTensordotGeneral.write, structFields, mapO, fieldOf,
      Permutation.read_write, TensordotFixedPosition.read_write, readNats_write]

/-- C60: a contraction, a sized contraction and a contraction order are read back from every serialised form, in
whatever order the sizes were written. In particular no two of them share a serialised form. -/
theorem C60_order :
    (∀ c : Contraction, Contraction.read c.write = some c) ∧
    (∀ (sc : SizedContraction) (j : Json), sc.Writes j → SizedContraction.read j = some sc) ∧
    (∀ (o : ContractionOrder) (j : Json), o.Writes j → ContractionOrder.read j = some o) ∧
    ∀ (o o' : ContractionOrder) (j : Json), o.Writes j → o'.Writes j → o = o' :=
  ⟨Contraction.read_write, fun _ _ => SizedContraction.read_writes, fun _ _ => ContractionOrder.read_writes,
    fun _ _ _ h h' => Option.some.inj ((ContractionOrder.read_writes h).symm.trans (ContractionOrder.read_writes h'))⟩

theorem fieldOf_eq {l l' : List (String × Json)} {extra : List (String × Json)} {name : String}
    (hp : l'.Perm (l ++ extra)) (hx : name ∉ extra.map Prod.fst) (v : Json) (h : fieldOf l name = some v) :
    fieldOf l' name = some v := by
  unfold fieldOf at h
  split at h
  · rename_i e he
    have h1 : (l'.filter fun e => e.1 = name).Perm [e] := by
      refine (hp.filter _).trans ?_
      rw [List.filter_append, he, List.filter_eq_nil_iff.2]
      · rfl
      · intro x hx' hxn
        exact hx (List.mem_map.2 ⟨x, hx', by simpa using hxn⟩)
    unfold fieldOf
    rw [List.perm_singleton.1 h1]
    exact h
  · cases h

theorem structFields_perm {names : List String} {l l' extra : List (String × Json)} (hp : l'.Perm (l ++ extra))
    (hx : ∀ n ∈ names, n ∉ extra.map Prod.fst) {vs : List Json} (h : structFields names (.obj l) = some vs) :
    structFields names (.obj l') = some vs := by
  unfold structFields at *
  simp only at *
  induction names generalizing vs with
  | nil => exact h
  | cons n names ih =>
    simp only [mapO] at h ⊢
    cases hn : fieldOf l n with
    | none => rw [hn] at h; cases h
    | some v =>
      cases hr : mapO (fieldOf l) names with
      | none => rw [hn, hr] at h; cases h
      | some r =>
        rw [hn, hr] at h
        rw [fieldOf_eq hp (hx n (by simp)) v hn, ih (fun m hm => hx m (by simp [hm])) hr]
        exact h

/-- C60: fields may be in any order, and others than those of the struct are ignored. -/
theorem C60_fields (sc : SizedContraction) (l l' extra : List (String × Json)) (h : sc.Writes (.obj l))
    (hp : l'.Perm (l ++ extra)) (hx : "contraction" ∉ extra.map Prod.fst) (hy : "output_size" ∉ extra.map Prod.fst) :
    SizedContraction.read (.obj l') = some sc := by
  have h1 := SizedContraction.read_writes h
  unfold SizedContraction.read at h1 ⊢
  cases hs : structFields ["contraction", "output_size"] (.obj l) with
  | none => rw [hs] at h1; cases h1
  | some vs =>
    rw [structFields_perm hp (by rintro n hn; simp only [List.mem_cons, List.not_mem_nil, or_false] at hn; rcases hn with rfl | rfl <;> assumption) hs]
    rw [hs] at h1
    exact h1

/-- How a struct with the given fields is read: from an object whose entries may be in any order and may include
others, from an array of the values of the fields, and from nothing else; no field may be missing or given twice. -/
structure StructReader (names : List String) (read : Json → Option α) : Prop where
  order : ∀ l l' : List (String × Json), l'.Perm l → read (.obj l') = read (.obj l)
  others : ∀ l extra : List (String × Json), (∀ n ∈ names, n ∉ extra.map Prod.fst) →
    read (.obj (l ++ extra)) = read (.obj l)
  array : ∀ vs : List Json, vs.length = names.length → read (.arr vs) = read (.obj (names.zip vs))
  missing : ∀ (l : List (String × Json)) (n : String), n ∈ names → n ∉ l.map Prod.fst → read (.obj l) = none
  twice : ∀ (l : List (String × Json)) (n : String), n ∈ names → 1 < (l.map Prod.fst).count n → read (.obj l) = none
  items : ∀ vs : List Json, vs.length ≠ names.length → read (.arr vs) = none
  null : read .null = none
  num : ∀ n, read (.num n) = none
  str : ∀ t, read (.str t) = none

theorem fieldOf_perm {l l' : List (String × Json)} (hp : l'.Perm l) (n : String) : fieldOf l' n = fieldOf l n := by
  have h := hp.filter (fun e => decide (e.1 = n))
  unfold fieldOf
  cases hl : l.filter (fun e => decide (e.1 = n)) with
  | nil => rw [hl] at h; rw [h.eq_nil]
  | cons e t =>
    cases t with
    | nil => rw [hl] at h; rw [List.perm_singleton.1 h]
    | cons e' t =>
      rw [hl] at h
      have hlen := h.length_eq
      cases hl' : l'.filter (fun e => decide (e.1 = n)) with
      | nil => rfl
      | cons f u =>
        cases u with
        | nil => rw [hl'] at hlen; simp at hlen
        | cons _ _ => rfl

theorem fieldOf_append {l extra : List (String × Json)} {n : String} (h : n ∉ extra.map Prod.fst) :
    fieldOf (l ++ extra) n = fieldOf l n := by
  unfold fieldOf
  rw [List.filter_append, List.filter_eq_nil_iff (l := extra) |>.2, List.append_nil]
  intro x hx hn
  exact h (List.mem_map.2 ⟨x, hx, by simpa using hn⟩)

theorem mapO_congr {f g : α → Option β} {l : List α} (h : ∀ a ∈ l, f a = g a) : mapO f l = mapO g l := by
  induction l with
  | nil => rfl
  | cons a l ih => simp only [mapO, h a (by simp), ih fun b hb => h b (by simp [hb])]

theorem mapO_none {f : α → Option β} {l : List α} {a : α} (ha : a ∈ l) (h : f a = none) : mapO f l = none := by
  induction l with
  | nil => cases ha
  | cons b l ih =>
    simp only [mapO]
    rcases List.mem_cons.1 ha with rfl | ha
    · rw [h]; rfl
    · rw [ih ha]; cases f b <;> rfl

theorem mapO_zip {names : List String} (hn : names.Nodup) {vs : List Json} (h : vs.length = names.length) :
    mapO (fieldOf (names.zip vs)) names = some vs := by
  induction names generalizing vs with
  | nil => cases vs with
    | nil => rfl
    | cons _ _ => simp at h
  | cons n names ih =>
    cases vs with
    | nil => simp at h
    | cons v vs =>
      have hn' := List.nodup_cons.1 hn
      have hmem : ∀ e ∈ names.zip vs, e.1 ∈ names := fun e he => (List.of_mem_zip he).1
      have h1 : fieldOf ((n :: names).zip (v :: vs)) n = some v := by
        have : (names.zip vs).filter (fun e => decide (e.1 = n)) = [] := by
          rw [List.filter_eq_nil_iff]
          intro e he hx
          exact hn'.1 (by have := hmem e he; simp only [decide_eq_true_eq] at hx; rwa [hx] at this)
        simp [fieldOf, this]
      have h2 : mapO (fieldOf ((n :: names).zip (v :: vs))) names = some vs := by
        rw [mapO_congr (g := fieldOf (names.zip vs)), ih hn'.2 (by simpa using h)]
        intro m hm
        have : n ≠ m := by rintro rfl; exact hn'.1 hm
        simp [fieldOf, this]
      simp only [mapO, h1, h2]
      rfl

theorem structReader {names : List String} (hn : names.Nodup) {read : Json → Option α} {k : List Json → Option α}
    (h : ∀ j, read j = structFields names j >>= k) : StructReader names read where
  order l l' hp := by
    simp only [h, structFields]
    rw [mapO_congr fun n _ => fieldOf_perm hp n]
  others l extra hx := by
    simp only [h, structFields]
    rw [mapO_congr fun n hn => fieldOf_append (hx n hn)]
  array vs hv := by simp only [h, structFields, if_pos hv, mapO_zip hn hv]
  missing l n hn hl := by
    simp only [h, structFields]
    rw [mapO_none hn]
    · rfl
    unfold fieldOf
    rw [List.filter_eq_nil_iff.2]
    intro x hx hxn
    exact hl (List.mem_map.2 ⟨x, hx, by simpa using hxn⟩)
  twice l n hn hl := by
    simp only [h, structFields]
    rw [mapO_none hn]
    · rfl
    have : (l.map Prod.fst).count n = (l.filter fun e => decide (e.1 = n)).length := by
      rw [List.count, List.countP_map, List.countP_eq_length_filter]
      congr 1
    rw [this] at hl
    unfold fieldOf
    cases hf : l.filter (fun e => decide (e.1 = n)) with
    | nil => rfl
    | cons e t => cases t with
      | nil => rw [hf] at hl; simp at hl
      | cons _ _ => rfl
  items vs hv := by simp only [h, structFields, if_neg hv]; rfl
  null := by rw [h]; rfl
  num n := by rw [h]; rfl
  str t := by rw [h]; rfl

/-- How an enum with the given variants is read: from the name of a variant or an object whose one key is that name;
other names, and anything else, are refused. -/
structure EnumReader (names : List String) (read : Json → Option α) : Prop where
  unknownName : ∀ t, t ∉ names → read (.str t) = none
  unknownKey : ∀ t v, t ∉ names → read (.obj [(t, v)]) = none
  keys : ∀ l, l.length ≠ 1 → read (.obj l) = none
  arr : ∀ l, read (.arr l) = none
  null : read .null = none
  num : ∀ n, read (.num n) = none

theorem enumReader {names : List String} {read : Json → Option α} {k : String × Json → Option α}
    (h : ∀ j, read j = variant j >>= k) (hk : ∀ t v, t ∉ names → k (t, v) = none) : EnumReader names read where
  unknownName t ht := by rw [h]; exact hk t _ ht
  unknownKey t v ht := by rw [h]; exact hk t v ht
  keys l hl := by
    rw [h]
    cases l with
    | nil => rfl
    | cons e l => cases l with
      | nil => simp at hl
      | cons _ _ => rfl
  arr l := by rw [h]; rfl
  null := by rw [h]; rfl
  num n := by rw [h]; rfl

/-- C60: how each struct is read. -/
theorem C60_structs :
    StructReader [] readUnit ∧
    StructReader ["operand_indices", "output_indices", "summation_indices"] Contraction.read ∧
    StructReader ["contraction", "output_size"] SizedContraction.read ∧
    StructReader ["lhs", "rhs"] OperandNumPair.read ∧
    StructReader ["sized_contraction", "operand_nums"] PairStep.read ∧
    StructReader ["num_summed_axes", "num_diagonalized_axes", "num_reordered_axes"] SingletonSummary.read ∧
    StructReader ["num_stacked_axes", "num_lhs_outer_axes", "num_rhs_outer_axes",
      "num_contracted_axes"] PairSummary.read ∧
    StructReader ["permutation"] Permutation.read ∧
    StructReader ["orig_axis_list", "adjusted_axis_list"] Summation.read ∧
    StructReader ["input_to_output_mapping", "output_shape"] Diagonalization.read ∧
    StructReader ["permutation", "summation"] PermutationAndSummation.read ∧
    StructReader ["diagonalization", "summation"] DiagonalizationAndSummation.read ∧
    StructReader ["len_uncontracted_lhs", "len_uncontracted_rhs", "len_contracted_axes",
      "output_shape"] TensordotFixedPosition.read ∧
    StructReader ["lhs_permutation", "rhs_permutation", "tensordot_fixed_position",
      "output_permutation"] TensordotGeneral.read ∧
    StructReader ["lhs_permutation", "rhs_permutation", "hadamard_product"] HadamardProductGeneral.read ∧
    StructReader ["rhs_permutation", "scalar_matrix_product"] ScalarMatrixProductGeneral.read ∧
    StructReader ["lhs_permutation", "matrix_scalar_product"] MatrixScalarProductGeneral.read ∧
    StructReader ["lhs_permutation", "rhs_permutation", "lhs_insertions", "rhs_insertions", "output_sizes",
      "hadamard_product"] BroadcastProductGeneral.read ∧
    StructReader ["lhs_permutation", "rhs_permutation", "lhs_output_shape", "rhs_output_shape", "intermediate_shape",
      "tensordot_fixed_position", "output_shape", "output_permutation"] StackedTensordotGeneral.read := by
  refine ⟨?_, ?_, ?_, ?_, ?_, ?_, ?_, ?_, ?_, ?_, ?_, ?_, ?_, ?_, ?_, ?_, ?_, ?_, ?_⟩
  all_goals exact structReader (by decide) fun j => rfl

/-- C60: how each enum is read. -/
theorem C60_enums :
    EnumReader ["Input", "IntermediateResult"] OperandNumber.read ∧
    EnumReader ["Singleton", "Pairs"] ContractionOrder.read ∧
    EnumReader ["Naive", "Reverse", "Greedy", "Optimal", "Branch"] OptimizationMethod.read ∧
    EnumReader ["Identity", "Permutation", "Summation", "Diagonalization", "PermutationAndSummation",
      "DiagonalizationAndSummation"] SingletonMethod.read ∧
    EnumReader ["HadamardProduct", "HadamardProductGeneral", "TensordotFixedPosition", "TensordotGeneral",
      "ScalarMatrixProduct", "ScalarMatrixProductGeneral", "MatrixScalarProduct", "MatrixScalarProductGeneral",
      "BroadcastProductGeneral", "StackedTensordotGeneral"] PairMethod.read := by
  refine ⟨?_, ?_, ?_, ?_, ?_⟩
  all_goals
    refine enumReader (fun j => rfl) fun t v ht => ?_
    simp only [List.mem_cons, List.not_mem_nil, or_false, not_or] at ht
    simp [ht]

/-- A field too many, in another order, is ignored; a misspelt one is missing. -/
example : OperandNumPair.read (.obj [("rhs", .obj [("Input", .num 3)]), ("comment", .str "x"), ("lhs", .obj [("Input", .num 1)])]) =
    some ⟨.input 1, .input 3⟩ := by
  have hr := C60_structs.2.2.2.1
  rw [hr.order [("lhs", .obj [("Input", .num 1)]), ("rhs", .obj [("Input", .num 3)]), ("comment", .str "x")] _
      (by exact (List.perm_middle (l₁ := [("rhs", Json.obj [("Input", .num 3)]), ("comment", .str "x")]) (l₂ := []))),
    show ([("lhs", Json.obj [("Input", .num 1)]), ("rhs", .obj [("Input", .num 3)]), ("comment", .str "x")] : List (String × Json)) =
      [("lhs", Json.obj [("Input", .num 1)]), ("rhs", .obj [("Input", .num 3)])] ++ [("comment", .str "x")] from rfl,
    hr.others _ _ (by simp)]
  rfl
example : OperandNumPair.read (.obj [("lhs", .obj [("Input", .num 1)]), ("rsh", .obj [("Input", .num 3)])]) = none :=
  C60_structs.2.2.2.1.missing _ "rhs" (by simp) (by simp [List.map])
example : OperandNumber.read (.obj [("Output", .num 1)]) = none := C60_enums.1.unknownKey _ _ (by simp)

/-! ## Exactly what is accepted -/

theorem readChar_iff {j : Json} {c : Char} : readChar j = some c ↔ j = .str (String.singleton c) := by
  constructor
  · intro h
    cases j with
    | str s =>
      simp only [readChar] at h
      split at h
      · rename_i d hd
        simp only [Option.some.injEq] at h
        subst h
        rw [← String.ofList_toList (s := s), hd]; rfl
      · cases h
    | _ => cases h
  · rintro rfl; exact readChar_write c

theorem readNat_iff {j : Json} {n : Nat} : readNat j = some n ↔ j = .num n := by
  cases j <;> simp [readNat]

theorem mapO_iff {f : Json → Option α} {g : α → Json} (h : ∀ j a, f j = some a ↔ j = g a) (js : List Json)
    (l : List α) : mapO f js = some l ↔ js = l.map g := by
  induction js generalizing l with
  | nil => cases l <;> simp [mapO]
  | cons j js ih =>
    simp only [mapO, Option.bind_eq_bind, Option.bind_eq_some_iff, h, ih]
    constructor
    · rintro ⟨a, rfl, bs, rfl, hb⟩
      cases hb; rfl
    · intro he
      cases l with
      | nil => cases he
      | cons a l =>
        simp only [List.map_cons, List.cons.injEq] at he
        exact ⟨a, he.1, l, he.2, rfl⟩

theorem readVec_iff {f : Json → Option α} {g : α → Json} (h : ∀ j a, f j = some a ↔ j = g a) (j : Json)
    (l : List α) : readVec f j = some l ↔ j = .arr (l.map g) := by
  cases j <;> simp [readVec, mapO_iff h]

theorem insertEntries_iff (l : List (String × Json)) (m m' : OutputSize) :
    insertEntries l m = some m' ↔ ∃ entries : List (Char × Nat),
      l = entries.map (fun e => (String.singleton e.1, Json.num e.2)) ∧
      ∀ c, m' c = ((entries.reverse.find? fun e => e.1 = c).map Prod.snd).or (m c) := by
  induction l generalizing m with
  | nil =>
    simp only [insertEntries, Option.some.injEq]
    constructor
    · rintro rfl; exact ⟨[], rfl, fun c => by simp⟩
    · rintro ⟨entries, h1, h2⟩
      cases entries with
      | nil => funext c; have := h2 c; simpa using this.symm
      | cons e l => cases h1
  | cons e l ih =>
    obtain ⟨k, v⟩ := e
    simp only [insertEntries, Option.bind_eq_bind, Option.bind_eq_some_iff, readChar_iff, readNat_iff, ih]
    have key : ∀ (entries : List (Char × Nat)) (d : Char) (n : Nat) (c : Char),
        ((((d, n) :: entries).reverse.find? fun e => e.1 = c).map Prod.snd).or (m c) =
        ((entries.reverse.find? fun e => e.1 = c).map Prod.snd).or (m.insert d n c) := by
      intro entries d n c
      rw [List.reverse_cons, List.find?_append]
      by_cases hd : d = c
      · subst hd
        cases entries.reverse.find? fun e => e.1 = d <;> simp [OutputSize.insert]
      · cases entries.reverse.find? fun e => e.1 = c <;> simp [OutputSize.insert, hd, Ne.symm hd]
    constructor
    · rintro ⟨c, hc, n, rfl, entries, rfl, h2⟩
      refine ⟨(c, n) :: entries, ?_, fun d => by rw [h2, key]⟩
      simp only [Json.str.injEq] at hc
      simp [hc]
    · rintro ⟨entries, h1, h2⟩
      cases entries with
      | nil => cases h1
      | cons e entries =>
        obtain ⟨c, n⟩ := e
        simp only [List.map_cons, List.cons.injEq, Prod.mk.injEq] at h1
        obtain ⟨⟨rfl, rfl⟩, rfl⟩ := h1
        exact ⟨c, rfl, n, rfl, entries, rfl, fun d => by rw [h2, key]⟩

/-- How a variant without content is given: by its name, or by an object with its name as the key of `null`. -/
def GivesVariant (name : String) (j : Json) : Prop := j = .str name ∨ j = .obj [(name, .null)]

theorem variant_iff {j : Json} {name : String} {v : Json} :
    variant j = some (name, v) ↔ (j = .str name ∧ v = .null) ∨ j = .obj [(name, v)] := by
  cases j with
  | str s => simp [variant]; exact fun _ => eq_comm
  | obj l =>
    rcases l with _ | ⟨⟨k, w⟩, _ | ⟨e, l⟩⟩ <;> simp [variant]
  | _ => simp [variant]

theorem unitVariant_iff {α : Type} {v : Json} {a b : α} : unitVariant v a = some b ↔ v = .null ∧ a = b := by
  cases v <;> simp [unitVariant]

theorem given_iff {α : Type} {j w : Json} {k : String × Json → Option α} {x : α}
    (h : ∀ t v, k (t, v) = some x ↔ w = .str t ∧ v = .null) :
    (variant j >>= k) = some x ↔ ∃ name, w = .str name ∧ GivesVariant name j := by
  simp only [Option.bind_eq_bind, Option.bind_eq_some_iff, GivesVariant]
  constructor
  · rintro ⟨⟨t, v⟩, h1, h2⟩
    obtain ⟨hw, rfl⟩ := (h t v).1 h2
    refine ⟨t, hw, ?_⟩
    rcases variant_iff.1 h1 with ⟨rfl, _⟩ | rfl
    · exact .inl rfl
    · exact .inr rfl
  · rintro ⟨name, hw, rfl | rfl⟩
    · exact ⟨(name, .null), rfl, (h _ _).2 ⟨hw, rfl⟩⟩
    · exact ⟨(name, .null), rfl, (h _ _).2 ⟨hw, rfl⟩⟩

theorem OptimizationMethod.read_iff (j : Json) (x : OptimizationMethod) :
    OptimizationMethod.read j = some x ↔ ∃ name, x.write = .str name ∧ GivesVariant name j := by
  refine given_iff fun t v => ⟨fun h => ?_, ?_⟩
  · simp only at h
    repeat' split at h
    all_goals first
      | (simp only [reduceCtorEq] at h)
      | (obtain ⟨hv, rfl⟩ := unitVariant_iff.1 h
         exact ⟨congrArg Json.str (Eq.symm ‹_›), hv⟩)
  · rintro ⟨h, rfl⟩
    cases x <;> cases h <;> rfl

theorem SingletonMethod.read_iff (j : Json) (x : SingletonMethod) :
    SingletonMethod.read j = some x ↔ ∃ name, x.write = .str name ∧ GivesVariant name j := by
  refine given_iff fun t v => ⟨fun h => ?_, ?_⟩
  · simp only at h
    repeat' split at h
    all_goals first
      | (simp only [reduceCtorEq] at h)
      | (obtain ⟨hv, rfl⟩ := unitVariant_iff.1 h
         exact ⟨congrArg Json.str (Eq.symm ‹_›), hv⟩)
  · rintro ⟨h, rfl⟩
    cases x <;> cases h <;> rfl

theorem PairMethod.read_iff (j : Json) (x : PairMethod) :
    PairMethod.read j = some x ↔ ∃ name, x.write = .str name ∧ GivesVariant name j := by
  refine given_iff fun t v => ⟨fun h => ?_, ?_⟩
  · simp only at h
    repeat' split at h
    all_goals first
      | (simp only [reduceCtorEq] at h)
      | (obtain ⟨hv, rfl⟩ := unitVariant_iff.1 h
         exact ⟨congrArg Json.str (Eq.symm ‹_›), hv⟩)
  · rintro ⟨h, rfl⟩
    cases x <;> cases h <;> rfl

/-- C60: the JSON values from which characters, numbers, lists, size maps and enums are read; all others are
refused. -/
theorem C60_atoms :
    (∀ j c, readChar j = some c ↔ j = .str (String.singleton c)) ∧
    (∀ j n, readNat j = some n ↔ j = .num n) ∧
    (∀ j l, readChars j = some l ↔ j = .arr (l.map fun c => .str (String.singleton c))) ∧
    (∀ j l, readNats j = some l ↔ j = .arr (l.map .num)) ∧
    (∀ j m, readSizes j = some m ↔ ∃ entries : List (Char × Nat),
      j = .obj (entries.map fun e => (String.singleton e.1, .num e.2)) ∧
      ∀ c, m c = (entries.reverse.find? fun e => e.1 = c).map Prod.snd) ∧
    (∀ j n, OperandNumber.read j = some (.input n) ↔ j = .obj [("Input", .num n)]) ∧
    (∀ j n, OperandNumber.read j = some (.intermediateResult n) ↔ j = .obj [("IntermediateResult", .num n)]) ∧
    (∀ j x, OptimizationMethod.read j = some x ↔ ∃ name, x.write = .str name ∧ GivesVariant name j) ∧
    (∀ j x, SingletonMethod.read j = some x ↔ ∃ name, x.write = .str name ∧ GivesVariant name j) ∧
    (∀ j x, PairMethod.read j = some x ↔ ∃ name, x.write = .str name ∧ GivesVariant name j) := by
  refine ⟨fun _ _ => readChar_iff, fun _ _ => readNat_iff, fun j l => readVec_iff (fun _ _ => readChar_iff) j l,
    fun j l => readVec_iff (fun _ _ => readNat_iff) j l, ?_, ?_, ?_, ?_, ?_, ?_⟩
  · intro j m
    cases j with
    | obj l =>
      simp only [readSizes, insertEntries_iff, Json.obj.injEq]
      simp [OutputSize.empty]
    | _ => simp [readSizes]
  · intro j n
    simp only [OperandNumber.read, Option.bind_eq_bind, Option.bind_eq_some_iff]
    constructor
    · rintro ⟨⟨t, v⟩, h1, h2⟩
      dsimp only at h2
      split at h2
      · rename_i ht
        simp only [Option.bind_eq_some_iff, readNat_iff] at h2
        obtain ⟨m, rfl, hm⟩ := h2
        cases hm
        subst ht
        rcases variant_iff.1 h1 with ⟨_, h⟩ | h
        · cases h
        · exact h
      · split at h2
        · simp only [Option.bind_eq_some_iff] at h2
          obtain ⟨m, _, hm⟩ := h2
          cases hm
        · cases h2
    · rintro rfl; exact ⟨("Input", .num n), rfl, rfl⟩
  · intro j n
    simp only [OperandNumber.read, Option.bind_eq_bind, Option.bind_eq_some_iff]
    constructor
    · rintro ⟨⟨t, v⟩, h1, h2⟩
      dsimp only at h2
      split at h2
      · simp only [Option.bind_eq_some_iff] at h2
        obtain ⟨m, _, hm⟩ := h2
        cases hm
      · split at h2
        · rename_i ht
          simp only [Option.bind_eq_some_iff, readNat_iff] at h2
          obtain ⟨m, rfl, hm⟩ := h2
          cases hm
          subst ht
          rcases variant_iff.1 h1 with ⟨_, h⟩ | h
          · cases h
          · exact h
        · cases h2
    · rintro rfl; exact ⟨("IntermediateResult", .num n), rfl, rfl⟩
  · exact OptimizationMethod.read_iff
  · exact SingletonMethod.read_iff
  · exact PairMethod.read_iff

example : OptimizationMethod.read (.obj [("Reverse", .null)]) = some .reverse :=
  (C60_atoms.2.2.2.2.2.2.2.1 _ _).2 ⟨"Reverse", rfl, .inr rfl⟩
example : ¬ ∃ c, readChar (.str "ij") = some c := by
  rintro ⟨c, h⟩
  have := congrArg String.length (Json.str.inj ((C60_atoms.1 _ _).1 h))
  simp at this
  revert this
  decide

/-! ## Paths -/

/-- Everything the crate builds has finitely many sizes, so it can be written. -/
theorem entries_exist (m : OutputSize) (l : List Char) (h : ∀ c, (m c).isSome → c ∈ l) :
    ∃ e, m.Entries e := by
  refine ⟨l.dedup.filterMap fun c => (m c).map fun n => (c, n), ?_, fun c n => ?_⟩
  · have : (l.dedup.filterMap fun c => (m c).map fun n => (c, n)).map Prod.fst =
        l.dedup.filter fun c => (m c).isSome := by
      induction l.dedup with
      | nil => rfl
      | cons c l ih =>
        cases hc : m c with
        | none => simp [hc, ih]
        | some n => simp [hc, ih]
    rw [this]
    exact (List.nodup_dedup l).filter _
  · simp only [List.mem_filterMap, List.mem_dedup, Option.map_eq_some_iff, Prod.mk.injEq]
    constructor
    · rintro ⟨c', _, n', h1, rfl, rfl⟩; exact h1
    · intro hm; exact ⟨c, h c (by simp [hm]), n, hm, rfl, rfl⟩

theorem subset_writes {h : HashOrd} {sc sc' : SizedContraction} {ops : List (List Char)} {out : List Char}
    (he : sc.subset h ops out = .ok sc') : ∃ j, sc'.Writes j := by
  unfold SizedContraction.subset at he
  dsimp only at he
  split at he
  · cases he
  · cases hc : Contraction.fromIndices (h.sub 4) ops out with
    | error e => rw [hc] at he; cases he
    | ok c =>
    rw [hc] at he
    cases he
    obtain ⟨e, he⟩ := entries_exist (fun k => if k ∈ hset ops.flatten then sc.outputSize k else none)
      (hset ops.flatten) (fun c hc => by
        by_contra h'
        simp [h'] at hc)
    exact ⟨_, .mk e he⟩

theorem unwrapR_subset_writes {h : HashOrd} {sc sc' : SizedContraction} {ops : List (List Char)} {out : List Char}
    (he : unwrapR (sc.subset h ops out) = .ok sc') : ∃ j, sc'.Writes j := by
  cases hs : sc.subset h ops out with
  | error e => rw [hs] at he; cases he
  | ok x => rw [hs] at he; cases he; exact subset_writes hs

theorem generateSteps_writes {h : HashOrd} {sc : SizedContraction} {first i : Nat} {lhs : List Char}
    {rest : List (List Char)} {order : List Nat} {steps : List PairStep}
    (he : generateSteps h sc first i lhs rest order = .ok steps) : ∃ js, List.Forall₂ PairStep.Writes steps js := by
  induction rest generalizing i lhs order steps with
  | nil => cases order <;> (simp only [generateSteps] at he; cases he; exact ⟨[], .nil⟩)
  | cons r rest ih =>
    cases order with
    | nil => simp only [generateSteps] at he; cases he; exact ⟨[], .nil⟩
    | cons n order =>
      simp only [generateSteps, generateSizedContractionPair, bind_eq_ok] at he
      obtain ⟨sc', h1, steps', h2, h3⟩ := he
      cases h3
      obtain ⟨j, hj⟩ := unwrapR_subset_writes h1
      obtain ⟨js, hjs⟩ := ih h2
      exact ⟨_, .cons (.mk j hj) hjs⟩

theorem generatePath_writes {h : HashOrd} {sc : SizedContraction} {order : List Nat} {o : ContractionOrder}
    (he : generatePath h sc order = .ok o) : ∃ j, o.Writes j := by
  unfold generatePath at he
  obtain ⟨sc', h1, h2⟩ := bind_eq_ok.1 he
  simp only [generatePermutedContraction, bind_eq_ok] at h1
  obtain ⟨-, -, ops, -, h1⟩ := h1
  split at h2
  · cases h2
    obtain ⟨j, hj⟩ := unwrapR_subset_writes h1
    exact ⟨_, .singleton _ j hj⟩
  · obtain ⟨sc'', h3, h4⟩ := bind_eq_ok.1 h2
    cases h4
    obtain ⟨j, hj⟩ := unwrapR_subset_writes h3
    exact ⟨_, .pairs _ _ (.cons (.mk j hj) .nil)⟩
  · obtain ⟨steps, h3, h4⟩ := bind_eq_ok.1 h2
    cases h4
    obtain ⟨js, hjs⟩ := generateSteps_writes h3
    exact ⟨_, .pairs _ js hjs⟩
  · cases h2

theorem fromPath_order {h : HashOrd} {o : ContractionOrder} {p : EinsumPath} (he : EinsumPath.fromPath h o = .ok p) :
    p.contractionOrder = o := by
  unfold EinsumPath.fromPath at he
  split at he <;> (obtain ⟨x, -, hx⟩ := bind_eq_ok.1 he; cases hx; rfl)

/-- C60: a path compiled by `einsum_path` can be written. In whatever is written, the field `contraction_order` is read
back as an order from which `from_path` compiles the same path again; if the hash order is different, it compiles one
that returns the same arrays, for all operands of the same shapes. -/
theorem C60_path {B : Type} (h : HashOrd) (s : String) (operands₀ : List (View B)) (inputs : List (List Char))
    (out : List Char) (dims : Char → Nat) (m : OptimizationMethod) (hm : m = .naive ∨ m = .reverse)
    (hd : Denotes s inputs out) (hs : Sized dims inputs (operands₀.map View.shape)) :
    ∃ p, einsumPath h s operands₀ m = .ok (.ok p) ∧ (∃ j, p.Writes j) ∧
      ∀ j, p.Writes j → ∃ l j' o, j = .obj l ∧ fieldOf l "contraction_order" = some j' ∧
        ContractionOrder.read j' = some o ∧ EinsumPath.fromPath (h.sub 1) o = .ok p ∧
        ∀ h' : HashOrd, ∃ q, EinsumPath.fromPath h' o = .ok q ∧
          ∀ (A : Type) [CommSemiring A] (al al' : Alloc A) (operands : List (View A)),
            operands.map View.shape = operands₀.map View.shape → (∀ v ∈ operands, v.Wf) →
            NoEmptyDiagonal dims inputs →
            ∃ r r', p.contractOperands al operands = .ok r ∧ q.contractOperands al' operands = .ok r' ∧
              SameArray r r' := by
  have hv : (callSC inputs out dims).Valid dims := callSC_valid hd.outputOk
  obtain ⟨order, o1, o2, -⟩ := order_eq (callSC inputs out dims) m hm ((h.sub 0).sub 1)
  obtain ⟨o, p1, p2⟩ := path_ok hv ((h.sub 0).sub 1) hd.inputs_ne.1 o1
  obtain ⟨p, q1, q2⟩ := p2 (h.sub 1)
  have hpo := fromPath_order q1
  refine ⟨p, ?_, ?_, ?_⟩
  · simp only [einsumPath, validateAndOptimizeOrder, validateAndSize_ok ((h.sub 0).sub 0) hd hs, o2, p1, bind_ok]
    show (EinsumPath.fromPath (h.sub 1) o >>= fun p => pure (Except.ok p)) = _
    rw [q1]
    rfl
  · obtain ⟨j, hj⟩ := generatePath_writes p1
    exact ⟨_, .mk j (hpo ▸ hj)⟩
  · rintro _ ⟨j, hj⟩
    refine ⟨_, j, o, rfl, by simp [fieldOf], hpo ▸ ContractionOrder.read_writes hj, q1, fun h' => ?_⟩
    obtain ⟨q, r1, r2⟩ := p2 h'
    refine ⟨q, r1, fun A _ al al' operands hsh hw hn => ?_⟩
    obtain ⟨ts, ht⟩ := exists_elements hw
    have ho := hd.outputOk.1
    have hs' : Sized dims inputs (operands.map View.shape) := hsh ▸ hs
    obtain ⟨r, a1, a2⟩ := (q2.outcome ho hs' ht al).1 (not_emptyDiagonal hn)
    obtain ⟨r', b1, b2⟩ := (r2.outcome ho hs' ht al').1 (not_emptyDiagonal hn)
    exact ⟨r, r', a1, b1, a2.same ho b2⟩

/-! ### What is shown of the steps -/

/-- The value at the end of a chain of keys. -/
def Spec.lookup : Json → List String → Option Json
  | j, [] => some j
  | .obj l, k :: ks => (l.find? fun e => e.1 = k).bind fun e => lookup e.2 ks
  | _, _ :: _ => none

/-- What is shown of an optional simplification. -/
def Spec.ShowsSimplification (s : Option SimplificationMethodAndOutput) (j : Json) : Prop :=
  match s with
  | none => j = .null
  | some s => ∃ m i, Spec.lookup j ["method"] = some m ∧ SingletonMethod.read m = some s.method ∧
      Spec.lookup j ["new_indices"] = some i ∧ readChars i = some s.newIndices ∧
      Spec.lookup j ["einsum_string"] = some (.str s.einsumString) ∧ Spec.lookup j ["op"] = none

/-- What is shown of a step. -/
def Spec.ShowsPair (c : PairContraction) (j : Json) : Prop :=
  ∃ m l r, Spec.lookup j ["method"] = some m ∧ PairMethod.read m = some c.method ∧
    Spec.lookup j ["simplified_einsum_string"] = some (.str c.simplifiedEinsumString) ∧
    Spec.lookup j ["lhs_simplification"] = some l ∧ Spec.ShowsSimplification c.lhsSimplification l ∧
    Spec.lookup j ["rhs_simplification"] = some r ∧ Spec.ShowsSimplification c.rhsSimplification r ∧
    Spec.lookup j ["op"] = none

theorem SimplificationMethodAndOutput.shows (s : Option SimplificationMethodAndOutput) :
    Spec.ShowsSimplification s (writeOption SimplificationMethodAndOutput.write s) := by
  cases s with
  | none => rfl
  | some s => exact ⟨_, _, rfl, by cases s.method <;> rfl, rfl, readChars_write _, rfl, rfl⟩

theorem PairContraction.shows (c : PairContraction) : Spec.ShowsPair c c.write :=
  ⟨_, _, _, rfl, by cases c.method <;> rfl, rfl, rfl, SimplificationMethodAndOutput.shows _, rfl,
    SimplificationMethodAndOutput.shows _, rfl⟩

/-- C60: where the methods, the strings and the labels of the steps are in a written path. -/
theorem C60_steps (p : EinsumPath) (j : Json) (hj : p.Writes j) :
    (∀ c, p.steps = .singletonContraction c → ∃ m, Spec.lookup j ["steps", "SingletonContraction", "method"] = some m ∧
      SingletonMethod.read m = some c.method ∧ Spec.lookup j ["steps", "SingletonContraction", "op"] = none) ∧
    ∀ cs, p.steps = .pairContractions cs → ∃ js, Spec.lookup j ["steps", "PairContractions"] = some (.arr js) ∧
      List.Forall₂ Spec.ShowsPair cs js := by
  obtain ⟨j, hj⟩ := hj
  refine ⟨fun c hc => ?_, fun cs hc => ?_⟩
  · rw [hc]
    exact ⟨_, rfl, by cases c.method <;> rfl, rfl⟩
  · rw [hc]
    exact ⟨_, rfl, List.forall₂_map_right_iff.2 (List.forall₂_same.2 fun c _ => c.shows)⟩

/-- C60 (finding): without its contraction order, what is written of a path does not determine what it computes: the
compiled steps of two contractions that move the axes differently are written alike. -/
theorem C60_steps_lossy (h : HashOrd) : ∃ sc sc' c c' r r', Ex.m332.Wf ∧
    validateAndSize h "ijk->jki" [Ex.m332] = .ok sc ∧ validateAndSize h "ijk->kij" [Ex.m332] = .ok sc' ∧
    SingletonContraction.new sc = .ok c ∧ SingletonContraction.new sc' = .ok c' ∧ c.write = c'.write ∧
    c.run (Alloc.rowMajor Int) Ex.m332 = .ok r ∧ c'.run (Alloc.rowMajor Int) Ex.m332 = .ok r' ∧
    r.shape = [3, 2, 3] ∧ r'.shape = [2, 3, 3] := by
  have hd : Denotes "ijk->jki" [['i', 'j', 'k']] ['j', 'k', 'i'] :=
    .inl ⟨by decide, ⟨by simp, by simp [Letter], by simp [Letter]⟩, by simp [OutputOk, Used]⟩
  have hd' : Denotes "ijk->kij" [['i', 'j', 'k']] ['k', 'i', 'j'] :=
    .inl ⟨by decide, ⟨by simp, by simp [Letter], by simp [Letter]⟩, by simp [OutputOk, Used]⟩
  have hs : Sized (fun c => if c = 'k' then 2 else 3) [['i', 'j', 'k']] ([Ex.m332].map View.shape) :=
    .cons (by decide) .nil
  refine ⟨_, _, ⟨.permutation, .permutation ⟨[1, 2, 0]⟩⟩, ⟨.permutation, .permutation ⟨[2, 0, 1]⟩⟩, _, _, Ex.e332.1,
    validateAndSize_ok h hd hs, validateAndSize_ok h hd' hs, by decide, by decide, rfl, rfl, rfl, rfl, rfl⟩

/-- C60: contraction orders and contractors read from any JSON value are memory safe. -/
theorem C60_safe [Zero A] [Add A] [Mul A] [MulAdd A] (h : HashOrd) (al : Alloc A) (j : Json) (operands : List (View A))
    (l r : View A) (hw : ∀ v ∈ operands, v.Wf) (hl : l.Wf) (hr : r.Wf) :
    (∀ o, ContractionOrder.read j = some o →
      Safe (EinsumPath.fromPath h o >>= fun p => p.contractOperands al operands) View.Wf) ∧
    (∀ sc, SizedContraction.read j = some sc → Safe (sc.contractOperands h al operands) View.Wf) ∧
    (∀ x, Permutation.read j = some x → Safe (x.run al l) View.Wf) ∧
    (∀ x, Summation.read j = some x → Safe (x.run al l) View.Wf) ∧
    (∀ x, Diagonalization.read j = some x → Safe (x.run al l) View.Wf) ∧
    (∀ x, PermutationAndSummation.read j = some x → Safe (x.run al l) View.Wf) ∧
    (∀ x, DiagonalizationAndSummation.read j = some x → Safe (x.run al l) View.Wf) ∧
    (∀ x, TensordotFixedPosition.read j = some x → Safe (x.run al l r) View.Wf) ∧
    (∀ x, TensordotGeneral.read j = some x → Safe (x.run al l r) View.Wf) ∧
    (∀ x, HadamardProductGeneral.read j = some x → Safe (x.run al l r) View.Wf) ∧
    (∀ x, ScalarMatrixProductGeneral.read j = some x → Safe (x.run al l r) View.Wf) ∧
    (∀ x, MatrixScalarProductGeneral.read j = some x → Safe (x.run al l r) View.Wf) ∧
    (∀ x, BroadcastProductGeneral.read j = some x → Safe (x.run al l r) View.Wf) ∧
    (∀ x, StackedTensordotGeneral.read j = some x → Safe (x.run al l r) View.Wf) :=
  ⟨fun o _ => C51_path h al o operands hw, fun sc _ => C51_einsum_sc h al sc operands hw,
    fun x _ => (SingletonOp.permutation x).run_safe hl al, fun x _ => (SingletonOp.summation x).run_safe hl al,
    fun x _ => (SingletonOp.diagonalization x).run_safe hl al,
    fun x _ => (SingletonOp.permutationAndSummation x).run_safe hl al,
    fun x _ => (SingletonOp.diagonalizationAndSummation x).run_safe hl al,
    fun x _ => (PairOp.tensordotFixedPosition x).run_safe hl hr al,
    fun x _ => (PairOp.tensordotGeneral x).run_safe hl hr al,
    fun x _ => (PairOp.hadamardProductGeneral x).run_safe hl hr al,
    fun x _ => (PairOp.scalarMatrixProductGeneral x).run_safe hl hr al,
    fun x _ => (PairOp.matrixScalarProductGeneral x).run_safe hl hr al,
    fun x _ => (PairOp.broadcastProductGeneral x).run_safe hl hr al,
    fun x _ => (PairOp.stackedTensordotGeneral x).run_safe hl hr al⟩

/-! ## Examples -/

namespace Ex

/-- A contraction order as the crate makes it for a matrix product. -/
def matmulStep : PairStep :=
  ⟨⟨⟨[['i', 'j'], ['j', 'k']], ['i', 'k'], ['j']⟩, fun c => if c = 'i' then some 2 else if c = 'j' then some 3 else
    if c = 'k' then some 2 else none⟩, ⟨.input 1, .intermediateResult 0⟩⟩

theorem matmulEntries : matmulStep.sizedContraction.outputSize.Entries [('k', 2), ('i', 2), ('j', 3)] := by
  refine ⟨by decide, fun c n => ?_⟩
  simp only [matmulStep, List.mem_cons, Prod.mk.injEq, List.not_mem_nil, or_false]
  by_cases h1 : c = 'i'
  · subst h1; simp [eq_comm]
  · by_cases h2 : c = 'j'
    · subst h2; simp [eq_comm]
    · by_cases h3 : c = 'k'
      · subst h3; simp [eq_comm]
      · simp [h1, h2, h3]

/-- `{"Pairs":[{"sized_contraction":{"contraction":{"operand_indices":[["i","j"],["j","k"]],"output_indices":["i","k"],
"summation_indices":["j"]},"output_size":{"k":2,"i":2,"j":3}},"operand_nums":{"lhs":{"Input":1},
"rhs":{"IntermediateResult":0}}}]}` -/
def matmulJson : Json :=
  .obj [("Pairs", .arr [.obj [("sized_contraction", .obj [("contraction", .obj [
      ("operand_indices", .arr [.arr [.str "i", .str "j"], .arr [.str "j", .str "k"]]),
      ("output_indices", .arr [.str "i", .str "k"]), ("summation_indices", .arr [.str "j"])]),
      ("output_size", .obj [("k", .num 2), ("i", .num 2), ("j", .num 3)])]),
    ("operand_nums", .obj [("lhs", .obj [("Input", .num 1)]), ("rhs", .obj [("IntermediateResult", .num 0)])])]])]

theorem matmulWrites : (ContractionOrder.pairs [matmulStep]).Writes matmulJson :=
  .pairs _ _ (.cons (.mk _ (.mk _ matmulEntries)) .nil)

example : ContractionOrder.read matmulJson = some (.pairs [matmulStep]) := C60_order.2.2.1 _ _ matmulWrites

example := C60_path HashOrd.reversed "ij,jjk,kj->ij" [m23, m332, m23] _ _ _ .naive (.inl rfl) denotes_three
  call_three.sized

/-- The written path of a product of three arrays shows its steps. -/
example : ∃ p j, einsumPath HashOrd.reversed "ij,jjk,kj->ij" [m23, m332, m23] .naive = .ok (.ok p) ∧ p.Writes j ∧
    ∀ cs, p.steps = .pairContractions cs → ∃ js, Spec.lookup j ["steps", "PairContractions"] = some (.arr js) ∧
      List.Forall₂ Spec.ShowsPair cs js := by
  obtain ⟨p, h1, ⟨j, hj⟩, -⟩ := C60_path HashOrd.reversed "ij,jjk,kj->ij" [m23, m332, m23] _ _ _ .naive (.inl rfl)
    denotes_three call_three.sized
  exact ⟨p, j, h1, hj, (C60_steps p j hj).2⟩

example : SizedContraction.read (.obj [("note", .null), ("output_size", writeSizes [('k', 2), ('i', 2), ('j', 3)]),
    ("contraction", matmulStep.sizedContraction.contraction.write)]) = some matmulStep.sizedContraction :=
  C60_fields _ _ _ [("note", .null)] (.mk _ matmulEntries)
    (by rw [← List.reverse_perm']; exact .refl _) (by decide) (by decide)

/-- A hostile diagonal contractor. -/
example : Diagonalization.read (.arr [.arr [.num 0, .num 7], .arr [.num 100, .num 100]]) = some ⟨[0, 7], [100, 100]⟩ :=
  rfl

example := C60_safe HashOrd.insertion (Alloc.rowMajor Int) (.arr [.arr [.num 0, .num 7], .arr [.num 100, .num 100]])
  [m23, m332] m332 m23 (by simp [e23.1, e332.1]) e332.1 e23.1

/-- What is refused: a duplicate field, a missing one, a `char` of two characters. -/
example : Permutation.read (.obj [("permutation", .arr []), ("permutation", .arr [])]) = none ∧
    Summation.read (.obj [("orig_axis_list", .arr [])]) = none ∧ readChar (.str "ab") = none := ⟨rfl, rfl, rfl⟩

end Ex

end Einsum
