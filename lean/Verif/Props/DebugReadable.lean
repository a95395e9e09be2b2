import Verif.Props.Debug

/-!
# Property C69: what the `Debug` output tells about a path

Unique readability: followed by anything that does not continue a word, the text of a value determines the value.
-/

namespace Einsum

open Spec

/-- `s` does not continue a word or number. -/
def Ends (s : List Char) : Prop := ∀ c ∈ s.head?, c.isAlphanum = false

/-- The text of a value is not the beginning of the text of another value. -/
def Free {α : Type} (P : α → Prop) (f : α → String) : Prop :=
  ∀ x y s t, P x → P y → Ends s → Ends t → (f x).toList ++ s = (f y).toList ++ t → f x = f y ∧ s = t

/-- The value can be read off its text. -/
def Reads {α : Type} (P : α → Prop) (f : α → String) : Prop :=
  ∀ x y s t, P x → P y → Ends s → Ends t → (f x).toList ++ s = (f y).toList ++ t → x = y ∧ s = t

theorem ends_nil : Ends [] := by simp [Ends]

theorem Reads.inj {α : Type} {P : α → Prop} {f : α → String} (h : Reads P f) {x y : α} (hx : P x) (hy : P y)
    (he : f x = f y) : x = y :=
  (h x y [] [] hx hy ends_nil ends_nil (by rw [he])).1

theorem Reads.free {α β : Type} {P : α → Prop} {Q : β → Prop} {f : α → String} (h : Reads P f) (p : β → α)
    (hp : ∀ x, Q x → P (p x)) : Free Q fun x => f (p x) := fun x y s t hx hy hs ht he => by
  obtain ⟨e1, e2⟩ := h _ _ s t (hp x hx) (hp y hy) hs ht he
  exact ⟨congrArg f e1, e2⟩

/-- Words. -/
theorem word_split {l m s t : List Char} (hl : ∀ c ∈ l, c.isAlphanum = true) (hm : ∀ c ∈ m, c.isAlphanum = true)
    (hs : Ends s) (ht : Ends t) (he : l ++ s = m ++ t) : l = m ∧ s = t := by
  induction l generalizing m with
  | nil =>
    cases m with
    | nil => exact ⟨rfl, he⟩
    | cons c m =>
      rw [List.nil_append] at he
      have h1 := hs c (by rw [he]; simp)
      have h2 := hm c (by simp)
      rw [h1] at h2
      exact absurd h2 (by decide)
  | cons d l ih =>
    cases m with
    | nil =>
      rw [List.nil_append] at he
      have h1 := ht d (by rw [← he]; simp)
      have h2 := hl d (by simp)
      rw [h1] at h2
      exact absurd h2 (by decide)
    | cons c m =>
      simp only [List.cons_append, List.cons.injEq] at he
      obtain ⟨rfl, he⟩ := he
      obtain ⟨rfl, h⟩ := ih (fun c hc => hl c (by simp [hc])) (fun c hc => hm c (by simp [hc])) he
      exact ⟨rfl, h⟩

theorem reads_word {α : Type} {P : α → Prop} {f : α → String} (hw : ∀ x, ∀ c ∈ (f x).toList, c.isAlphanum = true)
    (hi : ∀ x y, f x = f y → x = y) : Reads P f := fun x y s t _ _ hs ht he => by
  obtain ⟨h1, h2⟩ := word_split (hw x) (hw y) hs ht he
  exact ⟨hi x y (String.toList_injective h1), h2⟩

theorem reads_nat : Reads (fun _ => True) Nat.repr := by
  apply reads_word
  · intro n c hc
    rw [Nat.toList_repr] at hc
    have := Nat.isDigit_of_mem_toDigits (by decide) (by decide) hc
    simp [Char.isAlphanum, this]
  · intro m n h
    have h' := congrArg String.toList h
    rw [Nat.toList_repr, Nat.toList_repr] at h'
    rw [← Nat.ofDigitChars_toDigits (b := 10) (n := m) (by decide) (by decide), h',
      Nat.ofDigitChars_toDigits (by decide) (by decide)]

theorem reads_singletonMethod : Reads (fun _ => True) SingletonMethod.debug := by
  apply reads_word
  · intro x; cases x <;> decide
  · intro x y; cases x <;> cases y <;> first | (intro; rfl) | (intro h; exact absurd h (by decide))

theorem reads_pairMethod : Reads (fun _ => True) PairMethod.debug := by
  apply reads_word
  · intro x; cases x <;> decide
  · intro x y; cases x <;> cases y <;> first | (intro; rfl) | (intro h; exact absurd h (by decide))

/-- Nothing follows, or something that starts with a character that is not part of a word. -/
def Starts {α : Type} : List (α → String) → Prop
  | [] => True
  | g :: _ => ∃ a : String, (g = fun _ => a) ∧ ∃ c l, a.toList = c :: l ∧ c.isAlphanum = false

/-- Fixed pieces, and values followed by fixed pieces or the end. -/
inductive Readable {α : Type} (P : α → Prop) : List (α → String) → Prop
  | nil : Readable P []
  | lit (a : String) {l : List (α → String)} : Readable P l → Readable P ((fun _ => a) :: l)
  | val {f : α → String} {l : List (α → String)} : Free P f → Starts l → Readable P l → Readable P (f :: l)

theorem starts_ends {α : Type} {l : List (α → String)} (h : Starts l) (x : α) {s : List Char} (hs : Ends s) :
    Ends ((writePieces (l.map fun g => g x)).toList ++ s) := by
  cases l with
  | nil => simpa [writePieces] using hs
  | cons g l =>
    obtain ⟨a, rfl, c, m, h1, h2⟩ := h
    intro d hd
    simp only [List.map_cons, writePieces, String.toList_append, h1, List.cons_append, List.head?_cons,
      Option.mem_def, Option.some.injEq] at hd
    rw [← hd, h2]

theorem Readable.read {α : Type} {P : α → Prop} {l : List (α → String)} (h : Readable P l) {x y : α} {s t : List Char}
    (hx : P x) (hy : P y) (hs : Ends s) (ht : Ends t)
    (he : (writePieces (l.map fun g => g x)).toList ++ s = (writePieces (l.map fun g => g y)).toList ++ t) :
    (∀ g ∈ l, g x = g y) ∧ s = t := by
  induction h with
  | nil => exact ⟨by simp, by simpa [writePieces] using he⟩
  | lit a _ ih =>
    simp only [List.map_cons, writePieces, String.toList_append, List.append_assoc, List.append_cancel_left_eq] at he
    obtain ⟨h1, h2⟩ := ih he
    refine ⟨fun g hg => ?_, h2⟩
    rcases List.mem_cons.1 hg with rfl | hg
    · rfl
    · exact h1 g hg
  | val hf hst _ ih =>
    simp only [List.map_cons, writePieces, String.toList_append, List.append_assoc] at he
    obtain ⟨e1, e2⟩ := hf x y _ _ hx hy (starts_ends hst x hs) (starts_ends hst y ht) he
    obtain ⟨h1, h2⟩ := ih e2
    refine ⟨fun g hg => ?_, h2⟩
    rcases List.mem_cons.1 hg with rfl | hg
    · exact e1
    · exact h1 g hg

theorem starts_lit {α : Type} {a : String} {l : List (α → String)}
    (h : ∃ c m, a.toList = c :: m ∧ c.isAlphanum = false) : Starts ((fun _ => a) :: l) := ⟨a, rfl, h⟩

/-- Lists. -/
theorem reads_vec {α : Type} {P : α → Prop} {f : α → String} (h : Reads P f)
    (hf : ∀ x, ∃ c l, (f x).toList = c :: l ∧ c ≠ ']') : Reads (fun l => ∀ x ∈ l, P x) fun l : List α => debugVec (l.map f) := by
  have sep : ∀ s, Ends (", ".toList ++ s) := fun s => by simp [Ends]
  have close : ∀ s, Ends ("]".toList ++ s) := fun s => by simp [Ends]
  have key : ∀ l m : List α, (∀ x ∈ l, P x) → (∀ x ∈ m, P x) → ∀ s t,
      (commaSep (l.map f)).toList ++ ("]".toList ++ s) = (commaSep (m.map f)).toList ++ ("]".toList ++ t) →
      l = m ∧ s = t := by
    have one : ∀ (x : α) (l : List α), commaSep ((x :: l).map f) = f x ++ (if l = [] then "" else ", " ++ commaSep (l.map f)) := by
      intro x l
      cases l with
      | nil => simp [commaSep]
      | cons y l => simp [commaSep, String.append_assoc]
    have hend : ∀ (l : List α) s, Ends ((if l = [] then "" else ", " ++ commaSep (l.map f)).toList ++ ("]".toList ++ s)) := by
      intro l s
      split
      · simpa using close s
      · rw [String.toList_append, List.append_assoc]
        exact sep _
    intro l
    induction l with
    | nil =>
      intro m _ _ s t he
      cases m with
      | nil => simpa [commaSep] using he
      | cons y m =>
        obtain ⟨c, k, h1, h2⟩ := hf y
        rw [one, String.toList_append, h1] at he
        have hc : (commaSep (List.map f [])).toList = [] := by simp [commaSep]
        rw [hc] at he
        have : "]".toList = [']'] := by decide
        simp only [this, List.nil_append, List.cons_append, List.cons.injEq] at he
        exact absurd he.1.symm h2
    | cons x l ih =>
      intro m hl hm s t he
      cases m with
      | nil =>
        obtain ⟨c, k, h1, h2⟩ := hf x
        rw [one, String.toList_append, h1] at he
        have hc : (commaSep (List.map f [])).toList = [] := by simp [commaSep]
        rw [hc] at he
        have : "]".toList = [']'] := by decide
        simp only [this, List.nil_append, List.cons_append, List.cons.injEq] at he
        exact absurd he.1 h2
      | cons y m =>
        rw [one, one, String.toList_append, String.toList_append, List.append_assoc, List.append_assoc] at he
        obtain ⟨rfl, e2⟩ := h x y _ _ (hl x (by simp)) (hm y (by simp)) (hend _ _) (hend _ _) he
        have t1 : "]".toList = [']'] := by decide
        have t2 : ", ".toList = [',', ' '] := by decide
        by_cases hl0 : l = [] <;> by_cases hm0 : m = []
        · subst hl0 hm0
          simp at e2
          exact ⟨rfl, e2⟩
        · rw [if_pos hl0, if_neg hm0, String.toList_append, t1, t2] at e2
          simp at e2
        · rw [if_neg hl0, if_pos hm0, String.toList_append, t1, t2] at e2
          simp at e2
        · rw [if_neg hl0, if_neg hm0, String.toList_append, String.toList_append, List.append_assoc,
            List.append_assoc, List.append_cancel_left_eq] at e2
          obtain ⟨rfl, h⟩ := ih m (fun x hx => hl x (by simp [hx])) (fun x hx => hm x (by simp [hx])) s t e2
          exact ⟨rfl, h⟩
  intro l m s t hl hm _ _ he
  simp only [debugVec, String.toList_append, List.append_assoc, List.append_cancel_left_eq] at he
  exact key l m hl hm s t he

theorem reads_nats : Reads (fun _ => True) debugNats := by
  have h := reads_vec reads_nat fun n => ?_
  · exact fun x y s t _ _ => h x y s t (by simp) (by simp)
  · have hne : n.repr.toList ≠ [] := by rw [Nat.toList_repr]; exact Nat.toDigits_ne_nil
    obtain ⟨c, l, hc⟩ := List.exists_cons_of_ne_nil hne
    refine ⟨c, l, hc, ?_⟩
    rintro rfl
    have hm : ']' ∈ n.repr.toList := by rw [hc]; simp
    rw [Nat.toList_repr] at hm
    have := Nat.isDigit_of_mem_toDigits (by decide) (by decide) hm
    simp at this

theorem reads_chars : Reads (fun _ => True) debugChars := by
  have hq : "'".toList = ['\''] := by decide
  have h1 : Reads (fun _ => True) fun c : Char => "'" ++ String.singleton c ++ "'" := by
    intro c d s t _ _ _ _ he
    simpa [hq, String.toList_append, String.toList_singleton] using he
  have h := reads_vec h1 fun c => ⟨'\'', [c, '\''], by simp [hq, String.toList_append], by decide⟩
  exact fun x y s t _ _ => h x y s t (by simp) (by simp)

/-- Strings without quotes. -/
theorem reads_string : Reads (fun s => '"' ∉ s.toList) debugString := by
  have hq : "\"".toList = ['"'] := by decide
  intro a b s t ha hb _ _ he
  simp only [debugString, String.toList_append, hq, List.append_assoc, List.cons_append, List.nil_append,
    List.cons.injEq, true_and] at he
  have key : ∀ l m : List Char, '"' ∉ l → '"' ∉ m → l ++ '"' :: s = m ++ '"' :: t → l = m ∧ s = t := by
    intro l
    induction l with
    | nil =>
      intro m _ hm he
      cases m with
      | nil => simpa using he
      | cons c m =>
        simp only [List.nil_append, List.cons_append, List.cons.injEq] at he
        exact absurd (by simp [← he.1]) hm
    | cons c l ih =>
      intro m hl hm he
      cases m with
      | nil =>
        simp only [List.nil_append, List.cons_append, List.cons.injEq] at he
        exact absurd (by simp [he.1]) hl
      | cons d m =>
        simp only [List.cons_append, List.cons.injEq] at he
        obtain ⟨rfl, he⟩ := he
        obtain ⟨rfl, h⟩ := ih m (fun h => hl (by simp [h])) (fun h => hm (by simp [h])) he
        exact ⟨rfl, h⟩
  obtain ⟨h1, h2⟩ := key _ _ ha hb he
  exact ⟨String.toList_injective h1, h2⟩

/-- Structs with one to four and more fields, as pieces. -/
theorem debugStruct_cons (name n v : String) (l : List (String × String)) :
    debugStruct name ((n, v) :: l) = writePieces ((name ++ " { " ++ n ++ ": ") :: v ::
      l.flatMap (fun f => [", " ++ f.1 ++ ": ", f.2]) ++ [" }"]) := by
  have key : ∀ (l : List (String × String)) (a : String),
      commaSep ((a :: l.map fun f => f.1 ++ ": " ++ f.2)) ++ " }" =
        a ++ writePieces (l.flatMap (fun f => [", " ++ f.1 ++ ": ", f.2]) ++ [" }"]) := by
    intro l
    induction l with
    | nil => intro a; simp [commaSep, writePieces]
    | cons f l ih =>
      intro a
      rw [List.map_cons, commaSep, String.append_assoc, String.append_assoc, ih]
      simp [writePieces, String.append_assoc]
  rw [debugStruct, List.map_cons, String.append_assoc, key]
  simp [writePieces, String.append_assoc]

/-- A struct is read off if its fields are. -/
theorem struct_read {α : Type} {P : α → Prop} {name : String} {fields : List (String × (α → String))}
    (hne : fields ≠ []) (hf : ∀ f ∈ fields, Free P f.2) {x y : α} {s t : List Char} (hx : P x) (hy : P y)
    (hs : Ends s) (ht : Ends t)
    (he : (debugStruct name (fields.map fun f => (f.1, f.2 x))).toList ++ s =
      (debugStruct name (fields.map fun f => (f.1, f.2 y))).toList ++ t) :
    (∀ f ∈ fields, f.2 x = f.2 y) ∧ s = t := by
  cases fields with
  | nil => exact absurd rfl hne
  | cons f l =>
    have hstart : ∀ l : List (String × (α → String)),
        Starts (l.flatMap (fun f => [fun _ => ", " ++ f.1 ++ ": ", f.2]) ++ [fun _ => " }"]) := by
      intro l
      cases l with
      | nil => exact starts_lit ⟨' ', ['}'], by decide, by decide⟩
      | cons f l =>
        refine starts_lit ⟨',', ' ' :: (f.1.toList ++ [':', ' ']), ?_, by decide⟩
        have h1 : ", ".toList = [',', ' '] := by decide
        have h2 : ": ".toList = [':', ' '] := by decide
        simp [String.toList_append, h1, h2]
    have hread : ∀ l : List (String × (α → String)), (∀ f ∈ l, Free P f.2) →
        Readable P (l.flatMap (fun f => [fun _ => ", " ++ f.1 ++ ": ", f.2]) ++ [fun _ => " }"]) := by
      intro l
      induction l with
      | nil => exact fun _ => .lit _ .nil
      | cons f l ih =>
        intro h
        exact .lit _ (.val (h f (by simp)) (hstart l) (ih fun g hg => h g (by simp [hg])))
    have hall := (Readable.lit (name ++ " { " ++ f.1 ++ ": ") (.val (hf f (by simp)) (hstart l)
      (hread l fun g hg => hf g (by simp [hg])))).read hx hy hs ht (by
        simp only [List.map_cons, debugStruct_cons] at he
        simpa only [List.map_cons, List.map_append, List.map_flatMap, List.flatMap_map, List.map_nil,
          List.cons_append] using he)
    refine ⟨fun g hg => hall.1 g.2 ?_, hall.2⟩
    rcases List.mem_cons.1 hg with rfl | hg
    · simp
    · simp only [List.mem_cons, List.mem_append, List.mem_flatMap]
      exact .inr (.inr (.inl ⟨g, hg, by simp⟩))

abbrev free_nats {β : Type} {Q : β → Prop} (p : β → List Nat) : Free Q fun x => debugNats (p x) :=
  reads_nats.free p fun _ _ => trivial

abbrev free_nat {β : Type} {Q : β → Prop} (p : β → Nat) : Free Q fun x => (p x).repr :=
  reads_nat.free p fun _ _ => trivial

theorem free_const {β : Type} {Q : β → Prop} (a : String) : Free Q fun _ => a :=
  fun _ _ _ _ _ _ _ _ he => ⟨rfl, by simpa using he⟩

theorem reads_permutation : Reads (fun _ => True) Permutation.debug := by
  intro x y s t hx hy hs ht he
  have h := struct_read (P := fun _ => True) (name := "Permutation")
    (fields := [("permutation", fun x : Permutation => debugNats x.permutation)]) (by simp)
    (by simp [free_nats]) hx hy hs ht he
  simp only [List.mem_cons, List.not_mem_nil, or_false, forall_eq] at h
  refine ⟨?_, h.2⟩
  have := reads_nats.inj trivial trivial h.1
  cases x; cases y; simp_all

theorem free_permutation {β : Type} {Q : β → Prop} (p : β → Permutation) : Free Q fun x => (p x).debug :=
  reads_permutation.free p fun _ _ => trivial

theorem reads_summation : Reads (fun _ => True) Summation.debug := by
  intro x y s t hx hy hs ht he
  have h := struct_read (P := fun _ => True) (name := "Summation")
    (fields := [("orig_axis_list", fun x : Summation => debugNats x.origAxisList),
      ("adjusted_axis_list", fun x => debugNats x.adjustedAxisList)])
    (by simp) (by simp [free_nats]) hx hy hs ht he
  simp only [List.forall_mem_cons, List.not_mem_nil, false_implies, implies_true, and_true] at h
  refine ⟨?_, h.2⟩
  have h1 := reads_nats.inj trivial trivial h.1.1
  have h2 := reads_nats.inj trivial trivial h.1.2
  cases x; cases y; simp_all

theorem free_summation {β : Type} {Q : β → Prop} (p : β → Summation) : Free Q fun x => (p x).debug :=
  reads_summation.free p fun _ _ => trivial

theorem reads_diagonalization : Reads (fun _ => True) Diagonalization.debug := by
  intro x y s t hx hy hs ht he
  have h := struct_read (P := fun _ => True) (name := "Diagonalization")
    (fields := [("input_to_output_mapping", fun x : Diagonalization => debugNats x.inputToOutputMapping),
      ("output_shape", fun x => debugNats x.outputShape)])
    (by simp) (by simp [free_nats]) hx hy hs ht he
  simp only [List.forall_mem_cons, List.not_mem_nil, false_implies, implies_true, and_true] at h
  refine ⟨?_, h.2⟩
  have h1 := reads_nats.inj trivial trivial h.1.1
  have h2 := reads_nats.inj trivial trivial h.1.2
  cases x; cases y; simp_all

theorem free_diagonalization {β : Type} {Q : β → Prop} (p : β → Diagonalization) : Free Q fun x => (p x).debug :=
  reads_diagonalization.free p fun _ _ => trivial

theorem reads_permutationAndSummation : Reads (fun _ => True) PermutationAndSummation.debug := by
  intro x y s t hx hy hs ht he
  have h := struct_read (P := fun _ => True) (name := "PermutationAndSummation")
    (fields := [("permutation", fun x : PermutationAndSummation => x.permutation.debug),
      ("summation", fun x => x.summation.debug)])
    (by simp) (by simp [free_permutation, free_summation]) hx hy hs ht he
  simp only [List.forall_mem_cons, List.not_mem_nil, false_implies, implies_true, and_true] at h
  refine ⟨?_, h.2⟩
  have h1 := reads_permutation.inj trivial trivial h.1.1
  have h2 := reads_summation.inj trivial trivial h.1.2
  cases x; cases y; simp_all

theorem free_permutationAndSummation {β : Type} {Q : β → Prop} (p : β → PermutationAndSummation) : Free Q fun x => (p x).debug :=
  reads_permutationAndSummation.free p fun _ _ => trivial

theorem reads_diagonalizationAndSummation : Reads (fun _ => True) DiagonalizationAndSummation.debug := by
  intro x y s t hx hy hs ht he
  have h := struct_read (P := fun _ => True) (name := "DiagonalizationAndSummation")
    (fields := [("diagonalization", fun x : DiagonalizationAndSummation => x.diagonalization.debug),
      ("summation", fun x => x.summation.debug)])
    (by simp) (by simp [free_summation, free_diagonalization]) hx hy hs ht he
  simp only [List.forall_mem_cons, List.not_mem_nil, false_implies, implies_true, and_true] at h
  refine ⟨?_, h.2⟩
  have h1 := reads_diagonalization.inj trivial trivial h.1.1
  have h2 := reads_summation.inj trivial trivial h.1.2
  cases x; cases y; simp_all

theorem free_diagonalizationAndSummation {β : Type} {Q : β → Prop} (p : β → DiagonalizationAndSummation) : Free Q fun x => (p x).debug :=
  reads_diagonalizationAndSummation.free p fun _ _ => trivial

theorem reads_fixed : Reads (fun _ => True) TensordotFixedPosition.debug := by
  intro x y s t hx hy hs ht he
  have h := struct_read (P := fun _ => True) (name := "TensordotFixedPosition")
    (fields := [("len_uncontracted_lhs", fun x : TensordotFixedPosition => x.lenUncontractedLhs.repr),
      ("len_uncontracted_rhs", fun x => x.lenUncontractedRhs.repr),
      ("len_contracted_axes", fun x => x.lenContractedAxes.repr),
      ("output_shape", fun x => debugNats x.outputShape)])
    (by simp) (by simp [free_nats, free_nat]) hx hy hs ht he
  simp only [List.forall_mem_cons, List.not_mem_nil, false_implies, implies_true, and_true] at h
  refine ⟨?_, h.2⟩
  have h1 := reads_nat.inj trivial trivial h.1.1
  have h2 := reads_nat.inj trivial trivial h.1.2.1
  have h3 := reads_nat.inj trivial trivial h.1.2.2.1
  have h4 := reads_nats.inj trivial trivial h.1.2.2.2
  cases x; cases y; simp_all

theorem free_fixed {β : Type} {Q : β → Prop} (p : β → TensordotFixedPosition) : Free Q fun x => (p x).debug :=
  reads_fixed.free p fun _ _ => trivial

theorem reads_general : Reads (fun _ => True) TensordotGeneral.debug := by
  intro x y s t hx hy hs ht he
  have h := struct_read (P := fun _ => True) (name := "TensordotGeneral")
    (fields := [("lhs_permutation", fun x : TensordotGeneral => x.lhsPermutation.debug),
      ("rhs_permutation", fun x => x.rhsPermutation.debug),
      ("tensordot_fixed_position", fun x => x.tensordotFixedPosition.debug),
      ("output_permutation", fun x => x.outputPermutation.debug)])
    (by simp) (by simp [free_permutation, free_fixed]) hx hy hs ht he
  simp only [List.forall_mem_cons, List.not_mem_nil, false_implies, implies_true, and_true] at h
  refine ⟨?_, h.2⟩
  have h1 := reads_permutation.inj trivial trivial h.1.1
  have h2 := reads_permutation.inj trivial trivial h.1.2.1
  have h3 := reads_fixed.inj trivial trivial h.1.2.2.1
  have h4 := reads_permutation.inj trivial trivial h.1.2.2.2
  cases x; cases y; simp_all

theorem free_general {β : Type} {Q : β → Prop} (p : β → TensordotGeneral) : Free Q fun x => (p x).debug :=
  reads_general.free p fun _ _ => trivial

theorem reads_hadamard : Reads (fun _ => True) HadamardProductGeneral.debug := by
  intro x y s t hx hy hs ht he
  have h := struct_read (P := fun _ => True) (name := "HadamardProductGeneral")
    (fields := [("lhs_permutation", fun x : HadamardProductGeneral => x.lhsPermutation.debug),
      ("rhs_permutation", fun x => x.rhsPermutation.debug),
      ("hadamard_product", fun _ => "HadamardProduct")])
    (by simp) (by simp [free_const, free_permutation]) hx hy hs ht he
  simp only [List.forall_mem_cons, List.not_mem_nil, false_implies, implies_true, and_true] at h
  refine ⟨?_, h.2⟩
  have h1 := reads_permutation.inj trivial trivial h.1.1
  have h2 := reads_permutation.inj trivial trivial h.1.2
  cases x; cases y; simp_all

theorem free_hadamard {β : Type} {Q : β → Prop} (p : β → HadamardProductGeneral) : Free Q fun x => (p x).debug :=
  reads_hadamard.free p fun _ _ => trivial

theorem reads_scalarMatrix : Reads (fun _ => True) ScalarMatrixProductGeneral.debug := by
  intro x y s t hx hy hs ht he
  have h := struct_read (P := fun _ => True) (name := "ScalarMatrixProductGeneral")
    (fields := [("rhs_permutation", fun x : ScalarMatrixProductGeneral => x.rhsPermutation.debug),
      ("scalar_matrix_product", fun _ => "ScalarMatrixProduct")])
    (by simp) (by simp [free_const, free_permutation]) hx hy hs ht he
  simp only [List.forall_mem_cons, List.not_mem_nil, false_implies, implies_true, and_true] at h
  refine ⟨?_, h.2⟩
  have h1 := reads_permutation.inj trivial trivial h.1
  cases x; cases y; simp_all

theorem free_scalarMatrix {β : Type} {Q : β → Prop} (p : β → ScalarMatrixProductGeneral) : Free Q fun x => (p x).debug :=
  reads_scalarMatrix.free p fun _ _ => trivial

theorem reads_matrixScalar : Reads (fun _ => True) MatrixScalarProductGeneral.debug := by
  intro x y s t hx hy hs ht he
  have h := struct_read (P := fun _ => True) (name := "MatrixScalarProductGeneral")
    (fields := [("lhs_permutation", fun x : MatrixScalarProductGeneral => x.lhsPermutation.debug),
      ("matrix_scalar_product", fun _ => "MatrixScalarProduct")])
    (by simp) (by simp [free_const, free_permutation]) hx hy hs ht he
  simp only [List.forall_mem_cons, List.not_mem_nil, false_implies, implies_true, and_true] at h
  refine ⟨?_, h.2⟩
  have h1 := reads_permutation.inj trivial trivial h.1
  cases x; cases y; simp_all

theorem free_matrixScalar {β : Type} {Q : β → Prop} (p : β → MatrixScalarProductGeneral) : Free Q fun x => (p x).debug :=
  reads_matrixScalar.free p fun _ _ => trivial

theorem reads_broadcast : Reads (fun _ => True) BroadcastProductGeneral.debug := by
  intro x y s t hx hy hs ht he
  have h := struct_read (P := fun _ => True) (name := "BroadcastProductGeneral")
    (fields := [("lhs_permutation", fun x : BroadcastProductGeneral => x.lhsPermutation.debug),
      ("rhs_permutation", fun x => x.rhsPermutation.debug),
      ("lhs_insertions", fun x => debugNats x.lhsInsertions),
      ("rhs_insertions", fun x => debugNats x.rhsInsertions),
      ("output_sizes", fun x => debugNats x.outputSizes),
      ("hadamard_product", fun _ => "HadamardProduct")])
    (by simp) (by simp [free_nats, free_const, free_permutation]) hx hy hs ht he
  simp only [List.forall_mem_cons, List.not_mem_nil, false_implies, implies_true, and_true] at h
  refine ⟨?_, h.2⟩
  have h1 := reads_permutation.inj trivial trivial h.1.1
  have h2 := reads_permutation.inj trivial trivial h.1.2.1
  have h3 := reads_nats.inj trivial trivial h.1.2.2.1
  have h4 := reads_nats.inj trivial trivial h.1.2.2.2.1
  have h5 := reads_nats.inj trivial trivial h.1.2.2.2.2
  cases x; cases y; simp_all

theorem free_broadcast {β : Type} {Q : β → Prop} (p : β → BroadcastProductGeneral) : Free Q fun x => (p x).debug :=
  reads_broadcast.free p fun _ _ => trivial

theorem reads_stacked : Reads (fun _ => True) StackedTensordotGeneral.debug := by
  intro x y s t hx hy hs ht he
  have h := struct_read (P := fun _ => True) (name := "StackedTensordotGeneral")
    (fields := [("lhs_permutation", fun x : StackedTensordotGeneral => x.lhsPermutation.debug),
      ("rhs_permutation", fun x => x.rhsPermutation.debug),
      ("lhs_output_shape", fun x => debugNats x.lhsOutputShape),
      ("rhs_output_shape", fun x => debugNats x.rhsOutputShape),
      ("intermediate_shape", fun x => debugNats x.intermediateShape),
      ("tensordot_fixed_position", fun x => x.tensordotFixedPosition.debug),
      ("output_shape", fun x => debugNats x.outputShape),
      ("output_permutation", fun x => x.outputPermutation.debug)])
    (by simp) (by simp [free_nats, free_permutation, free_fixed]) hx hy hs ht he
  simp only [List.forall_mem_cons, List.not_mem_nil, false_implies, implies_true, and_true] at h
  refine ⟨?_, h.2⟩
  have h1 := reads_permutation.inj trivial trivial h.1.1
  have h2 := reads_permutation.inj trivial trivial h.1.2.1
  have h3 := reads_nats.inj trivial trivial h.1.2.2.1
  have h4 := reads_nats.inj trivial trivial h.1.2.2.2.1
  have h5 := reads_nats.inj trivial trivial h.1.2.2.2.2.1
  have h6 := reads_fixed.inj trivial trivial h.1.2.2.2.2.2.1
  have h7 := reads_nats.inj trivial trivial h.1.2.2.2.2.2.2.1
  have h8 := reads_permutation.inj trivial trivial h.1.2.2.2.2.2.2.2
  cases x; cases y; simp_all

theorem free_stacked {β : Type} {Q : β → Prop} (p : β → StackedTensordotGeneral) : Free Q fun x => (p x).debug :=
  reads_stacked.free p fun _ _ => trivial

/-- The text of a struct starts with its name. -/
theorem struct_name (name : String) (fields : List (String × String)) :
    ∃ r, (debugStruct name fields).toList = name.toList ++ ' ' :: r := by
  have h1 : " { ".toList = [' ', '{', ' '] := by decide
  exact ⟨_, by simp only [debugStruct, String.toList_append, h1, List.append_assoc, List.cons_append]; rfl⟩

/-- The name of the struct. -/
def SingletonOp.tag : SingletonOp → SingletonMethod
  | .identity => .identity
  | .permutation _ => .permutation
  | .summation _ => .summation
  | .diagonalization _ => .diagonalization
  | .permutationAndSummation _ => .permutationAndSummation
  | .diagonalizationAndSummation _ => .diagonalizationAndSummation

/-- The name of the struct. -/
def PairOp.tag : PairOp → PairMethod
  | .hadamardProduct => .hadamardProduct
  | .hadamardProductGeneral _ => .hadamardProductGeneral
  | .tensordotFixedPosition _ => .tensordotFixedPosition
  | .tensordotGeneral _ => .tensordotGeneral
  | .scalarMatrixProduct => .scalarMatrixProduct
  | .scalarMatrixProductGeneral _ => .scalarMatrixProductGeneral
  | .matrixScalarProduct => .matrixScalarProduct
  | .matrixScalarProductGeneral _ => .matrixScalarProductGeneral
  | .broadcastProductGeneral _ => .broadcastProductGeneral
  | .stackedTensordotGeneral _ => .stackedTensordotGeneral

theorem singletonOp_tag (o : SingletonOp) : ∃ r, o.debug.toList = o.tag.debug.toList ++ r ∧ Ends r := by
  have key : ∀ (name : String) (fields : List (String × String)),
      ∃ r, (debugStruct name fields).toList = name.toList ++ r ∧ Ends r := fun name fields => by
    obtain ⟨r, h⟩ := struct_name name fields
    exact ⟨_, h, by simp [Ends]⟩
  cases o
  case identity => exact ⟨[], by simp [SingletonOp.debug, SingletonOp.tag, SingletonMethod.debug], ends_nil⟩
  all_goals exact key _ _

theorem pairOp_tag (o : PairOp) : ∃ r, o.debug.toList = o.tag.debug.toList ++ r ∧ Ends r := by
  have key : ∀ (name : String) (fields : List (String × String)),
      ∃ r, (debugStruct name fields).toList = name.toList ++ r ∧ Ends r := fun name fields => by
    obtain ⟨r, h⟩ := struct_name name fields
    exact ⟨_, h, by simp [Ends]⟩
  cases o
  case hadamardProduct => exact ⟨[], by simp [PairOp.debug, PairOp.tag, PairMethod.debug], ends_nil⟩
  case scalarMatrixProduct => exact ⟨[], by simp [PairOp.debug, PairOp.tag, PairMethod.debug], ends_nil⟩
  case matrixScalarProduct => exact ⟨[], by simp [PairOp.debug, PairOp.tag, PairMethod.debug], ends_nil⟩
  all_goals exact key _ _

theorem ends_append {r s : List Char} (hr : Ends r) (hs : Ends s) : Ends (r ++ s) := by
  cases r with
  | nil => simpa using hs
  | cons c r => intro d hd; exact hr d (by simpa using hd)

theorem reads_singletonOp : Reads (fun _ => True) SingletonOp.debug := by
  intro x y s t _ _ hs ht he
  obtain ⟨r, h1, h2⟩ := singletonOp_tag x
  obtain ⟨q, h3, h4⟩ := singletonOp_tag y
  have htag : x.tag = y.tag := by
    rw [h1, h3, List.append_assoc, List.append_assoc] at he
    exact (reads_singletonMethod _ _ _ _ trivial trivial (ends_append h2 hs) (ends_append h4 ht) he).1
  clear h1 h2 h3 h4
  cases x <;> cases y <;> first | (cases htag; done) | skip
  · exact ⟨rfl, by simpa [SingletonOp.debug] using he⟩
  · obtain ⟨rfl, e⟩ := reads_permutation _ _ s t trivial trivial hs ht he; exact ⟨rfl, e⟩
  · obtain ⟨rfl, e⟩ := reads_summation _ _ s t trivial trivial hs ht he; exact ⟨rfl, e⟩
  · obtain ⟨rfl, e⟩ := reads_diagonalization _ _ s t trivial trivial hs ht he; exact ⟨rfl, e⟩
  · obtain ⟨rfl, e⟩ := reads_permutationAndSummation _ _ s t trivial trivial hs ht he; exact ⟨rfl, e⟩
  · obtain ⟨rfl, e⟩ := reads_diagonalizationAndSummation _ _ s t trivial trivial hs ht he; exact ⟨rfl, e⟩

theorem reads_pairOp : Reads (fun _ => True) PairOp.debug := by
  intro x y s t _ _ hs ht he
  obtain ⟨r, h1, h2⟩ := pairOp_tag x
  obtain ⟨q, h3, h4⟩ := pairOp_tag y
  have htag : x.tag = y.tag := by
    rw [h1, h3, List.append_assoc, List.append_assoc] at he
    exact (reads_pairMethod _ _ _ _ trivial trivial (ends_append h2 hs) (ends_append h4 ht) he).1
  clear h1 h2 h3 h4
  cases x <;> cases y <;> first | (cases htag; done) | skip
  · exact ⟨rfl, by simpa [PairOp.debug] using he⟩
  · obtain ⟨rfl, e⟩ := reads_hadamard _ _ s t trivial trivial hs ht he; exact ⟨rfl, e⟩
  · obtain ⟨rfl, e⟩ := reads_fixed _ _ s t trivial trivial hs ht he; exact ⟨rfl, e⟩
  · obtain ⟨rfl, e⟩ := reads_general _ _ s t trivial trivial hs ht he; exact ⟨rfl, e⟩
  · exact ⟨rfl, by simpa [PairOp.debug] using he⟩
  · obtain ⟨rfl, e⟩ := reads_scalarMatrix _ _ s t trivial trivial hs ht he; exact ⟨rfl, e⟩
  · exact ⟨rfl, by simpa [PairOp.debug] using he⟩
  · obtain ⟨rfl, e⟩ := reads_matrixScalar _ _ s t trivial trivial hs ht he; exact ⟨rfl, e⟩
  · obtain ⟨rfl, e⟩ := reads_broadcast _ _ s t trivial trivial hs ht he; exact ⟨rfl, e⟩
  · obtain ⟨rfl, e⟩ := reads_stacked _ _ s t trivial trivial hs ht he; exact ⟨rfl, e⟩

theorem reads_singletonContraction : Reads (fun _ => True) SingletonContraction.debug := by
  intro x y s t hx hy hs ht he
  have h := (Readable.lit (P := fun _ => True) (α := SingletonContraction) "SingletonContraction { method: "
    (.val (reads_singletonMethod.free SingletonContraction.method fun _ _ => trivial)
      (starts_lit ⟨',', " op: ".toList, by decide, by decide⟩) (.lit ", op: "
        (.val (reads_singletonOp.free SingletonContraction.op fun _ _ => trivial)
          (starts_lit ⟨' ', ['}'], by decide, by decide⟩) (.lit " }" .nil))))).read hx hy hs ht he
  simp only [List.forall_mem_cons, List.not_mem_nil, false_implies, implies_true, and_true, true_and] at h
  obtain ⟨⟨h1, h2⟩, h3⟩ := h
  have e1 := reads_singletonMethod.inj trivial trivial h1
  have e2 := reads_singletonOp.inj trivial trivial h2
  refine ⟨?_, h3⟩
  cases x; cases y; simp_all

/-- The recorded string contains no quotes. -/
def SimplificationMethodAndOutput.Plain (x : SimplificationMethodAndOutput) : Prop := '"' ∉ x.einsumString.toList

theorem reads_simplification : Reads SimplificationMethodAndOutput.Plain SimplificationMethodAndOutput.debug := by
  intro x y s t hx hy hs ht he
  have h := (Readable.lit (P := SimplificationMethodAndOutput.Plain) "SingletonContraction { method: "
    (.val (reads_singletonMethod.free SimplificationMethodAndOutput.method fun _ _ => trivial)
      (starts_lit ⟨',', " op: ".toList, by decide, by decide⟩) (.lit ", op: "
    (.val (reads_singletonOp.free SimplificationMethodAndOutput.op fun _ _ => trivial)
      (starts_lit ⟨',', " new_indices: ".toList, by decide, by decide⟩) (.lit ", new_indices: "
    (.val (reads_chars.free SimplificationMethodAndOutput.newIndices fun _ _ => trivial)
      (starts_lit ⟨',', " einsum_string: ".toList, by decide, by decide⟩) (.lit ", einsum_string: "
    (.val (reads_string.free SimplificationMethodAndOutput.einsumString fun _ h => h)
      (starts_lit ⟨' ', ['}'], by decide, by decide⟩) (.lit " }" .nil))))))))).read hx hy hs ht he
  simp only [List.forall_mem_cons, List.not_mem_nil, false_implies, implies_true, and_true, true_and] at h
  obtain ⟨⟨h1, h2, h3, h4⟩, h5⟩ := h
  have e1 := reads_singletonMethod.inj trivial trivial h1
  have e2 := reads_singletonOp.inj trivial trivial h2
  have e3 := reads_chars.inj trivial trivial h3
  have e4 := reads_string.inj hx hy h4
  refine ⟨?_, h5⟩
  cases x; cases y; simp_all

theorem reads_option {α : Type} {P : α → Prop} {f : α → String} (h : Reads P f) :
    Reads (fun o => ∀ x ∈ o, P x) (debugOption f) := by
  have h1 : "Some(".toList = ['S', 'o', 'm', 'e', '('] := by decide
  have h2 : "None".toList = ['N', 'o', 'n', 'e'] := by decide
  have h3 : ∀ s, Ends (")".toList ++ s) := fun s => by simp [Ends]
  intro x y s t hx hy hs ht he
  cases x with
  | none =>
    cases y with
    | none => exact ⟨rfl, by simpa [debugOption] using he⟩
    | some y => simp [debugOption, writePieces, h1, h2] at he
  | some x =>
    cases y with
    | none => simp [debugOption, writePieces, h1, h2] at he
    | some y =>
      have e : ∀ x s, (debugOption f (some x)).toList ++ s = "Some(".toList ++ ((f x).toList ++ (")".toList ++ s)) := by
        intro x s
        simp [debugOption, writePieces]
      rw [e, e, List.append_cancel_left_eq] at he
      obtain ⟨rfl, h4⟩ := h x y _ _ (hx x rfl) (hy y rfl) (h3 s) (h3 t) he
      exact ⟨rfl, by simpa using h4⟩

/-- The recorded strings contain no quotes. -/
def PairContraction.Plain (x : PairContraction) : Prop :=
  (∀ y ∈ x.lhsSimplification, y.Plain) ∧ (∀ y ∈ x.rhsSimplification, y.Plain) ∧
    '"' ∉ x.simplifiedEinsumString.toList

theorem reads_pairContraction : Reads PairContraction.Plain PairContraction.debug := by
  intro x y s t hx hy hs ht he
  have h := (Readable.lit (P := PairContraction.Plain) "PairContraction { lhs_simplification: "
    (.val ((reads_option reads_simplification).free PairContraction.lhsSimplification fun _ h => h.1)
      (starts_lit ⟨',', " rhs_simplification: ".toList, by decide, by decide⟩) (.lit ", rhs_simplification: "
    (.val ((reads_option reads_simplification).free PairContraction.rhsSimplification fun _ h => h.2.1)
      (starts_lit ⟨',', " method: ".toList, by decide, by decide⟩) (.lit ", method: "
    (.val (reads_pairMethod.free PairContraction.method fun _ _ => trivial)
      (starts_lit ⟨',', " op: ".toList, by decide, by decide⟩) (.lit ", op: "
    (.val (reads_pairOp.free PairContraction.op fun _ _ => trivial)
      (starts_lit ⟨',', " simplified_einsum_string: ".toList, by decide, by decide⟩)
        (.lit ", simplified_einsum_string: "
    (.val (reads_string.free PairContraction.simplifiedEinsumString fun _ h => h.2.2) (l := []) trivial
      .nil)))))))))).read hx hy hs ht he
  simp only [List.forall_mem_cons, List.not_mem_nil, false_implies, implies_true, and_true, true_and] at h
  obtain ⟨⟨h1, h2, h3, h4, h5⟩, h6⟩ := h
  have e1 := (reads_option reads_simplification).inj hx.1 hy.1 h1
  have e2 := (reads_option reads_simplification).inj hx.2.1 hy.2.1 h2
  have e3 := reads_pairMethod.inj trivial trivial h3
  have e4 := reads_pairOp.inj trivial trivial h4
  have e5 := reads_string.inj hx.2.2 hy.2.2 h5
  refine ⟨?_, h6⟩
  cases x; cases y; simp_all

/-- The recorded strings contain no quotes. -/
def EinsumPathSteps.Plain : EinsumPathSteps → Prop
  | .singletonContraction _ => True
  | .pairContractions steps => ∀ c ∈ steps, c.Plain

/-- Paths whose recorded strings contain no quotes print the same text exactly if their steps are the same. -/
theorem C69_plain (p q : EinsumPath) (hp : p.steps.Plain) (hq : q.steps.Plain) :
    p.debug = q.debug ↔ p.steps = q.steps := by
  have hitem : ∀ c : PairContraction, ∃ d l, c.debug.toList = d :: l ∧ d ≠ ']' := fun c => by
    have h1 : "PairContraction { lhs_simplification: ".toList = 'P' :: "airContraction { lhs_simplification: ".toList := by
      decide
    exact ⟨'P', _, by simp only [PairContraction.debug, writePieces, String.toList_append, h1, List.cons_append]; rfl,
      by decide⟩
  have ho : "only_step: ".toList = 'o' :: "nly_step: ".toList := by decide
  have hs : "steps: ".toList = 's' :: "teps: ".toList := by decide
  constructor
  · intro he
    replace he := congrArg String.toList he
    obtain ⟨po, ps⟩ := p
    obtain ⟨qo, qs⟩ := q
    cases ps with
    | singletonContraction c =>
      cases qs with
      | singletonContraction d =>
        simp only [EinsumPath.debug, writePieces, String.toList_append, List.append_cancel_left_eq] at he
        obtain ⟨rfl, -⟩ := reads_singletonContraction c d [] [] trivial trivial ends_nil ends_nil (by simpa using he)
        rfl
      | pairContractions ds =>
        simp only [EinsumPath.debug, writePieces, String.toList_append, ho, hs, List.cons_append, List.cons.injEq] at he
        exact absurd he.1 (by decide)
    | pairContractions cs =>
      cases qs with
      | singletonContraction d =>
        simp only [EinsumPath.debug, writePieces, String.toList_append, ho, hs, List.cons_append, List.cons.injEq] at he
        exact absurd he.1 (by decide)
      | pairContractions ds =>
        simp only [EinsumPath.debug, writePieces, String.toList_append, List.append_cancel_left_eq] at he
        obtain ⟨rfl, -⟩ := reads_vec reads_pairContraction hitem cs ds [] [] hp hq ends_nil ends_nil (by simpa using he)
        rfl
  · intro he
    simp only [EinsumPath.debug, he]

theorem letter_not_quote {c : Char} (h : Letter c) : c ≠ '"' := by
  rintro rfl
  simp [Letter] at h

/-- A character that an einsum string may contain. -/
def Written (c : Char) : Prop := Letter c ∨ c = ',' ∨ c = '-' ∨ c = '>'

/-- The recorded labels are letters and the recorded strings einsum strings. -/
def SimplificationMethodAndOutput.Lettered (x : SimplificationMethodAndOutput) : Prop :=
  (∀ c ∈ x.newIndices, Letter c) ∧ ∀ c ∈ x.einsumString.toList, Written c

def PairContraction.Lettered (x : PairContraction) : Prop :=
  (∀ y ∈ x.lhsSimplification, y.Lettered) ∧ (∀ y ∈ x.rhsSimplification, y.Lettered) ∧
    ∀ c ∈ x.simplifiedEinsumString.toList, Written c

def EinsumPathSteps.Lettered : EinsumPathSteps → Prop
  | .singletonContraction _ => True
  | .pairContractions steps => ∀ c ∈ steps, c.Lettered

theorem written_plain {l : List Char} (h : ∀ c ∈ l, Written c) : '"' ∉ l := fun hm => by
  rcases h _ hm with h | h | h | h
  · exact letter_not_quote h rfl
  all_goals exact absurd h (by decide)

theorem EinsumPathSteps.Lettered.plain {x : EinsumPathSteps} (h : x.Lettered) : x.Plain := by
  cases x with
  | singletonContraction c => trivial
  | pairContractions cs =>
    exact fun c hc => ⟨fun y hy => written_plain ((h c hc).1 y hy).2, fun y hy => written_plain ((h c hc).2.1 y hy).2,
      written_plain (h c hc).2.2⟩

theorem text_written {inputs : List (List Char)} {out : List Char} (hi : ∀ p ∈ inputs, ∀ c ∈ p, Letter c)
    (ho : ∀ c ∈ out, Letter c) : ∀ c ∈ (text inputs out).toList, Written c := by
  intro c hc
  simp only [text, String.toList_ofList, render, List.mem_append, List.mem_cons] at hc
  rcases hc with hc | hc | hc | hc
  · cases inputs with
    | nil => simp at hc
    | cons p ps =>
      rw [intercalate_cons, List.mem_append] at hc
      rcases hc with hc | hc
      · exact .inl (hi p (by simp) c hc)
      · rcases mem_commaJoin hc with rfl | ⟨q, h1, h2⟩
        · exact .inr (.inl rfl)
        · exact .inl (hi q (by simp [h1]) c h2)
  · exact .inr (.inr (.inl hc))
  · exact .inr (.inr (.inr hc))
  · exact .inl (ho c hc)

theorem pairContraction_lettered {sc : SizedContraction} {dims : Char → Nat} {L R : List Char} (hv : sc.Valid dims)
    (hops : sc.contraction.operandIndices = [L, R]) (hl : ∀ c, c ∈ L ∨ c ∈ R → Letter c) {h : HashOrd}
    {p : PairContraction} (hp : PairContraction.new h sc = .ok p) : p.Lettered := by
  obtain ⟨q, q1, q2, q3, -, q5, -⟩ := pair_parts hv hops h
  obtain rfl : q = p := by rw [hp] at q1; simpa using q1.symm
  have ho : ∀ c ∈ sc.contraction.outputIndices, c ∈ L ∨ c ∈ R := fun c hc => by
    obtain ⟨x, hx, hcx⟩ := hv.out.2 c hc
    rw [hops] at hx
    simp only [List.mem_cons, List.not_mem_nil, or_false] at hx
    rcases hx with rfl | rfl
    · exact .inl hcx
    · exact .inr hcx
  have key : ∀ {k : HashOrd} {L' R' : List Char} {s : Option SimplificationMethodAndOutput},
      (∀ c ∈ L', Letter c) → (∀ c ∈ L', c ∈ sc.contraction.operandIndices.flatten) →
      SimplificationMethodAndOutput.fromIndicesAndSizes k L' R' sc.contraction.outputIndices sc = .ok s →
      (∀ x ∈ s, x.Lettered) ∧ ∀ c ∈ newIndicesOr s L', Letter c := by
    intro k L' R' s h1 h2 h3
    obtain ⟨s', s1, s2⟩ := simplification_parts hv k (L := L') (R := R') (out := sc.contraction.outputIndices) h2
    obtain rfl : s' = s := by rw [h3] at s1; simpa using s1.symm
    rcases s2 with ⟨rfl, -⟩ | ⟨-, x, rfl, -, x2, -, x4, -⟩
    · exact ⟨by simp, h1⟩
    · have hx : ∀ c ∈ x.newIndices, Letter c := fun c hc => h1 c ((x2 c).1 hc).1
      refine ⟨fun y hy => ?_, hx⟩
      obtain rfl : x = y := by simpa using hy
      refine ⟨hx, ?_⟩
      rw [x4]
      exact text_written (by simpa using h1) hx
  obtain ⟨l1, l2⟩ := key (fun c hc => hl c (.inl hc)) (fun c hc => by simp [hops, hc]) q2
  obtain ⟨r1, r2⟩ := key (fun c hc => hl c (.inr hc)) (fun c hc => by simp [hops, hc]) q3
  refine ⟨l1, r1, ?_⟩
  rw [q5]
  refine text_written ?_ fun c hc => hl c (ho c hc)
  simp only [List.mem_cons, List.not_mem_nil, or_false]
  rintro x (rfl | rfl)
  · exact l2
  · exact r2

/-- Which operands step `k` of the path for `n` operands takes. -/
def takes (m : OptimizationMethod) (n k : Nat) : OperandNumPair :=
  ⟨if k = 0 then .input (nthOperand m n 0) else .intermediateResult (k - 1), .input (nthOperand m n (k + 1))⟩

/-- The parts of a compiled path. -/
theorem compiled_lettered {A : Type} {h : HashOrd} {s : String} {operands : List (View A)} {inputs : List (List Char)}
    {out : List Char} {dims : Char → Nat} (hd : Denotes s inputs out)
    (hs : Sized dims inputs (operands.map View.shape)) {m : OptimizationMethod} (hm : m = .naive ∨ m = .reverse)
    {p : EinsumPath} (p1 : einsumPath h s operands m = .ok (.ok p)) :
    p.steps.Lettered ∧ ((∃ psc c, p = ⟨.singleton psc, .singletonContraction c⟩) ∨
      ∃ steps cs, p = ⟨.pairs steps, .pairContractions cs⟩ ∧ cs.length = steps.length ∧
        steps.map PairStep.operandNums = (List.range steps.length).map (takes m (steps.length + 1))) := by
  have hv : (callSC inputs out dims).Valid dims := callSC_valid hd.outputOk
  obtain ⟨order, o1, o2, o3⟩ := order_eq (callSC inputs out dims) m hm ((h.sub 0).sub 1)
  simp only [einsumPath, validateAndOptimizeOrder, validateAndSize_ok ((h.sub 0).sub 0) hd hs, o2] at p1
  rcases path_shape hv ((h.sub 0).sub 1) (order := order) hd.inputs_ne.1 o1 with
    ⟨psc, ix, e, g, -⟩ | ⟨first, nums, lhs, rest, steps, a1, a2, -, a4, a5, a6, a7⟩
  · rw [g] at p1
    change (EinsumPath.fromPath (h.sub 1) (.singleton psc) >>= fun p => pure (Except.ok p)) = _ at p1
    simp only [EinsumPath.fromPath] at p1
    obtain ⟨q, q1, q2⟩ := bind_eq_ok.1 p1
    obtain ⟨c, c1, c2⟩ := bind_eq_ok.1 q1
    obtain rfl : q = p := by simpa using q2
    obtain rfl : _ = q := by simpa using c2
    exact ⟨trivial, .inl ⟨_, _, rfl⟩⟩
  · rw [a5] at p1
    change (EinsumPath.fromPath (h.sub 1) (.pairs steps) >>= fun p => pure (Except.ok p)) = _ at p1
    simp only [EinsumPath.fromPath] at p1
    obtain ⟨q, q1, q2⟩ := bind_eq_ok.1 p1
    obtain ⟨cs, c1, c2⟩ := bind_eq_ok.1 q1
    obtain rfl : q = p := by simpa using q2
    obtain rfl : _ = q := by simpa using c2
    obtain ⟨l1, l2⟩ := compileSteps_mem c1
    have hpick : (lhs :: rest).Perm inputs := a2 ▸ pick_perm inputs [] (by simpa [callSC] using o1)
    have hlet : ∀ x ∈ lhs :: rest, ∀ c ∈ x, Letter c := fun x hx => (hd.inputs_ne.2 x (hpick.subset hx)).2
    have hn : inputs.length = steps.length + 1 := by
      rw [a6, ← hpick.length_eq, List.length_cons]
    refine ⟨?_, .inr ⟨_, _, rfl, l1, ?_⟩⟩
    · intro c hc
      obtain ⟨st, s1, h', s2⟩ := l2 c hc
      obtain ⟨k, hk⟩ := List.mem_iff_getElem?.1 s1
      have hst := a7 k st hk
      obtain ⟨l, r, e, e2, e3, e4⟩ := hst.labels
      refine pairContraction_lettered hst.valid e ?_ s2
      rintro x (hx | hx)
      · cases k with
        | zero => exact hlet lhs (by simp) x (e3 rfl ▸ hx)
        | succ j =>
          have hj : j < steps.length := by
            have := (List.getElem?_eq_some_iff.1 hk).1
            omega
          have hsj := List.getElem?_eq_getElem hj
          rw [e4 j _ rfl hsj] at hx
          rcases (((a7 j _ hsj).mem x).1 hx).1 with hm | hm
          · exact hlet lhs (by simp) x hm
          · obtain ⟨y, hy, hxy⟩ := List.mem_flatten.1 hm
            exact hlet y (by simp [List.mem_of_mem_take hy]) x hxy
      · exact hlet r (by simp [List.mem_of_getElem? e2]) x hx
    · apply List.ext_getElem
      · simp
      · intro k h1 h2
        have hk : k < steps.length := by simpa using h1
        have hst := a7 k _ (List.getElem?_eq_getElem hk)
        simp only [List.getElem_map, List.getElem_range]
        have ho : ∀ i < inputs.length, order[i]? = some (nthOperand m inputs.length i) := o3
        have hr := ho (k + 1) (by omega)
        have hf := ho 0 (by omega)
        rw [a1] at hr hf
        have e1 := hst.rhsNum _ (by simpa using hr)
        have e2 := hst.lhsNum
        have e3 : first = nthOperand m inputs.length 0 := by simpa using hf
        rw [takes, ← hn, ← e3]
        have hext : ∀ a b : OperandNumPair, a.lhs = b.lhs → a.rhs = b.rhs → a = b := by
          rintro ⟨⟩ ⟨⟩ rfl rfl; rfl
        exact hext _ _ (by simpa using e2) e1

theorem compiled_parts {A : Type} {h : HashOrd} {s : String} {operands : List (View A)} {inputs : List (List Char)}
    {out : List Char} {dims : Char → Nat} (hd : Denotes s inputs out)
    (hs : Sized dims inputs (operands.map View.shape)) {m : OptimizationMethod} (hm : m = .naive ∨ m = .reverse)
    {p : EinsumPath} (p1 : einsumPath h s operands m = .ok (.ok p)) :
    p.steps.Plain ∧ ((∃ psc c, p = ⟨.singleton psc, .singletonContraction c⟩) ∨
      ∃ steps cs, p = ⟨.pairs steps, .pairContractions cs⟩ ∧ cs.length = steps.length ∧
        steps.map PairStep.operandNums = (List.range steps.length).map (takes m (steps.length + 1))) :=
  (compiled_lettered hd hs hm p1).imp EinsumPathSteps.Lettered.plain id

/-- C69: two compiled paths print the same text exactly if their compiled steps are the same. -/
theorem C69_readable {A B : Type} (h h' : HashOrd) (s s' : String) (operands : List (View A))
    (operands' : List (View B)) (inputs inputs' : List (List Char)) (out out' : List Char) (dims dims' : Char → Nat)
    (hd : Denotes s inputs out) (hs : Sized dims inputs (operands.map View.shape))
    (hd' : Denotes s' inputs' out') (hs' : Sized dims' inputs' (operands'.map View.shape))
    (m m' : OptimizationMethod) (hm : m = .naive ∨ m = .reverse) (hm' : m' = .naive ∨ m' = .reverse) :
    ∃ p q, einsumPath h s operands m = .ok (.ok p) ∧ einsumPath h' s' operands' m' = .ok (.ok q) ∧
      (p.debug = q.debug ↔ p.steps = q.steps) := by
  obtain ⟨p, p1, -⟩ := einsumPath_ok hd hs h hm
  obtain ⟨q, q1, -⟩ := einsumPath_ok hd' hs' h' hm'
  exact ⟨p, q, p1, q1, C69_plain p q (compiled_parts hd hs hm p1).1 (compiled_parts hd' hs' hm' q1).1⟩

theorem runSteps_nums {A : Type} [Zero A] [Add A] [Mul A] [MulAdd A] (al : Alloc A) (operands : List (View A))
    (cs : List PairContraction) (ss ts : List PairStep)
    (h : ss.map PairStep.operandNums = ts.map PairStep.operandNums) (inter : List (View A)) :
    runSteps al operands (cs.zip ss) inter = runSteps al operands (cs.zip ts) inter := by
  induction cs generalizing al ss ts inter with
  | nil => simp
  | cons c cs ih =>
    cases ss with
    | nil =>
      cases ts with
      | nil => rfl
      | cons t ts => simp at h
    | cons s ss =>
      cases ts with
      | nil => simp at h
      | cons t ts =>
        simp only [List.map_cons, List.cons.injEq] at h
        simp only [List.zip_cons_cons, runSteps, h.1, ih _ ss ts h.2]

/-- C69: paths compiled with the same method that print the same text return the same on all operands. -/
theorem C69_same_runs {A B C : Type} [Zero C] [Add C] [Mul C] [MulAdd C] (h h' : HashOrd) (s s' : String)
    (operands : List (View A)) (operands' : List (View B)) (inputs inputs' : List (List Char)) (out out' : List Char)
    (dims dims' : Char → Nat) (hd : Denotes s inputs out) (hs : Sized dims inputs (operands.map View.shape))
    (hd' : Denotes s' inputs' out') (hs' : Sized dims' inputs' (operands'.map View.shape))
    (m : OptimizationMethod) (hm : m = .naive ∨ m = .reverse) :
    ∃ p q, einsumPath h s operands m = .ok (.ok p) ∧ einsumPath h' s' operands' m = .ok (.ok q) ∧
      (p.debug = q.debug →
        ∀ (al : Alloc C) (ops : List (View C)), p.contractOperands al ops = q.contractOperands al ops) := by
  obtain ⟨p, p1, -⟩ := einsumPath_ok hd hs h hm
  obtain ⟨q, q1, -⟩ := einsumPath_ok hd' hs' h' hm
  obtain ⟨pp, p2⟩ := compiled_parts hd hs hm p1
  obtain ⟨qp, q2⟩ := compiled_parts hd' hs' hm q1
  refine ⟨p, q, p1, q1, fun he al ops => ?_⟩
  have hsteps := (C69_plain p q pp qp).1 he
  rcases p2 with ⟨psc, c, rfl⟩ | ⟨ss, cs, rfl, l1, n1⟩ <;> rcases q2 with ⟨qsc, d, rfl⟩ | ⟨ts, ds, rfl, l2, n2⟩
  · obtain rfl : c = d := by simpa using hsteps
    rfl
  · simp at hsteps
  · simp at hsteps
  · obtain rfl : cs = ds := by simpa using hsteps
    have hl : ss.length = ts.length := by omega
    simp only [EinsumPath.contractOperands]
    rw [runSteps_nums al ops cs ss ts (by rw [n1, n2, hl])]

namespace Ex

/-- Numbers with `a * b = a`. -/
structure First where
  val : Nat
  deriving DecidableEq

instance : Zero First := ⟨⟨0⟩⟩
instance : Add First := ⟨fun a b => ⟨a.val + b.val⟩⟩
instance : Mul First := ⟨fun a _ => a⟩

def first (n : Nat) : View First := ⟨[⟨n⟩, ⟨n + 1⟩], 0, [2], [1]⟩

/-- The text and the result of one path. -/
def printAndRun (m : OptimizationMethod) : Option (String × M (View First)) :=
  match einsumPath HashOrd.insertion "i,i,i->i" [first 10, first 20, first 30] m with
  | .ok (.ok p) => some (p.debug, p.contractOperands (Alloc.rowMajor First) [first 10, first 20, first 30])
  | _ => none

end Ex

/-- C69: the order of the operands is not printed: these two paths print the same text, but one multiplies from left
to right, the other from right to left. -/
theorem C69_order_not_shown : ∃ p q,
    einsumPath HashOrd.insertion "i,i,i->i" [Ex.first 10, Ex.first 20, Ex.first 30] .naive = .ok (.ok p) ∧
    einsumPath HashOrd.insertion "i,i,i->i" [Ex.first 10, Ex.first 20, Ex.first 30] .reverse = .ok (.ok q) ∧
    p.debug = q.debug ∧
    p.contractOperands (Alloc.rowMajor Ex.First) [Ex.first 10, Ex.first 20, Ex.first 30] = .ok (Ex.first 10) ∧
    q.contractOperands (Alloc.rowMajor Ex.First) [Ex.first 10, Ex.first 20, Ex.first 30] = .ok (Ex.first 30) := by
  have key : ∀ m (r : String × M (View Ex.First)), Ex.printAndRun m = some r → ∃ p,
      einsumPath HashOrd.insertion "i,i,i->i" [Ex.first 10, Ex.first 20, Ex.first 30] m = .ok (.ok p) ∧
      p.debug = r.1 ∧
      p.contractOperands (Alloc.rowMajor Ex.First) [Ex.first 10, Ex.first 20, Ex.first 30] = r.2 := by
    intro m r hr
    unfold Ex.printAndRun at hr
    split at hr
    · rename_i p hp
      obtain rfl := Option.some.inj hr
      exact ⟨p, hp, rfl, rfl⟩
    · cases hr
  have h : (Ex.printAndRun .naive).map Prod.fst = (Ex.printAndRun .reverse).map Prod.fst ∧
      (Ex.printAndRun .naive).map Prod.snd = some (.ok (Ex.first 10)) ∧
      (Ex.printAndRun .reverse).map Prod.snd = some (.ok (Ex.first 30)) := by decide +kernel
  obtain ⟨h1, h2, h3⟩ := h
  obtain ⟨a, ha, ha'⟩ := Option.map_eq_some_iff.1 h2
  obtain ⟨b, hb, hb'⟩ := Option.map_eq_some_iff.1 h3
  rw [ha, hb] at h1
  obtain ⟨p, p1, p2, p3⟩ := key _ a ha
  obtain ⟨q, q1, q2, q3⟩ := key _ b hb
  exact ⟨p, q, p1, q1, by rw [p2, q2]; simpa using h1, by rw [p3, ha'], by rw [q3, hb']⟩

/-! ## Examples -/

example : ∃ p q, einsumPath .insertion "ij,jjk,kj->ij" [Ex.m23, Ex.m332, Ex.m23] .naive = .ok (.ok p) ∧
    einsumPath .reversed "jjk->k" [Ex.m332] .reverse = .ok (.ok q) ∧ (p.debug = q.debug ↔ p.steps = q.steps) :=
  C69_readable _ _ _ _ _ _ _ _ _ _ _ _ Ex.call_three.denotes Ex.call_three.sized Ex.call_trace.denotes
    Ex.call_trace.sized _ _ (.inl rfl) (.inr rfl)

example : ∃ p q, einsumPath .insertion "ij,jjk,kj->ij" [Ex.m23, Ex.m332, Ex.m23] .reverse = .ok (.ok p) ∧
    einsumPath .reversed "ij,jjk,kj->ij" [Ex.m23, Ex.m332, Ex.m23] .reverse = .ok (.ok q) ∧
    (p.debug = q.debug →
      ∀ (al : Alloc ℚ) (ops : List (View ℚ)), p.contractOperands al ops = q.contractOperands al ops) :=
  C69_same_runs _ _ _ _ _ _ _ _ _ _ _ _ Ex.call_three.denotes Ex.call_three.sized Ex.call_three.denotes
    Ex.call_three.sized _ (.inr rfl)

/-- A path whose recorded strings contain no quotes. -/
example : (⟨.pairs [], .pairContractions [⟨none, some ⟨.summation, .summation ⟨[0], [0]⟩, ['j'], "ij->j"⟩,
    .hadamardProduct, .hadamardProduct, "j,j->j"⟩]⟩ : EinsumPath).steps.Plain := by
  simp only [EinsumPathSteps.Plain, List.mem_singleton, forall_eq, PairContraction.Plain,
    SimplificationMethodAndOutput.Plain]
  refine ⟨by simp, fun y hy => ?_, by decide⟩
  obtain rfl := Option.some.inj hy
  decide

end Einsum
