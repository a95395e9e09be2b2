import Verif.Model.Validation
import Mathlib.Data.List.Basic
import Mathlib.Data.List.Nodup
import Mathlib.Data.List.Dedup
import Mathlib.Data.List.Perm.Lattice
import Mathlib.Data.List.Perm.Subperm
import Mathlib.Data.Char
import Mathlib.Tactic.Ring

/-! # Lemmas about the list helpers of the model -/

namespace Einsum

variable {α β : Type}

/-! ## The monad -/

@[simp] theorem bind_ok {α β : Type} (a : α) (f : α → M β) : ((Except.ok a : M α) >>= f) = f a := rfl
@[simp] theorem bind_error {α β : Type} (e : Fault) (f : α → M β) :
    ((Except.error e : M α) >>= f) = .error e := rfl
@[simp] theorem bind_panic {α β : Type} (k : PanicKind) (f : α → M β) :
    ((panic k : M α) >>= f) = panic k := rfl
@[simp] theorem pure_ok {α : Type} (a : α) : (pure a : M α) = .ok a := rfl
@[simp] theorem assertThat_true : assertThat true = .ok () := rfl
@[simp] theorem assertThat_false : assertThat false = panic .assertFailed := rfl
@[simp] theorem unwrapO_some (a : α) : unwrapO (some a) = .ok a := rfl
@[simp] theorem unwrapO_none : unwrapO (none : Option α) = panic .unwrapNone := rfl
@[simp] theorem unwrapR_ok (a : α) : unwrapR (.ok a) = .ok a := rfl
@[simp] theorem unwrapR_error (s : String) : unwrapR (.error s : Except String α) = panic .unwrapErr := rfl

theorem panic_ne_ok (k : PanicKind) (a : α) : (panic k : M α) ≠ .ok a := by simp [panic]
@[simp] theorem panic_eq_ok (k : PanicKind) (a : α) : ((panic k : M α) = .ok a) ↔ False := by simp [panic]

theorem bind_eq_ok {x : M α} {f : α → M β} {b : β} :
    (x >>= f) = .ok b ↔ ∃ a, x = .ok a ∧ f a = .ok b := by
  cases x with
  | ok a => simp
  | error e => simp

theorem assertThat_of {b : Bool} (h : b = true) : assertThat b = .ok () := by simp [h]

theorem assertThat_eq_ok {b : Bool} {u : Unit} : assertThat b = .ok u ↔ b = true := by
  cases b <;> simp

theorem index_eq_ok {l : List α} {i : Nat} {a : α} : index l i = .ok a ↔ l[i]? = some a := by
  unfold index
  cases l[i]? <;> simp

@[simp] theorem index_cons_zero (a : α) (l : List α) : index (a :: l) 0 = .ok a := rfl
@[simp] theorem index_cons_one (a b : α) (l : List α) : index (a :: b :: l) 1 = .ok b := rfl

theorem index_getElem {l : List α} {i : Nat} (h : i < l.length) : index l i = .ok l[i] := by
  rw [index_eq_ok]; simp [h]

theorem index_ge {l : List α} {i : Nat} (h : l.length ≤ i) : index l i = panic .indexOutOfBounds := by
  unfold index; simp [h]

theorem usub_of_le {a b : Nat} (h : b ≤ a) : usub a b = .ok (a - b) := by simp [usub, h]

/-! ## mapE -/

@[simp] theorem mapE_nil (f : α → M β) : mapE f [] = .ok [] := rfl

theorem mapE_ok {f : α → M β} {g : α → β} {l : List α} (h : ∀ a ∈ l, f a = .ok (g a)) :
    mapE f l = .ok (l.map g) := by
  induction l with
  | nil => rfl
  | cons a l ih =>
    have h1 := h a (by simp)
    have h2 := ih fun b hb => h b (by simp [hb])
    simp [mapE, h1, h2]

theorem mapE_eq_ok {f : α → M β} {l : List α} {bs : List β} :
    mapE f l = .ok bs ↔ List.Forall₂ (fun a b => f a = .ok b) l bs := by
  induction l generalizing bs with
  | nil => cases bs <;> simp
  | cons a l ih =>
    simp only [mapE, bind_eq_ok, pure_ok, ih]
    constructor
    · rintro ⟨b, hb, bs', hbs, h⟩
      cases h
      exact .cons hb hbs
    · intro h
      cases h with
      | cons hb hbs => exact ⟨_, hb, _, hbs, rfl⟩

theorem mapE_length {f : α → M β} {l : List α} {bs : List β} (h : mapE f l = .ok bs) :
    bs.length = l.length := ((mapE_eq_ok.1 h).length_eq).symm

theorem mapE_congr {f g : α → M β} {l : List α} (h : ∀ a ∈ l, f a = g a) : mapE f l = mapE g l := by
  induction l with
  | nil => rfl
  | cons a l ih =>
    simp only [mapE, h a (by simp), ih fun b hb => h b (by simp [hb])]

theorem mapE_append {f : α → M β} {l l' : List α} :
    mapE f (l ++ l') = (do let a ← mapE f l; let b ← mapE f l'; return a ++ b) := by
  induction l with
  | nil => simp; cases mapE f l' <;> rfl
  | cons a l ih =>
    simp only [mapE, List.cons_append, ih]
    cases f a with
    | error e => rfl
    | ok b =>
      cases mapE f l with
      | error e => rfl
      | ok bs => cases mapE f l' <;> rfl

/-- If every element is fine `mapE` succeeds. -/
theorem mapE_exists {f : α → M β} {l : List α} (h : ∀ a ∈ l, ∃ b, f a = .ok b) :
    ∃ bs, mapE f l = .ok bs := by
  induction l with
  | nil => exact ⟨[], rfl⟩
  | cons a l ih =>
    obtain ⟨b, hb⟩ := h a (by simp)
    obtain ⟨bs, hbs⟩ := ih fun b hb => h b (by simp [hb])
    exact ⟨b :: bs, by simp [mapE, hb, hbs]⟩

/-! ## position -/

section position
variable [DecidableEq α]

theorem position_eq_none {c : α} {l : List α} : position c l = none ↔ c ∉ l := by
  induction l with
  | nil => simp [position]
  | cons x xs ih =>
    by_cases h : x = c
    · simp [position, h]
    · simp [position, h, ih, Ne.symm h]

theorem position_isNone {c : α} {l : List α} : (position c l).isNone = decide (c ∉ l) := by
  by_cases h : c ∈ l
  · have : position c l ≠ none := fun h' => position_eq_none.1 h' h
    cases hp : position c l <;> simp_all
  · simp [position_eq_none.2 h, h]

theorem position_isSome {c : α} {l : List α} : (position c l).isSome = decide (c ∈ l) := by
  have := position_isNone (c := c) (l := l)
  cases hp : position c l <;> simp_all

theorem position_eq_some {c : α} {l : List α} {i : Nat} :
    position c l = some i ↔ l[i]? = some c ∧ ∀ j < i, l[j]? ≠ some c := by
  induction l generalizing i with
  | nil => simp [position]
  | cons x xs ih =>
    by_cases h : x = c
    · subst h
      simp only [position, if_true]
      cases i with
      | zero => simp
      | succ i =>
        simp only [Option.some.injEq]
        constructor
        · intro h; omega
        · rintro ⟨_, h2⟩
          exact absurd (by simp) (h2 0 (by omega))
    · simp only [position, h, if_false, Option.map_eq_some_iff]
      cases i with
      | zero => simp [h]
      | succ i =>
        constructor
        · rintro ⟨j, hj, hji⟩
          have : j = i := by omega
          subst this
          obtain ⟨h1, h2⟩ := ih.1 hj
          refine ⟨by simpa using h1, ?_⟩
          intro k hk
          cases k with
          | zero => simpa using h
          | succ k => simpa using h2 k (by omega)
        · rintro ⟨h1, h2⟩
          refine ⟨i, ih.2 ⟨by simpa using h1, fun k hk => ?_⟩, rfl⟩
          simpa using h2 (k + 1) (by omega)

theorem position_getElem? {c : α} {l : List α} {i : Nat} (h : position c l = some i) :
    l[i]? = some c := (position_eq_some.1 h).1

theorem position_lt {c : α} {l : List α} {i : Nat} (h : position c l = some i) : i < l.length := by
  have := position_getElem? h
  exact (List.getElem?_eq_some_iff.1 this).1

theorem exists_position {c : α} {l : List α} (h : c ∈ l) : ∃ i, position c l = some i := by
  cases hp : position c l with
  | none => exact absurd h (position_eq_none.1 hp)
  | some i => exact ⟨i, rfl⟩

theorem position_nodup {l : List α} (hn : l.Nodup) {i : Nat} {c : α} (h : l[i]? = some c) :
    position c l = some i := by
  rw [position_eq_some]
  refine ⟨h, fun j hj hjc => ?_⟩
  obtain ⟨hi, hi'⟩ := List.getElem?_eq_some_iff.1 h
  obtain ⟨hj', hj''⟩ := List.getElem?_eq_some_iff.1 hjc
  have := (List.Nodup.getElem_inj_iff hn (hi := hi) (hj := hj')).1 (by rw [hi', hj''])
  omega

/-- Total version of `position`, for members. -/
def pos (c : α) (l : List α) : Nat := (position c l).getD 0

theorem position_of_mem {c : α} {l : List α} (h : c ∈ l) : position c l = some (pos c l) := by
  obtain ⟨i, hi⟩ := exists_position h
  simp [pos, hi]

theorem pos_lt {c : α} {l : List α} (h : c ∈ l) : pos c l < l.length := position_lt (position_of_mem h)

theorem getElem?_pos {c : α} {l : List α} (h : c ∈ l) : l[pos c l]? = some c :=
  position_getElem? (position_of_mem h)

theorem pos_getElem {l : List α} (hn : l.Nodup) {i : Nat} (h : i < l.length) : pos l[i] l = i := by
  simp [pos, position_nodup hn (i := i) (c := l[i]) (by simp [h])]

theorem pos_inj {l : List α} {c d : α} (hc : c ∈ l) (hd : d ∈ l) (h : pos c l = pos d l) : c = d := by
  have h1 := getElem?_pos hc
  have h2 := getElem?_pos hd
  rw [h] at h1
  rw [h1] at h2
  exact Option.some.inj h2

end position

/-! ## Hash sets -/

section hset
variable [DecidableEq α]

theorem mem_foldl_setInsert {l s : List α} {a : α} :
    a ∈ l.foldl setInsert s ↔ a ∈ s ∨ a ∈ l := by
  induction l generalizing s with
  | nil => simp
  | cons x l ih =>
    simp only [List.foldl_cons, ih, setInsert, List.mem_cons]
    split
    · constructor
      · rintro (h | h) <;> simp [h]
      · rintro (h | h | h)
        · exact Or.inl h
        · subst h; exact Or.inl (by assumption)
        · exact Or.inr h
    · simp [or_assoc]

theorem nodup_foldl_setInsert {l s : List α} (hs : s.Nodup) : (l.foldl setInsert s).Nodup := by
  induction l generalizing s with
  | nil => simpa
  | cons x l ih =>
    simp only [List.foldl_cons]
    apply ih
    unfold setInsert
    split
    · exact hs
    · rw [List.nodup_append]
      refine ⟨hs, by simp, ?_⟩
      intro a ha b hb hab
      simp at hb
      subst hb; subst hab
      contradiction

@[simp] theorem mem_hset {l : List α} {a : α} : a ∈ hset l ↔ a ∈ l := by simp [hset, mem_foldl_setInsert]

theorem nodup_hset (l : List α) : (hset l).Nodup := nodup_foldl_setInsert List.nodup_nil

omit [DecidableEq α] in
theorem perm_of_nodup {l l' : List α} (h : l.Nodup) (h' : l'.Nodup) (hm : ∀ a, a ∈ l ↔ a ∈ l') :
    l.Perm l' := (List.perm_ext_iff_of_nodup h h').2 hm

theorem hset_perm_self {l : List α} (h : l.Nodup) : (hset l).Perm l :=
  perm_of_nodup (nodup_hset l) h fun _ => mem_hset

theorem hset_length_le (l : List α) : (hset l).length ≤ l.length := by
  have : (hset l).Subperm l := (nodup_hset l).subperm fun a ha => mem_hset.1 ha
  exact this.length_le

theorem hset_length_eq_iff {l : List α} : (hset l).length = l.length ↔ l.Nodup := by
  constructor
  · intro h
    have : (hset l).Subperm l := (nodup_hset l).subperm fun a ha => mem_hset.1 ha
    exact (this.perm_of_length_le (by omega)).nodup_iff.1 (nodup_hset l)
  · intro h; exact (hset_perm_self h).length_eq

end hset

/-! ## Character counts -/

theorem bump_keys (m : List (Char × Nat)) (c : Char) :
    (bump m c).map Prod.fst = setInsert (m.map Prod.fst) c := by
  induction m with
  | nil => simp [bump, setInsert]
  | cons e m ih =>
    obtain ⟨k, n⟩ := e
    by_cases h : k = c
    · simp [bump, h, setInsert]
    · simp only [bump, h, if_false, List.map_cons, ih]
      unfold setInsert
      by_cases hc : c ∈ m.map Prod.fst
      · simp [hc]
      · simp [hc, Ne.symm h]

theorem foldl_bump_keys (l : List Char) (m : List (Char × Nat)) :
    (l.foldl bump m).map Prod.fst = l.foldl setInsert (m.map Prod.fst) := by
  induction l generalizing m with
  | nil => rfl
  | cons c l ih => simp [ih, bump_keys]

theorem charCounts_keys (l : List Char) : (charCounts l).map Prod.fst = hset l := by
  simp [charCounts, hset, foldl_bump_keys]

/-- The count stored for a key. -/
def lookupCount (m : List (Char × Nat)) (c : Char) : Nat :=
  match m.find? (fun e => e.1 = c) with
  | some e => e.2
  | none => 0

theorem lookupCount_bump (m : List (Char × Nat)) (c d : Char) :
    lookupCount (bump m c) d = lookupCount m d + (if c = d then 1 else 0) := by
  induction m with
  | nil =>
    by_cases h : c = d <;> simp [bump, lookupCount, h]
  | cons e m ih =>
    obtain ⟨k, n⟩ := e
    by_cases h : k = c
    · subst h
      by_cases hd : k = d <;> simp [bump, lookupCount, hd]
    · simp only [bump, h, if_false]
      by_cases hd : k = d
      · subst hd
        simp [lookupCount, Ne.symm h]
      · simpa [lookupCount, hd] using ih

theorem lookupCount_foldl (l : List Char) (m : List (Char × Nat)) (d : Char) :
    lookupCount (l.foldl bump m) d = lookupCount m d + l.count d := by
  induction l generalizing m with
  | nil => simp
  | cons c l ih =>
    simp only [List.foldl_cons, ih, lookupCount_bump, List.count_cons, beq_iff_eq]
    omega

theorem lookupCount_of_mem {m : List (Char × Nat)} (hn : (m.map Prod.fst).Nodup) {e : Char × Nat}
    (he : e ∈ m) : lookupCount m e.1 = e.2 := by
  induction m with
  | nil => simp at he
  | cons f m ih =>
    simp only [List.map_cons, List.nodup_cons] at hn
    rcases List.mem_cons.1 he with rfl | h
    · simp [lookupCount]
    · have hne : f.1 ≠ e.1 := fun hh => hn.1 (hh ▸ List.mem_map_of_mem h)
      have := ih hn.2 h
      simpa [lookupCount, hne] using this

theorem mem_charCounts {l : List Char} {c : Char} {n : Nat} :
    (c, n) ∈ charCounts l ↔ c ∈ l ∧ n = l.count c := by
  have hn : ((charCounts l).map Prod.fst).Nodup := by rw [charCounts_keys]; exact nodup_hset l
  constructor
  · intro h
    have h1 : c ∈ (charCounts l).map Prod.fst := List.mem_map_of_mem h
    rw [charCounts_keys, mem_hset] at h1
    have h2 := lookupCount_of_mem hn h
    have h3 := lookupCount_foldl l [] c
    refine ⟨h1, ?_⟩
    simp only [charCounts] at h2
    rw [h3] at h2
    simpa [lookupCount] using h2.symm
  · rintro ⟨hc, rfl⟩
    have h1 : c ∈ (charCounts l).map Prod.fst := by rw [charCounts_keys, mem_hset]; exact hc
    obtain ⟨⟨c', n⟩, he, hce⟩ := List.mem_map.1 h1
    simp only at hce; subst hce
    have h2 := lookupCount_of_mem hn he
    have h3 := lookupCount_foldl l [] c'
    simp only [charCounts] at h2 he
    rw [h3] at h2
    simp only [lookupCount, List.find?_nil, Nat.zero_add] at h2
    simpa [charCounts, h2] using he

theorem hasKey_charCounts {l : List Char} {c : Char} : hasKey (charCounts l) c = decide (c ∈ l) := by
  have h := charCounts_keys l
  by_cases hc : c ∈ l
  · have h1 : c ∈ (charCounts l).map Prod.fst := by rw [h, mem_hset]; exact hc
    obtain ⟨e, he, hce⟩ := List.mem_map.1 h1
    simp only [hasKey, hc, decide_true, List.any_eq_true]
    exact ⟨e, he, by simp [hce]⟩
  · simp only [hasKey, hc, decide_false, List.any_eq_false]
    intro e he hce
    have h1 : e.1 ∈ (charCounts l).map Prod.fst := List.mem_map_of_mem he
    rw [h, mem_hset] at h1
    simp at hce
    exact hc (hce ▸ h1)

theorem charCounts_length (l : List Char) : (charCounts l).length = (hset l).length := by
  rw [← charCounts_keys]; simp

/-! ## Sorting -/

theorem sortChars_perm (l : List Char) : (sortChars l).Perm l := List.mergeSort_perm _ _

theorem sortChars_sorted (l : List Char) : (sortChars l).Pairwise (· ≤ ·) := by
  have := List.pairwise_mergeSort (le := fun a b : Char => decide (a ≤ b))
    (by intro a b c; simp; exact le_trans) (by intro a b; simp; exact le_total a b) l
  simpa [sortChars] using this

theorem sortChars_strict {l : List Char} (h : l.Nodup) : (sortChars l).Pairwise (· < ·) := by
  have h1 := sortChars_sorted l
  have h2 : (sortChars l).Nodup := (sortChars_perm l).nodup_iff.2 h
  exact (h1.and h2).imp fun ⟨a, b⟩ => lt_of_le_of_ne a b

/-- A strictly ascending list is determined by its members. -/
theorem eq_of_sorted_of_mem {l l' : List Char} (h : l.Pairwise (· < ·)) (h' : l'.Pairwise (· < ·))
    (hm : ∀ a, a ∈ l ↔ a ∈ l') : l = l' := by
  have hp : l.Perm l' := perm_of_nodup (h.imp ne_of_lt) (h'.imp ne_of_lt) hm
  exact hp.eq_of_pairwise (fun a b _ _ h1 h2 => (lt_asymm h1 h2).elim) h h'

end Einsum
