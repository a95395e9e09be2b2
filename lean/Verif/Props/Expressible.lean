import Verif.Props.Algebra
import Verif.Props.HandBuilt
import Verif.Props.Validation

/-!
# Which contractions can be written (C98)
-/

namespace Einsum

open Spec

/-! ## Specification -/

/-- The output labels are distinct and occur in the operands. -/
def Spec.OutputFits {ι : Type} (inputs : List (List ι)) (out : List ι) : Prop := out.Nodup ∧ ∀ c ∈ out, c ∈ inputs.flatten

/-- What einsum strings can express. -/
def Spec.Expressible {ι : Type} [DecidableEq ι] (inputs : List (List ι)) (out : List ι) : Prop :=
  inputs ≠ [] ∧ (∀ ix ∈ inputs, ix ≠ []) ∧ inputs.flatten.dedup.length ≤ 26 ∧ OutputFits inputs out

/-- `r` is the Einstein sum, for labels of any type. -/
def Spec.IsSum {ι A : Type} [DecidableEq ι] [CommSemiring A] (dims : ι → Nat) (inputs : List (List ι))
    (ts : List (List Nat → A)) (out : List ι) (r : View A) : Prop :=
  r.Wf ∧ r.shape = out.map dims ∧ ∀ σ, InRange dims out σ → r.read (out.map σ) = .ok (Spec.einsum dims inputs ts out σ)

/-! ## Characters for labels -/

/-- The character with the number `n`. -/
def nthChar (n : Nat) : Char := Char.ofNat (if n < 0xd800 then n else n + 0x800)

theorem toNat_ofNat {n : Nat} (h : n.isValidChar) : (Char.ofNat n).toNat = n := by
  unfold Char.ofNat
  rw [dif_pos h]
  rfl

theorem nthChar_toNat {n : Nat} (h : n < 1112064) : (nthChar n).toNat = if n < 0xd800 then n else n + 0x800 := by
  unfold nthChar
  refine toNat_ofNat ?_
  split <;> simp only [Nat.isValidChar] <;> omega

theorem nthChar_inj {m n : Nat} (hm : m < 1112064) (hn : n < 1112064) (h : nthChar m = nthChar n) : m = n := by
  have := congrArg Char.toNat h
  rw [nthChar_toNat hm, nthChar_toNat hn] at this
  split at this <;> split at this <;> omega

/-- The letter with the number `n`. -/
def nthLetter (n : Nat) : Char := Char.ofNat (97 + n)

theorem nthLetter_toNat {n : Nat} (h : n < 26) : (nthLetter n).toNat = 97 + n := by
  unfold nthLetter
  refine toNat_ofNat ?_
  simp only [Nat.isValidChar]
  omega

theorem letter_iff {c : Char} : Letter c ↔ 97 ≤ c.toNat ∧ c.toNat ≤ 122 := by
  unfold Letter
  simp only [Char.le_def, UInt32.le_iff_toNat_le]
  rfl

theorem nthLetter_letter {n : Nat} (h : n < 26) : Letter (nthLetter n) := by
  rw [letter_iff, nthLetter_toNat h]
  omega

theorem nthLetter_inj {m n : Nat} (hm : m < 26) (hn : n < 26) (h : nthLetter m = nthLetter n) : m = n := by
  have := congrArg Char.toNat h
  rw [nthLetter_toNat hm, nthLetter_toNat hn] at this
  omega

/-- There are 26 letters. -/
theorem letters_le {l : List Char} (h : l.Nodup) (hl : ∀ c ∈ l, Letter c) : l.length ≤ 26 := by
  have h1 : (l.map Char.toNat).Nodup := h.map_on fun a _ b _ e => Char.ext (UInt32.toNat_inj.1 e)
  have h2 : l.map Char.toNat ⊆ (List.range 26).map (97 + ·) := by
    intro x hx
    obtain ⟨c, hc, rfl⟩ := List.mem_map.1 hx
    have := letter_iff.1 (hl c hc)
    exact List.mem_map.2 ⟨c.toNat - 97, List.mem_range.2 (by omega), by omega⟩
  simpa using (List.subperm_of_subset h1 h2).length_le

/-! ## Renaming -/

section
variable {ι A : Type} [DecidableEq ι]

/-- A function of the new labels with the values of a function of the old labels. -/
noncomputable def pushed (f : ι → Char) (S : List ι) (g : ι → Nat) (x : Char) : Nat :=
  open Classical in if h : ∃ b ∈ S, f b = x then g h.choose else 0

omit [DecidableEq ι] in
theorem pushed_apply {f : ι → Char} {S : List ι} (hf : ∀ a ∈ S, ∀ b ∈ S, f a = f b → a = b) (g : ι → Nat) {c : ι}
    (hc : c ∈ S) : pushed f S g (f c) = g c := by
  have hx : ∃ b ∈ S, f b = f c := ⟨c, hc, rfl⟩
  unfold pushed
  rw [dif_pos hx, hf _ hx.choose_spec.1 c hc hx.choose_spec.2]

theorem einsum_renamed [CommSemiring A] {f : ι → Char} {inputs : List (List ι)} {out : List ι} {dims : ι → Nat}
    {dims' : Char → Nat} {σ : ι → Nat} {τ : Char → Nat} (ts : List (List Nat → A)) (ho : ∀ c ∈ out, c ∈ inputs.flatten)
    (hf : ∀ a ∈ inputs.flatten, ∀ b ∈ inputs.flatten, f a = f b → a = b)
    (hdim : ∀ c ∈ inputs.flatten, dims' (f c) = dims c) (hστ : ∀ c ∈ inputs.flatten, τ (f c) = σ c) :
    Spec.einsum dims' (inputs.map fun ix => ix.map f) ts (out.map f) τ = Spec.einsum dims inputs ts out σ := by
  unfold Spec.einsum
  have hsum : (summed (inputs.map fun ix => ix.map f) (out.map f)).Perm ((summed inputs out).map f) := by
    refine perm_of_nodup (summed_nodup _ _) ((summed_nodup _ _).map_on fun a ha b hb =>
      hf a (mem_summed.1 ha).1 b (mem_summed.1 hb).1) fun c => ?_
    have e : (inputs.map fun ix => ix.map f).flatten = inputs.flatten.map f := (List.map_flatten).symm
    rw [mem_summed, e, List.mem_map, List.mem_map (l := summed inputs out)]
    constructor
    · rintro ⟨⟨b, hb, rfl⟩, hno⟩
      exact ⟨b, mem_summed.2 ⟨hb, fun hbo => hno (List.mem_map.2 ⟨b, hbo, rfl⟩)⟩, rfl⟩
    · rintro ⟨b, hb, rfl⟩
      obtain ⟨hb1, hb2⟩ := mem_summed.1 hb
      refine ⟨⟨b, hb1, rfl⟩, fun hx => ?_⟩
      obtain ⟨a, ha, e⟩ := List.mem_map.1 hx
      exact hb2 (hf a (ho a ha) b hb1 e ▸ ha)
  rw [sumOver_perm hsum]
  refine sumOver_rename (S := inputs.flatten) hf hdim (fun σ τ hστ => ?_) (fun c hc => (mem_summed.1 hc).1) hστ
  unfold term
  rw [List.zipWith_map_left]
  congr 1
  have : ∀ (is : List (List ι)) (ts : List (List Nat → A)), (∀ ix ∈ is, ix ∈ inputs) →
      List.zipWith (fun ix t => t ((ix.map f).map τ)) is ts = List.zipWith (fun ix t => t (ix.map σ)) is ts := by
    intro is
    induction is with
    | nil => simp
    | cons ix is ih =>
      intro ts hi
      cases ts with
      | nil => simp
      | cons t ts =>
        rw [List.zipWith_cons_cons, List.zipWith_cons_cons, ih ts fun j hj => hi j (by simp [hj]),
          List.map_map, List.map_congr_left (f := τ ∘ f) fun c hc =>
            hστ c (List.mem_flatten.2 ⟨ix, hi ix (by simp), hc⟩)]
  exact this inputs _ fun _ h => h

theorem isSum_of_renamed [CommSemiring A] {f : ι → Char} {inputs : List (List ι)} {out : List ι} {dims : ι → Nat}
    {ts : List (List Nat → A)} {r : View A} (ho : ∀ c ∈ out, c ∈ inputs.flatten)
    (hf : ∀ a ∈ inputs.flatten, ∀ b ∈ inputs.flatten, f a = f b → a = b)
    (h : IsEinsum (pushed f inputs.flatten dims) (inputs.map fun ix => ix.map f) ts (out.map f) r) :
    IsSum dims inputs ts out r := by
  have hp : ∀ g : ι → Nat, ∀ c ∈ inputs.flatten, pushed f inputs.flatten g (f c) = g c := fun g c hc => pushed_apply hf g hc
  have hm : ∀ g : ι → Nat, (out.map f).map (pushed f inputs.flatten g) = out.map g := fun g => by
    rw [List.map_map]
    exact List.map_congr_left fun c hc => hp g c (ho c hc)
  refine ⟨h.1, by rw [h.2.1, hm], fun σ hσ => ?_⟩
  have := h.2.2 (pushed f inputs.flatten σ) fun x hx => by
    obtain ⟨c, hc, rfl⟩ := List.mem_map.1 hx
    rw [hp _ c (ho c hc), hp _ c (ho c hc)]
    exact hσ c hc
  rw [hm] at this
  rw [this, einsum_renamed ts ho hf (hp dims) (hp σ)]

end

section
variable {ι : Type} [DecidableEq ι]

omit [DecidableEq ι] in
theorem sized_renamed {f : ι → Char} {inputs : List (List ι)} (hf : ∀ a ∈ inputs.flatten, ∀ b ∈ inputs.flatten, f a = f b → a = b)
    (dims : ι → Nat) : Sized (pushed f inputs.flatten dims) (inputs.map fun ix => ix.map f) (inputs.map fun ix => ix.map dims) := by
  unfold Sized
  rw [List.forall₂_map_left_iff, List.forall₂_map_right_iff, List.forall₂_same]
  intro ix hi
  rw [List.map_map]
  exact (List.map_congr_left fun c hc => pushed_apply hf dims (List.mem_flatten.2 ⟨ix, hi, hc⟩)).symm

omit [DecidableEq ι] in
theorem ned_renamed {f : ι → Char} {inputs : List (List ι)} (hf : ∀ a ∈ inputs.flatten, ∀ b ∈ inputs.flatten, f a = f b → a = b)
    {dims : ι → Nat} (h : ∀ ix ∈ inputs, ix.Nodup ∨ ∀ c ∈ ix, dims c ≠ 0) :
    NoEmptyDiagonal (pushed f inputs.flatten dims) (inputs.map fun ix => ix.map f) := by
  intro jx hj
  obtain ⟨ix, hi, rfl⟩ := List.mem_map.1 hj
  have hin : ∀ c ∈ ix, c ∈ inputs.flatten := fun c hc => List.mem_flatten.2 ⟨ix, hi, hc⟩
  rcases h ix hi with h1 | h1
  · exact .inl (h1.map_on fun a ha b hb => hf a (hin a ha) b (hin b hb))
  · refine .inr fun x hx => ?_
    obtain ⟨c, hc, rfl⟩ := List.mem_map.1 hx
    rw [pushed_apply hf dims (hin c hc)]
    exact h1 c hc

omit [DecidableEq ι] in
theorem output_renamed {f : ι → Char} {inputs : List (List ι)} {out : List ι}
    (hf : ∀ a ∈ inputs.flatten, ∀ b ∈ inputs.flatten, f a = f b → a = b) (ho : OutputFits inputs out) :
    OutputOk (inputs.map fun ix => ix.map f) (out.map f) := by
  refine ⟨ho.1.map_on fun a ha b hb => hf a (ho.2 a ha) b (ho.2 b hb), fun x hx => ?_⟩
  obtain ⟨c, hc, rfl⟩ := List.mem_map.1 hx
  obtain ⟨ix, hi, hci⟩ := List.mem_flatten.1 (ho.2 c hc)
  exact ⟨_, List.mem_map.2 ⟨ix, hi, rfl⟩, List.mem_map.2 ⟨c, hci, rfl⟩⟩

/-- Labels numbered in order of their first occurrence, and encoded. -/
theorem numbered_inj {g : Nat → Char} {n : Nat} (hg : ∀ i < n, ∀ j < n, g i = g j → i = j) {l : List ι}
    (hl : l.dedup.length ≤ n) : ∀ a ∈ l, ∀ b ∈ l, g (l.dedup.idxOf a) = g (l.dedup.idxOf b) → a = b := by
  intro a ha b hb h
  have ha' := List.idxOf_lt_length_of_mem (List.mem_dedup.2 ha)
  have hb' := List.idxOf_lt_length_of_mem (List.mem_dedup.2 hb)
  exact (List.idxOf_inj (List.mem_dedup.2 ha)).1 (hg _ (by omega) _ (by omega) h)

/-- C98: the contractions that can be written as a string. -/
theorem C98_string_iff (inputs : List (List ι)) (out : List ι) :
    (∃ (s : String) (f : ι → Char), (∀ a ∈ inputs.flatten ++ out, ∀ b ∈ inputs.flatten ++ out, f a = f b → a = b) ∧
      Denotes s (inputs.map fun ix => ix.map f) (out.map f)) ↔ Expressible inputs out := by
  constructor
  · rintro ⟨s, f, hf, hd⟩
    have hin := hd.inputs_ne
    have ho := hd.outputOk
    have hmem : ∀ {a}, a ∈ inputs.flatten → a ∈ inputs.flatten ++ out := fun h => List.mem_append_left _ h
    refine ⟨fun e => hin.1 (by rw [e]; rfl), fun ix hi e => ?_, ?_, ?_, fun c hc => ?_⟩
    · exact (hin.2 _ (List.mem_map.2 ⟨ix, hi, rfl⟩)).1 (by rw [e]; rfl)
    · have := letters_le (l := inputs.flatten.dedup.map f) ((List.nodup_dedup _).map_on fun a ha b hb =>
        hf a (hmem (List.mem_dedup.1 ha)) b (hmem (List.mem_dedup.1 hb))) fun x hx => by
        obtain ⟨c, hc, rfl⟩ := List.mem_map.1 hx
        obtain ⟨ix, hi, hci⟩ := List.mem_flatten.1 (List.mem_dedup.1 hc)
        exact (hin.2 _ (List.mem_map.2 ⟨ix, hi, rfl⟩)).2 _ (List.mem_map.2 ⟨c, hci, rfl⟩)
      simpa using this
    · exact List.Nodup.of_map f ho.1
    · obtain ⟨jx, hj, hcj⟩ := ho.2 (f c) (List.mem_map.2 ⟨c, hc, rfl⟩)
      obtain ⟨ix, hi, rfl⟩ := List.mem_map.1 hj
      obtain ⟨b, hb, e⟩ := List.mem_map.1 hcj
      have hb' : b ∈ inputs.flatten := List.mem_flatten.2 ⟨ix, hi, hb⟩
      exact hf b (hmem hb') c (List.mem_append_right _ hc) e ▸ hb'
  · rintro ⟨h1, h2, h3, h4⟩
    have hf := numbered_inj (g := nthLetter) (fun i hi j hj => nthLetter_inj hi hj) h3
    have hlet : ∀ c ∈ inputs.flatten, Letter (nthLetter (inputs.flatten.dedup.idxOf c)) := fun c hc =>
      nthLetter_letter (lt_of_lt_of_le (List.idxOf_lt_length_of_mem (List.mem_dedup.2 hc)) h3)
    refine ⟨String.ofList (render (inputs.map fun ix => ix.map fun c => nthLetter (inputs.flatten.dedup.idxOf c))
      (some (out.map fun c => nthLetter (inputs.flatten.dedup.idxOf c)))), _, fun a ha b hb => ?_, .inl ⟨by simp, ⟨by simpa using h1,
        fun p hp => ?_, fun o e x hx => ?_⟩, output_renamed hf h4⟩⟩
    · have : ∀ {a}, a ∈ inputs.flatten ++ out → a ∈ inputs.flatten := fun h => by
        rcases List.mem_append.1 h with h | h
        · exact h
        · exact h4.2 _ h
      exact hf a (this ha) b (this hb)
    · obtain ⟨ix, hi, rfl⟩ := List.mem_map.1 hp
      refine ⟨by simpa using h2 ix hi, fun x hx => ?_⟩
      obtain ⟨c, hc, rfl⟩ := List.mem_map.1 hx
      exact hlet c (List.mem_flatten.2 ⟨ix, hi, hc⟩)
    · cases e
      obtain ⟨c, hc, rfl⟩ := List.mem_map.1 hx
      exact hlet c (h4.2 c hc)

/-- C98: such a string computes the contraction, for all sizes and operands. -/
theorem C98_string (inputs : List (List ι)) (out : List ι) (hx : Expressible inputs out) :
    ∃ s : String, ∀ (A : Type) [CommSemiring A] (h : HashOrd) (al : Alloc A) (dims : ι → Nat) (operands : List (View A))
      (ts : List (List Nat → A)), operands.map View.shape = inputs.map (fun ix => ix.map dims) →
      List.Forall₂ Elements operands ts → (∀ ix ∈ inputs, ix.Nodup ∨ ∀ c ∈ ix, dims c ≠ 0) →
      ∃ r, einsum h al s operands = .ok (.ok r) ∧ IsSum dims inputs ts out r := by
  obtain ⟨s, f, hf, hd⟩ := (C98_string_iff inputs out).2 hx
  have hf : ∀ a ∈ inputs.flatten, ∀ b ∈ inputs.flatten, f a = f b → a = b := fun a ha b hb =>
    hf a (List.mem_append_left _ ha) b (List.mem_append_left _ hb)
  refine ⟨s, fun A _ h al dims operands ts hs he hn => ?_⟩
  obtain ⟨r, r1, r2⟩ := C13_einsum h al s operands _ _ _ ts ⟨hd, hs ▸ sized_renamed hf dims, he⟩ (ned_renamed hf hn)
  exact ⟨r, r1, isSum_of_renamed hx.2.2.2.2 hf r2⟩

/-- C98: a sized contraction built by hand computes any contraction with at most as many labels as there are characters. -/
theorem C98_hand (inputs : List (List ι)) (out : List ι) (h1 : inputs ≠ []) (h2 : inputs.flatten.dedup.length ≤ 1112064)
    (h3 : OutputFits inputs out) (dims : ι → Nat) :
    ∃ sc : SizedContraction, ∀ (A : Type) [CommSemiring A] (h : HashOrd) (al : Alloc A) (operands : List (View A))
      (ts : List (List Nat → A)), operands.map View.shape = inputs.map (fun ix => ix.map dims) →
      List.Forall₂ Elements operands ts → (∀ ix ∈ inputs, ix.Nodup ∨ ∀ c ∈ ix, dims c ≠ 0) →
      ∃ r, sc.contractOperands h al operands = .ok r ∧ IsSum dims inputs ts out r := by
  have hf := numbered_inj (g := nthChar) (fun i hi j hj => nthChar_inj hi hj) h2
  generalize hfd : (fun c => nthChar (inputs.flatten.dedup.idxOf c)) = f
  have hf : ∀ a ∈ inputs.flatten, ∀ b ∈ inputs.flatten, f a = f b → a = b := by
    subst hfd
    exact hf
  refine ⟨⟨⟨inputs.map fun ix => ix.map f, out.map f, []⟩, fun c => some (pushed f inputs.flatten dims c)⟩,
    fun A _ h al operands ts hs he hn => ?_⟩
  obtain ⟨r, r1, r2⟩ := C51_sum h al ⟨⟨inputs.map fun ix => ix.map f, out.map f, []⟩, fun c => some (pushed f inputs.flatten dims c)⟩
    (pushed f inputs.flatten dims) operands ts (by simpa using h1) (output_renamed hf h3) (fun _ _ => rfl)
    (hs ▸ sized_renamed hf dims) he (ned_renamed hf hn)
  exact ⟨r, r1, isSum_of_renamed h3.2 hf r2⟩

end

/-- C98: a call with a zero-dimensional operand is rejected, whatever the string. -/
theorem C98_number [Zero A] [Add A] [Mul A] [MulAdd A] (h : HashOrd) (al : Alloc A) (s : String) (operands : List (View A))
    (v : View A) (hv : v ∈ operands) (h0 : v.shape = []) : ∃ e, einsum h al s operands = .ok (.error e) := by
  unfold einsum
  cases hs : validateAndSize (h.sub 0) s operands with
  | error e => exact ⟨e, rfl⟩
  | ok sc =>
    obtain ⟨inputs, out, dims, hd, hz, -⟩ := fromStringAndShapes_iff.1 hs
    obtain ⟨i, hi, e⟩ := List.mem_iff_getElem.1 (List.mem_map.2 ⟨v, hv, rfl⟩ : v.shape ∈ operands.map View.shape)
    have hl := List.Forall₂.length_eq hz
    have h1 := List.Forall₂.get hz (by omega) hi
    have h2 := (hd.inputs_ne.2 (inputs[i]'(by omega)) (List.getElem_mem _)).1
    simp only [List.get_eq_getElem, e, h0] at h1
    exact absurd (List.map_eq_nil_iff.1 h1.symm) h2

/-! ## The hypotheses are met -/

/-- Numbers as labels: the transpose of a matrix product. -/
example : Expressible [[10, 20], [20, 30]] [30, 10] := by
  refine ⟨by decide, by decide, by decide, by decide, by decide⟩

/-- 27 labels are one too many for a string. -/
example : ¬ Expressible [List.range 27] [] := fun h => absurd h.2.2.1 (by decide)

/-- But not for a sized contraction. -/
example : (([List.range 27] : List (List Nat)).flatten.dedup.length ≤ 1112064) ∧ OutputFits [List.range 27] [] := by
  refine ⟨by decide, by decide, by simp⟩

/-- A number times a vector. -/
example : ¬ Expressible [[0], []] [0] ∧ OutputFits [[0], []] [0] :=
  ⟨fun h => h.2.1 [] (by simp) rfl, by decide, by decide⟩

/-- The two operands of that product. -/
example : ([⟨[2, 3], 0, [2], [1]⟩, ⟨[5], 0, [], []⟩] : List (View Int)).map View.shape =
    [[0], []].map (fun ix => ix.map fun _ : Nat => 2) := rfl

example : List.Forall₂ Elements ([⟨[2, 3], 0, [2], [1]⟩, ⟨[5], 0, [], []⟩] : List (View Int))
    [fun idx => if idx = [0] then 2 else 3, fun _ => 5] :=
  .cons (elements_of rfl (by decide)) (.cons (elements_of rfl (by decide)) .nil)

end Einsum
