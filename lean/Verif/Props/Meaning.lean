import Verif.SpecMeaning
import Verif.Props.Messages
import Verif.Props.Textbook

/-!
# C109: When two strings mean the same
-/

namespace Einsum
open Spec

/-! ## Renamings from equal positions -/

theorem exists_renaming {L L' : List Char} (hl : L.length = L'.length)
    (h : ∀ i j (hi : i < L.length) (hj : j < L.length), L[i] = L[j] ↔ L'[i] = L'[j]) :
    ∃ f : Char → Char, (∀ a ∈ L, ∀ b ∈ L, f a = f b → a = b) ∧ L' = L.map f := by
  have hf : ∀ c ∈ L, ∃ (h1 : L.idxOf c < L.length) (h2 : L.idxOf c < L'.length), L[L.idxOf c] = c ∧
      L'.getD (L.idxOf c) c = L'[L.idxOf c] := fun c hc => by
    have h1 : L.idxOf c < L.length := List.idxOf_lt_length_iff.2 hc
    exact ⟨h1, hl ▸ h1, by simp, by simp [List.getD, hl ▸ h1]⟩
  refine ⟨fun c => L'.getD (L.idxOf c) c, fun a ha b hb e => ?_, ?_⟩
  · obtain ⟨a1, a2, a3, a4⟩ := hf a ha
    obtain ⟨b1, b2, b3, b4⟩ := hf b hb
    rw [← a3, ← b3]
    exact (h _ _ a1 b1).2 (a4.symm.trans (e.trans b4))
  · refine List.ext_getElem (by simp [hl]) fun i h1 h2 => ?_
    have hi : i < L.length := by omega
    obtain ⟨a1, a2, a3, a4⟩ := hf L[i] (by simp)
    rw [List.getElem_map, a4]
    exact ((h _ _ a1 hi).1 a3).symm

/-- If every vector of zeros and ones that is constant on the letters of `L` is constant on those of `L'`, equal letters
of `L'` are at positions of equal letters of `L`. -/
theorem equal_of_fits {L L' : List Char} (hl : L.length = L'.length)
    (h : ∀ τ : Char → Nat, (∀ c, τ c < 2) → ∃ τ' : Char → Nat, L'.map τ' = L.map τ) (i j : Nat) (hi : i < L.length)
    (hj : j < L.length) (e : L'[i] = L'[j]) : L[i] = L[j] := by
  obtain ⟨τ', h1⟩ := h (fun c => if c = L[i] then 1 else 0) fun c => by split <;> decide
  have hg : ∀ k (hk : k < L.length), τ' (L'[k]'(hl ▸ hk)) = if L[k] = L[i] then 1 else 0 := fun k hk => by
    have h2 := congrArg (fun l => l[k]?) h1
    simpa [hl ▸ hk, hk] using h2
  have h2 := hg i hi
  rw [e, hg j hj, if_pos rfl] at h2
  by_contra hne
  rw [if_neg fun e => hne e.symm] at h2
  exact absurd h2 (by decide)

section
variable {A : Type} [CommSemiring A]

/-- A unit array with axes of length two. -/
def unitTwo (A : Type) [CommSemiring A] (τ : Char → Nat) (ix : List Char) : View A :=
  (Alloc.rowMajor A).make [] (ix.map fun _ => 2) ((allIdx (ix.map fun _ => 2)).map (Spec.unit (ix.map τ)))

theorem unitTwo_holds (τ : Char → Nat) (ix : List Char) :
    Holds (unitTwo A τ ix) (ix.map fun _ => 2) (Spec.unit (ix.map τ)) := (Alloc.rowMajor A).holds _ _ _

theorem unitTwo_elements (τ : Char → Nat) (inputs : List (List Char)) :
    List.Forall₂ Elements (inputs.map (unitTwo A τ)) ((inputs.map fun ix => ix.map τ).map Spec.unit) := by
  rw [List.map_map]
  exact List.forall₂_map_left_iff.2 (List.forall₂_map_right_iff.2
    (List.forall₂_same.2 fun ix _ => (unitTwo_holds τ ix).elements))

theorem unitTwo_sized {inputs inputs' : List (List Char)} (hl : inputs.map List.length = inputs'.map List.length)
    (τ : Char → Nat) : Sized (fun _ => 2) inputs' ((inputs.map (unitTwo A τ)).map View.shape) := by
  have h1 : (inputs.map (unitTwo A τ)).map View.shape = inputs'.map fun ix => ix.map fun _ => 2 := by
    have h2 : ∀ l : List (List Char), (l.map fun ix => ix.map fun _ => 2) =
        (l.map List.length).map fun n => List.replicate n 2 := fun l => by
      rw [List.map_map]
      exact List.map_congr_left fun ix _ => by simp [List.map_const']
    rw [h2, ← hl, ← h2, List.map_map]
    exact List.map_congr_left fun ix _ => (unitTwo_holds τ ix).1
  rw [h1]
  exact List.forall₂_map_right_iff.2 (List.forall₂_same.2 fun ix _ => rfl)

theorem two_ned (inputs : List (List Char)) : NoEmptyDiagonal (fun _ => 2) inputs := fun _ _ => .inr fun _ _ => two_ne_zero

theorem fits_of_agree [Nontrivial A] {s s' : String} {inputs inputs' : List (List Char)} {out out' : List Char}
    (hd : Denotes s inputs out) (hd' : Denotes s' inputs' out') (hl : inputs.map List.length = inputs'.map List.length)
    (h h' : HashOrd) (al al' : Alloc A)
    (hag : ∀ operands : List (View A), (∀ v ∈ operands, (∃ e, Elements v (Spec.unit e)) ∧ ∀ n ∈ v.shape, n = 2) → ∀ w w',
      einsum h al s operands = .ok (.ok w) → einsum h' al' s' operands = .ok (.ok w') → SameArray w w')
    (τ : Char → Nat) (hτ : ∀ c, τ c < 2) :
    ∃ τ' : Char → Nat, inputs'.map (fun ix => ix.map τ') = inputs.map (fun ix => ix.map τ) ∧ out'.map τ' = out.map τ := by
  obtain ⟨w, h1, h2, h3⟩ := C76_units h al s (inputs.map (unitTwo A τ)) inputs out (fun _ => 2)
    (inputs.map fun ix => ix.map τ) ⟨hd, unitTwo_sized rfl τ, unitTwo_elements τ inputs⟩ (two_ned _)
  obtain ⟨w', h1', h2', h3'⟩ := C76_units h' al' s' (inputs.map (unitTwo A τ)) inputs' out' (fun _ => 2)
    (inputs.map fun ix => ix.map τ) ⟨hd', unitTwo_sized hl τ, unitTwo_elements τ inputs⟩ (two_ned _)
  have hs := hag _ (fun v hv => by
    obtain ⟨ix, -, rfl⟩ := List.mem_map.1 hv
    refine ⟨⟨_, (unitTwo_holds τ ix).elements⟩, fun n hn => ?_⟩
    rw [(unitTwo_holds τ ix).1] at hn
    obtain ⟨-, -, rfl⟩ := List.mem_map.1 hn
    rfl) w w' h1 h1'
  have hi : InB (out.map fun _ => 2) (out.map τ) := InB_map.2 fun c _ => hτ c
  have hr := (h3 _ hi).1 ⟨τ, fun c _ => hτ c, rfl, rfl⟩
  rw [← h2] at hi
  rw [hs.2.2.2 _ hi] at hr
  rw [hs.2.2.1, h2'] at hi
  by_contra hne
  rw [(h3' _ hi).2 fun ⟨τ', _, a, b⟩ => hne ⟨τ', a, b⟩] at hr
  exact zero_ne_one (Except.ok.inj hr)

/-- C109: if two strings for the same numbers of axes give the same arrays for all operands with axes of length two that
have a single one and otherwise zeros, they differ only in the names of their letters. -/
theorem C109_distinguished [Nontrivial A] (s s' : String) (inputs inputs' : List (List Char)) (out out' : List Char)
    (hd : Denotes s inputs out) (hd' : Denotes s' inputs' out') (hl : inputs.map List.length = inputs'.map List.length)
    (h h' : HashOrd) (al al' : Alloc A)
    (hag : ∀ operands : List (View A), (∀ v ∈ operands, (∃ e, Elements v (Spec.unit e)) ∧ ∀ n ∈ v.shape, n = 2) → ∀ w w',
      einsum h al s operands = .ok (.ok w) → einsum h' al' s' operands = .ok (.ok w') → SameArray w w') :
    Renamed inputs out inputs' out' := by
  have h1 := fits_of_agree hd hd' hl h h' al al' hag
  have h2 := fits_of_agree hd' hd hl.symm h' h al' al fun ops ho w w' e e' => by
    obtain ⟨a, b, c, d⟩ := hag ops ho w' w e' e
    exact ⟨b, a, c.symm, fun idx hi => (d idx (c ▸ hi)).symm⟩
  have hlo : out.length = out'.length := by
    obtain ⟨τ', -, h3⟩ := h1 (fun _ => 0) fun _ => by decide
    have := congrArg List.length h3
    simpa using this.symm
  have hlf : inputs.flatten.length = inputs'.flatten.length := by rw [List.length_flatten, List.length_flatten, hl]
  have hll : (inputs.flatten ++ out).length = (inputs'.flatten ++ out').length := by
    rw [List.length_append, List.length_append, hlf, hlo]
  have flat : ∀ {l l' : List (List Char)} {o o' : List Char} {τ τ' : Char → Nat},
      l'.map (fun ix => ix.map τ') = l.map (fun ix => ix.map τ) → o'.map τ' = o.map τ →
      (l'.flatten ++ o').map τ' = (l.flatten ++ o).map τ := fun e e' => by
    rw [List.map_append, List.map_append, List.map_flatten, List.map_flatten, e, e']
  obtain ⟨f, hf, hL⟩ := exists_renaming hll fun i j hi hj =>
    ⟨equal_of_fits hll.symm (fun τ hτ => by
        obtain ⟨τ', a, b⟩ := h2 τ hτ
        exact ⟨τ', flat a b⟩) i j (hll ▸ hi) (hll ▸ hj),
      equal_of_fits hll (fun τ hτ => by
        obtain ⟨τ', a, b⟩ := h1 τ hτ
        exact ⟨τ', flat a b⟩) i j hi hj⟩
  rw [List.map_append] at hL
  obtain ⟨e1, e2⟩ := List.append_inj hL (by rw [List.length_map, hlf])
  refine ⟨f, fun a b ha hb => hf a (by simp [used_iff.1 ha]) b (by simp [used_iff.1 hb]), ?_, e2⟩
  refine List.eq_iff_flatten_eq.2 ⟨by rw [e1, List.map_flatten], ?_⟩
  rw [← hl, List.map_map]
  exact List.map_congr_left fun ix _ => by simp

/-! ## Calls that are rejected -/

omit [CommSemiring A] in
theorem einsum_error_iff [Zero A] [Add A] [Mul A] [MulAdd A] (h : HashOrd) (al : Alloc A) (s : String)
    (operands : List (View A)) (e : String) : einsum h al s operands = .ok (.error e) ↔
      SizedContraction.fromStringAndShapes (h.sub 0) s (operands.map View.shape) = .error e := by
  show _ ↔ validateAndSize (h.sub 0) s operands = .error e
  unfold einsum
  cases validateAndSize (h.sub 0) s operands with
  | error e' => simp
  | ok sc => cases hg : sc.contractOperands (h.sub 1) al operands <;> simp [hg, bind, Except.bind, pure, Except.pure]

theorem sized_renamed_iff {inputs : List (List Char)} {f : Char → Char}
    (hf : ∀ a ∈ inputs.flatten, ∀ b ∈ inputs.flatten, f a = f b → a = b) (shapes : List (List Nat)) :
    (∃ dims, Sized dims (inputs.map fun ix => ix.map f) shapes) ↔ ∃ dims, Sized dims inputs shapes := by
  classical
  constructor
  · rintro ⟨dims, hs⟩
    refine ⟨dims ∘ f, ?_⟩
    unfold Sized at hs ⊢
    rw [List.forall₂_map_left_iff] at hs
    exact hs.imp fun ix sh e => by rw [e, List.map_map]
  · rintro ⟨dims, hs⟩
    let dims' : Char → Nat := fun c => if hx : ∃ b ∈ inputs.flatten, f b = c then dims hx.choose else 0
    have hdim : ∀ c ∈ inputs.flatten, dims' (f c) = dims c := by
      intro c hc
      have hx : ∃ b ∈ inputs.flatten, f b = f c := ⟨c, hc, rfl⟩
      simp only [dims', dif_pos hx]
      rw [hf _ hx.choose_spec.1 c hc hx.choose_spec.2]
    refine ⟨dims', ?_⟩
    unfold Sized at hs ⊢
    rw [List.forall₂_map_left_iff]
    rw [List.forall₂_iff_zip] at hs ⊢
    refine ⟨hs.1, fun {ix sh} hm => ?_⟩
    rw [hs.2 hm, List.map_map]
    exact List.map_congr_left fun c hc => (hdim c (List.mem_flatten.2 ⟨ix, (List.of_mem_zip hm).1, hc⟩)).symm

theorem rejected_renamed {s s' : String} {inputs : List (List Char)} {out : List Char} {f : Char → Char}
    (hd : Denotes s inputs out) (hd' : Denotes s' (inputs.map fun ix => ix.map f) (out.map f))
    (hf : ∀ a ∈ inputs.flatten, ∀ b ∈ inputs.flatten, f a = f b → a = b) (shapes : List (List Nat))
    (hn : ¬ ∃ dims, Sized dims inputs shapes) :
    ∃ e, ∀ h h', SizedContraction.fromStringAndShapes h s shapes = .error e ∧
      SizedContraction.fromStringAndShapes h' s' shapes = .error e := by
  by_cases hl : inputs.length = shapes.length
  · obtain ⟨k, ix, sh, k1, k2, k3, k4⟩ := first_misfit hl hn
    have hp : ∀ n, (∃ dims, Sized dims ((inputs.map fun ix => ix.map f).take n) (shapes.take n)) ↔
        ∃ dims, Sized dims (inputs.take n) (shapes.take n) := fun n => by
      rw [← List.map_take]
      refine sized_renamed_iff (fun a ha b hb => hf a ?_ b ?_) _
      · obtain ⟨p, hp, hap⟩ := List.mem_flatten.1 ha
        exact List.mem_flatten.2 ⟨p, List.mem_of_mem_take hp, hap⟩
      · obtain ⟨p, hp, hap⟩ := List.mem_flatten.1 hb
        exact List.mem_flatten.2 ⟨p, List.mem_of_mem_take hp, hap⟩
    refine ⟨_, fun h h' => ⟨(C06_errors h s _ _ hd shapes).2 hl k ix sh k1 k2 k3 k4, ?_⟩⟩
    have := (C06_errors h' s' _ _ hd' shapes).2 (by simpa using hl) k (ix.map f) sh (by simp [k1]) k2 ((hp k).2 k3)
      fun hx => k4 ((hp _).1 hx)
    rw [this, List.length_map]
  · exact ⟨_, fun h h' => ⟨(C06_errors h s _ _ hd shapes).1 hl, (C06_errors h' s' _ _ hd' shapes).1 (by simpa using hl)⟩⟩

/-! ## The characterisation -/

/-- C109: two strings with the same letters up to renaming give the same outcome in every call. -/
theorem C109_same (s s' : String) (inputs inputs' : List (List Char)) (out out' : List Char)
    (hd : Denotes s inputs out) (hd' : Denotes s' inputs' out') (hr : Renamed inputs out inputs' out')
    (operands : List (View A)) (hw : ∀ v ∈ operands, v.Wf) (h h' : HashOrd) (al al' : Alloc A) :
    Agree (einsum h al s operands) (einsum h' al' s' operands) := by
  obtain ⟨f, hf, rfl, rfl⟩ := hr
  have hf' : ∀ a ∈ inputs.flatten, ∀ b ∈ inputs.flatten, f a = f b → a = b := fun a ha b hb =>
    hf a b (used_iff.2 ha) (used_iff.2 hb)
  by_cases hs : ∃ dims, Sized dims inputs (operands.map View.shape)
  · obtain ⟨dims, hs⟩ := hs
    rcases renamed_calls h h' al al' s s' operands inputs out dims f hd hs hw hf' hd' with hx | hx
    · exact .inr (.inr hx)
    · exact .inl hx
  · obtain ⟨e, he⟩ := rejected_renamed hd hd' hf' _ hs
    exact .inr (.inl ⟨e, (einsum_error_iff h al s operands e).2 (he _ (h'.sub 0)).1,
      (einsum_error_iff h' al' s' operands e).2 (he (h.sub 0) _).2⟩)

/-- C109: two strings give the same outcome in every call exactly if they differ only in the names of their letters. -/
theorem C109_iff [Nontrivial A] (s s' : String) (inputs inputs' : List (List Char)) (out out' : List Char)
    (hd : Denotes s inputs out) (hd' : Denotes s' inputs' out') :
    (∀ (operands : List (View A)), (∀ v ∈ operands, v.Wf) → ∀ (h h' : HashOrd) (al al' : Alloc A),
      Agree (einsum h al s operands) (einsum h' al' s' operands)) ↔ Renamed inputs out inputs' out' := by
  refine ⟨fun hag => ?_, fun hr operands hw h h' al al' => C109_same s s' _ _ _ _ hd hd' hr operands hw h h' al al'⟩
  have hl : inputs.map List.length = inputs'.map List.length := by
    have hw : ∀ v ∈ inputs.map (unitTwo A fun _ => 0), v.Wf := fun v hv => by
      obtain ⟨ix, -, rfl⟩ := List.mem_map.1 hv
      exact (unitTwo_holds _ ix).wf
    obtain ⟨w, h1, -, -⟩ := C76_units HashOrd.insertion (Alloc.rowMajor A) s (inputs.map (unitTwo A fun _ => 0)) inputs out
      (fun _ => 2) _ ⟨hd, unitTwo_sized rfl _, unitTwo_elements _ inputs⟩ (two_ned _)
    have hs : ∃ dims, Sized dims inputs' ((inputs.map (unitTwo A fun _ => 0)).map View.shape) := by
      by_contra hn
      obtain ⟨e, he⟩ := rejected_renamed (f := id) hd' (by simpa using hd') (fun _ _ _ _ e => e) _ hn
      have h2 := (einsum_error_iff HashOrd.insertion (Alloc.rowMajor A) s' _ e).2 (he _ (HashOrd.insertion.sub 0)).1
      rcases hag _ hw HashOrd.insertion HashOrd.insertion (Alloc.rowMajor A) (Alloc.rowMajor A) with
        ⟨r, r', -, e2, -⟩ | ⟨e, e1, -⟩ | ⟨⟨k, e1⟩, -⟩
      · rw [h2] at e2
        cases e2
      · rw [h1] at e1
        cases e1
      · rw [h1] at e1
        cases e1
    obtain ⟨dims, hs⟩ := hs
    unfold Sized at hs
    rw [List.map_map, List.forall₂_map_right_iff] at hs
    have h2 : List.Forall₂ (fun ix' ix : List Char => ix.length = ix'.length) inputs' inputs := hs.imp fun ix' ix e => by
      have e : View.shape (unitTwo A (fun _ => 0) ix) = ix'.map dims := e
      rw [(unitTwo_holds _ ix).1] at e
      simpa using congrArg List.length e
    have h3 : List.Forall₂ (· = ·) (inputs.map List.length) (inputs'.map List.length) :=
      List.forall₂_map_left_iff.2 (List.forall₂_map_right_iff.2 h2.flip)
    rwa [List.forall₂_eq_eq_eq] at h3
  refine C109_distinguished s s' _ _ _ _ hd hd' hl HashOrd.insertion HashOrd.insertion (Alloc.rowMajor A)
    (Alloc.rowMajor A) fun ops ho w w' e e' => ?_
  rcases hag ops (fun v hv => (ho v hv).1.elim fun _ h => h.1) HashOrd.insertion HashOrd.insertion (Alloc.rowMajor A) (Alloc.rowMajor A) with
    ⟨r, r', e1, e2, h3⟩ | ⟨_, e1, -⟩ | ⟨⟨k, e1⟩, -⟩
  · rw [e] at e1
    rw [e'] at e2
    cases e1; cases e2
    exact h3
  · rw [e] at e1
    cases e1
  · rw [e] at e1
    cases e1

end

/-! ## Examples -/

/-- The same matrix product with other letters. -/
example (operands : List (View Int)) (hw : ∀ v ∈ operands, v.Wf) (h h' : HashOrd) (al al' : Alloc Int) :
    Agree (einsum h al "ij,jk->ik" operands) (einsum h' al' "ab,bc" operands) :=
  C109_same "ij,jk->ik" "ab,bc" _ [['a', 'b'], ['b', 'c']] _ ['a', 'c'] Ex.denotes_matmul
    (.inr ⟨by decide, ⟨by simp, by simp [Letter], by simp⟩, by decide, fun c => by
      by_cases ha : c = 'a'
      · subst ha; decide
      · by_cases hb : c = 'b'
        · subst hb; decide
        · by_cases hc : c = 'c'
          · subst hc; decide
          · simp [ha, hc, Ne.symm ha, Ne.symm hb, Ne.symm hc]⟩)
    ⟨fun c => if c = 'i' then 'a' else if c = 'j' then 'b' else 'c', by
      rintro a b ⟨p, hp, ha⟩ ⟨q, hq, hb⟩
      simp only [List.mem_cons, List.not_mem_nil, or_false] at hp hq
      rcases hp with rfl | rfl <;> rcases hq with rfl | rfl <;> simp at ha hb <;>
        rcases ha with rfl | rfl <;> rcases hb with rfl | rfl <;> decide, by decide, by decide⟩ operands hw h h' al al'

/-- A matrix product and that with the transposed second operand give different arrays for some operands. -/
example : ¬ ∀ (operands : List (View Int)), (∀ v ∈ operands, v.Wf) → ∀ (h h' : HashOrd) (al al' : Alloc Int),
    Agree (einsum h al "ij,jk->ik" operands) (einsum h' al' "ij,kj->ik" operands) := fun hag => by
  obtain ⟨f, hf, h1, h2⟩ := (C109_iff "ij,jk->ik" "ij,kj->ik" _ [['i', 'j'], ['k', 'j']] _ ['i', 'k'] Ex.denotes_matmul
    (.inl ⟨by decide, ⟨by simp, by simp [Letter], by simp [Letter]⟩, by simp [OutputOk, Used]⟩)).1 hag
  simp only [List.map_cons, List.map_nil, List.cons.injEq, and_true] at h1
  exact absurd (h1.1.2.trans h1.2.1.symm) (by decide)

end Einsum
