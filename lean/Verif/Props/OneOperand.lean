import Verif.Props.Inside

/-!
# Property C85: inside a one-operand call
-/

namespace Einsum

open Spec Function

variable {L o : List Char} {dims : Char → Nat}

section
variable {A : Type} [Zero A] [Add A]

theorem sums_inTurn {t : Nat → SumTree} (a b : List Char) {al : Alloc A} (ht : ∀ p n, al.sumOrder p n = t n)
    (F : (Char → Nat) → A) : sums dims a b al F = inTurn t dims b F := by
  induction b generalizing al F with
  | nil => rfl
  | cons c b ih =>
    rw [sums, ih (al := al.sub 1) (fun p n => ht (1 :: p) n), inTurn]
    simp only [ht]

theorem inTurn_append (t : Nat → SumTree) (b b' : List Char) (F : (Char → Nat) → A) :
    inTurn t dims (b ++ b') F = inTurn t dims b' (inTurn t dims b F) := by
  induction b generalizing F with
  | nil => rfl
  | cons c b ih => exact ih _

/-- The sums depend on the elements at the letters in range only. -/
theorem inTurn_congr {t : Nat → SumTree} {a b : List Char} {F G : (Char → Nat) → A}
    (h : ∀ σ, InRange dims (a ++ b) σ → F σ = G σ) : ∀ σ, InRange dims a σ → inTurn t dims b F σ = inTurn t dims b G σ := by
  induction b generalizing F G with
  | nil => simpa [inTurn] using h
  | cons c b ih =>
    refine ih fun σ hσ => ?_
    congr 1
    refine List.map_congr_left fun k hk => h _ fun d hd => ?_
    by_cases hdc : d = c
    · subst hdc
      simpa using hk
    · rw [update_of_ne hdc]
      apply hσ
      simp only [List.mem_append, List.mem_cons] at hd ⊢
      tauto

end

section
variable {A : Type} [Zero A] [Add A] [Mul A] [MulAdd A] {v : View A} {T : List Nat → A}

/-- A one-operand call is the step compiled for it. -/
theorem one_run (ho : OutputOk [L] o) {p : SingletonContraction} (hp : SingletonContraction.new (callSC [L] o dims) = .ok p)
    (h : HashOrd) (al : Alloc A) (v : View A) : (callSC [L] o dims).contractOperands h al [v] = p.op.run al v := by
  unfold SizedContraction.contractOperands
  rw [new_one _ ho, hp]
  rfl

/-- C85: the letters that are not in the output are summed one after the other, in order of first appearance. -/
theorem C85_sums (ho : OutputOk [L] o) (hp : L.Nodup ∨ ∀ c ∈ L, dims c ≠ 0) (h : HashOrd) (al : Alloc A)
    (el : Elements v T) (sl : v.shape = L.map dims) :
    ∃ w, (callSC [L] o dims).contractOperands h al [v] = .ok w ∧
      Rep w o dims (sums dims o (fresh o L) (if L.Nodup then al else al.sub 1) fun σ => T (L.map σ)) := by
  obtain ⟨p, h1, h2⟩ := singletonT (callSC_valid (dims := dims) ho) (L := L) rfl
  obtain ⟨w, h3, h4⟩ := h2 A al v _ (rep_of el sl) el.1 (hp.imp_right prod_dims_pos)
  exact ⟨w, by rw [one_run ho h1, h3], h4⟩

/-- C85: without letters to sum, the elements are copied. -/
theorem C85_copies (ho : OutputOk [L] o) (hp : L.Nodup ∨ ∀ c ∈ L, dims c ≠ 0) (hL : ∀ c ∈ L, c ∈ o) (h : HashOrd)
    (al : Alloc A) (el : Elements v T) (sl : v.shape = L.map dims) :
    ∃ w, (callSC [L] o dims).contractOperands h al [v] = .ok w ∧ Rep w o dims fun σ => T (L.map σ) := by
  have e : fresh o L = [] := List.eq_nil_iff_forall_not_mem.2 fun c hc => (mem_fresh.1 hc).2 (hL c (mem_fresh.1 hc).1)
  have := C85_sums ho hp h al el sl
  rwa [e] at this

/-- C85: the letters summed, in their order: each letter of the operand that is not in the output, once; first appearances
first. -/
theorem C85_order (o L : List Char) : (fresh o L).Nodup ∧ (∀ c, c ∈ fresh o L ↔ c ∈ L ∧ c ∉ o) ∧
    (∀ a b : List Char, L = a ++ b → ∀ c d, c ∈ fresh o a → d ∈ fresh o L → d ∉ a →
      ∃ x y z, fresh o L = x ++ c :: y ++ d :: z) ∧
    (L.Nodup → fresh o L = L.filter fun c => c ∉ o) := by
  refine ⟨nodup_fresh, fun c => mem_fresh, ?_, fresh_of_nodup⟩
  rintro a b rfl c d hc hd hda
  have key : ∀ (a seen : List Char), ∃ s, fresh seen (a ++ b) = fresh seen a ++ s := by
    intro a
    induction a with
    | nil => exact fun seen => ⟨_, rfl⟩
    | cons x a ih =>
      intro seen
      simp only [List.cons_append, fresh]
      split
      · exact ih seen
      · obtain ⟨s, hs⟩ := ih (seen ++ [x])
        exact ⟨s, by rw [hs]; rfl⟩
  obtain ⟨s, hs⟩ := key a o
  rw [hs] at hd ⊢
  have hds : d ∈ s := (List.mem_append.1 hd).resolve_left fun h => hda (mem_fresh.1 h).1
  obtain ⟨x, y, e1⟩ := List.append_of_mem hc
  obtain ⟨x', y', e2⟩ := List.append_of_mem hds
  exact ⟨x, y ++ x', y', by rw [e1, e2]; simp⟩

/-- C85: the outcome does not depend on the hash order. -/
theorem C85_hash (ho : OutputOk [L] o) (h h' : HashOrd) (al : Alloc A) (v : View A) :
    (callSC [L] o dims).contractOperands h al [v] = (callSC [L] o dims).contractOperands h' al [v] := by
  unfold SizedContraction.contractOperands
  rw [new_one _ ho, new_one _ ho]

/-- C85, for the function `einsum`. -/
theorem C85_hash_einsum {s : String} (hd : Denotes s [L] o) (hs : Sized dims [L] [v.shape]) (h h' : HashOrd) (al : Alloc A) :
    einsum h al s [v] = einsum h' al s [v] := by
  rw [C84_einsum hd hs, C84_einsum hd hs, C85_hash hd.outputOk (h.sub 1) (h'.sub 1)]

/-- C85: if the order of an addition depends on the number of terms only, the order of the output letters does not matter
for the elements. -/
theorem C85_permuted {o' : List Char} (ho : OutputOk [L] o) (hop : o.Perm o') (hp : L.Nodup ∨ ∀ c ∈ L, dims c ≠ 0)
    (h : HashOrd) (al al' : Alloc A) (t : Nat → SumTree) (ht : ∀ p n, al.sumOrder p n = t n)
    (ht' : ∀ p n, al'.sumOrder p n = t n) (el : Elements v T) (sl : v.shape = L.map dims) :
    ∃ w w', (callSC [L] o dims).contractOperands h al [v] = .ok w ∧
      (callSC [L] o' dims).contractOperands h al' [v] = .ok w' ∧
      ∀ σ, InRange dims o σ → w.read (o.map σ) = w'.read (o'.map σ) := by
  have ho' : OutputOk [L] o' := ⟨hop.nodup_iff.1 ho.1, fun c hc => ho.2 c (hop.mem_iff.2 hc)⟩
  obtain ⟨w, w1, w2⟩ := C85_sums ho hp h al el sl
  obtain ⟨w', w3, w4⟩ := C85_sums ho' hp h al' el sl
  refine ⟨w, w', w1, w3, fun σ hσ => ?_⟩
  rw [w2.get σ hσ, w4.get σ fun c hc => hσ c (hop.mem_iff.2 hc), sums_inTurn _ _ (t := t), sums_inTurn _ _ (t := t),
    fresh_congr (s := o) (s' := o') fun c _ => hop.mem_iff]
  · split <;> simp [Alloc.sub, ht']
  · split <;> simp [Alloc.sub, ht]

/-- C85: summing a first part of these letters by one call and the others by a second call is the same computation. -/
theorem C85_in_turn {b b' : List Char} (ho : OutputOk [L] o) (hb : fresh o L = b ++ b') (hp : L.Nodup ∨ ∀ c ∈ L, dims c ≠ 0)
    (h : HashOrd) (al al₁ al₂ : Alloc A) (t : Nat → SumTree) (ht : ∀ p n, al.sumOrder p n = t n)
    (ht₁ : ∀ p n, al₁.sumOrder p n = t n) (ht₂ : ∀ p n, al₂.sumOrder p n = t n) (el : Elements v T)
    (sl : v.shape = L.map dims) :
    ∃ w w₁ w₂, (callSC [L] o dims).contractOperands h al [v] = .ok w ∧
      (callSC [L] (o ++ b') dims).contractOperands h al₁ [v] = .ok w₁ ∧
      (callSC [o ++ b'] o dims).contractOperands h al₂ [w₁] = .ok w₂ ∧
      ∀ σ, InRange dims o σ → w.read (o.map σ) = w₂.read (o.map σ) := by
  have hnf : (b ++ b').Nodup := hb ▸ nodup_fresh
  have hmf : ∀ c, c ∈ b ++ b' ↔ c ∈ L ∧ c ∉ o := fun c => by rw [← hb]; exact mem_fresh
  have hn : (o ++ b').Nodup := by
    refine List.nodup_append.2 ⟨ho.1, (List.nodup_append.1 hnf).2.1, fun x hx y hy => ?_⟩
    rintro rfl
    exact ((hmf x).1 (List.mem_append.2 (.inr hy))).2 hx
  have ho₁ : OutputOk [L] (o ++ b') := ⟨hn, fun c hc => by
    rcases List.mem_append.1 hc with hc | hc
    · exact ho.2 c hc
    · exact used_iff.2 (by simpa using ((hmf c).1 (List.mem_append.2 (.inr hc))).1)⟩
  have ho₂ : OutputOk [o ++ b'] o := ⟨ho.1, fun c hc => used_iff.2 (by simp [hc])⟩
  have e₂ : fresh o (o ++ b') = b' := by
    rw [fresh_of_nodup hn, List.filter_append, List.filter_eq_nil_iff.2 (by simp), List.filter_eq_self.2 (fun c hc => by
      simpa using ((hmf c).1 (List.mem_append.2 (.inr hc))).2), List.nil_append]
  have e₁ : fresh (o ++ b') L = b := by
    have key : ∀ (L seen b b' : List Char), (b ++ b').Nodup → fresh seen L = b ++ b' → fresh (seen ++ b') L = b := by
      intro L
      induction L with
      | nil =>
        intro seen b b' _ e
        have := List.append_eq_nil_iff.1 (show b ++ b' = [] from e.symm)
        simp [fresh, this.1]
      | cons x L ih =>
        intro seen b b' hn e
        unfold fresh at e ⊢
        by_cases hx : x ∈ seen
        · rw [if_pos hx] at e
          rw [if_pos (by simp [hx])]
          exact ih _ _ _ hn e
        · rw [if_neg hx] at e
          cases b with
          | nil =>
            rw [List.nil_append] at e
            have hxb : x ∈ b' := by rw [← e]; simp
            rw [if_pos (by simp [hxb])]
            refine List.eq_nil_iff_forall_not_mem.2 fun c hc => ?_
            obtain ⟨c1, c2⟩ := mem_fresh.1 hc
            by_cases hcx : c = x
            · subst hcx
              exact c2 (by simp [hxb])
            · refine c2 (List.mem_append.2 (.inr ?_))
              rw [← e]
              refine List.mem_cons_of_mem _ (mem_fresh.2 ⟨c1, ?_⟩)
              simp only [List.mem_append, not_or, List.mem_singleton]
              exact ⟨fun hs => c2 (by simp [hs]), hcx⟩
          | cons y b =>
            rw [List.cons_append] at e
            obtain ⟨rfl, e'⟩ := List.cons.inj e
            rw [List.cons_append] at hn
            obtain ⟨n1, n2⟩ := List.nodup_cons.1 hn
            have hxb : x ∉ b' := fun hm => n1 (List.mem_append.2 (.inr hm))
            rw [if_neg (by simp [hx, hxb])]
            congr 1
            rw [← ih (seen ++ [x]) b b' n2 e']
            exact fresh_congr fun c _ => by simp; tauto
    exact key L o b b' hnf hb
  obtain ⟨w, w1, w2⟩ := C85_sums ho hp h al el sl
  obtain ⟨w₁, w3, w4⟩ := C85_sums ho₁ hp h al₁ el sl
  rw [hb, sums_inTurn (t := t) _ _ (by split <;> simp [Alloc.sub, ht])] at w2
  rw [e₁, sums_inTurn (t := t) _ _ (by split <;> simp [Alloc.sub, ht₁])] at w4
  obtain ⟨w₂, w5, w6⟩ := C85_sums (dims := dims) ho₂ (.inl hn) h al₂ (w4.holds hn).elements w4.shape
  rw [e₂, sums_inTurn (t := t) _ _ (by simp [hn, ht₂])] at w6
  refine ⟨w, w₁, w₂, w1, w3, w5, fun σ hσ => ?_⟩
  rw [w2.get σ hσ, w6.get σ hσ, inTurn_append]
  exact congrArg _ (inTurn_congr (a := o) (fun τ hτ => (w4.agree_assign hτ).symm) σ hσ)

end

/-! ## Examples -/

namespace Ex

/-- The matrix `big2`, transposed. -/
def big2t : View Fl := ⟨[⟨1⟩, ⟨1 + 2⁻¹ ^ 52⟩, ⟨-1⟩, ⟨0⟩], 0, [2, 2], [1, 2]⟩

theorem den_sum : Denotes "ba->" [['b', 'a']] [] :=
  .inl ⟨by decide, ⟨by simp, by simp [Letter], by simp [Letter]⟩, by simp [OutputOk, Used]⟩

theorem den_sum' : Denotes "ab->" [['a', 'b']] [] :=
  .inl ⟨by decide, ⟨by simp, by simp [Letter], by simp [Letter]⟩, by simp [OutputOk, Used]⟩

end Ex

/-- C85: the order of the letters of the operand does matter: a matrix and its transpose, with their letters exchanged, need
not have the same sum bit for bit. -/
theorem C85_transpose_differs (h : HashOrd) : ∃ r r', einsum h (Alloc.rowMajor Fl) "ba->" [Ex.big2] = .ok (.ok r) ∧
    r.read [] = .ok ⟨1 + 2⁻¹ ^ 52⟩ ∧ einsum h (Alloc.rowMajor Fl) "ab->" [Ex.big2t] = .ok (.ok r') ∧
    r'.read [] = .ok ⟨1 + 2⁻¹ ^ 51⟩ ∧ ∀ i j, i < 2 → j < 2 → Ex.big2.read [i, j] = Ex.big2t.read [j, i] := by
  have w1 : Ex.big2.Wf := (elements_of (t := Ex.big2.elem) rfl (by decide +kernel)).1
  have w2 : Ex.big2t.Wf := (elements_of (t := Ex.big2t.elem) rfl (by decide +kernel)).1
  obtain ⟨r, r1, r2⟩ := C85_sums (dims := Ex.dz) Ex.den_sum.outputOk (.inl (by decide)) (h.sub 1)
    (Alloc.rowMajor Fl) w1.elements rfl
  obtain ⟨r', r3, r4⟩ := C85_sums (dims := Ex.dz) Ex.den_sum'.outputOk (.inl (by decide)) (h.sub 1)
    (Alloc.rowMajor Fl) w2.elements rfl
  refine ⟨r, r', ?_, ?_, ?_, ?_, ?_⟩
  · rw [C84_einsum (operands := [Ex.big2]) Ex.den_sum (dims := Ex.dz) (.cons rfl .nil), r1]
    rfl
  · rw [← show ([] : List Char).map (fun _ => 0) = [] from rfl, r2.get (fun _ => 0) (by simp [InRange])]
    congr 1
    decide +kernel
  · rw [C84_einsum (operands := [Ex.big2t]) Ex.den_sum' (dims := Ex.dz) (.cons rfl .nil), r3]
    rfl
  · rw [← show ([] : List Char).map (fun _ => 0) = [] from rfl, r4.get (fun _ => 0) (by simp [InRange])]
    congr 1
    decide +kernel
  · intro i j hi hj
    obtain rfl | rfl : i = 0 ∨ i = 1 := by omega
    all_goals obtain rfl | rfl : j = 0 ∨ j = 1 := by omega
    all_goals rfl

namespace Ex

/-- The numbers `0, …, 11` in the shape `[2, 2, 3]`. -/
def m223d : View Int := ⟨[0, 1, 2, 3, 4, 5, 6, 7, 8, 9, 10, 11], 0, [2, 2, 3], [6, 3, 1]⟩

theorem e223d : Elements m223d m223d.elem := elements_of rfl (by decide)

end Ex

/-- `iij->`: first the letter `i` is summed on the diagonal, then `j`. -/
example (h : HashOrd) (al : Alloc Int) : ∃ w, (callSC [['i', 'i', 'j']] [] Ex.dims).contractOperands h al [Ex.m223d] = .ok w ∧
    Rep w [] Ex.dims (sums Ex.dims [] ['i', 'j'] (al.sub 1) fun σ => Ex.m223d.elem [σ 'i', σ 'i', σ 'j']) :=
  C85_sums (by simp [OutputOk, Used]) (.inr (by decide)) h al Ex.e223d (by decide)

/-- `iij->ji`: a diagonal, transposed; no addition. -/
example (h : HashOrd) (al : Alloc Int) : ∃ w, (callSC [['i', 'i', 'j']] ['j', 'i'] Ex.dims).contractOperands h al [Ex.m223d] = .ok w ∧
    Rep w ['j', 'i'] Ex.dims fun σ => Ex.m223d.elem [σ 'i', σ 'i', σ 'j'] :=
  C85_copies (by simp [OutputOk, Used]) (.inr (by decide)) (by decide) h al Ex.e223d (by decide)

/-- In `kiij` with the output `i`, first `k` is summed, then `j`. -/
example : fresh ['i'] ['k', 'i', 'i', 'j', 'k'] = ['k', 'j'] := by decide

example (h h' : HashOrd) (al : Alloc Int) (v : View Int) :
    (callSC [['i', 'i', 'j']] ['j'] Ex.dims).contractOperands h al [v] =
      (callSC [['i', 'i', 'j']] ['j'] Ex.dims).contractOperands h' al [v] :=
  C85_hash (by simp [OutputOk, Used]) h h' al v

example (h h' : HashOrd) (al : Alloc Fl) : einsum h al "ba->" [Ex.big2] = einsum h' al "ba->" [Ex.big2] :=
  C85_hash_einsum (dims := Ex.dz) Ex.den_sum (.cons rfl .nil) h h' al

example (h : HashOrd) : ∃ w w', (callSC [['i', 'k', 'j']] ['i', 'j'] fun c => if c = 'j' then 3 else 2).contractOperands h
      (Alloc.rowMajor Int) [Ex.m223d] = .ok w ∧
    (callSC [['i', 'k', 'j']] ['j', 'i'] fun c => if c = 'j' then 3 else 2).contractOperands h (Alloc.rowMajor Int) [Ex.m223d] = .ok w' ∧
      ∀ σ, InRange (fun c => if c = 'j' then 3 else 2) ['i', 'j'] σ → w.read [σ 'i', σ 'j'] = w'.read [σ 'j', σ 'i'] :=
  C85_permuted (by simp [OutputOk, Used]) (by decide) (.inl (by decide)) h _ _ _ (fun _ _ => rfl) (fun _ _ => rfl) Ex.e223d
    (by decide)

/-- `iij->` is `iij->j` followed by `j->`. -/
example (h : HashOrd) : ∃ w w₁ w₂, (callSC [['i', 'i', 'j']] [] Ex.dims).contractOperands h (Alloc.rowMajor Int) [Ex.m223d] = .ok w ∧
    (callSC [['i', 'i', 'j']] ['j'] Ex.dims).contractOperands h (Alloc.rowMajor Int) [Ex.m223d] = .ok w₁ ∧
    (callSC [['j']] [] Ex.dims).contractOperands h (Alloc.rowMajor Int) [w₁] = .ok w₂ ∧
      ∀ σ, InRange Ex.dims [] σ → w.read [] = w₂.read [] :=
  C85_in_turn (b := ['i']) (b' := ['j']) (by simp [OutputOk, Used]) (by decide) (.inr (by decide)) h _ _ _ _ (fun _ _ => rfl)
    (fun _ _ => rfl) (fun _ _ => rfl) Ex.e223d (by decide)

end Einsum
