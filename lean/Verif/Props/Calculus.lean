import Verif.Props.Main

/-!
# Properties C54, C55: adjoints and blocks
-/

namespace Einsum

open Spec Function

variable {A : Type} [CommSemiring A]

/-! ## C54 -/

theorem prod_zipWith_split {α β : Type} (f : α → β → A) (a a' : List α) (b b' : List β) (x : α) (y : β)
    (hl : a.length = b.length) :
    (List.zipWith f (a ++ x :: a') (b ++ y :: b')).prod =
      f x y * ((List.zipWith f a b).prod * (List.zipWith f a' b').prod) := by
  rw [List.zipWith_append hl, List.zipWith_cons_cons, List.prod_append, List.prod_cons]
  exact mul_left_comm _ _ _

theorem inner_einsum {dims : Char → Nat} {preI postI : List (List Char)} {ix out : List Char}
    {tsPre tsPost : List (List Nat → A)} {t tg : List Nat → A} (hl : preI.length = tsPre.length) (σ₀ : Char → Nat) :
    sumOver dims out (fun σ => tg (out.map σ) *
        Spec.einsum dims (preI ++ ix :: postI) (tsPre ++ t :: tsPost) out σ) σ₀ =
      sumOver dims (out ++ summed (preI ++ ix :: postI) out) (fun σ => tg (out.map σ) * (t (ix.map σ) *
        ((List.zipWith (fun ix t => t (ix.map σ)) preI tsPre).prod *
          (List.zipWith (fun ix t => t (ix.map σ)) postI tsPost).prod))) σ₀ := by
  rw [sumOver_append]
  apply sumOver_congr
  intro σ _ _
  rw [Spec.einsum, ← sumOver_mul_left (dependsOn_map tg out) (fun c hc h => (mem_summed.1 h).2 hc)]
  congr 1
  funext σ
  rw [term, prod_zipWith_split _ _ _ _ _ _ _ hl]

/-- C54: exchanging the labels of operand `k` with those of the output and passing `g` in its place gives the adjoint:
`∑ g · einsum(.., v, ..) = ∑ v · einsum(.., g, ..)`, whenever both calls return. -/
theorem C54_returned (h h' : HashOrd) (al al' : Alloc A) (s s' : String) (pre post : List (View A)) (v g : View A)
    (preI postI : List (List Char)) (ix out : List Char) (dims : Char → Nat) (tsPre tsPost : List (List Nat → A))
    (t tg : List Nat → A) (hc : Call s (pre ++ v :: post) (preI ++ ix :: postI) out dims (tsPre ++ t :: tsPost))
    (hc' : Call s' (pre ++ g :: post) (preI ++ out :: postI) ix dims (tsPre ++ tg :: tsPost))
    (hl : preI.length = tsPre.length) (σ₀ : Char → Nat) (r q : View A)
    (hr : einsum h al s (pre ++ v :: post) = .ok (.ok r)) (hq : einsum h' al' s' (pre ++ g :: post) = .ok (.ok q)) :
    ∃ er eq, Elements r er ∧ Elements q eq ∧
      sumOver dims out (fun σ => tg (out.map σ) * er (out.map σ)) σ₀ =
        sumOver dims ix (fun σ => t (ix.map σ) * eq (ix.map σ)) σ₀ := by
  have ho := hc.denotes.outputOk
  have hi := hc'.denotes.outputOk
  obtain ⟨r2, r3, r4⟩ := isEinsum_of_returned hc hr
  obtain ⟨q2, q3, q4⟩ := isEinsum_of_returned hc' hq
  obtain ⟨er, her⟩ : ∃ er, Elements r er := by
    obtain ⟨ts, hts⟩ := exists_elements (operands := [r]) (by simpa using r2)
    cases hts with
    | cons h _ => exact ⟨_, h⟩
  obtain ⟨eq, heq⟩ : ∃ er, Elements q er := by
    obtain ⟨ts, hts⟩ := exists_elements (operands := [q]) (by simpa using q2)
    cases hts with
    | cons h _ => exact ⟨_, h⟩
  refine ⟨er, eq, her, heq, ?_⟩
  have e1 : ∀ σ, InRange dims out σ → er (out.map σ) =
      Spec.einsum dims (preI ++ ix :: postI) (tsPre ++ t :: tsPost) out σ := by
    intro σ hσ
    have := her.2 (out.map σ) (by rw [r3]; exact InB_map.2 hσ)
    rw [r4 σ hσ] at this
    simpa using this.symm
  have e2 : ∀ σ, InRange dims ix σ → eq (ix.map σ) =
      Spec.einsum dims (preI ++ out :: postI) (tsPre ++ tg :: tsPost) ix σ := by
    intro σ hσ
    have := heq.2 (ix.map σ) (by rw [q3]; exact InB_map.2 hσ)
    rw [q4 σ hσ] at this
    simpa using this.symm
  rw [sumOver_congr (g := fun σ => tg (out.map σ) *
      Spec.einsum dims (preI ++ ix :: postI) (tsPre ++ t :: tsPost) out σ) (fun σ _ hσ => by rw [e1 σ hσ]),
    sumOver_congr (cs := ix) (g := fun σ => t (ix.map σ) *
      Spec.einsum dims (preI ++ out :: postI) (tsPre ++ tg :: tsPost) ix σ) (fun σ _ hσ => by rw [e2 σ hσ]),
    inner_einsum hl, inner_einsum hl]
  have hp : (out ++ summed (preI ++ ix :: postI) out).Perm (ix ++ summed (preI ++ out :: postI) ix) := by
    refine (List.perm_ext_iff_of_nodup ?_ ?_).2 fun c => ?_
    · exact List.nodup_append.2 ⟨ho.1, summed_nodup _ _, fun a ha b hb e => (mem_summed.1 hb).2 (e ▸ ha)⟩
    · exact List.nodup_append.2 ⟨hi.1, summed_nodup _ _, fun a ha b hb e => (mem_summed.1 hb).2 (e ▸ ha)⟩
    · have h1 : c ∈ out → c ∈ (preI ++ ix :: postI).flatten := fun hc => List.mem_flatten.2 (ho.2 c hc)
      have h2 : c ∈ ix → c ∈ (preI ++ out :: postI).flatten := fun hc => List.mem_flatten.2 (hi.2 c hc)
      simp only [List.mem_append, mem_summed]
      simp only [List.flatten_append, List.flatten_cons, List.mem_append] at h1 h2 ⊢
      tauto
  rw [sumOver_perm hp]
  congr 1
  funext σ
  exact mul_left_comm _ _ _

/-- C54: where no operand has both a repeated letter and an empty axis, both calls return. -/
theorem C54_adjoint (h h' : HashOrd) (al al' : Alloc A) (s s' : String) (pre post : List (View A)) (v g : View A)
    (preI postI : List (List Char)) (ix out : List Char) (dims : Char → Nat) (tsPre tsPost : List (List Nat → A))
    (t tg : List Nat → A) (hc : Call s (pre ++ v :: post) (preI ++ ix :: postI) out dims (tsPre ++ t :: tsPost))
    (hc' : Call s' (pre ++ g :: post) (preI ++ out :: postI) ix dims (tsPre ++ tg :: tsPost))
    (hl : preI.length = tsPre.length) (hn : NoEmptyDiagonal dims (preI ++ ix :: postI)) (σ₀ : Char → Nat) :
    ∃ r q er eq, einsum h al s (pre ++ v :: post) = .ok (.ok r) ∧ Elements r er ∧
      einsum h' al' s' (pre ++ g :: post) = .ok (.ok q) ∧ Elements q eq ∧
      sumOver dims out (fun σ => tg (out.map σ) * er (out.map σ)) σ₀ =
        sumOver dims ix (fun σ => t (ix.map σ) * eq (ix.map σ)) σ₀ := by
  have ho := hc.denotes.outputOk
  have hn' : NoEmptyDiagonal dims (preI ++ out :: postI) := by
    intro jx hj
    rcases List.mem_append.1 hj with h1 | h1
    · exact hn jx (by simp [h1])
    · rcases List.mem_cons.1 h1 with h1 | h1
      · exact .inl (h1 ▸ ho.1)
      · exact hn jx (by simp [h1])
  obtain ⟨r, r1, -⟩ := C13_einsum h al s _ _ out dims _ hc hn
  obtain ⟨q, q1, -⟩ := C13_einsum h' al' s' _ _ ix dims _ hc' hn'
  obtain ⟨er, eq, h1, h2, h3⟩ := C54_returned h h' al al' s s' pre post v g preI postI ix out dims tsPre tsPost t tg hc hc'
    hl σ₀ r q r1 q1
  exact ⟨r, q, er, eq, r1, h1, q1, h2, h3⟩

/-- A 2 by 2 matrix. -/
def Ex.g22 : View Int := ⟨[1, 2, 3, 4], 0, [2, 2], [1, 2]⟩

theorem Ex.eg22 : Elements Ex.g22 (Ex.elems Ex.g22) := elements_of (t := Ex.elems Ex.g22) rfl (by decide)

theorem Ex.call_adjoint : Call "ij,ik->jk" [Ex.m23, Ex.g22] [['i', 'j'], ['i', 'k']] ['j', 'k'] Ex.dims
    [Ex.elems Ex.m23, Ex.elems Ex.g22] :=
  ⟨.inl ⟨by decide, ⟨by simp, by simp [Letter], by simp [Letter]⟩, by simp [OutputOk, Used]⟩,
    .cons (by decide) (.cons (by decide) .nil), .cons Ex.e23 (.cons Ex.eg22 .nil)⟩

/-- The derivative of a matrix product with respect to its second factor is multiplication by the transpose. -/
example : ∃ r q er eq, einsum .insertion (Alloc.rowMajor Int) "ij,jk->ik" [Ex.m23, Ex.m32] = .ok (.ok r) ∧
    Elements r er ∧ einsum .reversed (Alloc.colMajor Int) "ij,ik->jk" [Ex.m23, Ex.g22] = .ok (.ok q) ∧
    Elements q eq ∧
    sumOver Ex.dims ['i', 'k'] (fun σ => Ex.elems Ex.g22 [σ 'i', σ 'k'] * er [σ 'i', σ 'k']) (fun _ => 0) =
      sumOver Ex.dims ['j', 'k'] (fun σ => Ex.elems Ex.m32 [σ 'j', σ 'k'] * eq [σ 'j', σ 'k']) fun _ => 0 :=
  C54_adjoint _ _ _ _ "ij,jk->ik" "ij,ik->jk" [Ex.m23] [] Ex.m32 Ex.g22 [['i', 'j']] [] ['j', 'k'] ['i', 'k'] Ex.dims
    [Ex.elems Ex.m23] [] _ _ Ex.call_matmul Ex.call_adjoint rfl Ex.ned_matmul _

/-! ## C55 -/

/-- The index in the whole of an index in the part. -/
def shiftIdx (c : Char) (start : Nat) (ix : List Char) (idx : List Nat) : List Nat :=
  List.zipWith (fun d i => if d = c then start + i else i) ix idx

/-- The label values in the whole of label values in the part. -/
def shift (c : Char) (start : Nat) (σ : Char → Nat) : Char → Nat := update σ c (start + σ c)

theorem shiftIdx_map (c : Char) (start : Nat) (ix : List Char) (σ : Char → Nat) :
    shiftIdx c start ix (ix.map σ) = ix.map (shift c start σ) := by
  unfold shiftIdx
  induction ix with
  | nil => rfl
  | cons d ix ih =>
    rw [List.map_cons, List.zipWith_cons_cons, ih, List.map_cons]
    congr 1
    by_cases hd : d = c
    · subst hd; simp [shift]
    · simp [shift, hd]

omit [CommSemiring A] in
theorem slice_shape {v : View A} {ix : List Char} {dims : Char → Nat} (hv : v.shape = ix.map dims) (c : Char)
    (start len : Nat) : (slice c start len ix v).shape = ix.map (update dims c len) := by
  simp only [slice, hv]
  clear hv
  induction ix with
  | nil => rfl
  | cons d ix ih =>
    rw [List.map_cons, List.zipWith_cons_cons, ih, List.map_cons]
    congr 1
    by_cases hd : d = c
    · subst hd; simp
    · simp [hd]

theorem dotI_shift (c : Char) (start : Nat) (st : List Int) (ix : List Char) (idx : List Nat)
    (hl : idx.length = ix.length) :
    dotI st (ix.map fun d => if d = c then start else 0) + dotI st idx = dotI st (shiftIdx c start ix idx) := by
  unfold shiftIdx
  induction ix generalizing st idx with
  | nil => cases idx <;> simp_all
  | cons d ix ih =>
    cases idx with
    | nil => simp at hl
    | cons i idx =>
      cases st with
      | nil => simp
      | cons x st =>
        have := ih st idx (by simpa using hl)
        simp only [List.map_cons, List.zipWith_cons_cons, dotI_cons]
        rw [← this]
        split <;> push_cast <;> ring

theorem InB_shift {c : Char} {start len : Nat} {ix : List Char} {dims : Char → Nat} {idx : List Nat}
    (hle : start + len ≤ dims c) (h : InB (ix.map (update dims c len)) idx) :
    InB (ix.map dims) (shiftIdx c start ix idx) := by
  unfold shiftIdx
  induction ix generalizing idx with
  | nil => simp_all
  | cons d ix ih =>
    cases idx with
    | nil => simp at h
    | cons i idx =>
      simp only [List.map_cons, List.zipWith_cons_cons, InB_cons] at h ⊢
      refine ⟨?_, ih h.2⟩
      by_cases hd : d = c
      · subst hd
        rw [update_self] at h
        rw [if_pos rfl]
        omega
      · rw [update_of_ne hd] at h
        rw [if_neg hd]
        exact h.1

omit [CommSemiring A] in
theorem part_read {v : View A} {ix : List Char} {dims : Char → Nat} (hv : v.shape = ix.map dims) {c : Char}
    {start len : Nat} (hle : start + len ≤ dims c) {idx : List Nat} (h : InB (ix.map (update dims c len)) idx) :
    (slice c start len ix v).read idx = v.read (shiftIdx c start ix idx) := by
  have h1 : InB (slice c start len ix v).shape idx := by rw [slice_shape hv]; exact h
  have h2 : InB v.shape (shiftIdx c start ix idx) := by rw [hv]; exact InB_shift hle h
  rw [View.read, View.read, if_pos h1, if_pos h2]
  simp only [slice]
  rw [← dotI_shift c start v.strides ix idx (by simpa using h.length_eq), add_assoc]

omit [CommSemiring A] in
theorem slice_elements {v : View A} {t : List Nat → A} {ix : List Char} {dims : Char → Nat}
    (hv : v.shape = ix.map dims) (he : Elements v t) {c : Char} {start len : Nat} (hle : start + len ≤ dims c) :
    Elements (slice c start len ix v) fun idx => t (shiftIdx c start ix idx) := by
  have key : ∀ idx, InB (slice c start len ix v).shape idx →
      (slice c start len ix v).read idx = .ok (t (shiftIdx c start ix idx)) := by
    intro idx h
    rw [slice_shape hv] at h
    rw [part_read hv hle h]
    exact he.2 _ (by rw [hv]; exact InB_shift hle h)
  refine ⟨⟨?_, fun idx h => ⟨_, key idx h⟩⟩, key⟩
  rw [slice_shape hv]
  have := he.1.1
  rw [hv] at this
  simpa [slice] using this

/-- The tensors of the parts. -/
def partTs (c : Char) (start : Nat) (inputs : List (List Char)) (ts : List (List Nat → A)) : List (List Nat → A) :=
  List.zipWith (fun ix t idx => t (shiftIdx c start ix idx)) inputs ts

omit [CommSemiring A] in
theorem call_slice {s : String} {operands : List (View A)} {inputs : List (List Char)} {out : List Char}
    {dims : Char → Nat} {ts : List (List Nat → A)} (hc : Call s operands inputs out dims ts) {c : Char}
    {start len : Nat} (hle : start + len ≤ dims c) :
    Call s (List.zipWith (slice c start len) inputs operands) inputs out (update dims c len)
      (partTs c start inputs ts) := by
  have h1 := hc.sized
  have h2 := hc.elements
  refine ⟨hc.denotes, ?_, ?_⟩
  · clear h2
    have hs := hc.sized
    clear h1 hc
    unfold Sized at hs ⊢
    induction inputs generalizing operands with
    | nil => simp at hs; simp [hs]
    | cons ix inputs ih =>
      cases operands with
      | nil => simp at hs
      | cons v operands =>
        simp only [List.map_cons, List.forall₂_cons, List.zipWith_cons_cons] at hs ⊢
        exact ⟨slice_shape hs.1 _ _ _, ih hs.2⟩
  · have hs := hc.sized
    have he := hc.elements
    clear h1 h2 hc
    unfold Sized at hs
    unfold partTs
    induction inputs generalizing operands ts with
    | nil => simp
    | cons ix inputs ih =>
      cases he with
      | nil => simp at hs
      | cons h1 h2 =>
        simp only [List.map_cons, List.forall₂_cons] at hs
        exact .cons (slice_elements hs.1 h1 hle) (ih hs.2 h2)

theorem term_part (c : Char) (start : Nat) (inputs : List (List Char)) (ts : List (List Nat → A)) (σ : Char → Nat) :
    term inputs (partTs c start inputs ts) σ = term inputs ts (shift c start σ) := by
  unfold term partTs
  congr 1
  induction inputs generalizing ts with
  | nil => rfl
  | cons ix inputs ih =>
    cases ts with
    | nil => rfl
    | cons t ts => simp only [List.zipWith_cons_cons]; rw [ih, shiftIdx_map]

theorem sumOver_shift {dims : Char → Nat} {c : Char} {start len : Nat} {cs : List Char} (hc : c ∉ cs)
    (f : (Char → Nat) → A) (σ : Char → Nat) :
    sumOver (update dims c len) cs (fun σ => f (shift c start σ)) σ = sumOver dims cs f (shift c start σ) := by
  induction cs generalizing σ with
  | nil => rfl
  | cons d cs ih =>
    simp only [List.mem_cons, not_or] at hc
    rw [sumOver_cons, sumOver_cons, update_of_ne (Ne.symm hc.1)]
    apply Finset.sum_congr rfl
    intro v _
    rw [ih hc.2]
    congr 1
    unfold shift
    rw [update_of_ne hc.1, update_comm hc.1]

/-- C55: cutting the axes of an output letter: the parts' results are the parts of the whole's result, whenever
both calls return. -/
theorem C55_output_returned (h h' : HashOrd) (al al' : Alloc A) (s : String) (operands : List (View A))
    (inputs : List (List Char)) (out : List Char) (dims : Char → Nat) (ts : List (List Nat → A))
    (hc : Call s operands inputs out dims ts) (c : Char) (hco : c ∈ out)
    (start len : Nat) (hle : start + len ≤ dims c) (r q : View A)
    (hr : einsum h al s operands = .ok (.ok r))
    (hq : einsum h' al' s (List.zipWith (slice c start len) inputs operands) = .ok (.ok q)) :
    SameArray (slice c start len out r) q := by
  have ho : out.Nodup := hc.denotes.outputOk.1
  obtain ⟨r2, r3, r4⟩ := isEinsum_of_returned hc hr
  obtain ⟨q2, q3, q4⟩ := isEinsum_of_returned (call_slice hc hle) hq
  have hr : Elements (slice c start len out r) fun idx => r.elem (shiftIdx c start out idx) :=
    slice_elements r3 r2.elements hle
  refine ⟨hr.1, q2, by rw [slice_shape r3, q3], fun idx hi => ?_⟩
  rw [slice_shape r3] at hi
  obtain ⟨σ, hσ, rfl⟩ := exists_assign ho hi
  have hσ' : InRange dims out (shift c start σ) := by
    intro d hd
    have := hσ d hd
    by_cases hdc : d = c
    · subst hdc
      rw [update_self] at this
      rw [shift, update_self]
      omega
    · rw [update_of_ne hdc] at this
      rw [shift, update_of_ne hdc]
      exact this
  rw [part_read r3 hle hi, shiftIdx_map, r4 _ hσ', q4 σ hσ, Spec.einsum, Spec.einsum]
  rw [← sumOver_shift (len := len) (fun hm => (mem_summed.1 hm).2 hco)]
  congr 2
  funext σ
  rw [term_part]

/-- C55: where no operand has both a repeated letter and an empty axis, both calls return. -/
theorem C55_output (h h' : HashOrd) (al al' : Alloc A) (s : String) (operands : List (View A))
    (inputs : List (List Char)) (out : List Char) (dims : Char → Nat) (ts : List (List Nat → A))
    (hc : Call s operands inputs out dims ts) (hn : NoEmptyDiagonal dims inputs) (c : Char) (hco : c ∈ out)
    (start len : Nat) (hle : start + len ≤ dims c) (hn' : NoEmptyDiagonal (update dims c len) inputs) :
    ∃ r q, einsum h al s operands = .ok (.ok r) ∧
      einsum h' al' s (List.zipWith (slice c start len) inputs operands) = .ok (.ok q) ∧
      SameArray (slice c start len out r) q := by
  obtain ⟨r, r1, -⟩ := C13_einsum h al s _ _ out dims _ hc hn
  obtain ⟨q, q1, -⟩ := C13_einsum h' al' s _ _ out _ _ (call_slice hc hle) hn'
  exact ⟨r, q, r1, q1, C55_output_returned h h' al al' s operands inputs out dims ts hc c hco start len hle r q r1 q1⟩

/-- The second row of a matrix product needs only the second row of the first factor. -/
example : ∃ r q, einsum .insertion (Alloc.rowMajor Int) "ij,jk->ik" [Ex.m23, Ex.m32] = .ok (.ok r) ∧
    einsum .reversed (Alloc.colMajor Int) "ij,jk->ik"
      [⟨[1, 2, 3, 4, 5, 6], 3, [1, 3], [3, 1]⟩, Ex.m32] = .ok (.ok q) ∧ SameArray (slice 'i' 1 1 ['i', 'k'] r) q :=
  C55_output _ _ _ _ _ _ _ _ _ _ Ex.call_matmul Ex.ned_matmul 'i' (by simp) 1 1 (by decide)
    (by simp [NoEmptyDiagonal])

/-- C55: cutting the axes of a summed letter: the whole's result is the sum of the parts' results, whenever the
three calls return. -/
theorem C55_summed_returned (h h₁ h₂ : HashOrd) (al al₁ al₂ : Alloc A) (s : String) (operands : List (View A))
    (inputs : List (List Char)) (out : List Char) (dims : Char → Nat) (ts : List (List Nat → A))
    (hc : Call s operands inputs out dims ts) (c : Char) (hu : Used inputs c)
    (hco : c ∉ out) (a b : Nat) (hab : a + b = dims c) (r q₁ q₂ : View A)
    (hr : einsum h al s operands = .ok (.ok r))
    (hq₁ : einsum h₁ al₁ s (List.zipWith (slice c 0 a) inputs operands) = .ok (.ok q₁))
    (hq₂ : einsum h₂ al₂ s (List.zipWith (slice c a b) inputs operands) = .ok (.ok q₂)) :
    q₁.shape = r.shape ∧ q₂.shape = r.shape ∧
      ∀ idx, InB r.shape idx → ∃ x y, q₁.read idx = .ok x ∧ q₂.read idx = .ok y ∧ r.read idx = .ok (x + y) := by
  have ho : out.Nodup := hc.denotes.outputOk.1
  obtain ⟨r2, r3, r4⟩ := isEinsum_of_returned hc hr
  obtain ⟨p2, p3, p4⟩ := isEinsum_of_returned (call_slice (start := 0) (len := a) hc (by omega)) hq₁
  obtain ⟨q2, q3, q4⟩ := isEinsum_of_returned (call_slice (start := a) (len := b) hc (by omega)) hq₂
  have hsame : ∀ n, out.map (update dims c n) = out.map dims := fun n =>
    List.map_congr_left fun d hd => update_of_ne (fun e : d = c => hco (e ▸ hd)) _ _
  refine ⟨by rw [p3, r3, hsame], by rw [q3, r3, hsame], fun idx hi => ?_⟩
  rw [r3] at hi
  obtain ⟨σ, hσ, rfl⟩ := exists_assign ho hi
  have hσ' : ∀ n, InRange (update dims c n) out σ := fun n d hd => by
    rw [update_of_ne (fun e : d = c => hco (e ▸ hd))]; exact hσ d hd
  refine ⟨_, _, p4 σ (hσ' a), q4 σ (hσ' b), ?_⟩
  rw [r4 σ hσ]
  congr 1
  have hm : c ∈ summed inputs out := mem_summed.2 ⟨List.mem_flatten.2 hu, hco⟩
  have hp := List.perm_cons_erase hm
  have hne : c ∉ (summed inputs out).erase c := fun hx =>
    (List.nodup_cons.1 (hp.nodup (summed_nodup _ _))).1 hx
  simp only [Spec.einsum]
  rw [sumOver_perm hp, sumOver_perm hp, sumOver_perm hp]
  simp only [sumOver_cons, update_self]
  rw [← hab, Finset.sum_range_add]
  congr 1
  · apply Finset.sum_congr rfl
    intro v _
    rw [show term inputs (partTs c 0 inputs ts) = fun σ => term inputs ts (shift c 0 σ) from
      funext fun σ => term_part c 0 inputs ts σ, sumOver_shift hne]
    congr 1
    simp [shift]
  · apply Finset.sum_congr rfl
    intro v _
    rw [show term inputs (partTs c a inputs ts) = fun σ => term inputs ts (shift c a σ) from
      funext fun σ => term_part c a inputs ts σ, sumOver_shift hne]
    congr 1
    simp [shift]

/-- C55: where no operand has both a repeated letter and an empty axis, the three calls return. -/
theorem C55_summed (h h₁ h₂ : HashOrd) (al al₁ al₂ : Alloc A) (s : String) (operands : List (View A))
    (inputs : List (List Char)) (out : List Char) (dims : Char → Nat) (ts : List (List Nat → A))
    (hc : Call s operands inputs out dims ts) (hn : NoEmptyDiagonal dims inputs) (c : Char) (hu : Used inputs c)
    (hco : c ∉ out) (a b : Nat) (hab : a + b = dims c) (hn₁ : NoEmptyDiagonal (update dims c a) inputs)
    (hn₂ : NoEmptyDiagonal (update dims c b) inputs) :
    ∃ r q₁ q₂, einsum h al s operands = .ok (.ok r) ∧
      einsum h₁ al₁ s (List.zipWith (slice c 0 a) inputs operands) = .ok (.ok q₁) ∧
      einsum h₂ al₂ s (List.zipWith (slice c a b) inputs operands) = .ok (.ok q₂) ∧
      q₁.shape = r.shape ∧ q₂.shape = r.shape ∧
      ∀ idx, InB r.shape idx → ∃ x y, q₁.read idx = .ok x ∧ q₂.read idx = .ok y ∧ r.read idx = .ok (x + y) := by
  obtain ⟨r, r1, -⟩ := C13_einsum h al s _ _ out dims _ hc hn
  obtain ⟨p, p1, -⟩ := C13_einsum h₁ al₁ s _ _ out _ _ (call_slice (start := 0) (len := a) hc (by omega)) hn₁
  obtain ⟨q, q1, -⟩ := C13_einsum h₂ al₂ s _ _ out _ _ (call_slice (start := a) (len := b) hc (by omega)) hn₂
  exact ⟨r, p, q, r1, p1, q1, C55_summed_returned h h₁ h₂ al al₁ al₂ s operands inputs out dims ts hc c hu hco a b hab
    r p q r1 p1 q1⟩

/-- A matrix product as a sum of two products of blocks. -/
example : ∃ r q₁ q₂, einsum .insertion (Alloc.rowMajor Int) "ij,jk->ik" [Ex.m23, Ex.m32] = .ok (.ok r) ∧
    einsum .reversed (Alloc.rowMajor Int) "ij,jk->ik"
      [⟨[1, 2, 3, 4, 5, 6], 0, [2, 1], [3, 1]⟩, ⟨[1, 2, 3, 4, 5, 6], 5, [1, 2], [-2, -1]⟩] = .ok (.ok q₁) ∧
    einsum .insertion (Alloc.colMajor Int) "ij,jk->ik"
      [⟨[1, 2, 3, 4, 5, 6], 1, [2, 2], [3, 1]⟩, ⟨[1, 2, 3, 4, 5, 6], 3, [2, 2], [-2, -1]⟩] = .ok (.ok q₂) ∧
    q₁.shape = r.shape ∧ q₂.shape = r.shape ∧ ∀ idx, InB r.shape idx →
      ∃ x y, q₁.read idx = .ok x ∧ q₂.read idx = .ok y ∧ r.read idx = .ok (x + y) :=
  C55_summed _ _ _ _ _ _ _ _ _ _ _ _ Ex.call_matmul Ex.ned_matmul 'j' ⟨['i', 'j'], by simp, by simp⟩ (by decide) 1 2
    rfl (by simp [NoEmptyDiagonal]) (by simp [NoEmptyDiagonal])

end Einsum
