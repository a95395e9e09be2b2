import Verif.SpecLoops
import Verif.Props.Textbook
import Verif.Props.Norms

/-!
# Nests of loops: C116
-/

namespace Einsum

open Spec

/-! ## What the loops compute -/

theorem foldl_at {I A T : Type} [AddCommMonoid A] (step : (I → A) → T → I → A) (g : T → A) (idx : I)
    (h : ∀ s v, step s v idx = s idx + g v) (vs : List T) (s : I → A) :
    vs.foldl step s idx = s idx + (vs.map g).sum := by
  induction vs generalizing s with
  | nil => simp
  | cons v vs ih => rw [List.foldl_cons, ih, h, List.map_cons, List.sum_cons, add_assoc]

theorem nest_add {A : Type} [AddCommMonoid A] (dims : Char → Nat) (out : List Char) (g : (Char → Nat) → A)
    (idx : List Nat) (cs : List Char) (σ : Char → Nat) (s : List Nat → A) :
    nest dims (fun σ want => Function.update want (out.map σ) (want (out.map σ) + g σ)) cs σ s idx =
      s idx + sumOver dims cs (fun τ => if out.map τ = idx then g τ else 0) σ := by
  induction cs generalizing σ s with
  | nil =>
    simp only [nest, sumOver, Function.update_apply]
    by_cases h : idx = out.map σ
    · rw [if_pos h, if_pos h.symm, h]
    · rw [if_neg h, if_neg (Ne.symm h), add_zero]
  | cons c cs ih =>
    simp only [nest]
    rw [foldl_at _ (fun v => sumOver dims cs (fun τ => if out.map τ = idx then g τ else 0) (Function.update σ c v)) idx
      (fun s v => ih _ s), sumOver_cons]
    congr 1

theorem leftProduct_eq {A : Type} [CommSemiring A] {inputs : List (List Char)} (hi : inputs ≠ [])
    {ts : List (List Nat → A)} (hl : ts.length = inputs.length) (σ : Char → Nat) :
    leftProduct (picked inputs ts σ) = (picked inputs ts σ).prod := by
  have : picked inputs ts σ ≠ [] := by
    intro h
    have := congrArg List.length h
    simp [picked, hl] at this
    exact hi this
  cases h : picked inputs ts σ with
  | nil => exact absurd h this
  | cons x xs =>
    rw [leftProduct, List.prod_cons]
    clear h this
    induction xs generalizing x with
    | nil => simp
    | cons y ys ih => rw [List.foldl_cons, ih, List.prod_cons, mul_assoc]

theorem accumulated_eq {A : Type} [CommSemiring A] {dims : Char → Nat} {cs : List Char} {inputs : List (List Char)}
    (hi : inputs ≠ []) {ts : List (List Nat → A)} (hl : ts.length = inputs.length) (out : List Char)
    (hcs : LoopOrder inputs cs) (idx : List Nat) :
    accumulated dims cs inputs ts out idx = textbook dims inputs ts out idx := by
  classical
  unfold accumulated textbook
  rw [nest_add dims out (fun σ => leftProduct (picked inputs ts σ)), zero_add,
    sumOver_points dims cs hcs.1 _ (fun _ => 0) ((Finset.univ : Finset (Assignment dims inputs)).image Assignment.pos),
    Finset.sum_image fun _ _ _ _ h => Assignment.pos_inj h]
  · refine Finset.sum_congr rfl fun τ _ => ?_
    rw [leftProduct_eq hi hl]
    rfl
  intro τ
  simp only [Finset.mem_image, Finset.mem_univ, true_and, hcs.2]
  constructor
  · rintro ⟨a, rfl⟩
    exact ⟨fun c hc => a.pos_lt hc, fun c hc => dif_neg hc⟩
  · rintro ⟨h1, h2⟩
    refine ⟨fun c => ⟨τ c, h1 c c.2⟩, funext fun c => ?_⟩
    by_cases hc : c ∈ inputs.flatten
    · rw [Assignment.pos_of_mem _ hc]
    · rw [Assignment.pos, dif_neg hc, h2 c hc]

/-- C116: an array of zeros, to which nested loops over all letters, in any order, add the products of the elements, holds
the result of the call. -/
theorem C116_loops {A : Type} [CommSemiring A] (h : HashOrd) (al : Alloc A) (s : String) (operands : List (View A))
    (inputs : List (List Char)) (out : List Char) (dims : Char → Nat) (ts : List (List Nat → A))
    (hc : Call s operands inputs out dims ts) (hn : NoEmptyDiagonal dims inputs) (cs : List Char)
    (hcs : LoopOrder inputs cs) :
    ∃ r, einsum h al s operands = .ok (.ok r) ∧ r.shape = out.map dims ∧
      ∀ idx, InB r.shape idx → r.read idx = .ok (accumulated dims cs inputs ts out idx) := by
  obtain ⟨r, h1, h2⟩ := C13_einsum h al s operands inputs out dims ts hc hn
  refine ⟨r, h1, h2.2.1, fun idx hi => ?_⟩
  rw [h2.textbook hc.denotes.outputOk.1 hc.denotes.sub hi, accumulated_eq ?_ hc.length out hcs]
  exact hc.denotes.inputs_ne.1

theorem Ex.order_matmul : LoopOrder [['i', 'j'], ['j', 'k']] ['k', 'j', 'i'] := ⟨by decide, fun c => by simp; tauto⟩

/-- The loop over the summed letter may be in the middle. -/
example : ∃ r, einsum HashOrd.reversed (Alloc.colMajor Int) "ij,jk->ik" [Ex.m23, Ex.m32] = .ok (.ok r) ∧
    ∀ idx, InB r.shape idx → r.read idx =
      .ok (accumulated Ex.dims ['k', 'j', 'i'] [['i', 'j'], ['j', 'k']] [Ex.elems Ex.m23, Ex.elems Ex.m32] ['i', 'k'] idx) := by
  obtain ⟨r, h1, -, h2⟩ := C116_loops HashOrd.reversed (Alloc.colMajor Int) _ _ _ _ _ _ Ex.call_matmul Ex.ned_matmul _
    Ex.order_matmul
  exact ⟨r, h1, h2⟩

/-- What these loops leave in the array. -/
example : [[0, 0], [0, 1], [1, 0], [1, 1]].map
    (accumulated Ex.dims ['k', 'j', 'i'] [['i', 'j'], ['j', 'k']] [Ex.elems Ex.m23, Ex.elems Ex.m32] ['i', 'k']) =
      [20, 14, 56, 41] := by decide

/-! ## Loops that assign -/

theorem foldl_assigned {I A T : Type} (step : (I → A) → T → I → A) (P : T → A → Prop) (idx : I)
    (h : ∀ s v, P v (step s v idx) ∨ (step s v idx = s idx ∧ ∀ x, ¬P v x)) (vs : List T) (s : I → A) :
    (∃ v ∈ vs, P v (vs.foldl step s idx)) ∨ (vs.foldl step s idx = s idx ∧ ∀ v ∈ vs, ∀ x, ¬P v x) := by
  induction vs generalizing s with
  | nil => exact .inr ⟨rfl, by simp⟩
  | cons v vs ih =>
    rw [List.foldl_cons]
    obtain ⟨w, hw, h1⟩ | ⟨h1, h2⟩ := ih (step s v)
    · exact .inl ⟨w, by simp [hw], h1⟩
    · rw [h1]
      obtain h3 | ⟨h3, h4⟩ := h s v
      · exact .inl ⟨v, by simp, h3⟩
      · exact .inr ⟨h3, by simpa using ⟨h4, h2⟩⟩

theorem nest_assigned {A : Type} (dims : Char → Nat) (out : List Char) (g : (Char → Nat) → A) (idx : List Nat)
    (cs : List Char) (hn : cs.Nodup) (σ : Char → Nat) (s : List Nat → A) :
    (∃ τ, ((∀ c ∈ cs, τ c < dims c) ∧ ∀ c, c ∉ cs → τ c = σ c) ∧ out.map τ = idx ∧
      nest dims (fun σ want => Function.update want (out.map σ) (g σ)) cs σ s idx = g τ) ∨
    (nest dims (fun σ want => Function.update want (out.map σ) (g σ)) cs σ s idx = s idx ∧
      ∀ τ, ((∀ c ∈ cs, τ c < dims c) ∧ ∀ c, c ∉ cs → τ c = σ c) → out.map τ ≠ idx) := by
  induction cs generalizing σ s with
  | nil =>
    have h0 : ∀ τ : Char → Nat, ((∀ c ∈ ([] : List Char), τ c < dims c) ∧ ∀ c, c ∉ ([] : List Char) → τ c = σ c) ↔ τ = σ :=
      fun τ => ⟨fun h => funext fun c => h.2 c (by simp), fun h => ⟨by simp, fun c _ => by rw [h]⟩⟩
    simp only [h0, nest, Function.update_apply]
    by_cases h : idx = out.map σ
    · exact .inl ⟨σ, rfl, h.symm, if_pos h⟩
    · exact .inr ⟨if_neg h, fun τ hτ => by rw [hτ]; exact Ne.symm h⟩
  | cons c cs ih =>
    rw [List.nodup_cons] at hn
    simp only [nest]
    have key : ∀ (v : Nat) (τ : Char → Nat), v < dims c → ((∀ d ∈ cs, τ d < dims d) ∧ ∀ d, d ∉ cs → τ d = Function.update σ c v d) →
        (∀ d ∈ c :: cs, τ d < dims d) ∧ ∀ d, d ∉ c :: cs → τ d = σ d := by
      intro v τ hv ⟨h1, h2⟩
      refine ⟨fun d hd => ?_, fun d hd => ?_⟩
      · rcases List.mem_cons.1 hd with rfl | hd
        · rw [h2 d hn.1, Function.update_self]; exact hv
        · exact h1 d hd
      · simp only [List.mem_cons, not_or] at hd
        rw [h2 d hd.2, Function.update_of_ne hd.1]
    obtain ⟨v, hv, τ, h1, h2, h3⟩ | ⟨h1, h2⟩ := foldl_assigned
      (fun s v => nest dims (fun σ want => Function.update want (out.map σ) (g σ)) cs (Function.update σ c v) s)
      (fun v x => ∃ τ : Char → Nat, ((∀ d ∈ cs, τ d < dims d) ∧ ∀ d, d ∉ cs → τ d = Function.update σ c v d) ∧ out.map τ = idx ∧ x = g τ)
      idx (fun s v => (ih hn.2 (Function.update σ c v) s).imp id fun h =>
        ⟨h.1, fun x ⟨τ, h1, h2, _⟩ => h.2 τ h1 h2⟩) (List.range (dims c)) s
    · exact .inl ⟨τ, key v τ (List.mem_range.1 hv) h1, h2, h3⟩
    · refine .inr ⟨h1, fun τ h3 h4 => h2 (τ c) (List.mem_range.2 (h3.1 c (by simp))) (g τ) ⟨τ, ⟨fun d hd =>
        h3.1 d (by simp [hd]), fun d hd => ?_⟩, h4, rfl⟩⟩
      by_cases hdc : d = c
      · rw [hdc, Function.update_self]
      · rw [Function.update_of_ne hdc]
        exact h3.2 d (by simp [hd, hdc])

theorem picked_congr {A : Type} {inputs : List (List Char)} (ts : List (List Nat → A)) {σ τ : Char → Nat}
    (h : ∀ c ∈ inputs.flatten, σ c = τ c) : picked inputs ts σ = picked inputs ts τ := by
  unfold picked
  refine List.map_congr_left fun x hx => ?_
  rw [List.map_congr_left fun c hc => h c (List.mem_flatten.2 ⟨x.2, (List.of_mem_zip hx).2, hc⟩)]

/-- C116: if no letter is summed, the loops may as well assign the products, whatever the array held before. -/
theorem C116_assigned {A : Type} [CommSemiring A] (h : HashOrd) (al : Alloc A) (s : String) (operands : List (View A))
    (inputs : List (List Char)) (out : List Char) (dims : Char → Nat) (ts : List (List Nat → A))
    (hc : Call s operands inputs out dims ts) (hn : NoEmptyDiagonal dims inputs) (cs : List Char)
    (hcs : LoopOrder inputs cs) (hall : ∀ c ∈ inputs.flatten, c ∈ out) (want : List Nat → A) :
    ∃ r, einsum h al s operands = .ok (.ok r) ∧ r.shape = out.map dims ∧
      ∀ idx, InB r.shape idx → r.read idx = .ok (assigned dims cs inputs ts out want idx) := by
  obtain ⟨r, h1, h2⟩ := C13_einsum h al s operands inputs out dims ts hc hn
  refine ⟨r, h1, h2.2.1, fun idx hi => ?_⟩
  rw [h2.2.1] at hi
  obtain ⟨σ, hσ, rfl⟩ := exists_assign hc.denotes.outputOk.1 hi
  rw [h2.2.2 σ hσ]
  have hs : summed inputs out = [] := List.eq_nil_iff_forall_not_mem.2 fun c hcs => (mem_summed.1 hcs).2 (hall c (mem_summed.1 hcs).1)
  rw [Spec.einsum, hs, sumOver, ← zip_prod]
  unfold assigned
  obtain ⟨τ, -, h4, h5⟩ | ⟨-, h4⟩ := nest_assigned dims out (fun σ => leftProduct (picked inputs ts σ)) (out.map σ) cs hcs.1
    (fun _ => 0) want
  · rw [h5, leftProduct_eq hc.denotes.inputs_ne.1 hc.length, picked_congr ts (σ := τ) (τ := σ) fun c hc =>
      List.map_inj_left.1 h4 c (hall c hc)]
    rfl
  · refine absurd (List.map_congr_left fun c hco => ?_) (h4 (fun c => if c ∈ cs then σ c else 0)
      ⟨fun c hcc => ?_, fun c hcc => if_neg hcc⟩)
    · rw [if_pos ((hcs.2 c).2 (hc.denotes.sub c hco))]
    · simp only [if_pos hcc]
      exact hσ c (hall c ((hcs.2 c).1 hcc))

theorem Ex.call_116 : Call "ij,ji->ji" [Ex.m23, Ex.m32] [['i', 'j'], ['j', 'i']] ['j', 'i'] Ex.dims
    [Ex.elems Ex.m23, Ex.elems Ex.m32] :=
  ⟨.inl ⟨by decide, ⟨by simp, by simp [Letter], by simp [Letter]⟩, by simp [OutputOk, Used]⟩,
    .cons (by decide) (.cons (by decide) .nil), .cons Ex.e23 (.cons Ex.e32 .nil)⟩

example : ∃ r, einsum HashOrd.insertion (Alloc.rowMajor Int) "ij,ji->ji" [Ex.m23, Ex.m32] = .ok (.ok r) ∧
    ∀ idx, InB r.shape idx → r.read idx =
      .ok (assigned Ex.dims ['i', 'j'] [['i', 'j'], ['j', 'i']] [Ex.elems Ex.m23, Ex.elems Ex.m32] ['j', 'i'] (fun _ => 77) idx) := by
  obtain ⟨r, h1, -, h2⟩ := C116_assigned HashOrd.insertion (Alloc.rowMajor Int) _ _ _ _ _ _ Ex.call_116
    (by simp [NoEmptyDiagonal]) ['i', 'j'] ⟨by decide, fun c => by simp; tauto⟩ (by decide) fun _ => 77
  exact ⟨r, h1, h2⟩

/-- With a summed letter the loops must add. -/
example : assigned Ex.dims ['i', 'j', 'k'] [['i', 'j'], ['j', 'k']] [Ex.elems Ex.m23, Ex.elems Ex.m32] ['i', 'k'] (fun _ => 0)
    [0, 0] = 6 := by decide

/-! ## Rounding -/

theorem nest_map {S T : Type} (dims : Char → Nat) (body : (Char → Nat) → S → S) (body' : (Char → Nat) → T → T) (φ : S → T)
    (h : ∀ σ s, φ (body σ s) = body' σ (φ s)) (cs : List Char) (σ : Char → Nat) (s : S) :
    φ (nest dims body cs σ s) = nest dims body' cs σ (φ s) := by
  induction cs generalizing σ s with
  | nil => exact h σ s
  | cons c cs ih =>
    simp only [nest]
    induction List.range (dims c) generalizing s with
    | nil => rfl
    | cons v vs ihv => rw [List.foldl_cons, List.foldl_cons, ihv, ih]

theorem accumulated_map {A B : Type} [Zero A] [Add A] [Mul A] [Zero B] [Add B] [Mul B] {f : A → B} (h0 : f 0 = 0)
    (ha : ∀ x y, f (x + y) = f x + f y) (hm : ∀ x y, f (x * y) = f x * f y) (dims : Char → Nat) (cs : List Char)
    (inputs : List (List Char)) (ts : List (List Nat → A)) (out : List Char) (idx : List Nat) :
    f (accumulated dims cs inputs ts out idx) =
      accumulated dims cs inputs (ts.map fun t idx => f (t idx)) out idx := by
  have hp : ∀ l : List A, f (leftProduct l) = leftProduct (l.map f) := by
    intro l
    cases l with
    | nil => exact h0
    | cons x xs =>
      simp only [leftProduct, List.map_cons]
      induction xs generalizing x with
      | nil => rfl
      | cons y ys ih => rw [List.foldl_cons, ih, List.map_cons, List.foldl_cons, hm]
  have hf : ∀ σ, picked inputs (ts.map fun t idx => f (t idx)) σ = (picked inputs ts σ).map f := by
    intro σ
    unfold picked
    rw [List.zip_map_left, List.map_map, List.map_map]
    rfl
  refine (congrFun (nest_map dims _ (fun σ want => Function.update want (out.map σ) (want (out.map σ) +
    leftProduct (picked inputs (ts.map fun t idx => f (t idx)) σ))) (fun s idx => f (s idx)) (fun σ s => ?_) cs (fun _ => 0)
    fun _ => 0) idx).trans ?_
  · funext i
    simp only [Function.update_apply, hf, ← hp]
    split
    · rw [ha]
    · rfl
  · simp only [h0]
    rfl

variable {F K : Type} [Zero F] [Add F] [Mul F] [MulAdd F] [Field K] [LinearOrder K] [IsStrictOrderedRing K]

theorem accumulated_error {val : F → K} {u : K} (hr : Rounded val u) {dims : Char → Nat} {inputs : List (List Char)}
    (hi : inputs ≠ []) {ts : List (List Nat → F)} (hl : ts.length = inputs.length) {out : List Char}
    (hsub : ∀ c ∈ out, c ∈ inputs.flatten) {cs : List Char} (hcs : LoopOrder inputs cs) {σ : Char → Nat}
    (hσ : InRange dims out σ) (h0 : ∀ c, c ∉ out → σ c = 0) :
    |val (accumulated dims cs inputs ts out (out.map σ)) -
        Spec.einsum dims inputs (ts.map fun t idx => val (t idx)) out σ| ≤
      ((1 + u) ^ (termCount dims inputs out + inputs.length - 2) - 1) *
        Spec.einsum dims inputs (ts.map fun t idx => |val (t idx)|) out σ := by
  have key : ∀ (A : Type) [Zero A] [Add A] [Mul A] [MulAdd A] (f : F → A),
      (accumulated dims cs inputs (ts.map fun t idx => Expr.var (t idx)) out (out.map σ)).eval f =
        accumulated dims cs inputs (ts.map fun t idx => f (t idx)) out (out.map σ) := by
    intro A _ _ _ _ f
    rw [accumulated_map (f := Expr.eval f) rfl (fun _ _ => rfl) (fun _ _ => rfl), List.map_map]
    rfl
  have h1 := formal_error hr hl (dims := dims) (out := out) (σ := σ)
    (e := accumulated dims cs inputs (ts.map fun t idx => Expr.var (t idx)) out (out.map σ)) fun S _ f => by
      rw [key, accumulated_eq hi (by simpa using hl) out hcs, textbook_eq hsub _ hσ h0]
  rw [key] at h1
  simpa using h1

omit [Zero F] [Add F] [Mul F] [MulAdd F] in
theorem abs_le_count {val : F → K} {B : K} {dims : Char → Nat} {s : String} {operands : List (View F)}
    {inputs : List (List Char)} {out : List Char} {ts : List (List Nat → F)} (hc : Call s operands inputs out dims ts)
    (hB : ∀ v ∈ operands, ∀ idx x, InB v.shape idx → v.read idx = .ok x → |val x| ≤ B) {σ : Char → Nat}
    (hσ : InRange dims out σ) :
    Spec.einsum dims inputs (ts.map fun t idx => |val (t idx)|) out σ ≤
      termCount dims inputs out * B ^ inputs.length := by
  have h1 : List.Forall₂ (fun ix t => ∀ idx, InB (ix.map dims) idx → |val (t idx)| ≤ B) inputs ts := by
    have hs := hc.sized
    have he := hc.elements
    clear hc
    unfold Sized at hs
    induction he generalizing inputs with
    | nil => cases hs; exact .nil
    | @cons v t vs ts h _ ih =>
      cases hs with
      | cons h1 h2 =>
        refine .cons (fun idx hi => hB v (by simp) idx _ (h1 ▸ hi) (h.2 idx (h1 ▸ hi)))
          (ih (fun w hw => hB w (by simp [hw])) h2)
  unfold termCount
  rw [← sumOver_const dims (summed inputs out) (B ^ inputs.length) σ]
  refine sumOver_mono fun τ h2 h3 => ?_
  have hτ : InRange dims inputs.flatten τ := fun c hcf => by
    by_cases hco : c ∈ out
    · rw [h2 c fun h => (mem_summed.1 h).2 hco]
      exact hσ c hco
    · exact h3 c (mem_summed.2 ⟨hcf, hco⟩)
  clear h2 h3 hσ hB hc
  induction h1 with
  | nil => simp [term]
  | @cons ix t inputs ts h _ ih =>
    rw [List.map_cons, term_cons, List.length_cons, pow_succ']
    have h4 : |val (t (ix.map τ))| ≤ B := h _ (InB_map.2 fun c hc => hτ c (by simp [hc]))
    refine mul_le_mul h4 (ih fun c hc => hτ c (by simp [List.mem_flatten.1 hc])) ?_ ((abs_nonneg _).trans h4)
    unfold term
    refine List.prod_nonneg fun x hx => ?_
    obtain ⟨i, hi, rfl⟩ := List.mem_iff_getElem.1 hx
    simp

theorem exists_assign_zero {dims : Char → Nat} {out : List Char} (hn : out.Nodup) {idx : List Nat}
    (hi : InB (out.map dims) idx) : ∃ σ, InRange dims out σ ∧ (∀ c, c ∉ out → σ c = 0) ∧ out.map σ = idx := by
  obtain ⟨σ, h1, rfl⟩ := exists_assign hn hi
  refine ⟨fun c => if c ∈ out then σ c else 0, fun c hc => ?_, fun c hc => if_neg hc,
    List.map_congr_left fun c hc => if_pos hc⟩
  simp only [if_pos hc]
  exact h1 c hc

/-- C116: with rounded operations the crate and the loops differ by at most twice the bound of C53. -/
theorem C116_error {val : F → K} {u : K} (hr : Rounded val u) (h : HashOrd) (al : UniformAlloc) (s : String)
    (operands : List (View F)) (inputs : List (List Char)) (out : List Char) (dims : Char → Nat)
    (ts : List (List Nat → F)) (hc : Call s operands inputs out dims ts) (hn : NoEmptyDiagonal dims inputs)
    (cs : List Char) (hcs : LoopOrder inputs cs) :
    ∃ r, einsum h (al.alloc F) s operands = .ok (.ok r) ∧ r.shape = out.map dims ∧
      ∀ idx, InB r.shape idx → ∃ y, r.read idx = .ok y ∧
        |val y - val (accumulated dims cs inputs ts out idx)| ≤
          2 * (((1 + u) ^ (termCount dims inputs out + inputs.length - 2) - 1) *
            textbook dims inputs (ts.map fun t idx => |val (t idx)|) out idx) := by
  obtain ⟨r, h1, -, h2, h3⟩ := C53_error hr h al s operands inputs out dims ts hc hn
  refine ⟨r, h1, h2, fun idx hi => ?_⟩
  rw [h2] at hi
  obtain ⟨σ, h4, h5, rfl⟩ := exists_assign_zero hc.denotes.outputOk.1 hi
  obtain ⟨y, y1, y2⟩ := h3 σ h4
  refine ⟨y, y1, ?_⟩
  rw [← textbook_eq hc.denotes.sub _ h4 h5]
  have h6 := accumulated_error hr hc.denotes.inputs_ne.1 hc.length hc.denotes.sub hcs h4 h5
  have := abs_sub_le (val y) (Spec.einsum dims inputs (ts.map fun t idx => val (t idx)) out σ)
    (val (accumulated dims cs inputs ts out (out.map σ)))
  rw [abs_sub_comm (Spec.einsum dims inputs _ out σ)] at this
  linarith

example : ∃ r, einsum HashOrd.reversed (Alloc.colMajor Fl) "ij,jk->ik"
      ([Ex.m23, Ex.m32].map (View.map fun z : Int => Fl.mk ((z : ℚ) / 10))) = .ok (.ok r) := by
  obtain ⟨r, h1, -, -⟩ := C116_error Fl.rounded HashOrd.reversed UniformAlloc.colMajor "ij,jk->ik" _ _ _ _ _
    (Ex.call_matmul.map fun z : Int => Fl.mk ((z : ℚ) / 10)) Ex.ned_matmul _ Ex.order_matmul
  exact ⟨r, h1⟩

/-- C116: the same for compiled paths in either order. -/
theorem C116_path {val : F → K} {u : K} (hr : Rounded val u) (h : HashOrd) (al : UniformAlloc) (s : String)
    (operands : List (View F)) (inputs : List (List Char)) (out : List Char) (dims : Char → Nat)
    (ts : List (List Nat → F)) (m : OptimizationMethod) (hm : m = .naive ∨ m = .reverse)
    (hc : Call s operands inputs out dims ts) (hn : NoEmptyDiagonal dims inputs)
    (cs : List Char) (hcs : LoopOrder inputs cs) :
    ∃ p r, einsumPath h s operands m = .ok (.ok p) ∧ p.contractOperands (al.alloc F) operands = .ok r ∧
      r.shape = out.map dims ∧ ∀ idx, InB r.shape idx → ∃ y, r.read idx = .ok y ∧
        |val y - val (accumulated dims cs inputs ts out idx)| ≤
          2 * (((1 + u) ^ (termCount dims inputs out + inputs.length - 2) - 1) *
            textbook dims inputs (ts.map fun t idx => |val (t idx)|) out idx) := by
  obtain ⟨p, r, h0, h1, -, h2, h3⟩ := C53_path hr h al s operands inputs out dims ts m hm hc hn
  refine ⟨p, r, h0, h1, h2, fun idx hi => ?_⟩
  rw [h2] at hi
  obtain ⟨σ, h4, h5, rfl⟩ := exists_assign_zero hc.denotes.outputOk.1 hi
  obtain ⟨y, y1, y2⟩ := h3 σ h4
  refine ⟨y, y1, ?_⟩
  rw [← textbook_eq hc.denotes.sub _ h4 h5]
  have h6 := accumulated_error hr hc.denotes.inputs_ne.1 hc.length hc.denotes.sub hcs h4 h5
  have := abs_sub_le (val y) (Spec.einsum dims inputs (ts.map fun t idx => val (t idx)) out σ)
    (val (accumulated dims cs inputs ts out (out.map σ)))
  rw [abs_sub_comm (Spec.einsum dims inputs _ out σ)] at this
  linarith

/-- C116: so the elements are close to those of the loops if the operands have no element larger than `B`. -/
theorem C116_close {val : F → K} {u : K} (hr : Rounded val u) (h : HashOrd) (al : UniformAlloc) (s : String)
    (operands : List (View F)) (inputs : List (List Char)) (out : List Char) (dims : Char → Nat)
    (ts : List (List Nat → F)) (m : OptimizationMethod) (hm : m = .naive ∨ m = .reverse)
    (hc : Call s operands inputs out dims ts) (hn : NoEmptyDiagonal dims inputs)
    (cs : List Char) (hcs : LoopOrder inputs cs) (B tol : K)
    (hB : ∀ v ∈ operands, ∀ idx x, InB v.shape idx → v.read idx = .ok x → |val x| ≤ B)
    (htol : 2 * (((1 + u) ^ (termCount dims inputs out + inputs.length - 2) - 1) *
      (termCount dims inputs out * B ^ inputs.length)) ≤ tol) :
    ∃ p r, einsumPath h s operands m = .ok (.ok p) ∧ p.contractOperands (al.alloc F) operands = .ok r ∧
      r.shape = out.map dims ∧ ∀ idx, InB r.shape idx → ∃ y, r.read idx = .ok y ∧
        |val y - val (accumulated dims cs inputs ts out idx)| ≤ tol := by
  obtain ⟨p, r, h0, h1, h2, h3⟩ := C116_path hr h al s operands inputs out dims ts m hm hc hn cs hcs
  refine ⟨p, r, h0, h1, h2, fun idx hi => ?_⟩
  obtain ⟨y, y1, y2⟩ := h3 idx hi
  refine ⟨y, y1, y2.trans (le_trans ?_ htol)⟩
  rw [h2] at hi
  obtain ⟨σ, h4, h5, rfl⟩ := exists_assign_zero hc.denotes.outputOk.1 hi
  rw [← textbook_eq hc.denotes.sub _ h4 h5]
  have h7 : (1 : K) ≤ (1 + u) ^ (termCount dims inputs out + inputs.length - 2) :=
    one_le_pow₀ (by linarith [hr.nonneg])
  have := mul_le_mul_of_nonneg_left (abs_le_count hc hB h4) (sub_nonneg.2 h7)
  linarith

/-- Elements up to `6 / 10`. -/
example : ∃ p r, einsumPath HashOrd.insertion "ij,jk->ik"
      ([Ex.m23, Ex.m32].map (View.map fun z : Int => Fl.mk ((z : ℚ) / 10))) .reverse = .ok (.ok p) ∧
    p.contractOperands (Alloc.rowMajor Fl)
      ([Ex.m23, Ex.m32].map (View.map fun z : Int => Fl.mk ((z : ℚ) / 10))) = .ok r ∧
    ∀ idx, InB r.shape idx → ∃ y, r.read idx = .ok y ∧
      |y.q - (accumulated Ex.dims ['k', 'j', 'i'] [['i', 'j'], ['j', 'k']]
        [fun idx => Fl.mk ((Ex.elems Ex.m23 idx : ℚ) / 10), fun idx => Fl.mk ((Ex.elems Ex.m32 idx : ℚ) / 10)]
        ['i', 'k'] idx).q| ≤ 1 / 10 ^ 15 := by
  have h4 : ∀ v ∈ [Ex.m23, Ex.m32].map (View.map fun z : Int => Fl.mk ((z : ℚ) / 10)), ∀ idx x, InB v.shape idx →
      v.read idx = .ok x → |x.q| ≤ 6 / 10 := by
    intro v hv idx x hi hx
    obtain ⟨w, hw, rfl⟩ := List.mem_map.1 hv
    have h5 : ∀ w ∈ [Ex.m23, Ex.m32], ∀ i ∈ allIdx w.shape, |(Ex.elems w i : ℚ) / 10| ≤ 6 / 10 := by decide +kernel
    have h6 := h5 w hw idx (mem_allIdx.2 hi)
    rw [View.read_map] at hx
    cases h7 : w.read idx with
    | error e => rw [h7] at hx; simp [Except.map] at hx
    | ok z =>
      rw [h7] at hx
      simp only [Except.map, Except.ok.injEq] at hx
      rw [Ex.elems, h7] at h6
      rw [← hx]
      exact h6
  obtain ⟨p, r, h1, h2, -, h3⟩ := C116_close Fl.rounded HashOrd.insertion UniformAlloc.rowMajor "ij,jk->ik" _ _ _ _ _
    .reverse (.inr rfl) (Ex.call_matmul.map fun z : Int => Fl.mk ((z : ℚ) / 10)) Ex.ned_matmul _ Ex.order_matmul
    (6 / 10) (1 / 10 ^ 15) h4 (by decide +kernel)
  exact ⟨p, r, h1, h2, h3⟩

/-! ## The crate's tests -/

/-- The strings of the tests denote the contractions given beside them, and the loops are over all letters. -/
theorem C116_denotes : ∀ t ∈ loopTests, Denotes t.text t.inputs t.out ∧ LoopOrder t.inputs t.loops ∧
    NoEmptyDiagonal t.dims t.inputs := by
  have h : ∀ t ∈ loopTests, t.text.toList = render t.inputs (some t.out) ∧ t.inputs ≠ [] ∧
      (∀ p ∈ t.inputs, p ≠ [] ∧ ∀ c ∈ p, 'a' ≤ c ∧ c ≤ 'z') ∧ (∀ c ∈ t.out, 'a' ≤ c ∧ c ≤ 'z') ∧ t.out.Nodup ∧
      (∀ c ∈ t.out, c ∈ t.inputs.flatten) ∧ t.loops.Nodup ∧ (∀ c ∈ t.loops, c ∈ t.inputs.flatten) ∧
      (∀ c ∈ t.inputs.flatten, c ∈ t.loops) ∧ ∀ c ∈ t.inputs.flatten, t.dims c ≠ 0 := by decide +kernel
  intro t ht
  obtain ⟨h1, h2, h3, h4, h5, h6, h7, h8, h9, h10⟩ := h t ht
  refine ⟨.inl ⟨h1, ⟨h2, h3, fun o ho => ?_⟩, h5, fun c hc => ?_⟩, ⟨h7, fun c => ⟨h8 c, h9 c⟩⟩, ?_⟩
  · cases ho; exact h4
  · obtain ⟨p, hp, hcp⟩ := List.mem_flatten.1 (h6 c hc)
    exact ⟨p, hp, hcp⟩
  · exact fun ix hix => .inr fun c hc => h10 c (List.mem_flatten.2 ⟨ix, hix, hc⟩)

/-- C116: the tests of the crate, with `f64` operations rounded to 53 bits.  Whatever numbers between -5 and 5 the arrays
hold, the result differs from that of the loops by at most `1e-10`, the tolerance of the tests, or, for the four largest
tests, by at most `1e-8` or `1e-9`. -/
theorem C116_tests {val : F → ℚ} (hr : Rounded val (2⁻¹ ^ 53)) (h : HashOrd) (al : UniformAlloc) (t : LoopTest)
    (ht : t ∈ loopTests) (operands : List (View F)) (ts : List (List Nat → F))
    (hs : Sized t.dims t.inputs (operands.map View.shape)) (he : List.Forall₂ Elements operands ts)
    (hB : ∀ v ∈ operands, ∀ idx x, InB v.shape idx → v.read idx = .ok x → |val x| ≤ 5) :
    ∃ p r, einsumPath h t.text operands .naive = .ok (.ok p) ∧ p.contractOperands (al.alloc F) operands = .ok r ∧
      r.shape = t.out.map t.dims ∧ ∀ idx, InB r.shape idx → ∃ y, r.read idx = .ok y ∧
        |val y - val (accumulated t.dims t.loops t.inputs ts t.out idx)| ≤ t.tol := by
  obtain ⟨h1, h2, h3⟩ := C116_denotes t ht
  refine C116_close hr h al t.text operands t.inputs t.out t.dims ts .naive (.inl rfl) ⟨h1, hs, he⟩ h3 t.loops h2 5 t.tol hB ?_
  have : ∀ t ∈ loopTests, 2 * (((1 + (2⁻¹ : ℚ) ^ 53) ^ (termCount t.dims t.inputs t.out + t.inputs.length - 2) - 1) *
      (termCount t.dims t.inputs t.out * 5 ^ t.inputs.length)) ≤ t.tol := by decide +kernel
  exact this t ht

/-- For each test there are arrays of these shapes with such elements. -/
example (t : LoopTest) (_ : t ∈ loopTests) : ∃ (operands : List (View Fl)) (ts : List (List Nat → Fl)),
    Sized t.dims t.inputs (operands.map View.shape) ∧ List.Forall₂ Elements operands ts ∧
    ∀ v ∈ operands, ∀ idx x, InB v.shape idx → v.read idx = .ok x → |x.q| ≤ 5 := by
  refine ⟨t.inputs.map fun ix => rowMajor (ix.map t.dims) ((List.range (ix.map t.dims).prod).map fun n => ⟨((n % 5 : ℕ) : ℚ)⟩),
    _, ?_, forall₂_elem fun v hv => ?_, fun v hv idx x hi hx => ?_⟩
  · rw [List.map_map]
    unfold Sized
    rw [List.forall₂_map_right_iff]
    exact List.forall₂_same.2 fun ix _ => rfl
  · obtain ⟨ix, -, rfl⟩ := List.mem_map.1 hv
    exact (rowMajor_ok (by simp)).1
  · obtain ⟨ix, -, rfl⟩ := List.mem_map.1 hv
    have hx' : x ∈ (List.range (ix.map t.dims).prod).map fun n => (⟨((n % 5 : ℕ) : ℚ)⟩ : Fl) := by
      rw [View.read, if_pos hi, readAt] at hx
      split at hx
      · split at hx
        · rename_i h
          simp only [Except.ok.injEq] at hx
          rw [← hx]
          exact List.mem_of_getElem? h
        · cases hx
      · cases hx
    obtain ⟨n, -, rfl⟩ := List.mem_map.1 hx'
    have h5 : n % 5 ≤ 5 := (Nat.mod_lt n (by decide)).le
    rw [abs_of_nonneg (Nat.cast_nonneg _)]
    change ((n % 5 : ℕ) : ℚ) ≤ 5
    exact_mod_cast h5

end Einsum
