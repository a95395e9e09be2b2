import Verif.Props.Programs
import Verif.Props.Ranks

/-!
# Any output labels for one operand

An order `Singleton` is compiled for contractions of one operand whose output labels are repeated or are not labels of the
operand (C99); what it computes.
-/

namespace Einsum

open Spec

/-! ## The axes of the diagonal view, numbered -/

theorem pos_le {α : Type} [DecidableEq α] {l : List α} {i : Nat} (h : i < l.length) : pos l[i] l ≤ i := by
  have h1 := position_eq_some.1 (position_of_mem (List.getElem_mem h))
  by_contra hlt
  exact h1.2 i (by omega) (by simp [h])

theorem pos_append_right {α : Type} [DecidableEq α] {c : α} {l m : List α} (hl : c ∉ l) (hm : c ∈ m) :
    pos c (l ++ m) = l.length + pos c m := by
  have h1 := position_eq_some.1 (position_of_mem hm)
  have : position c (l ++ m) = some (l.length + pos c m) := by
    rw [position_eq_some]
    refine ⟨by rw [List.getElem?_append_right (by omega), Nat.add_sub_cancel_left]; exact h1.1, fun j hj => ?_⟩
    by_cases hjl : j < l.length
    · rw [List.getElem?_append_left hjl]
      exact fun e => hl (List.mem_of_getElem? e)
    · rw [List.getElem?_append_right (by omega)]
      exact h1.2 _ (by omega)
  rw [pos, this]
  rfl

theorem diagLoop_mapping (L adj : List Char) (m : List Nat) :
    (diagLoop adj m L).2 = m ++ L.map fun c => pos c (adj ++ fresh adj L) := by
  induction L generalizing adj m with
  | nil => simp [diagLoop]
  | cons c L ih =>
    by_cases hc : c ∈ adj
    · simp only [diagLoop, position_of_mem hc, fresh, if_pos hc, List.map_cons]
      rw [ih, pos_append_left hc, List.append_assoc]
      rfl
    · simp only [diagLoop, position_eq_none.2 hc, fresh, if_neg hc, List.map_cons]
      rw [ih, List.append_assoc, List.append_assoc]
      have : pos c (adj ++ c :: fresh (adj ++ [c]) L) = adj.length := by
        rw [pos_append_right hc (by simp)]
        simp [pos, position]
      rw [this]
      rfl

section numbers
variable {dims : Char → Nat} {ix out : List Char}

/-- The lengths of the numbered axes. -/
def numbered (dims : Char → Nat) (adj : List Char) (k : Nat) : Nat := dims (adj.getD k 'a')

theorem numbered_getElem {adj : List Char} {k : Nat} (h : k < adj.length) : numbered dims adj k = dims adj[k] := by
  simp [numbered, h]

theorem numbered_pos {adj : List Char} {c : Char} (h : c ∈ adj) : numbered dims adj (pos c adj) = dims c := by
  rw [numbered, List.getD_eq_getElem?_getD, getElem?_pos h]; rfl

theorem getElem_pos {adj : List Char} {c : Char} (h : c ∈ adj) : adj[pos c adj]'(pos_lt h) = c := by
  have := getElem?_pos h
  rw [List.getElem?_eq_getElem (pos_lt h)] at this
  exact Option.some.inj this

theorem map_numbered (adj : List Char) : (List.range adj.length).map (numbered dims adj) = adj.map dims := by
  refine List.ext_getElem (by simp) fun k h1 h2 => ?_
  simp only [List.length_map] at h2
  simp [numbered, h2]

theorem mem_adjusted {c : Char} (h : c ∈ ix) : c ∈ out ++ fresh out ix := by
  rw [List.mem_append, mem_fresh]
  by_cases ho : c ∈ out
  · exact .inl ho
  · exact .inr ⟨h, ho⟩

/-- The number of a label that is not in the output. -/
theorem pos_fresh (k : Nat) (h : k < (fresh out ix).length) :
    pos (fresh out ix)[k] (out ++ fresh out ix) = out.length + k := by
  have hm := List.getElem_mem h
  rw [pos_append_right (mem_fresh.1 hm).2 hm, pos_getElem nodup_fresh h]

theorem map_fresh : (fresh out ix).map (fun c => pos c (out ++ fresh out ix)) =
    (List.range (fresh out ix).length).map (out.length + ·) := by
  refine List.ext_getElem (by simp) fun k h1 h2 => ?_
  simp only [List.length_map] at h1
  simp [pos_fresh k h1]

theorem range_adjusted : List.range (out ++ fresh out ix).length =
    List.range out.length ++ (fresh out ix).map fun c => pos c (out ++ fresh out ix) := by
  rw [map_fresh, List.length_append, List.range_add]

/-- An axis that no axis of the operand is mapped to: its label is repeated or not in the operand. -/
theorem extra_iff {k : Nat} (hk : k < (out ++ fresh out ix).length) :
    k ∉ ix.map (fun c => pos c (out ++ fresh out ix)) ↔
      (out ++ fresh out ix)[k] ∉ ix ∨ pos (out ++ fresh out ix)[k] (out ++ fresh out ix) ≠ k := by
  rw [List.mem_map]
  constructor
  · intro h
    by_contra hn
    push Not at hn
    exact h ⟨_, hn.1, hn.2⟩
  · rintro h ⟨c, hc, rfl⟩
    rw [getElem_pos (mem_adjusted hc)] at h
    exact h.elim (fun h => h hc) fun h => h rfl

theorem extra_label {k : Nat} (hk : k < (out ++ fresh out ix).length)
    (h : k ∉ ix.map (fun c => pos c (out ++ fresh out ix))) :
    ∃ c ∈ out, (c ∉ ix ∨ 2 ≤ out.count c) ∧ numbered dims (out ++ fresh out ix) k = dims c := by
  have hlt : k < out.length := by
    by_contra hge
    refine h (List.mem_map.2 ?_)
    rw [List.length_append] at hk
    have h1 : k - out.length < (fresh out ix).length := by omega
    exact ⟨_, (mem_fresh.1 (List.getElem_mem h1)).1, by rw [pos_fresh _ h1]; omega⟩
  have e : (out ++ fresh out ix)[k] = out[k] := List.getElem_append_left hlt
  refine ⟨out[k], List.getElem_mem hlt, ?_, by rw [numbered_getElem hk, e]⟩
  rw [extra_iff hk, e, pos_append_left (List.getElem_mem hlt)] at h
  refine h.imp_right fun h => ?_
  have h2 : pos out[k] out < out.length := pos_lt (List.getElem_mem hlt)
  have h1 := getElem_pos (List.getElem_mem hlt)
  have h3 := pos_le hlt
  rw [← List.duplicate_iff_two_le_count, List.duplicate_iff_exists_distinct_get]
  exact ⟨⟨_, h2⟩, ⟨k, hlt⟩, by simp only [Fin.mk_lt_mk]; omega, by simpa using h1.symm, rfl⟩

theorem label_extra {c : Char} (hc : c ∈ out) (h : c ∉ ix ∨ 2 ≤ out.count c) :
    ∃ k < (out ++ fresh out ix).length, k ∉ ix.map (fun c => pos c (out ++ fresh out ix)) ∧
      numbered dims (out ++ fresh out ix) k = dims c := by
  have hm : c ∈ out ++ fresh out ix := List.mem_append_left _ hc
  rcases h with h | h
  · refine ⟨pos c (out ++ fresh out ix), pos_lt hm, ?_, numbered_pos hm⟩
    rw [extra_iff (pos_lt hm)]
    left
    rwa [getElem_pos hm]
  · rw [← List.duplicate_iff_two_le_count, List.duplicate_iff_exists_distinct_get] at h
    obtain ⟨⟨i, hi⟩, ⟨j, hj⟩, hij, e1, e2⟩ := h
    simp only [Fin.mk_lt_mk] at hij
    simp only [List.get_eq_getElem] at e1 e2
    have hj' : j < (out ++ fresh out ix).length := by rw [List.length_append]; omega
    have e : (out ++ fresh out ix)[j] = c := by rw [List.getElem_append_left hj, e2]
    refine ⟨j, hj', ?_, by rw [numbered_getElem hj', e]⟩
    rw [extra_iff hj', e]
    right
    have hi' : i < (out ++ fresh out ix).length := by omega
    have := pos_le hi'
    rw [List.getElem_append_left hi, ← e1] at this
    omega

/-- The labels fit exactly if the numbered axes do. -/
theorem labelsFit_iff (hpos : ∀ c ∈ ix, 0 < dims c) : LabelsFit dims ix out ↔
    (∀ k ∈ List.range (out ++ fresh out ix).length, k ∉ ix.map (fun c => pos c (out ++ fresh out ix)) →
      numbered dims (out ++ fresh out ix) k ≤ 1) ∨
    ∃ k ∈ List.range (out ++ fresh out ix).length, numbered dims (out ++ fresh out ix) k = 0 := by
  unfold LabelsFit
  refine or_congr ⟨fun h k hk hn => ?_, fun h c hc hn => ?_⟩ ⟨fun ⟨c, hc, h0⟩ => ?_, fun ⟨k, hk, h0⟩ => ?_⟩
  · obtain ⟨c, c1, c2, c3⟩ := extra_label (dims := dims) (List.mem_range.1 hk) hn
    rw [c3]
    exact h c c1 c2
  · obtain ⟨k, k1, k2, k3⟩ := label_extra (dims := dims) (ix := ix) hc hn
    rw [← k3]
    exact h k (List.mem_range.2 k1) k2
  · have hm : c ∈ out ++ fresh out ix := List.mem_append_left _ hc
    exact ⟨_, List.mem_range.2 (pos_lt hm), (numbered_pos hm).trans h0⟩
  · have hk := List.mem_range.1 hk
    have hm := List.getElem_mem hk
    rw [numbered_getElem hk] at h0
    rcases List.mem_append.1 hm with g | g
    · exact ⟨_, g, h0⟩
    · have := hpos _ (mem_fresh.1 g).1
      omega

/-- Sums over numbered labels are sums over labels. -/
theorem sumOver_numbered {A : Type} [AddCommMonoid A] {q : Char → Nat} {dn : Nat → Nat} {F : (Nat → Nat) → A}
    {G : (Char → Nat) → A} (S : List Char) (hq : ∀ c ∈ S, ∀ d ∈ S, q c = q d → c = d) (hd : ∀ c ∈ S, dn (q c) = dims c)
    (hF : ∀ τ σ, (∀ c ∈ S, τ (q c) = σ c) → F τ = G σ) (cs : List Char) (hcs : ∀ c ∈ cs, c ∈ S) (τ : Nat → Nat)
    (σ : Char → Nat) (hτ : ∀ c ∈ S, τ (q c) = σ c) : sumOver dn (cs.map q) F τ = sumOver dims cs G σ := by
  induction cs generalizing τ σ with
  | nil => exact hF τ σ hτ
  | cons d cs ih =>
    have hd' := hcs d List.mem_cons_self
    rw [List.map_cons, sumOver_cons, sumOver_cons, hd d hd']
    refine Finset.sum_congr rfl fun v _ => ih (fun c hc => hcs c (List.mem_cons_of_mem _ hc)) _ _ fun c hc => ?_
    by_cases e : c = d
    · subst e; simp
    · rw [Function.update_of_ne e, Function.update_of_ne fun e' => e (hq c hc d hd' e'), hτ c hc]

end numbers

/-! ## The contractors -/

section ops
variable {dims : Char → Nat} {ix out : List Char}

theorem diagonalization_any {s : List Char} {sz : OutputSize} (hsz : ∀ c, c ∈ ix ∨ c ∈ out → sz c = some (dims c)) :
    Diagonalization.new ⟨⟨[ix], out, s⟩, sz⟩ =
      .ok ⟨ix.map fun c => pos c (out ++ fresh out ix), (out ++ fresh out ix).map dims⟩ := by
  unfold Diagonalization.new
  simp only [List.length_singleton, decide_true, assertThat_true, bind_ok, index_cons_zero, diagLoop_fresh, diagLoop_mapping,
    List.nil_append]
  rw [mapE_ok (g := dims) fun c hc => ?_]
  · rfl
  · have : c ∈ ix ∨ c ∈ out := by
      rw [List.mem_append, mem_fresh] at hc
      exact hc.elim .inr fun h => .inl h.1
    simp [OutputSize.get, hsz c this]

theorem fresh_ne_nil (h : out.length < ix.dedup.length) : fresh out ix ≠ [] := by
  intro e
  have hs : ∀ c ∈ ix, c ∈ out := fun c hc => by
    by_contra ho
    have := mem_fresh.2 ⟨hc, ho⟩
    rw [e] at this
    cases this
  have := (ix.nodup_dedup.subperm fun c hc => hs c (List.mem_dedup.1 hc) : ix.dedup.Subperm out).length_le
  omega

theorem dedup_length (ix : List Char) : ix.dedup.length = (hset ix).length :=
  (perm_of_nodup (List.nodup_dedup ix) (nodup_hset ix) fun c => by simp).length_eq

/-- The contractors for an operand with a repeated label. -/
theorem repeated_op {s : List Char} {sz : OutputSize} {p : SingletonContraction}
    (hp : SingletonContraction.new ⟨⟨[ix], out, s⟩, sz⟩ = .ok p) (hn : ¬ ix.Nodup)
    (hsz : ∀ c, c ∈ ix ∨ c ∈ out → sz c = some (dims c)) :
    ¬ out.length < ix.dedup.length ∧
      p.op = .diagonalization ⟨ix.map fun c => pos c (out ++ fresh out ix), (out ++ fresh out ix).map dims⟩ ∨
    out.length < ix.dedup.length ∧ p.op = .diagonalizationAndSummation
      ⟨⟨ix.map fun c => pos c (out ++ fresh out ix), (out ++ fresh out ix).map dims⟩,
        ⟨(List.range (fresh out ix).length).map (out.length + ·), List.replicate (fresh out ix).length out.length⟩⟩ := by
  have hle : out.length ≤ (hset ix).length := by
    obtain ⟨jx, e, h, -⟩ := (C99_single_iff _).1 ⟨p, hp⟩
    cases e
    rw [dedup_length] at h
    exact h
  obtain ⟨S, h1, h2, h3⟩ := singletonContraction_inv hp
  unfold SingletonSummary.new SingletonSummary.fromIndices at h1
  simp only [List.length_singleton, decide_true, assertThat_true, bind_ok, index_cons_zero, charCounts_length,
    usub_of_le hle] at h1
  cases h1
  rw [getStrategy_eq, if_neg (mt diag_zero_iff.1 hn)] at h2
  rw [dedup_length]
  by_cases h0 : out.length < (hset ix).length
  · rw [if_neg (by omega)] at h2
    rw [h2] at h3
    have hf := fresh_ne_nil (ix := ix) (out := out) (by rw [dedup_length]; exact h0)
    simp only [SingletonOp.new, DiagonalizationAndSummation.new, diagonalization_any hsz, bind_ok, List.length_map,
      List.length_append] at h3
    rw [usub_of_le (by omega), Nat.add_sub_cancel_left, bind_ok,
      Summation.fromSizes_ok (List.length_pos_iff.2 hf)] at h3
    exact .inr ⟨h0, (Except.ok.inj h3).symm⟩
  · rw [if_pos (by omega)] at h2
    rw [h2] at h3
    simp only [SingletonOp.new, diagonalization_any hsz, bind_ok] at h3
    exact .inl ⟨h0, (Except.ok.inj h3).symm⟩

/-- A view with an axis of stride zero and length two or more would show elements twice and is refused. -/
theorem view_refused {A : Type} {m sh : List Nat} {k : Nat} (hk : k < sh.length) (hm : k ∉ m) (hb : 2 ≤ sh.getD k 0)
    (h0 : ∀ x ∈ sh, x ≠ 0) (t : View A) : ∃ e, Diagonalization.view ⟨m, sh⟩ t = panic e := by
  rcases diagStrides_weak m (sh.map fun _ => 0) 0 t.strides with ⟨e, he⟩ | ⟨r, hr, hrl⟩
  · exact ⟨e, by simp only [Diagonalization.view, he]; rfl⟩
  have hz := diagStrides_untouched (k := k) t.strides _ _ _ hr fun j _ _ e => hm (List.mem_of_getElem? e)
  have hz0 : r.getD k 0 = 0 := by rw [hz]; simp [hk]
  have hov : overlapLoop sh r 0 (strideOrder (r.map Int.ofNat)) = true := by
    by_contra hf
    rw [Bool.not_eq_true, overlap_iff (by rw [hrl]; simp)] at hf
    · have := hf _ hk hb
      rw [hz0] at this
      omega
    · intro i hi
      rw [List.getD_eq_getElem?_getD, List.getElem?_eq_getElem hi]
      exact h0 _ (List.getElem_mem hi)
  have hne : sh.any (· = 0) = false := by
    rw [List.any_eq_false]
    intro x hx
    simpa using h0 x hx
  have hnone : ∀ data : List A, fromShapeStrides sh r data = none := by
    intro data
    simp only [fromShapeStrides, hne, hov]
    split_ifs <;> simp_all
  simp only [Diagonalization.view, hr, bind_ok]
  cases t.asSliceMemoryOrder with
  | none => exact ⟨_, rfl⟩
  | some data => exact ⟨_, by simp only [unwrapO, bind_ok, hnone]; rfl⟩

end ops

/-! ## An operand with a repeated label -/

section run
variable {A : Type} {dims : Char → Nat} {ix out : List Char}

theorem pos_range {n k : Nat} (h : k < n) : pos k (List.range n) = k := by
  have := pos_getElem (List.nodup_range (n := n)) (i := k) (by simpa using h)
  simpa using this

theorem map_pos_range : (ix.map fun c => pos c (out ++ fresh out ix)).map (fun k => pos k (List.range (out ++ fresh out ix).length)) =
    ix.map fun c => pos c (out ++ fresh out ix) := by
  rw [List.map_map]
  exact List.map_congr_left fun c hc => pos_range (pos_lt (mem_adjusted hc))

theorem map_map_numbered : (ix.map fun c => pos c (out ++ fresh out ix)).map (numbered dims (out ++ fresh out ix)) = ix.map dims := by
  rw [List.map_map]
  exact List.map_congr_left fun c hc => numbered_pos (mem_adjusted hc)

theorem rep_numbered {v : View A} {t : List Nat → A} (he : Elements v t) (hs : v.shape = ix.map dims) :
    Rep v (ix.map fun c => pos c (out ++ fresh out ix)) (numbered dims (out ++ fresh out ix))
      fun τ => t ((ix.map fun c => pos c (out ++ fresh out ix)).map τ) :=
  Holds.rep (by rw [map_map_numbered, ← hs]; exact he.holds)

/-- An array with numbered axes, read with labels. -/
theorem Rep.labelled {w : View A} {labels rest : List Char} {H : (Nat → Nat) → A}
    (h : Rep w (List.range labels.length) (numbered dims (labels ++ rest)) H) :
    w.Wf ∧ w.shape = labels.map dims ∧ ∀ σ, InRange dims labels σ →
      w.read (labels.map σ) = .ok (H fun k => σ ((labels ++ rest).getD k 'a')) := by
  have key : ∀ f : Char → Nat, (List.range labels.length).map (fun k => f ((labels ++ rest).getD k 'a')) = labels.map f := by
    intro f
    refine List.ext_getElem (by simp) fun k h1 h2 => ?_
    simp only [List.length_map] at h2
    simp [List.getElem?_append_left h2, h2]
  refine ⟨h.wf List.nodup_range, h.shape.trans (key dims), fun σ hσ => ?_⟩
  rw [← key σ]
  refine h.get _ fun k hk => ?_
  have hk := List.mem_range.1 hk
  have e : (labels ++ rest).getD k 'a' = labels[k] := by simp [List.getElem?_append_left hk, hk]
  rw [numbered, e]
  exact hσ _ (List.getElem_mem hk)

theorem einsum_numbered [CommSemiring A] {t : List Nat → A} {labels rest : List Char} (hl : labels ++ rest = out ++ fresh out ix)
    (hrest : ∀ c ∈ rest, c ∉ labels) (hin : ∀ c ∈ rest, c ∈ ix) (hnd : rest.Nodup) (σ : Char → Nat) :
    sumOver (numbered dims (out ++ fresh out ix)) (rest.map fun c => pos c (out ++ fresh out ix))
        (fun τ => t ((ix.map fun c => pos c (out ++ fresh out ix)).map τ))
        (fun k => σ ((out ++ fresh out ix).getD k 'a')) =
      Spec.einsum dims [ix] [t] labels σ := by
  have hq : ∀ c ∈ ix, (out ++ fresh out ix).getD (pos c (out ++ fresh out ix)) 'a' = c := fun c hc => by
    rw [List.getD_eq_getElem?_getD, getElem?_pos (mem_adjusted hc)]; rfl
  rw [sumOver_numbered (dims := dims) (G := fun σ => t (ix.map σ)) ix
    (fun c hc d hd e => pos_inj (mem_adjusted hc) (mem_adjusted hd) e) (fun c hc => numbered_pos (mem_adjusted hc))
    (fun τ σ h => by rw [List.map_map]; exact congrArg t (List.map_congr_left h)) rest hin _ σ
    (fun c hc => by rw [hq c hc])]
  rw [Spec.einsum, ← sumOver_summed (S := rest) hnd fun c => ?_]
  · congr 1
    funext σ
    simp [term]
  · simp only [List.flatten_cons, List.flatten_nil, List.append_nil]
    refine ⟨fun h => ⟨hin c h, hrest c h⟩, fun ⟨h1, h2⟩ => ?_⟩
    have := mem_adjusted (out := out) h1
    rw [← hl, List.mem_append] at this
    exact this.resolve_left h2

/-- A path for one operand is its contractor. -/
theorem singleton_path {h : HashOrd} {sc : SizedContraction} {p : EinsumPath}
    (hp : EinsumPath.fromPath h (.singleton sc) = .ok p) :
    ∃ c, SingletonContraction.new sc = .ok c ∧ p = ⟨.singleton sc, .singletonContraction c⟩ := by
  simp only [EinsumPath.fromPath] at hp
  obtain ⟨c, h1, h2⟩ := bind_eq_ok.1 hp
  exact ⟨c, h1, (Except.ok.inj h2).symm⟩

/-- C107: an operand with a repeated label and no empty axis.  An array is returned exactly if the output labels fit; it is
the Einstein sum, with the axes `resultLabels`. -/
theorem C107_repeated [CommSemiring A] (h : HashOrd) (al : Alloc A) (sc : SizedContraction) (p : EinsumPath)
    (hp : EinsumPath.fromPath h (.singleton sc) = .ok p) (ix : List Char) (hops : sc.contraction.operandIndices = [ix])
    (hn : ¬ ix.Nodup) (dims : Char → Nat)
    (hsz : ∀ c, c ∈ ix ∨ c ∈ sc.contraction.outputIndices → sc.outputSize c = some (dims c)) (v : View A) (t : List Nat → A)
    (he : Elements v t) (hs : v.shape = ix.map dims) (hpos : ∀ c ∈ ix, 0 < dims c) :
    (LabelsFit dims ix sc.contraction.outputIndices → ∃ r, p.contractOperands al [v] = .ok r ∧
      IsEinsum dims [ix] [t] (resultLabels ix sc.contraction.outputIndices) r) ∧
    (¬ LabelsFit dims ix sc.contraction.outputIndices → ∃ k, p.contractOperands al [v] = panic k) := by
  obtain ⟨c, hc, rfl⟩ := singleton_path hp
  obtain ⟨⟨ops, out, s⟩, sz⟩ := sc
  cases hops
  simp only at hsz ⊢
  rw [run_single]
  have hop := repeated_op hc hn hsz
  have hr := rep_numbered (out := out) he hs
  have hpp : 0 < ((ix.map fun c => pos c (out ++ fresh out ix)).map (numbered dims (out ++ fresh out ix))).prod := by
    rw [map_map_numbered]
    refine Nat.pos_of_ne_zero fun e => ?_
    obtain ⟨c, hc, e⟩ := List.mem_map.1 (List.prod_eq_zero_iff.1 e)
    have := hpos c hc
    omega
  have hLa : ∀ k ∈ ix.map (fun c => pos c (out ++ fresh out ix)), k ∈ List.range (out ++ fresh out ix).length := by
    intro k hk
    obtain ⟨c, hc, rfl⟩ := List.mem_map.1 hk
    exact List.mem_range.2 (pos_lt (mem_adjusted hc))
  constructor
  · intro hf
    rw [labelsFit_iff hpos] at hf
    rcases hop with ⟨g, e⟩ | ⟨g, e⟩ <;> rw [e, resultLabels]
    · rw [if_neg g]
      obtain ⟨w, w1, w2⟩ := hr.diagRun_extra he.1 hpp List.nodup_range hLa hf (fun _ _ => le_rfl) al
      rw [map_pos_range, map_numbered] at w1
      refine ⟨w, w1, ?_⟩
      obtain ⟨a1, a2, a3⟩ := Rep.labelled (rest := []) (by rw [List.append_nil]; exact w2)
      refine ⟨a1, a2, fun σ hσ => ?_⟩
      rw [a3 σ hσ, ← einsum_numbered (out := out) (rest := []) (List.append_nil _) (by simp) (by simp) List.nodup_nil,
        List.append_nil]
      rfl
    · rw [if_pos g]
      have hne := fresh_ne_nil g
      obtain ⟨x, x1, x2⟩ := hr.diagEither_extra he.1 hpp List.nodup_range hLa hf (fun _ _ => le_rfl) (al.sub 0)
      rw [map_pos_range, map_numbered] at x1
      have hnd := List.nodup_range (n := (out ++ fresh out ix).length)
      rw [range_adjusted] at x2 hnd
      obtain ⟨w, w1, w2⟩ := x2.summation hnd (by simpa using hne)
        ((List.range (fresh out ix).length).map (out.length + ·)) (al.sub 1)
      rw [List.length_map, List.length_range] at w1
      obtain ⟨a1, a2, a3⟩ := w2.labelled
      refine ⟨w, ?_, a1, a2, fun σ hσ => ?_⟩
      · simp only [SingletonOp.run]
        rw [diagSum_run, x1]
        exact w1
      · rw [a3 σ hσ, einsum_numbered rfl (fun c hc => (mem_fresh.1 hc).2) (fun c hc => (mem_fresh.1 hc).1) nodup_fresh]
  · intro hf
    rw [labelsFit_iff hpos] at hf
    push Not at hf
    obtain ⟨⟨k, k1, k2, k3⟩, h0⟩ := hf
    have k1' := List.mem_range.1 k1
    have key : ∀ z : View A, ∃ e, Diagonalization.view
        ⟨ix.map fun c => pos c (out ++ fresh out ix), (out ++ fresh out ix).map dims⟩ z = panic e := by
      refine view_refused (k := k) (by simpa using k1') k2 ?_ ?_
      · rw [numbered_getElem k1'] at k3
        rw [List.getD_eq_getElem?_getD, List.getElem?_map, List.getElem?_eq_getElem k1']
        exact k3
      · rw [← map_numbered]
        intro x hx
        obtain ⟨j, hj, rfl⟩ := List.mem_map.1 hx
        exact h0 j hj
    rcases hop with ⟨-, e⟩ | ⟨-, e⟩ <;> rw [e]
    · exact (singleton_panics he.1 (fun z _ _ => key z) al).1
    · exact (singleton_panics he.1 (fun z _ _ => key z) al).2 _

/-- C107: an operand with a repeated label and an empty axis.  An array is returned exactly if labels are summed and the
operand is one of the slices of C14; its elements are zero. -/
theorem C107_empty [CommSemiring A] (h : HashOrd) (al : Alloc A) (sc : SizedContraction) (p : EinsumPath)
    (hp : EinsumPath.fromPath h (.singleton sc) = .ok p) (ix : List Char) (hops : sc.contraction.operandIndices = [ix])
    (hn : ¬ ix.Nodup) (dims : Char → Nat)
    (hsz : ∀ c, c ∈ ix ∨ c ∈ sc.contraction.outputIndices → sc.outputSize c = some (dims c)) (v : View A)
    (hv : v.Wf) (hs : v.shape = ix.map dims) (hz : ∃ c ∈ ix, dims c = 0) :
    (sc.contraction.outputIndices.length < ix.dedup.length ∧ UnitRow v → ∃ r, p.contractOperands al [v] = .ok r ∧ r.Wf ∧
      r.shape = sc.contraction.outputIndices.map dims ∧ ∀ idx, InB r.shape idx → r.read idx = .ok 0) ∧
    (¬ (sc.contraction.outputIndices.length < ix.dedup.length ∧ UnitRow v) → ∃ k, p.contractOperands al [v] = panic k) := by
  obtain ⟨c, hc, rfl⟩ := singleton_path hp
  obtain ⟨⟨ops, out, s⟩, sz⟩ := sc
  cases hops
  simp only at hsz ⊢
  rw [run_single]
  have hop := repeated_op hc hn hsz
  have hr := rep_numbered (out := out) hv.elements hs
  have h0 : ((ix.map fun c => pos c (out ++ fresh out ix)).map (numbered dims (out ++ fresh out ix))).prod = 0 := by
    rw [map_map_numbered]
    obtain ⟨c, hc, e⟩ := hz
    exact List.prod_eq_zero (List.mem_map.2 ⟨c, hc, e⟩)
  have hLa : ∀ k ∈ ix.map (fun c => pos c (out ++ fresh out ix)), k ∈ List.range (out ++ fresh out ix).length := by
    intro k hk
    obtain ⟨c, hc, rfl⟩ := List.mem_map.1 hk
    exact List.mem_range.2 (pos_lt (mem_adjusted hc))
  have hL : ix.map (fun c => pos c (out ++ fresh out ix)) ≠ [] := by
    obtain ⟨c, hc, -⟩ := hz
    exact fun e => List.ne_nil_of_mem hc (List.map_eq_nil_iff.1 e)
  have h1 : (ix.map fun c => pos c (out ++ fresh out ix)).length ≠ 1 := by
    rw [List.length_map]
    intro e
    obtain ⟨c, rfl⟩ := List.length_eq_one_iff.1 e
    exact hn (List.nodup_singleton c)
  have hrun : ∀ al : Alloc A, Diagonalization.run
      ⟨ix.map fun c => pos c (out ++ fresh out ix), (out ++ fresh out ix).map dims⟩ al v = panic .assertFailed := by
    intro al
    have := hr.diagRun_panics (adj := List.range (out ++ fresh out ix).length) hL h0
      (ix.map fun c => pos c (out ++ fresh out ix)) al
    rwa [map_numbered] at this
  constructor
  · rintro ⟨g, hu⟩
    rcases hop with ⟨g', -⟩ | ⟨-, e⟩
    · exact absurd g g'
    rw [e]
    obtain ⟨u1, w, u2⟩ := hr.diagView_unit (adj := List.range (out ++ fresh out ix).length) hv hLa hu h1 h0
    have hw : Rep w (List.range (out ++ fresh out ix).length) (numbered dims (out ++ fresh out ix))
        fun _ => (0 : A) := by
      rcases diagView_weak v ((ix.map fun c => pos c (out ++ fresh out ix)).map
        fun k => pos k (List.range (out ++ fresh out ix).length)) h0 hLa fun _ => (0 : A) with ⟨k, hk⟩ | ⟨w', hk, hw⟩
      · rw [u2] at hk
        simp [panic] at hk
      · rw [u2] at hk
        cases hk
        exact hw
    rw [map_pos_range, map_numbered] at u2
    have hnd := List.nodup_range (n := (out ++ fresh out ix).length)
    rw [range_adjusted] at hw hnd
    obtain ⟨r, r1, r2⟩ := hw.summation hnd (by simpa using fresh_ne_nil g)
      ((List.range (fresh out ix).length).map (out.length + ·)) (al.sub 1)
    rw [List.length_map, List.length_range] at r1
    refine ⟨r, ?_, r2.labelled.1, r2.labelled.2.1, fun idx hi => ?_⟩
    · simp only [SingletonOp.run]
      rw [diagSum_run, if_pos (by
        simp only [u1, Bool.true_and, List.all_eq_true, decide_eq_true_eq]
        exact hu.1), u2]
      exact r1
    · have hh := r2.holds List.nodup_range
      rw [hh.shape] at hi
      rw [hh.get idx hi, sumOver_zero]
  · intro hg
    rcases hop with ⟨-, e⟩ | ⟨g, e⟩ <;> rw [e]
    · exact ⟨_, hrun al⟩
    · simp only [SingletonOp.run]
      rw [diagSum_run]
      split
      · rename_i hcond
        simp only [Bool.and_eq_true, List.all_eq_true, decide_eq_true_eq] at hcond
        obtain ⟨k, hk⟩ := hr.diagView_panics (adj := List.range (out ++ fresh out ix).length) hv h0 hLa hcond.2 (by
          by_contra hd
          push Not at hd
          have hd1 : ∀ d ∈ v.shape, d ≤ 1 := fun d hx => by have := hd d hx; omega
          refine hg ⟨g, hcond.2, hd1, ?_⟩
          refine (contig_unit hv.1 (by rw [hr.shape, List.length_map]; exact h1) (by rw [hr.shape, h0]) hcond.2 hd1).1 ?_
          have := hcond.1
          unfold View.asSliceMemoryOrder at this
          split at this
          · assumption
          · simp at this)
        rw [map_pos_range, map_numbered] at hk
        exact ⟨k, by rw [hk]; rfl⟩
      · exact ⟨_, by rw [hrun]; rfl⟩

end run

/-! ## All elements of the result -/

section all
variable {dims : Char → Nat}

theorem exists_values {labels : List Char} (h : ∀ c ∈ labels, 2 ≤ labels.count c → dims c ≤ 1) {idx : List Nat}
    (hi : InB (labels.map dims) idx) : ∃ σ, InRange dims labels σ ∧ idx = labels.map σ := by
  obtain ⟨hl, hb⟩ := InB_iff_getElem.1 hi
  rw [List.length_map] at hl
  have hlt : ∀ k (hk : k < labels.length), idx[k]'(by omega) < dims labels[k] := fun k hk => by
    have := hb k (by simpa using hk) (by omega)
    rwa [List.getElem_map] at this
  have key : ∀ k (hk : k < labels.length), idx.getD (pos labels[k] labels) 0 = idx[k]'(by omega) := by
    intro k hk
    have hp := pos_lt (List.getElem_mem hk)
    have hpe : idx.getD (pos labels[k] labels) 0 = idx[pos labels[k] labels]'(by omega) := by
      simp [show pos labels[k] labels < idx.length by omega]
    rw [hpe]
    by_cases e : pos labels[k] labels = k
    · simp only [e]
    · have h1 := hlt _ hp
      have h2 := hlt k hk
      have h3 := pos_le hk
      have h4 := getElem_pos (List.getElem_mem hk)
      rw [h4] at h1
      have := h labels[k] (List.getElem_mem hk) (by
        rw [← List.duplicate_iff_two_le_count, List.duplicate_iff_exists_distinct_get]
        exact ⟨⟨_, hp⟩, ⟨k, hk⟩, by simp only [Fin.mk_lt_mk]; omega, by simpa using h4.symm, rfl⟩)
      omega
  refine ⟨fun c => idx.getD (pos c labels) 0, fun c hc => ?_, ?_⟩
  · obtain ⟨k, hk, rfl⟩ := List.getElem_of_mem hc
    show idx.getD (pos labels[k] labels) 0 < dims labels[k]
    rw [key k hk]
    exact hlt k hk
  · refine List.ext_getElem (by simpa using hl) fun k h1 h2 => ?_
    simp only [List.length_map] at h2
    rw [List.getElem_map, key k h2]

/-- C107: C107_repeated says what all elements of the result are. -/
theorem C107_all (ix out : List Char) (hf : LabelsFit dims ix out) (idx : List Nat)
    (hi : InB ((resultLabels ix out).map dims) idx) :
    ∃ σ, InRange dims (resultLabels ix out) σ ∧ idx = (resultLabels ix out).map σ := by
  have hout : ∀ c ∈ out, c ∈ resultLabels ix out := fun c hc => by
    rw [resultLabels]
    split
    · exact hc
    · exact List.mem_append_left _ hc
  rcases hf with hf | ⟨c, hc, h0⟩
  · refine exists_values (fun c hc h2 => ?_) hi
    have h3 : 2 ≤ out.count c := by
      rw [resultLabels] at h2
      split at h2
      · exact h2
      · rw [List.count_append] at h2
        by_cases ho : c ∈ out
        · have : (fresh out ix).count c = 0 := List.count_eq_zero.2 fun g => (mem_fresh.1 g).2 ho
          omega
        · have := List.nodup_iff_count_le_one.1 (nodup_fresh (seen := out) (L := ix)) c
          have : out.count c = 0 := List.count_eq_zero.2 ho
          omega
    exact hf c (List.count_pos_iff.1 (by omega)) (.inr h3)
  · obtain ⟨hl, hb⟩ := InB_iff_getElem.1 hi
    obtain ⟨k, hk, e⟩ := List.getElem_of_mem (hout c hc)
    have := hb k (by simpa using hk) (by rw [hl]; simpa using hk)
    rw [List.getElem_map, e, h0] at this
    omega

/-- C107, finding: without sums the result has more axes than there are output labels, unless these are the labels of the
operand. -/
theorem C107_rank (ix out : List Char) (hle : out.length ≤ ix.dedup.length) :
    (resultLabels ix out).length = out.length ↔
      out.length < ix.dedup.length ∨ out.Nodup ∧ ∀ c, c ∈ out ↔ c ∈ ix := by
  rw [resultLabels]
  split
  · rename_i h
    simp [h]
  · rename_i h
    rw [List.length_append, or_iff_right h]
    constructor
    · intro e
      have hf : fresh out ix = [] := List.eq_nil_of_length_eq_zero (by omega)
      have hs : ∀ c ∈ ix, c ∈ out := fun c hc => by
        by_contra ho
        have := mem_fresh.2 ⟨hc, ho⟩
        rw [hf] at this
        cases this
      have hp : ix.dedup.Perm out :=
        (ix.nodup_dedup.subperm fun c hc => hs c (List.mem_dedup.1 hc) : ix.dedup.Subperm out).perm_of_length_le hle
      exact ⟨hp.nodup_iff.1 ix.nodup_dedup, fun c => by rw [← hp.mem_iff, List.mem_dedup]⟩
    · rintro ⟨-, h2⟩
      have : fresh out ix = [] := List.eq_nil_iff_forall_not_mem.2 fun c hc =>
        (mem_fresh.1 hc).2 ((h2 c).2 (mem_fresh.1 hc).1)
      rw [this]
      rfl

end all

/-! ## An operand without repeated labels -/

section distinct
variable {A : Type}

/-- C107: without repeated operand labels and with distinct output labels the order computes Einstein sums of arrays of all
sizes, recorded or not. -/
theorem C107_distinct [CommSemiring A] (h : HashOrd) (al : Alloc A) (sc : SizedContraction) (p : EinsumPath)
    (hp : EinsumPath.fromPath h (.singleton sc) = .ok p) (ix : List Char) (hops : sc.contraction.operandIndices = [ix])
    (hn : ix.Nodup) (ho : sc.contraction.outputIndices.Nodup) (dims : Char → Nat) (v : View A) (t : List Nat → A)
    (he : Elements v t) (hs : v.shape = ix.map dims) :
    ∃ r, p.contractOperands al [v] = .ok r ∧ IsEinsum dims [ix] [t] sc.contraction.outputIndices r := by
  obtain ⟨c, hc, rfl⟩ := singleton_path hp
  obtain ⟨jx, e, -, hsub⟩ := (C99_single_iff sc).1 ⟨c, hc⟩
  rw [hops] at e
  cases e
  replace hsub : ∀ c ∈ sc.contraction.outputIndices, c ∈ ix := by
    rcases hsub with ⟨-, hsub⟩ | ⟨h1, -⟩
    · exact hsub
    · exact absurd hn h1
  obtain ⟨⟨ops, out, s⟩, sz⟩ := sc
  cases hops
  simp only at ho hsub ⊢
  have hv : SizedContraction.Valid ⟨⟨[ix], out, summationOf [ix] out⟩, fun c => some (dims c)⟩ dims :=
    ⟨⟨ho, fun c hc => used_iff.2 (by simpa using hsub c hc)⟩, rfl, fun _ _ => rfl⟩
  obtain ⟨q, q1, -, q2⟩ := singleton_ok hv rfl
  have q1 : SingletonContraction.new ⟨⟨[ix], out, s⟩, fun c => some (dims c)⟩ = .ok q := q1
  have hfree : SizeFree c.method := by
    obtain ⟨S, h1, h2, -⟩ := singletonContraction_inv hc
    unfold SingletonSummary.new SingletonSummary.fromIndices at h1
    simp only [List.length_singleton, decide_true, assertThat_true, bind_ok, index_cons_zero] at h1
    obtain ⟨n, -, h1⟩ := bind_eq_ok.1 h1
    cases h1
    rw [getStrategy_eq, if_pos (diag_zero_iff.2 hn)] at h2
    rw [h2]
    split_ifs <;> exact trivial
  obtain rfl := (singletonContraction_same (sc := ⟨⟨[ix], out, s⟩, sz⟩) (sc' := ⟨⟨[ix], out, s⟩, fun c => some (dims c)⟩) rfl hc q1).2 hfree
  rw [run_single]
  obtain ⟨r, r1, r2⟩ := (q2 A al v (fun σ => t (ix.map σ)) (Holds.rep (by rw [← hs]; exact he.holds)) he.1).1 (.inl hn)
  exact ⟨r, r1, Rep.isEinsum_one ho r2⟩

/-- C107: without repeated operand labels but with a repeated output label every run panics. -/
theorem C107_distinct_panics [Zero A] [Add A] [Mul A] [MulAdd A] (h : HashOrd) (al : Alloc A) (sc : SizedContraction)
    (p : EinsumPath) (hp : EinsumPath.fromPath h (.singleton sc) = .ok p) (ix : List Char)
    (hops : sc.contraction.operandIndices = [ix]) (hn : ix.Nodup) (ho : ¬ sc.contraction.outputIndices.Nodup) (v : View A) :
    p.contractOperands al [v] = panic .ndarray := by
  obtain ⟨c, hc, rfl⟩ := singleton_path hp
  obtain ⟨jx, e, hle, hsub⟩ := (C99_single_iff sc).1 ⟨c, hc⟩
  rw [hops] at e
  cases e
  replace hsub : ∀ c ∈ sc.contraction.outputIndices, c ∈ ix := by
    rcases hsub with ⟨-, hsub⟩ | ⟨h1, -⟩
    · exact hsub
    · exact absurd hn h1
  obtain ⟨⟨ops, out, s⟩, sz⟩ := sc
  cases hops
  simp only at ho hsub hle ⊢
  rw [run_single]
  obtain ⟨S, h1, h2, h3⟩ := singletonContraction_inv hc
  unfold SingletonSummary.new SingletonSummary.fromIndices at h1
  simp only [List.length_singleton, decide_true, assertThat_true, bind_ok, index_cons_zero] at h1
  obtain ⟨n, -, h1⟩ := bind_eq_ok.1 h1
  cases h1
  have hle' : out.length ≤ ix.length := hle.trans (by rw [List.Nodup.dedup hn])
  have hr : ¬ ((out.zip ix).filter fun p => p.1 ≠ p.2).length = 0 := fun e => by
    obtain ⟨S, rfl⟩ := (reord_zero_iff hle').1 e
    exact ho (List.nodup_append.1 hn).1
  have hdup : ∀ rest : List Nat, ¬ (out.map (fun c => pos c ix) ++ rest).Perm (List.range v.shape.length) := by
    intro rest e
    have := (List.nodup_append.1 (e.nodup_iff.2 List.nodup_range)).1
    exact ho (List.Nodup.of_map _ this)
  rw [getStrategy_eq, if_pos (diag_zero_iff.2 hn), if_neg hr, if_neg hr] at h2
  have hm : mapE (fun c => unwrapO (position c ix)) out = .ok (out.map fun c => pos c ix) :=
    mapE_ok fun c hc => by simp [position_of_mem (hsub c hc)]
  split_ifs at h2
  · rw [h2] at h3
    simp only [SingletonOp.new, Permutation.new, List.length_singleton, decide_true, assertThat_true, bind_ok, index_cons_zero,
      hm] at h3
    obtain ⟨q, h3, h4⟩ := bind_eq_ok.1 h3
    obtain ⟨_, -, h3⟩ := bind_eq_ok.1 h3
    cases h3
    rw [← Except.ok.inj h4]
    simp only [SingletonOp.run, Permutation.run]
    rw [View.permutedAxes_panic (by simpa using hdup [])]
    rfl
  · rw [h2] at h3
    simp only [SingletonOp.new, PermutationAndSummation.new, bind_ok, index_cons_zero, hm] at h3
    obtain ⟨q, h3, h4⟩ := bind_eq_ok.1 h3
    obtain ⟨x, -, h3⟩ := bind_eq_ok.1 h3
    cases h3
    rw [← Except.ok.inj h4]
    simp only [SingletonOp.run, PermutationAndSummation.run, Permutation.view, Permutation.fromIndices]
    rw [View.permutedAxes_panic (hdup _)]
    rfl

end distinct

/-! ## Examples -/

namespace Ex

/-- `ii->k`, where `i` has length 2. -/
def diagonalAs (k : Nat) : SizedContraction := ⟨⟨[['i', 'i']], ['k'], []⟩, fun c => some (if c = 'k' then k else 2)⟩

end Ex

/-- The diagonal of a matrix, labelled with another letter of length one, is a matrix with one row. -/
example : ∃ p r, EinsumPath.fromPath HashOrd.reversed (.singleton (Ex.diagonalAs 1)) = .ok p ∧
    p.contractOperands (Alloc.colMajor Int) [Ex.m22] = .ok r ∧ r.shape = [1, 2] ∧ r.read [0, 1] = .ok 2 := by
  obtain ⟨p, hp⟩ := (C99_singleton_iff HashOrd.reversed (Ex.diagonalAs 1)).2
    ⟨['i', 'i'], rfl, by decide, .inr ⟨by decide, by simp [Ex.diagonalAs]⟩⟩
  obtain ⟨r, h1, -, h2, h3⟩ := (C107_repeated _ (Alloc.colMajor Int) _ p hp ['i', 'i'] rfl (by decide)
    (fun c => if c = 'k' then 1 else 2) (fun _ _ => rfl) Ex.m22 _ Ex.e22 rfl (by decide)).1 (.inl (by decide))
  refine ⟨p, r, hp, h1, h2, ?_⟩
  have := h3 (fun c => if c = 'k' then 0 else 1) (by unfold InRange; decide)
  exact this.trans (by decide)

/-- With length two it panics. -/
example : ∃ p k, EinsumPath.fromPath HashOrd.reversed (.singleton (Ex.diagonalAs 2)) = .ok p ∧
    p.contractOperands (Alloc.colMajor Int) [Ex.m22] = panic k := by
  obtain ⟨p, hp⟩ := (C99_singleton_iff HashOrd.reversed (Ex.diagonalAs 2)).2
    ⟨['i', 'i'], rfl, by decide, .inr ⟨by decide, by simp [Ex.diagonalAs]⟩⟩
  obtain ⟨k, hk⟩ := (C107_repeated _ (Alloc.colMajor Int) _ p hp ['i', 'i'] rfl (by decide)
    (fun c => if c = 'k' then 2 else 2) (fun _ _ => rfl) Ex.m22 _ Ex.e22 rfl (by decide)).2 (by unfold LabelsFit; decide)
  exact ⟨p, k, hp, hk⟩

/-- The result has two axes for one output label. -/
example : (resultLabels ['i', 'i'] ['k']).length ≠ ['k'].length :=
  fun e => by have := (C107_rank ['i', 'i'] ['k'] (by decide)).1 e; simp at this

/-- Where labels are summed it has one. -/
example : resultLabels ['i', 'i', 'j'] ['k'] = ['k'] := by decide

/-- `iij->k` with any length of `k` sums a slice without elements to zeros. -/
example : ∃ p r, EinsumPath.fromPath HashOrd.reversed (.singleton ⟨⟨[['i', 'i', 'j']], ['k'], []⟩,
      fun c => some (if c = 'j' then 0 else if c = 'k' then 3 else 1)⟩) = .ok p ∧
    p.contractOperands (Alloc.colMajor Int) [⟨[7], 0, [1, 1, 0], [1, 1, 1]⟩] = .ok r ∧ r.shape = [3] ∧ r.read [2] = .ok 0 := by
  obtain ⟨p, hp⟩ := (C99_singleton_iff HashOrd.reversed ⟨⟨[['i', 'i', 'j']], ['k'], []⟩,
      fun c => some (if c = 'j' then 0 else if c = 'k' then 3 else 1)⟩).2
    ⟨['i', 'i', 'j'], rfl, by decide, .inr ⟨by decide, by simp⟩⟩
  obtain ⟨r, h1, -, h2, h3⟩ := (C107_empty _ (Alloc.colMajor Int) _ p hp ['i', 'i', 'j'] rfl (by decide)
    (fun c => if c = 'j' then 0 else if c = 'k' then 3 else 1) (fun _ _ => rfl) ⟨[7], 0, [1, 1, 0], [1, 1, 1]⟩
    ⟨rfl, fun idx hi => absurd hi.pos (by decide)⟩ rfl (by decide)).1
    ⟨by decide, by decide, by decide, 2, by decide, by decide, fun j hj => by
      rcases j with _ | _ | _ | j
      · decide
      · decide
      · exact absurd rfl hj
      · simp⟩
  exact ⟨p, r, hp, h1, h2, h3 [2] (by rw [h2]; decide)⟩

/-- `ij->ji` with no length recorded transposes a matrix. -/
example : ∃ p r, EinsumPath.fromPath HashOrd.reversed (.singleton ⟨⟨[['i', 'j']], ['j', 'i'], []⟩, fun _ => none⟩) = .ok p ∧
    p.contractOperands (Alloc.colMajor Int) [Ex.m23] = .ok r ∧ r.shape = [3, 2] := by
  obtain ⟨p, hp⟩ := (C99_singleton_iff HashOrd.reversed ⟨⟨[['i', 'j']], ['j', 'i'], []⟩, fun _ => none⟩).2
    ⟨['i', 'j'], rfl, by decide, .inl ⟨by decide, by decide⟩⟩
  obtain ⟨r, h1, -, h2, -⟩ := C107_distinct _ (Alloc.colMajor Int) _ p hp ['i', 'j'] rfl (by decide) (by decide)
    (fun c => if c = 'i' then 2 else 3) Ex.m23 _ Ex.e23 rfl
  exact ⟨p, r, hp, h1, h2⟩

/-- `ij->ii` is compiled and panics. -/
example : ∃ p, EinsumPath.fromPath HashOrd.reversed (.singleton ⟨⟨[['i', 'j']], ['i', 'i'], []⟩, fun _ => none⟩) = .ok p ∧
    p.contractOperands (Alloc.colMajor Int) [Ex.m23] = panic .ndarray := by
  obtain ⟨p, hp⟩ := (C99_singleton_iff HashOrd.reversed ⟨⟨[['i', 'j']], ['i', 'i'], []⟩, fun _ => none⟩).2
    ⟨['i', 'j'], rfl, by decide, .inl ⟨by decide, by decide⟩⟩
  exact ⟨p, hp, C107_distinct_panics _ _ _ p hp ['i', 'j'] rfl (by decide) (by decide) _⟩

end Einsum
