import Verif.SpecBasis
import Verif.Props.Positions

/-!
# C113: change of basis along a letter
-/

namespace Einsum
open Spec Function

section
variable {A : Type} [CommSemiring A] {d : Char → Nat} {j : Char} {m n : Nat}

/-- Factors without the letter do not see its value. -/
theorem basis_term {I : List (List Char)} {T : List (List Nat → A)} (h : j ∉ I.flatten) (σ : Char → Nat) (x : Nat) :
    term I T (update σ j x) = term I T σ :=
  dependsOn_term I T _ _ fun c hc => update_of_ne (by rintro rfl; exact h hc) _ _

theorem basis_map {l : List Char} (h : j ∉ l) (σ : Char → Nat) (x : Nat) : l.map (update σ j x) = l.map σ :=
  List.map_congr_left fun c hc => update_of_ne (by rintro rfl; exact h hc) _ _

/-- The value of a letter that labels one axis. -/
theorem basis_set {a b : List Char} (ha : j ∉ a) (hb : j ∉ b) (σ : Char → Nat) (x : Nat) :
    ((a ++ j :: b).map σ).set a.length x = (a ++ j :: b).map (update σ j x) := by
  rw [List.map_append, List.map_append, basis_map ha, List.map_cons, List.map_cons, basis_map hb, update_self,
    List.set_append_right _ _ (by simp)]
  simp

theorem along_value {M : Nat → Nat → A} {k : Nat} {v w : View A} (h : Along M m n k v w) {i : List Nat}
    (hi : InB w.shape i) (p : Nat) (hp : i[k]? = some p) :
    w.elem i = ∑ x ∈ Finset.range n, M p x * v.elem (i.set k x) := by
  obtain ⟨p', h1, f, h2, h3⟩ := h.read i hi
  obtain rfl : p = p' := Option.some.inj (hp.symm.trans h1)
  have : w.elem i = ∑ x ∈ Finset.range n, M p x * f x := by unfold View.elem; rw [h3]
  rw [this]
  refine Finset.sum_congr rfl fun x hx => ?_
  rw [View.elem, h2 x (by simpa using hx)]

/-- An operand one of whose axes is transformed. -/
theorem along_elem {M : Nat → Nat → A} {v w : View A} {a b : List Char} (h : Along M m n a.length v w)
    (ha : j ∉ a) (hb : j ∉ b) (hs : v.shape = (a ++ j :: b).map d) {τ : Char → Nat}
    (hτ : InRange (update d j m) (a ++ j :: b) τ) :
    w.elem ((a ++ j :: b).map τ) = ∑ x ∈ Finset.range n, M (τ j) x * v.elem ((a ++ j :: b).map (update τ j x)) := by
  rw [along_value h (by rw [h.shape, hs, basis_set ha hb]; exact InB_map.2 hτ) (τ j) (by simp)]
  simp only [basis_set ha hb]

theorem along_dim {M : Nat → Nat → A} {v w : View A} {a b : List Char} (h : Along M m n a.length v w)
    (hs : v.shape = (a ++ j :: b).map d) : d j = n := by
  have := h.axis
  rw [hs] at this
  simpa using this

omit [CommSemiring A] in
theorem sized_cut {d : Char → Nat} {I J : List (List Char)} {ix : List Char} {V W : List (View A)} {v : View A}
    (hl : I.length = V.length) :
    Sized d (I ++ ix :: J) ((V ++ v :: W).map View.shape) ↔
      Sized d I (V.map View.shape) ∧ v.shape = ix.map d ∧ Sized d J (W.map View.shape) := by
  unfold Sized
  induction I generalizing V with
  | nil =>
    obtain rfl : V = [] := List.length_eq_zero_iff.1 hl.symm
    simp
  | cons i I ih =>
    cases V with
    | nil => simp at hl
    | cons u V =>
      simp only [List.cons_append, List.map_cons, List.forall₂_cons]
      rw [ih (by simpa using hl), and_assoc]

omit [CommSemiring A] in
/-- Arrays without the letter do not see its length. -/
theorem sized_update {d : Char → Nat} {I : List (List Char)} {shapes : List (List Nat)} (hj : j ∉ I.flatten)
    (h : Sized d I shapes) : Sized (update d j m) I shapes := by
  unfold Sized at *
  induction h with
  | nil => exact .nil
  | cons h1 h2 ih =>
    simp only [List.flatten_cons, List.mem_append, not_or] at hj
    exact .cons (by rw [h1, basis_map hj.1]) (ih hj.2)

/-- A matrix applied along a letter that is not summed. -/
theorem basis_output {M : Nat → Nat → A} {S : List Char} {F F' : (Char → Nat) → A} {σ : Char → Nat} (hS : j ∉ S)
    (h : ∀ τ, (∀ c, c ∉ S → τ c = σ c) → InRange d S τ → F' τ = ∑ x ∈ Finset.range n, M (τ j) x * F (update τ j x)) :
    sumOver (update d j m) S F' σ = ∑ x ∈ Finset.range n, M (σ j) x * sumOver d S F (update σ j x) := by
  rw [sumOver_dims_congr (dims := d) fun c hc => update_of_ne (by rintro rfl; exact hS hc) _ _]
  induction S generalizing σ with
  | nil => exact h σ (fun _ _ => rfl) (by simp [InRange])
  | cons c S ih =>
    have hcj : j ≠ c := fun e => hS (by simp [e])
    simp only [sumOver_cons, Finset.mul_sum]
    rw [Finset.sum_comm]
    refine Finset.sum_congr rfl fun u hu => ?_
    rw [ih (fun hx => hS (by simp [hx])) fun τ h1 h2 => h τ (fun c' hc' => ?_) fun c' hc' => ?_]
    · simp only [update_of_ne hcj, update_comm hcj]
    · rw [h1 c' fun hx => hc' (by simp [hx]), update_of_ne fun hx => hc' (by simp [hx])]
    · by_cases hs : c' ∈ S
      · exact h2 c' hs
      · obtain rfl : c' = c := by simpa [hs] using hc'
        rw [h1 c' hs, update_self]
        simpa using hu

/-- A summed letter. -/
theorem basis_summed {S : List Char} {F F' : (Char → Nat) → A} {σ : Char → Nat} (hn : S.Nodup) (hS : j ∈ S)
    (h : ∀ τ, (∀ c, c ∉ S → τ c = σ c) → InRange d (S.erase j) τ →
      ∑ z ∈ Finset.range m, F' (update τ j z) = ∑ x ∈ Finset.range (d j), F (update τ j x)) :
    sumOver (update d j m) S F' σ = sumOver d S F σ := by
  have hp : S.Perm (S.erase j ++ [j]) := (List.perm_cons_erase hS).trans (List.perm_append_comm (l₁ := [j]))
  have hj : j ∉ S.erase j := fun hx => (hn.mem_erase_iff.1 hx).1 rfl
  rw [sumOver_perm hp, sumOver_perm hp, sumOver_append, sumOver_append,
    sumOver_dims_congr (dims := d) fun c hc => update_of_ne (by rintro rfl; exact hj hc) _ _]
  refine sumOver_congr fun τ h1 h2 => ?_
  simp only [sumOver_cons, sumOver_nil, update_self]
  exact h τ (fun c hc => h1 c fun hx => hc (List.mem_of_mem_erase hx)) h2

/-- Two transformations cancel. -/
theorem basis_cancel {P Q : Nat → Nat → A} (hPQ : Dual P Q m n) (G : Nat → Nat → A) :
    ∑ z ∈ Finset.range m, ∑ x ∈ Finset.range n, ∑ y ∈ Finset.range n, P z x * Q z y * G x y =
      ∑ x ∈ Finset.range n, G x x := by
  rw [Finset.sum_comm]
  refine Finset.sum_congr rfl fun x hx => ?_
  rw [Finset.sum_comm]
  have hx' : x < n := by simpa using hx
  have : ∀ y ∈ Finset.range n, ∑ z ∈ Finset.range m, P z x * Q z y * G x y = if x = y then G x y else 0 := by
    intro y hy
    rw [← Finset.sum_mul, hPQ x hx' y (by simpa using hy)]
    split <;> simp
  rw [Finset.sum_congr rfl this]
  simp [hx']

theorem wf_cut {V W : List (View A)} {v w : View A} {M : Nat → Nat → A} {k : Nat} (hw : ∀ u ∈ V ++ W, u.Wf)
    (ha : Along M m n k v w) : (∀ u ∈ V ++ v :: W, u.Wf) ∧ ∀ u ∈ V ++ w :: W, u.Wf := by
  constructor
  all_goals
    intro u hu
    rcases List.mem_append.1 hu with hu | hu
    · exact hw u (by simp [hu])
    · rcases List.mem_cons.1 hu with rfl | hu
      · first | exact ha.wf.1 | exact ha.wf.2
      · exact hw u (by simp [hu])

theorem along_sized {I J : List (List Char)} {a b : List Char} {V W : List (View A)} {v w : View A} {M : Nat → Nat → A}
    (hl : I.length = V.length) (ha : Along M m n a.length v w) (h1 : j ∉ a ∧ j ∉ b) (h2 : j ∉ I.flatten ∧ j ∉ J.flatten)
    (hs : Sized d (I ++ (a ++ j :: b) :: J) ((V ++ v :: W).map View.shape)) :
    Sized (update d j m) (I ++ (a ++ j :: b) :: J) ((V ++ w :: W).map View.shape) := by
  rw [sized_cut hl] at hs ⊢
  exact ⟨sized_update h2.1 hs.1, by rw [ha.shape, hs.2.1, basis_set h1.1 h1.2], sized_update h2.2 hs.2.2⟩

theorem term_cut {I J : List (List Char)} {ix : List Char} {V W : List (View A)} {v : View A} (hl : I.length = V.length)
    (τ : Char → Nat) : term (I ++ ix :: J) ((V ++ v :: W).map View.elem) τ =
      term I (V.map View.elem) τ * (v.elem (ix.map τ) * term J (W.map View.elem) τ) := by
  rw [List.map_append, List.map_cons, term_append _ _ _ _ (by simpa using hl.symm), term_cons]

/-- C113: a matrix applied along an axis of an operand whose letter is in the output and in no other place is applied to the
result. -/
theorem C113_output_returned (h h' : HashOrd) (al al' : Alloc A) (s : String) (I J : List (List Char)) (a b o o' : List Char)
    (hd : Denotes s (I ++ (a ++ j :: b) :: J) (o ++ j :: o')) (h1 : j ∉ a ∧ j ∉ b) (h2 : j ∉ I.flatten ∧ j ∉ J.flatten)
    (V W : List (View A)) (hl : I.length = V.length) (hw : ∀ u ∈ V ++ W, u.Wf) (v w : View A) (M : Nat → Nat → A)
    (ha : Along M m n a.length v w) (hs : Sized d (I ++ (a ++ j :: b) :: J) ((V ++ v :: W).map View.shape)) (r r' : View A)
    (e1 : einsum h al s (V ++ v :: W) = .ok (.ok r)) (e2 : einsum h' al' s (V ++ w :: W) = .ok (.ok r')) :
    Along M m n o.length r r' := by
  have i1 := isEinsum_of_returned ⟨hd, hs, forall₂_elem (wf_cut hw ha).1⟩ e1
  have i2 := isEinsum_of_returned ⟨hd, along_sized hl ha h1 h2 hs, forall₂_elem (wf_cut hw ha).2⟩ e2
  have hv : v.shape = (a ++ j :: b).map d := ((sized_cut hl).1 hs).2.1
  obtain rfl := along_dim ha hv
  have ho := hd.outputOk
  have hno : j ∉ o ∧ j ∉ o' := by
    have := List.nodup_middle.1 ho.1
    simpa using (List.nodup_cons.1 this).1
  refine ⟨⟨i1.1, i2.1⟩, by rw [i1.2.1]; simp, by rw [i1.2.1, i2.2.1, basis_set hno.1 hno.2], fun i hi => ?_⟩
  rw [i2.2.1] at hi
  obtain ⟨σ, hσ, rfl⟩ := exists_assign ho.1 hi
  refine ⟨σ j, by simp, fun x => Spec.einsum d (I ++ (a ++ j :: b) :: J) ((V ++ v :: W).map View.elem) (o ++ j :: o')
    (update σ j x), fun x hx => ?_, ?_⟩
  · rw [basis_set hno.1 hno.2]
    refine i1.2.2 _ fun c hc => ?_
    by_cases hcj : c = j
    · subst hcj; rw [update_self]; exact hx
    · have := hσ c hc
      rw [update_of_ne hcj] at this ⊢
      exact this
  · rw [i2.2.2 σ hσ]
    refine congrArg _ (basis_output (fun hx => (mem_summed.1 hx).2 (by simp)) fun τ k1 k2 => ?_)
    rw [term_cut hl, along_elem ha h1.1 h1.2 hv, Finset.sum_mul, Finset.mul_sum]
    · refine Finset.sum_congr rfl fun x _ => ?_
      rw [term_cut hl, basis_term h2.1, basis_term h2.2]
      ring
    · intro c hc
      by_cases hco : c ∈ o ++ j :: o'
      · rw [k1 c fun hx => (mem_summed.1 hx).2 hco]
        exact hσ c hco
      · rw [update_of_ne (by rintro rfl; exact hco (by simp))]
        exact k2 c (mem_summed.2 ⟨List.mem_flatten.2 ⟨a ++ j :: b, by simp, hc⟩, hco⟩)

/-- C113: transformations by dual bases on both sides of a summed letter cancel. -/
theorem C113_gauge_returned (h h' : HashOrd) (al al' : Alloc A) (s : String) (I J K : List (List Char))
    (a b a' b' out : List Char) (hd : Denotes s (I ++ (a ++ j :: b) :: (J ++ (a' ++ j :: b') :: K)) out) (ho : j ∉ out)
    (h1 : j ∉ a ∧ j ∉ b) (h1' : j ∉ a' ∧ j ∉ b') (h2 : j ∉ I.flatten ∧ j ∉ J.flatten ∧ j ∉ K.flatten)
    (U V W : List (View A)) (hl : I.length = U.length) (hl' : J.length = V.length) (hw : ∀ u ∈ U ++ (V ++ W), u.Wf)
    (v w v' w' : View A) (P Q : Nat → Nat → A) (hPQ : Dual P Q m n) (ha : Along P m n a.length v w)
    (ha' : Along Q m n a'.length v' w')
    (hs : Sized d (I ++ (a ++ j :: b) :: (J ++ (a' ++ j :: b') :: K)) ((U ++ v :: (V ++ v' :: W)).map View.shape))
    (r r' : View A) (e1 : einsum h al s (U ++ v :: (V ++ v' :: W)) = .ok (.ok r))
    (e2 : einsum h' al' s (U ++ w :: (V ++ w' :: W)) = .ok (.ok r')) : SameArray r r' := by
  obtain ⟨s1, s2, s3⟩ := (sized_cut hl).1 hs
  obtain ⟨s4, s5, s6⟩ := (sized_cut hl').1 s3
  have hs' : Sized (update d j m) (I ++ (a ++ j :: b) :: (J ++ (a' ++ j :: b') :: K))
      ((U ++ w :: (V ++ w' :: W)).map View.shape) :=
    (sized_cut hl).2 ⟨sized_update h2.1 s1, by rw [ha.shape, s2, basis_set h1.1 h1.2],
      along_sized hl' ha' h1' h2.2 s3⟩
  have w1 : ∀ u ∈ U ++ v :: (V ++ v' :: W), u.Wf := by
    have := ha.wf.1; have := ha'.wf.1; grind
  have w2 : ∀ u ∈ U ++ w :: (V ++ w' :: W), u.Wf := by
    have := ha.wf.2; have := ha'.wf.2; grind
  have i1 := isEinsum_of_returned ⟨hd, hs, forall₂_elem w1⟩ e1
  have i2 := isEinsum_of_returned ⟨hd, hs', forall₂_elem w2⟩ e2
  obtain rfl := along_dim ha s2
  refine ⟨i1.1, i2.1, by rw [i1.2.1, i2.2.1, basis_map ho], fun i hi => ?_⟩
  rw [i1.2.1] at hi
  obtain ⟨σ, hσ, rfl⟩ := exists_assign hd.outputOk.1 hi
  rw [i1.2.2 σ hσ, i2.2.2 σ (fun c hc => by rw [update_of_ne (by rintro rfl; exact ho hc)]; exact hσ c hc)]
  refine congrArg _ (basis_summed (summed_nodup _ _) (mem_summed.2 ⟨by simp, ho⟩) fun τ k1 k2 => ?_).symm
  have hin : ∀ ix ∈ I ++ (a ++ j :: b) :: (J ++ (a' ++ j :: b') :: K), ∀ z < m, InRange (update d j m) ix (update τ j z) := by
    intro ix hix z hz c hc
    by_cases hcj : c = j
    · subst hcj; rw [update_self, update_self]; exact hz
    · rw [update_of_ne hcj, update_of_ne hcj]
      by_cases hco : c ∈ out
      · rw [k1 c fun hx => (mem_summed.1 hx).2 hco]
        exact hσ c hco
      · exact k2 c ((summed_nodup _ _).mem_erase_iff.2 ⟨hcj, mem_summed.2 ⟨List.mem_flatten.2 ⟨ix, hix, hc⟩, hco⟩⟩)
  refine Eq.trans ?_ ((basis_cancel hPQ fun x y => term I (U.map View.elem) τ * term J (V.map View.elem) τ *
    term K (W.map View.elem) τ * v.elem ((a ++ j :: b).map (update τ j x)) *
    v'.elem ((a' ++ j :: b').map (update τ j y))).trans (Finset.sum_congr rfl fun x _ => ?_))
  · refine Finset.sum_congr rfl fun z hz => ?_
    have hz : z < m := by simpa using hz
    rw [term_cut hl, term_cut hl', along_elem ha h1.1 h1.2 s2 (hin _ (by simp) z hz),
      along_elem ha' h1'.1 h1'.2 s5 (hin _ (by simp) z hz), basis_term h2.1, basis_term h2.2.1, basis_term h2.2.2]
    simp only [update_self, update_idem]
    rw [Finset.sum_mul, Finset.mul_sum]
    refine Finset.sum_congr rfl fun x _ => ?_
    rw [Finset.sum_mul, Finset.mul_sum, Finset.mul_sum, Finset.mul_sum]
    exact Finset.sum_congr rfl fun y _ => by ring
  · rw [term_cut hl, term_cut hl', basis_term h2.1, basis_term h2.2.1, basis_term h2.2.2]
    ring

/-- Two axes with the same letter. -/
theorem along_trace {P Q : Nat → Nat → A} {u v w : View A} {a b e : List Char} (ha : j ∉ a) (hb : j ∉ b) (he : j ∉ e)
    (h1 : Along P m n a.length v u) (h2 : Along Q m n (a.length + (1 + b.length)) u w)
    (hs : v.shape = (a ++ j :: (b ++ j :: e)).map d) :
    w.shape = (a ++ j :: (b ++ j :: e)).map (update d j m) ∧
    ∀ τ, InRange (update d j m) (a ++ j :: (b ++ j :: e)) τ → w.elem ((a ++ j :: (b ++ j :: e)).map τ) =
      ∑ x ∈ Finset.range n, ∑ y ∈ Finset.range n, P (τ j) x * Q (τ j) y *
        v.elem (a.map τ ++ x :: (b.map τ ++ y :: e.map τ)) := by
  have hset : ∀ (l l' l'' : List Nat) (p q y : Nat), l.length = a.length → l'.length = b.length →
      (l ++ p :: (l' ++ q :: l'')).set (a.length + (1 + b.length)) y = l ++ p :: (l' ++ y :: l'') := by
    intro l l' l'' p q y e1 e2
    rw [← e1, ← e2, List.set_append_right _ _ (by omega), Nat.add_sub_cancel_left, Nat.add_comm 1, List.set_cons_succ,
      List.set_append_right _ _ (by omega), Nat.sub_self, List.set_cons_zero]
  have hset' : ∀ (l l' : List Nat) (p y : Nat), l.length = a.length → (l ++ p :: l').set a.length y = l ++ y :: l' := by
    intro l l' p y e1
    rw [← e1, List.set_append_right _ _ (by omega), Nat.sub_self, List.set_cons_zero]
  have hn : d j = n := along_dim h1 hs
  have hu : u.shape = a.map d ++ m :: (b.map d ++ n :: e.map d) := by
    rw [h1.shape, hs, List.map_append, List.map_cons, hset' _ _ _ _ (by simp), List.map_append, List.map_cons, hn]
  have hm : ∀ σ : Char → Nat, (a ++ j :: (b ++ j :: e)).map σ = a.map σ ++ σ j :: (b.map σ ++ σ j :: e.map σ) := by simp
  have hwsh : w.shape = (a ++ j :: (b ++ j :: e)).map (update d j m) := by
    rw [h2.shape, hu, hset _ _ _ _ _ _ (by simp) (by simp), hm, basis_map ha, basis_map hb, basis_map he, update_self]
  refine ⟨hwsh, fun τ hτ => ?_⟩
  rw [along_value h2 (by rw [hwsh]; exact InB_map.2 hτ) (τ j) (by
    rw [hm, List.getElem?_append_right (by simp)]; simp [Nat.add_comm 1]), Finset.sum_comm]
  refine Finset.sum_congr rfl fun y hy => ?_
  have hy : y < n := by simpa using hy
  rw [hm, hset _ _ _ _ _ _ (by simp) (by simp), along_value h1 _ (τ j) (by simp), Finset.mul_sum]
  · refine Finset.sum_congr rfl fun x _ => ?_
    rw [hset' _ _ _ _ (by simp)]
    ring
  · have hr : ∀ l : List Char, j ∉ l → (∀ c ∈ l, c ∈ a ++ j :: (b ++ j :: e)) → InB (l.map d) (l.map τ) := fun l hl hsub =>
      InB_map.2 fun c hc => by
        have := hτ c (hsub c hc)
        rwa [update_of_ne (ne_of_mem_of_not_mem hc hl)] at this
    rw [hu]
    have hj : τ j < m := by have := hτ j (by simp); rwa [update_self] at this
    rw [InB_append (by simp), InB_cons, InB_append (by simp), InB_cons]
    exact ⟨hr a ha (by simp +contextual), hj, hr b hb (by simp +contextual), hy, hr e he (by simp +contextual)⟩

/-- C113: the same with both occurrences of the summed letter in one operand, as in a trace. -/
theorem C113_trace_returned (h h' : HashOrd) (al al' : Alloc A) (s : String) (I J : List (List Char))
    (a b e out : List Char) (hd : Denotes s (I ++ (a ++ j :: (b ++ j :: e)) :: J) out) (ho : j ∉ out)
    (h1 : j ∉ a ∧ j ∉ b ∧ j ∉ e) (h2 : j ∉ I.flatten ∧ j ∉ J.flatten)
    (V W : List (View A)) (hl : I.length = V.length) (hw : ∀ u ∈ V ++ W, u.Wf)
    (v u w : View A) (P Q : Nat → Nat → A) (hPQ : Dual P Q m n) (ha : Along P m n a.length v u)
    (ha' : Along Q m n (a.length + (1 + b.length)) u w)
    (hs : Sized d (I ++ (a ++ j :: (b ++ j :: e)) :: J) ((V ++ v :: W).map View.shape))
    (r r' : View A) (e1 : einsum h al s (V ++ v :: W) = .ok (.ok r))
    (e2 : einsum h' al' s (V ++ w :: W) = .ok (.ok r')) : SameArray r r' := by
  obtain ⟨s1, s2, s3⟩ := (sized_cut hl).1 hs
  obtain ⟨t1, t2⟩ := along_trace h1.1 h1.2.1 h1.2.2 ha ha' s2
  have hs' : Sized (update d j m) (I ++ (a ++ j :: (b ++ j :: e)) :: J) ((V ++ w :: W).map View.shape) :=
    (sized_cut hl).2 ⟨sized_update h2.1 s1, t1, sized_update h2.2 s3⟩
  have w1 : ∀ u ∈ V ++ v :: W, u.Wf := by
    have := ha.wf.1; grind
  have w2 : ∀ u ∈ V ++ w :: W, u.Wf := by
    have := ha'.wf.2; grind
  have i1 := isEinsum_of_returned ⟨hd, hs, forall₂_elem w1⟩ e1
  have i2 := isEinsum_of_returned ⟨hd, hs', forall₂_elem w2⟩ e2
  obtain rfl := along_dim ha s2
  refine ⟨i1.1, i2.1, by rw [i1.2.1, i2.2.1, basis_map ho], fun i hi => ?_⟩
  rw [i1.2.1] at hi
  obtain ⟨σ, hσ, rfl⟩ := exists_assign hd.outputOk.1 hi
  rw [i1.2.2 σ hσ, i2.2.2 σ (fun c hc => by rw [update_of_ne (by rintro rfl; exact ho hc)]; exact hσ c hc)]
  refine congrArg _ (basis_summed (summed_nodup _ _) (mem_summed.2 ⟨by simp, ho⟩) fun τ k1 k2 => ?_).symm
  refine Eq.trans ?_ ((basis_cancel hPQ fun x y => term I (V.map View.elem) τ * term J (W.map View.elem) τ *
    v.elem (a.map τ ++ x :: (b.map τ ++ y :: e.map τ))).trans (Finset.sum_congr rfl fun x _ => ?_))
  · refine Finset.sum_congr rfl fun z hz => ?_
    have hz : z < m := by simpa using hz
    rw [term_cut hl, t2 _ fun c hc => ?_, basis_term h2.1, basis_term h2.2]
    · simp only [update_self, basis_map h1.1, basis_map h1.2.1, basis_map h1.2.2]
      rw [Finset.sum_mul, Finset.mul_sum]
      refine Finset.sum_congr rfl fun x _ => ?_
      rw [Finset.sum_mul, Finset.mul_sum]
      exact Finset.sum_congr rfl fun y _ => by ring
    · by_cases hcj : c = j
      · subst hcj; rw [update_self, update_self]; exact hz
      · rw [update_of_ne hcj, update_of_ne hcj]
        by_cases hco : c ∈ out
        · rw [k1 c fun hx => (mem_summed.1 hx).2 hco]
          exact hσ c hco
        · exact k2 c ((summed_nodup _ _).mem_erase_iff.2 ⟨hcj, mem_summed.2 ⟨List.mem_flatten.2 ⟨_, by simp, hc⟩, hco⟩⟩)
  · rw [term_cut hl, basis_term h2.1, basis_term h2.2]
    simp only [List.map_append, List.map_cons, update_self, basis_map h1.1, basis_map h1.2.1, basis_map h1.2.2]
    ring

/-- C113, letter of the output: both calls return if no operand has a repeated letter along an empty axis. -/
theorem C113_output (h h' : HashOrd) (al al' : Alloc A) (s : String) (I J : List (List Char)) (a b o o' : List Char)
    (hd : Denotes s (I ++ (a ++ j :: b) :: J) (o ++ j :: o')) (h1 : j ∉ a ∧ j ∉ b) (h2 : j ∉ I.flatten ∧ j ∉ J.flatten)
    (V W : List (View A)) (hl : I.length = V.length) (hw : ∀ u ∈ V ++ W, u.Wf) (v w : View A) (M : Nat → Nat → A)
    (ha : Along M m n a.length v w) (hs : Sized d (I ++ (a ++ j :: b) :: J) ((V ++ v :: W).map View.shape))
    (n1 : NoEmptyDiagonal d (I ++ (a ++ j :: b) :: J)) (n2 : NoEmptyDiagonal (update d j m) (I ++ (a ++ j :: b) :: J)) :
    ∃ r r', einsum h al s (V ++ v :: W) = .ok (.ok r) ∧ einsum h' al' s (V ++ w :: W) = .ok (.ok r') ∧
      Along M m n o.length r r' := by
  obtain ⟨r, e1, -⟩ := einsum_ok ⟨hd, hs, forall₂_elem (wf_cut hw ha).1⟩ n1 h al
  obtain ⟨r', e2, -⟩ := einsum_ok ⟨hd, along_sized hl ha h1 h2 hs, forall₂_elem (wf_cut hw ha).2⟩ n2 h' al'
  exact ⟨r, r', e1, e2,
    C113_output_returned h h' al al' s I J a b o o' hd h1 h2 V W hl hw v w M ha hs r r' e1 e2⟩

/-- C113, letter shared by two operands. -/
theorem C113_gauge (h h' : HashOrd) (al al' : Alloc A) (s : String) (I J K : List (List Char))
    (a b a' b' out : List Char) (hd : Denotes s (I ++ (a ++ j :: b) :: (J ++ (a' ++ j :: b') :: K)) out) (ho : j ∉ out)
    (h1 : j ∉ a ∧ j ∉ b) (h1' : j ∉ a' ∧ j ∉ b') (h2 : j ∉ I.flatten ∧ j ∉ J.flatten ∧ j ∉ K.flatten)
    (U V W : List (View A)) (hl : I.length = U.length) (hl' : J.length = V.length) (hw : ∀ u ∈ U ++ (V ++ W), u.Wf)
    (v w v' w' : View A) (P Q : Nat → Nat → A) (hPQ : Dual P Q m n) (ha : Along P m n a.length v w)
    (ha' : Along Q m n a'.length v' w')
    (hs : Sized d (I ++ (a ++ j :: b) :: (J ++ (a' ++ j :: b') :: K)) ((U ++ v :: (V ++ v' :: W)).map View.shape))
    (n1 : NoEmptyDiagonal d (I ++ (a ++ j :: b) :: (J ++ (a' ++ j :: b') :: K)))
    (n2 : NoEmptyDiagonal (update d j m) (I ++ (a ++ j :: b) :: (J ++ (a' ++ j :: b') :: K))) :
    ∃ r r', einsum h al s (U ++ v :: (V ++ v' :: W)) = .ok (.ok r) ∧
      einsum h' al' s (U ++ w :: (V ++ w' :: W)) = .ok (.ok r') ∧ SameArray r r' := by
  obtain ⟨s1, s2, s3⟩ := (sized_cut hl).1 hs
  have hs' : Sized (update d j m) (I ++ (a ++ j :: b) :: (J ++ (a' ++ j :: b') :: K))
      ((U ++ w :: (V ++ w' :: W)).map View.shape) :=
    (sized_cut hl).2 ⟨sized_update h2.1 s1, by rw [ha.shape, s2, basis_set h1.1 h1.2],
      along_sized hl' ha' h1' h2.2 s3⟩
  have w1 : ∀ u ∈ U ++ v :: (V ++ v' :: W), u.Wf := by
    have := ha.wf.1; have := ha'.wf.1; grind
  have w2 : ∀ u ∈ U ++ w :: (V ++ w' :: W), u.Wf := by
    have := ha.wf.2; have := ha'.wf.2; grind
  obtain ⟨r, e1, -⟩ := einsum_ok ⟨hd, hs, forall₂_elem w1⟩ n1 h al
  obtain ⟨r', e2, -⟩ := einsum_ok ⟨hd, hs', forall₂_elem w2⟩ n2 h' al'
  exact ⟨r, r', e1, e2, C113_gauge_returned h h' al al' s I J K a b a' b' out hd ho h1 h1' h2 U V W hl hl' hw v w v' w' P Q
    hPQ ha ha' hs r r' e1 e2⟩

/-- C113, letter twice in one operand. -/
theorem C113_trace (h h' : HashOrd) (al al' : Alloc A) (s : String) (I J : List (List Char))
    (a b e out : List Char) (hd : Denotes s (I ++ (a ++ j :: (b ++ j :: e)) :: J) out) (ho : j ∉ out)
    (h1 : j ∉ a ∧ j ∉ b ∧ j ∉ e) (h2 : j ∉ I.flatten ∧ j ∉ J.flatten)
    (V W : List (View A)) (hl : I.length = V.length) (hw : ∀ u ∈ V ++ W, u.Wf)
    (v u w : View A) (P Q : Nat → Nat → A) (hPQ : Dual P Q m n) (ha : Along P m n a.length v u)
    (ha' : Along Q m n (a.length + (1 + b.length)) u w)
    (hs : Sized d (I ++ (a ++ j :: (b ++ j :: e)) :: J) ((V ++ v :: W).map View.shape))
    (n1 : NoEmptyDiagonal d (I ++ (a ++ j :: (b ++ j :: e)) :: J))
    (n2 : NoEmptyDiagonal (update d j m) (I ++ (a ++ j :: (b ++ j :: e)) :: J)) :
    ∃ r r', einsum h al s (V ++ v :: W) = .ok (.ok r) ∧ einsum h' al' s (V ++ w :: W) = .ok (.ok r') ∧ SameArray r r' := by
  obtain ⟨s1, s2, s3⟩ := (sized_cut hl).1 hs
  have hs' : Sized (update d j m) (I ++ (a ++ j :: (b ++ j :: e)) :: J) ((V ++ w :: W).map View.shape) :=
    (sized_cut hl).2 ⟨sized_update h2.1 s1, (along_trace h1.1 h1.2.1 h1.2.2 ha ha' s2).1, sized_update h2.2 s3⟩
  have w1 : ∀ u ∈ V ++ v :: W, u.Wf := by
    have := ha.wf.1; grind
  have w2 : ∀ u ∈ V ++ w :: W, u.Wf := by
    have := ha'.wf.2; grind
  obtain ⟨r, e1, -⟩ := einsum_ok ⟨hd, hs, forall₂_elem w1⟩ n1 h al
  obtain ⟨r', e2, -⟩ := einsum_ok ⟨hd, hs', forall₂_elem w2⟩ n2 h' al'
  exact ⟨r, r', e1, e2, C113_trace_returned h h' al al' s I J a b e out hd ho h1 h2 V W hl hw v u w P Q hPQ ha ha' hs
    r r' e1 e2⟩

end

/-! ## Examples -/

def Ex.tall (rows : List (List Int)) (i j : Nat) : Int := (rows.getD i []).getD j 0

def Ex.basisP : Nat → Nat → Int := Ex.tall [[1, 0], [0, 1], [5, 7]]
def Ex.basisQ : Nat → Nat → Int := Ex.tall [[1, 0], [0, 1], [0, 0]]

theorem Ex.dualPQ : Dual Ex.basisP Ex.basisQ 3 2 := by
  have : ∀ x ∈ List.range 2, ∀ y ∈ List.range 2, ∑ z ∈ Finset.range 3, Ex.basisP z x * Ex.basisQ z y =
      if x = y then 1 else 0 := by decide
  exact fun x hx y hy => this x (List.mem_range.2 hx) y (List.mem_range.2 hy)

theorem Ex.along {M : Nat → Nat → Int} {m n k : Nat} {v w : View Int} (h1 : v.Wf) (h2 : w.Wf) (h3 : v.shape[k]? = some n)
    (h4 : w.shape = v.shape.set k m)
    (h : ∀ i ∈ allIdx w.shape, ∃ p ∈ i[k]?, (∀ x ∈ List.range n, v.read (i.set k x) = .ok (v.elem (i.set k x))) ∧
      w.read i = .ok (∑ x ∈ Finset.range n, M p x * v.elem (i.set k x))) : Along M m n k v w := by
  refine ⟨⟨h1, h2⟩, h3, h4, fun i hi => ?_⟩
  obtain ⟨p, hp, h5, h6⟩ := h i (mem_allIdx.2 hi)
  exact ⟨p, hp, _, fun x hx => h5 x (List.mem_range.2 hx), h6⟩

def Ex.basisA : View Int := rowMajor [1, 2] [2, 3]
/-- `basisA` with `basisP` applied along its second axis, in column-major order. -/
def Ex.basisAP : View Int := ⟨[2, 3, 31], 0, [1, 3], [1, 1]⟩
def Ex.basisB : View Int := rowMajor [2, 2] [1, -1, 4, 0]
def Ex.basisQB : View Int := rowMajor [3, 2] [1, -1, 4, 0, 0, 0]

theorem Ex.basisAP_wf : Ex.basisAP.Wf := (elements_of (t := Ex.elems Ex.basisAP) rfl (by decide)).1

theorem Ex.alongA : Along Ex.basisP 3 2 1 Ex.basisA Ex.basisAP :=
  Ex.along (rowMajor_ok rfl).1 Ex.basisAP_wf rfl rfl (by decide)

theorem Ex.alongB : Along Ex.basisQ 3 2 0 Ex.basisB Ex.basisQB :=
  Ex.along (rowMajor_ok rfl).1 (rowMajor_ok rfl).1 rfl rfl (by decide)

/-- The inner dimension of a matrix product is changed from two to three. -/
example : ∃ r r', einsum HashOrd.insertion (Alloc.rowMajor Int) "ij,jk->ik" [Ex.basisA, Ex.basisB] = .ok (.ok r) ∧
    einsum HashOrd.reversed (Alloc.colMajor Int) "ij,jk->ik" [Ex.basisAP, Ex.basisQB] = .ok (.ok r') ∧ SameArray r r' :=
  C113_gauge (j := 'j') (d := fun c => if c = 'i' then 1 else 2) _ _ _ _ _ [] [] [] ['i'] [] [] ['k'] ['i', 'k']
    Ex.denotes_matmul (by decide) (by decide) (by decide) (by decide) [] [] [] rfl rfl (by simp) _ _ _ _ _ _ Ex.dualPQ
    Ex.alongA Ex.alongB (.cons rfl (.cons rfl .nil)) (fun ix hix => .inl (by revert ix; decide))
    (fun ix hix => .inl (by revert ix; decide))

/-- The left factor of a matrix product is multiplied by a matrix. -/
example : ∃ r r', einsum HashOrd.insertion (Alloc.rowMajor Int) "ij,jk->ki" [Ex.basisB, Ex.basisB] = .ok (.ok r) ∧
    einsum HashOrd.reversed (Alloc.colMajor Int) "ij,jk->ki" [Ex.basisQB, Ex.basisB] = .ok (.ok r') ∧
    Along Ex.basisQ 3 2 1 r r' :=
  C113_output (j := 'i') (d := fun _ => 2) _ _ _ _ _ [] [['j', 'k']] [] ['j'] ['k'] []
    (.inl ⟨by decide, ⟨by simp, by simp [Letter], by simp [Letter]⟩, by simp [OutputOk, Used]⟩) (by decide) (by decide)
    [] [Ex.basisB] rfl (by simpa using Ex.alongB.wf.1) _ _ _
    Ex.alongB (.cons rfl (.cons rfl .nil)) (fun ix hix => .inl (by revert ix; decide))
    (fun ix hix => .inl (by revert ix; decide))

def Ex.basisPB : View Int := rowMajor [3, 2] [1, -1, 4, 0, 33, -5]
def Ex.basisPBQ : View Int := rowMajor [3, 3] [1, -1, 0, 4, 0, 0, 33, -5, 0]

/-- A trace does not depend on the basis. -/
example : ∃ r r', einsum HashOrd.insertion (Alloc.rowMajor Int) "ii->" [Ex.basisB] = .ok (.ok r) ∧
    einsum HashOrd.reversed (Alloc.colMajor Int) "ii->" [Ex.basisPBQ] = .ok (.ok r') ∧ SameArray r r' :=
  C113_trace (j := 'i') (d := fun _ => 2) _ _ _ _ _ [] [] [] [] [] []
    (.inl ⟨by decide, ⟨by simp, by simp [Letter], by simp [Letter]⟩, by simp [OutputOk]⟩) (by decide) (by decide) (by decide)
    [] [] rfl (by simp) Ex.basisB Ex.basisPB Ex.basisPBQ _ _ Ex.dualPQ
    (Ex.along (rowMajor_ok rfl).1 (rowMajor_ok rfl).1 rfl rfl (by decide))
    (Ex.along (rowMajor_ok rfl).1 (rowMajor_ok rfl).1 rfl rfl (by decide)) (.cons rfl .nil)
    (fun ix hix => .inr (by revert ix; decide)) (fun ix hix => .inr (by revert ix; decide))

end Einsum
