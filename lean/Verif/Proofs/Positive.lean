import Verif.Proofs.Call
import Verif.Proofs.Natural

/-!
# Predicates on elements that a contraction preserves

A predicate `P` on elements that is closed under `+` and `*`, but need not hold of `0`: when no axis is empty, no
empty sum is ever taken, and `P` passes from the operands to the result.  No law is assumed.
-/

namespace Einsum

open Spec

variable {A : Type}

/-- `Q` holds of the value, if there is one. -/
def Post {α : Type} (m : M α) (Q : α → Prop) : Prop := ∀ a, m = .ok a → Q a

theorem Post.ok {α : Type} {a : α} {Q : α → Prop} (h : Q a) : Post (.ok a) Q := by
  intro b hb; cases hb; exact h

theorem Post.panic {α : Type} {k : PanicKind} {Q : α → Prop} : Post (panic k) Q := by
  intro b hb; cases hb

theorem Post.bind {α β : Type} {m : M α} {k : α → M β} {Q : α → Prop} {R : β → Prop} (hm : Post m Q)
    (hk : ∀ a, Q a → Post (k a) R) : Post (m >>= k) R := by
  intro b hb
  obtain ⟨a, ha, hka⟩ := bind_eq_ok.1 hb
  exact hk a (hm a ha) b hka

theorem Post.trivial {α : Type} {m : M α} : Post m fun _ => True := fun _ _ => True.intro

theorem Post.mono {α : Type} {m : M α} {Q R : α → Prop} (hm : Post m Q) (h : ∀ a, Q a → R a) : Post m R :=
  fun a ha => h a (hm a ha)

theorem Post.ite {α : Type} {c : Prop} [Decidable c] {m m' : M α} {Q : α → Prop} (h : Post m Q) (h' : Post m' Q) :
    Post (if c then m else m') Q := by split <;> assumption

theorem Post.mapE {α β : Type} {f : α → M β} {l : List α} {Q : β → Prop} (h : ∀ a ∈ l, Post (f a) Q) :
    Post (mapE f l) fun bs => bs.length = l.length ∧ ∀ b ∈ bs, Q b := by
  induction l with
  | nil => exact .ok ⟨rfl, by simp⟩
  | cons a l ih =>
    refine .bind (h a (by simp)) fun b hb => .bind (ih fun a ha => h a (by simp [ha])) fun bs hbs => .ok ?_
    simp only [List.length_cons, List.mem_cons]
    exact ⟨by rw [hbs.1], by rintro x (rfl | hx); exacts [hb, hbs.2 x hx]⟩

theorem Post.unwrapO {α : Type} {o : Option α} {Q : α → Prop} (h : ∀ a, o = some a → Q a) : Post (unwrapO o) Q := by
  cases o with
  | none => exact .panic
  | some a => exact .ok (h a rfl)

theorem Post.index {α : Type} {l : List α} {i : Nat} {Q : α → Prop} (h : ∀ a ∈ l, Q a) : Post (index l i) Q := by
  unfold Einsum.index
  cases hi : l[i]? with
  | none => exact .panic
  | some a => exact .ok (h a (List.mem_of_getElem? hi))

/-! ## Allocators that copy nothing else -/

/-- The arrays allocated contain only the given elements. -/
def Alloc.Tight (al : Alloc A) : Prop :=
  ∀ p shape data, data.length = shape.prod → ∀ x ∈ (al.make p shape data).buf, x ∈ data

theorem Alloc.Tight.sub {al : Alloc A} (h : al.Tight) (k : Nat) : (al.sub k).Tight := fun p => h (k :: p)

/-- An allocator that does not look at the elements is tight. -/
theorem Spec.UniformAlloc.tight (al : UniformAlloc) (A : Type) : (al.alloc A).Tight := by
  intro p shape data hl x hx
  by_contra hn
  -- renaming `x` to something new would change the array but not the data
  have h := al.make_map (fun y : A => (Classical.dec (y = x)).byCases (fun _ => none) fun _ => some y) p shape data
  have h' := al.make_map (fun y : A => some y) p shape data
  have hd : (data.map fun y : A => (Classical.dec (y = x)).byCases (fun _ => none) fun _ => some y) =
      data.map fun y => some y := by
    apply List.map_congr_left
    intro y hy
    have : y ≠ x := fun he => hn (he ▸ hy)
    cases hc : Classical.dec (y = x) with
    | isTrue e => exact absurd e this
    | isFalse _ => rfl
  rw [hd, h'] at h
  have hb := congrArg View.buf h
  simp only [View.map] at hb
  have := (List.map_inj_left.1 hb) x hx
  cases hc : Classical.dec (x = x) with
  | isTrue e => rw [hc] at this; cases this
  | isFalse e => exact e rfl

/-! ## Arrays all of whose elements satisfy `P` -/

/-- All elements satisfy `P` and no axis is empty. -/
def Full (P : A → Prop) (v : View A) : Prop := (∀ x ∈ v.buf, P x) ∧ ∀ d ∈ v.shape, 0 < d

variable {P : A → Prop}

theorem prod_of_pos {s : List Nat} (h : ∀ d ∈ s, 0 < d) : 0 < s.prod := by
  induction s with
  | nil => simp
  | cons d s ih =>
    rw [List.prod_cons]
    exact Nat.mul_pos (h d (by simp)) (ih fun d hd => h d (by simp [hd]))

theorem Full.prod {v : View A} (h : Full P v) : 0 < v.shape.prod := prod_of_pos h.2

theorem pos_of_prod {s : List Nat} (h : 0 < s.prod) : ∀ d ∈ s, 0 < d := by
  intro d hd
  rcases Nat.eq_zero_or_pos d with rfl | h0
  · rw [List.prod_eq_zero hd] at h; omega
  · exact h0

theorem Full.read {v : View A} (h : Full P v) (idx : List Nat) : Post (v.read idx) P := by
  intro x hx
  unfold View.read at hx
  split at hx
  · unfold readAt at hx
    split at hx
    · cases hb : v.buf[(v.off + dotI v.strides idx).toNat]? with
      | none => rw [hb] at hx; cases hx
      | some y =>
        rw [hb] at hx
        cases hx
        exact h.1 _ (List.mem_of_getElem? hb)
    · cases hx
  · cases hx

theorem Full.toVec {v : View A} (h : Full P v) :
    Post v.toVec fun data => data.length = v.shape.prod ∧ ∀ x ∈ data, P x := by
  refine (Post.mapE fun idx _ => h.read idx).mono fun bs hb => ⟨?_, hb.2⟩
  rw [hb.1, allIdx_length]

theorem Full.make {al : Alloc A} (ht : al.Tight) {p shape : List Nat} {data : List A}
    (hl : data.length = shape.prod) (hs : ∀ d ∈ shape, 0 < d) (hd : ∀ x ∈ data, P x) :
    Full P (al.make p shape data) :=
  ⟨fun x hx => hd x (ht p shape data hl x hx), by rw [al.shape_eq p shape data hl]; exact hs⟩

theorem Full.fromShapeVec {shape : List Nat} {data : List A} (hs : 0 < data.length) (hd : ∀ x ∈ data, P x) :
    ∀ v, fromShapeVec shape data = some v → Full P v := by
  intro v hv
  unfold Einsum.fromShapeVec at hv
  split at hv
  · next h => cases hv; exact ⟨hd, pos_of_prod (s := shape) (by omega)⟩
  · cases hv

theorem Full.intoShape {v : View A} (h : Full P v) {shape : List Nat} :
    ∀ w, v.intoShape shape = some w → Full P w := by
  intro w hw
  unfold View.intoShape at hw
  have hp := h.prod
  split at hw
  · cases hw
  · next hs =>
    have hpos : ∀ d ∈ shape, 0 < d := pos_of_prod (by rw [not_not.1 hs]; exact hp)
    split at hw
    · cases hw; exact ⟨h.1, hpos⟩
    · split at hw
      · cases hw; exact ⟨h.1, hpos⟩
      · cases hw

theorem Full.permutedAxes {v : View A} (h : Full P v) (axes : List Nat) : Post (v.permutedAxes axes) (Full P) := by
  unfold View.permutedAxes
  split
  · next hc =>
    simp only [Bool.and_eq_true, List.all_eq_true, decide_eq_true_eq] at hc
    refine .ok ⟨h.1, fun d hd => ?_⟩
    simp only [List.mem_map] at hd
    obtain ⟨a, ha, rfl⟩ := hd
    have hl := hc.1 a ha
    rw [List.getD_eq_getElem?_getD, List.getElem?_eq_getElem hl]
    exact h.2 _ (List.getElem_mem hl)
  · exact .panic

theorem Full.toOwned {al : Alloc A} (ht : al.Tight) {v : View A} (h : Full P v) : Post (v.toOwned al) (Full P) :=
  .bind h.toVec fun _ hd => .ok (.make ht hd.1 h.2 hd.2)

theorem Full.mapv {al : Alloc A} (ht : al.Tight) {v : View A} (h : Full P v) {f : A → A} (hf : ∀ x, P x → P (f x)) :
    Post (v.mapv al f) (Full P) :=
  .bind h.toVec fun data hd => .ok (.make ht (by simpa using hd.1) h.2 (by
    intro x hx
    obtain ⟨y, hy, rfl⟩ := List.mem_map.1 hx
    exact hf y (hd.2 y hy)))

theorem Full.first {v : View A} (h : Full P v) : Post v.first fun o => ∀ x, o = some x → P x := by
  unfold View.first
  split
  · exact .ok (by simp)
  · exact .bind (h.read _) fun x hx => .ok (by rintro y ⟨⟩; exact hx)

theorem Full.insertAxis {v : View A} (h : Full P v) (ax : Nat) : Post (v.insertAxis ax) (Full P) := by
  unfold View.insertAxis
  split
  · refine .ok ⟨h.1, fun d hd => ?_⟩
    rcases List.eq_or_mem_of_mem_insertIdx hd with rfl | hd
    · omega
    · exact h.2 d hd
  · exact .panic

theorem Full.broadcast {v : View A} (h : Full P v) {shape : List Nat} (hs : ∀ d ∈ shape, 0 < d) :
    ∀ w, v.broadcast shape = some w → Full P w ∧ w.shape = shape := by
  intro w hw
  unfold View.broadcast at hw
  obtain ⟨ss, -, rfl⟩ := Option.map_eq_some_iff.1 hw
  exact ⟨⟨h.1, hs⟩, rfl⟩

theorem Full.outerIter {v : View A} (h : Full P v) : Post v.outerIter fun vs => ∀ w ∈ vs, Full P w := by
  unfold View.outerIter
  split
  · next hs _ =>
    refine .ok fun w hw => ?_
    obtain ⟨i, -, rfl⟩ := List.mem_map.1 hw
    exact ⟨h.1, fun d hd => h.2 d (by rw [hs]; simp [hd])⟩
  · exact .panic

theorem Full.asSlice {v : View A} (h : Full P v) : ∀ data, v.asSliceMemoryOrder = some data → ∀ x ∈ data, P x := by
  intro data hd
  unfold View.asSliceMemoryOrder at hd
  split at hd
  · split at hd
    · cases hd; simp
    · cases hd
      intro x hx
      exact h.1 x (List.mem_of_mem_drop (List.mem_of_mem_take hx))
  · cases hd

theorem Full.fromShapeStrides {shape strides : List Nat} {data : List A} (hs : ∀ d ∈ shape, 0 < d)
    (hd : ∀ x ∈ data, P x) : ∀ v, fromShapeStrides shape strides data = some v → Full P v := by
  intro v hv
  unfold Einsum.fromShapeStrides at hv
  dsimp only at hv
  split at hv
  · cases hv
  · split at hv
    · cases hv
    · split at hv
      · cases hv
      · split at hv
        · cases hv
        · cases hv; exact ⟨hd, hs⟩

/-! ## Arithmetic -/

/-- `P` is closed under `+`, `*` and fused multiply-add, and under adding sums of no terms, which satisfy `Z`. -/
structure ClosedUnder [Zero A] [Add A] [Mul A] [MulAdd A] (Z P : A → Prop) : Prop where
  zero : Z 0
  zz : ∀ x y, Z x → Z y → Z (x + y)
  zp : ∀ x y, Z x → P y → P (x + y)
  pz : ∀ x y, P x → Z y → P (x + y)
  pp : ∀ x y, P x → P y → P (x + y)
  mul : ∀ x y, P x → P y → P (x * y)
  ppz : ∀ x y z, P x → P y → Z z → P (mulAdd x y z)
  ppp : ∀ x y z, P x → P y → P z → P (mulAdd x y z)

variable [Zero A] [Add A] [Mul A] [MulAdd A] {Z : A → Prop} {al : Alloc A}

theorem ClosedUnder.sum (hc : ClosedUnder Z P) {xs : List A} (hx : ∀ x ∈ xs, P x) (t : SumTree)
    (ht : ∀ i ∈ t.leaves, i < xs.length) :
    (t.leaves = [] ∧ Z (t.sum xs)) ∨ P (t.sum xs) := by
  induction t with
  | zero => exact .inl ⟨rfl, hc.zero⟩
  | leaf i =>
    have hi := ht i (by simp [SumTree.leaves])
    refine .inr ?_
    rw [SumTree.sum, List.getD_eq_getElem?_getD, List.getElem?_eq_getElem hi]
    exact hx _ (List.getElem_mem hi)
  | add l r ihl ihr =>
    simp only [SumTree.leaves, List.mem_append] at ht
    simp only [SumTree.leaves, SumTree.sum, List.append_eq_nil_iff]
    rcases ihl fun i hi => ht i (.inl hi) with ⟨l0, lz⟩ | lp <;>
      rcases ihr fun i hi => ht i (.inr hi) with ⟨r0, rz⟩ | rp
    · exact .inl ⟨⟨l0, r0⟩, hc.zz _ _ lz rz⟩
    · exact .inr (hc.zp _ _ lz rp)
    · exact .inr (hc.pz _ _ lp rz)
    · exact .inr (hc.pp _ _ lp rp)
  | fused i t iht =>
    simp only [SumTree.leaves, List.mem_cons] at ht
    have hi := ht i (.inl rfl)
    have hp : P (xs.getD i 0) := by
      rw [List.getD_eq_getElem?_getD, List.getElem?_eq_getElem hi]
      exact hx _ (List.getElem_mem hi)
    rw [SumTree.sum]
    rcases iht fun i hi => ht i (.inr hi) with ⟨-, tz⟩ | tp
    · exact .inr (hc.pz _ _ hp tz)
    · exact .inr (hc.pp _ _ hp tp)

theorem ClosedUnder.dot (hc : ClosedUnder Z P) {ps : List (A × A)} (hx : ∀ p ∈ ps, P p.1 ∧ P p.2) (t : SumTree)
    (ht : ∀ i ∈ t.leaves, i < ps.length) :
    (t.leaves = [] ∧ Z (t.dot ps)) ∨ P (t.dot ps) := by
  have hp : ∀ i, i < ps.length → P (ps.getD i (0, 0)).1 ∧ P (ps.getD i (0, 0)).2 := by
    intro i hi
    rw [List.getD_eq_getElem?_getD, List.getElem?_eq_getElem hi]
    exact hx _ (List.getElem_mem hi)
  induction t with
  | zero => exact .inl ⟨rfl, hc.zero⟩
  | leaf i =>
    have hi := hp i (ht i (by simp [SumTree.leaves]))
    exact .inr (hc.mul _ _ hi.1 hi.2)
  | add l r ihl ihr =>
    simp only [SumTree.leaves, List.mem_append] at ht
    simp only [SumTree.leaves, SumTree.dot, List.append_eq_nil_iff]
    rcases ihl fun i hi => ht i (.inl hi) with ⟨l0, lz⟩ | lp <;>
      rcases ihr fun i hi => ht i (.inr hi) with ⟨r0, rz⟩ | rp
    · exact .inl ⟨⟨l0, r0⟩, hc.zz _ _ lz rz⟩
    · exact .inr (hc.zp _ _ lz rp)
    · exact .inr (hc.pz _ _ lp rz)
    · exact .inr (hc.pp _ _ lp rp)
  | fused i t iht =>
    simp only [SumTree.leaves, List.mem_cons] at ht
    have hi := hp i (ht i (.inl rfl))
    rw [SumTree.dot]
    rcases iht fun i hi => ht i (.inr hi) with ⟨-, tz⟩ | tp
    · exact .inr (hc.ppz _ _ _ hi.1 hi.2 tz)
    · exact .inr (hc.ppp _ _ _ hi.1 hi.2 tp)

theorem ClosedUnder.dotOrder (hc : ClosedUnder Z P) {ps : List (A × A)} (hx : ∀ p ∈ ps, P p.1 ∧ P p.2) {p : List Nat}
    {n : Nat} (hl : ps.length = n) (hn : 0 < n) : P ((al.sumOrder p n).dot ps) := by
  have hp := al.sumOrder_perm p n
  rcases hc.dot hx (al.sumOrder p n) fun i hi => by
    have := hp.mem_iff.1 hi
    rw [List.mem_range] at this
    omega with ⟨h0, -⟩ | h
  · have := hp.length_eq
    rw [h0] at this
    simp at this
    omega
  · exact h

theorem ClosedUnder.sumOrder (hc : ClosedUnder Z P) {xs : List A} (hx : ∀ x ∈ xs, P x) {p : List Nat} {n : Nat}
    (hl : xs.length = n) (hn : 0 < n) : P ((al.sumOrder p n).sum xs) := by
  have hp := al.sumOrder_perm p n
  rcases hc.sum hx (al.sumOrder p n) fun i hi => by
    have := hp.mem_iff.1 hi
    rw [List.mem_range] at this
    omega with ⟨h0, -⟩ | h
  · have := hp.length_eq
    rw [h0] at this
    simp at this
    omega
  · exact h

theorem Full.sumAxis (hc : ClosedUnder Z P) (ht : al.Tight) {v : View A} (h : Full P v) (ax : Nat) :
    Post (v.sumAxis al ax) (Full P) := by
  unfold View.sumAxis
  split
  · exact .panic
  · next d hd =>
    have h0 : 0 < d := h.2 d (List.mem_of_getElem? hd)
    refine .bind (Q := fun data => data.length = (v.shape.eraseIdx ax).prod ∧ ∀ x ∈ data, P x)
      ((Post.mapE fun idx _ => .bind (Post.mapE fun k _ => h.read _) fun xs hx => .ok ?_).mono
        fun bs hb => ⟨?_, hb.2⟩)
      fun data hd => .ok (.make ht hd.1 (fun d hd => h.2 d (List.mem_of_mem_eraseIdx hd)) hd.2)
    · exact hc.sumOrder hx.2 (by rw [hx.1, List.length_range]) h0
    · rw [hb.1, allIdx_length]

omit [Zero A] [Add A] [Mul A] [MulAdd A] in
theorem commonRev_pos : ∀ {s t u : List Nat}, commonRev s t = some u → (∀ d ∈ s, 0 < d) → (∀ d ∈ t, 0 < d) → ∀ d ∈ u, 0 < d
  | [], t, u, h, _, ht => by cases h; exact ht
  | d :: s, [], u, h, hs, _ => by cases h; exact hs
  | d :: s, e :: t, u, h, hs, ht => by
    have hd := hs d (by simp)
    have he := ht e (by simp)
    have ih := fun u h => commonRev_pos (s := s) (t := t) (u := u) h (fun x hx => hs x (by simp [hx]))
      (fun x hx => ht x (by simp [hx]))
    simp only [commonRev] at h
    split_ifs at h
    all_goals
      obtain ⟨v, h1, rfl⟩ := Option.map_eq_some_iff.1 h
      intro x hx
      rcases List.mem_cons.1 hx with rfl | hx
      · assumption
      · exact ih v h1 x hx

theorem Full.mul (hc : ClosedUnder Z P) (ht : al.Tight) {l r : View A} (hl : Full P l) (hr : Full P r) :
    Post (l.mul al r) (Full P) := by
  unfold View.mul
  split
  · exact .panic
  · next l' r' hb =>
    obtain ⟨s, hs, hl', hr'⟩ := broadcastWith_eq hb
    obtain ⟨s', hs', rfl⟩ := Option.map_eq_some_iff.1 hs
    have hp : ∀ d ∈ s'.reverse, 0 < d := fun d hd => commonRev_pos hs' (fun x hx => hl.2 x (by simpa using hx))
      (fun x hx => hr.2 x (by simpa using hx)) d (by simpa using hd)
    have hl := (hl.broadcast hp l' hl').1
    have hr' := (hr.broadcast hp r' hr').1
    refine .bind (Q := fun data => data.length = l'.shape.prod ∧ ∀ x ∈ data, P x)
      ((Post.mapE fun idx _ => .bind (hl.read _) fun x hx => .bind (hr'.read _) fun y hy => .ok (hc.mul x y hx hy)).mono
        fun bs hb => ⟨by rw [hb.1, allIdx_length], hb.2⟩)
      fun data hd => .ok (.make ht hd.1 hl.2 hd.2)

theorem Full.dot (hc : ClosedUnder Z P) {l r : View A} (hl : Full P l) (hr : Full P r) :
    Post (l.dot al r) (Full P) := by
  unfold View.dot
  split
  · next m k k' n hls hrs =>
    have hm : 0 < m := hl.2 m (by rw [hls]; simp)
    have hk : 0 < k := hl.2 k (by rw [hls]; simp)
    have hn : 0 < n := hr.2 n (by rw [hrs]; simp)
    have hs : ∀ d ∈ [m, n], 0 < d := by simp [hm, hn]
    have he : ∀ i j : Nat, Post (do
        let ps ← Einsum.mapE (fun x => do
            let a ← l.read [i, x]
            let b ← r.read [x, j]
            return (a, b))
          (List.range k)
        return (al.sumOrder [i, j] k).dot ps) P := fun i j =>
      .bind (Post.mapE (Q := fun p : A × A => P p.1 ∧ P p.2) fun x _ =>
          .bind (hl.read _) fun a ha => .bind (hr.read _) fun b hb => .ok ⟨ha, hb⟩)
        fun ps hp => .ok (hc.dotOrder hp.2 (by rw [hp.1, List.length_range]) hk)
    refine .ite ?_ .panic
    dsimp only
    refine .ite ?_ ?_
    · exact .bind (Post.mapE fun ji _ => he _ _) fun data hd => .ok ⟨hd.2, hs⟩
    · exact .bind (Post.mapE fun ij _ => he _ _) fun data hd => .ok ⟨hd.2, hs⟩
  · exact .panic

/-! ## Singleton contractors -/

omit [Zero A] [Add A] [Mul A] [MulAdd A] in
theorem Full.permute {p : Permutation} {v : View A} (h : Full P v) : Post (p.view v) (Full P) := h.permutedAxes _

omit [Zero A] [Add A] [Mul A] [MulAdd A] in
theorem Full.permutation (ht : al.Tight) {p : Permutation} {v : View A} (h : Full P v) : Post (p.run al v) (Full P) :=
  .bind (h.permutedAxes _) fun _ hw => hw.toOwned ht

theorem Full.sumAxes (hc : ClosedUnder Z P) (axs : List Nat) {al : Alloc A} (ht : al.Tight) {v : View A}
    (h : Full P v) : Post (sumAxes al axs v) (Full P) := by
  induction axs generalizing al v with
  | nil => exact .ok h
  | cons ax axs ih => exact .bind (h.sumAxis hc (ht.sub 0) ax) fun _ hw => ih (ht.sub 1) hw

theorem Full.summation (hc : ClosedUnder Z P) (ht : al.Tight) {s : Summation} {v : View A} (h : Full P v) :
    Post (s.run al v) (Full P) :=
  .bind .trivial fun _ _ => .bind (h.sumAxis hc (ht.sub 0) _) fun _ hw => hw.sumAxes hc _ (ht.sub 1)

omit [Zero A] [Add A] [Mul A] [MulAdd A] in
theorem Full.diagView {d : Diagonalization} (hd : ∀ n ∈ d.outputShape, 0 < n) {v : View A} (h : Full P v) :
    Post (d.view v) (Full P) := by
  refine .bind .trivial fun strides _ => .bind (.unwrapO h.asSlice) fun data hdata => ?_
  cases hv : Einsum.fromShapeStrides d.outputShape strides data with
  | none => exact .panic
  | some w => exact .ok (Full.fromShapeStrides hd hdata w hv)

omit [Zero A] [Add A] [Mul A] [MulAdd A] in
theorem Full.diagRun (ht : al.Tight) {d : Diagonalization} (hd : ∀ n ∈ d.outputShape, 0 < n) {v : View A}
    (h : Full P v) : Post (d.run al v) (Full P) := by
  refine .bind h.toVec fun data hdata => ?_
  cases hv : Einsum.fromShapeVec v.shape data with
  | none => exact .panic
  | some w =>
    exact .bind ((Full.fromShapeVec (by rw [hdata.1]; exact h.prod) hdata.2 w hv).diagView hd) fun _ hw => hw.toOwned ht

/-- The sizes recorded in the contractor are positive. -/
def SingletonOp.Pos : SingletonOp → Prop
  | .diagonalization d => ∀ n ∈ d.outputShape, 0 < n
  | .diagonalizationAndSummation d => ∀ n ∈ d.diagonalization.outputShape, 0 < n
  | _ => True

theorem Full.singleton (hc : ClosedUnder Z P) (ht : al.Tight) {op : SingletonOp} (ho : op.Pos) {v : View A}
    (h : Full P v) : Post (op.run al v) (Full P) := by
  cases op with
  | identity => exact h.toOwned ht
  | permutation p => exact h.permutation ht
  | summation s => exact h.summation hc ht
  | diagonalization d => exact h.diagRun ht ho
  | permutationAndSummation p => exact .bind h.permute fun _ hw => hw.summation hc ht
  | diagonalizationAndSummation d =>
    unfold SingletonOp.run DiagonalizationAndSummation.run
    dsimp only
    split
    · exact .bind (h.diagView ho) fun _ hw => hw.summation hc (ht.sub 1)
    · exact .bind (h.diagRun (ht.sub 0) ho) fun _ hw => hw.summation hc (ht.sub 1)

/-! ## Pair contractors -/

omit [Zero A] [Add A] [Mul A] [MulAdd A] in
theorem Full.asMatrix {v : View A} (h : Full P v) (rows cols : Nat) : Post (asMatrix v rows cols) (Full P) := by
  unfold Einsum.asMatrix
  refine .ite ?_ (.bind h.toVec fun data hd => ?_)
  · cases hw : v.intoShape [rows, cols] with
    | none => exact .panic
    | some w => exact .ok (h.intoShape w hw)
  · cases hw : Einsum.fromShapeVec [rows, cols] data with
    | none => exact .panic
    | some w => exact .ok (Full.fromShapeVec (by rw [hd.1]; exact h.prod) hd.2 w hw)

theorem Full.fixed (hc : ClosedUnder Z P) {p : TensordotFixedPosition} {l r : View A} (hl : Full P l)
    (hr : Full P r) : Post (p.run al l r) (Full P) := by
  refine .bind (hl.asMatrix _ _) fun l' hl' => .bind (hr.asMatrix _ _) fun r' hr' => .bind (hl'.dot hc hr')
    fun w hw => ?_
  cases hv : w.intoShape p.outputShape with
  | none => exact .panic
  | some v => exact .ok (hw.intoShape v hv)

theorem Full.general (hc : ClosedUnder Z P) (ht : al.Tight) {p : TensordotGeneral} {l r : View A} (hl : Full P l)
    (hr : Full P r) : Post (p.run al l r) (Full P) :=
  .bind hl.permute fun _ hl' => .bind hr.permute fun _ hr' => .bind (hl'.fixed hc hr') fun _ hw =>
    hw.permutation (ht.sub 1)

theorem Full.scalarMatrix (hc : ClosedUnder Z P) (ht : al.Tight) {l r : View A} (hl : Full P l) (hr : Full P r) :
    Post (ScalarMatrixProduct.run al l r) (Full P) :=
  .bind hl.first fun _ hf => .bind (.unwrapO hf) fun y hy => hr.mapv ht fun x hx => hc.mul x y hx hy

theorem Full.matrixScalar (hc : ClosedUnder Z P) (ht : al.Tight) {l r : View A} (hl : Full P l) (hr : Full P r) :
    Post (MatrixScalarProduct.run al l r) (Full P) :=
  .bind hr.first fun _ hf => .bind (.unwrapO hf) fun y hy => hl.mapv ht fun x hx => hc.mul x y hx hy

omit [Zero A] [Add A] [Mul A] [MulAdd A] in
theorem Full.insertAxes (is : List Nat) {v : View A} (h : Full P v) : Post (insertAxes is v) (Full P) := by
  induction is generalizing v with
  | nil => exact .ok h
  | cons i is ih => exact .bind (h.insertAxis i) fun _ hw => ih hw

theorem Full.stackLoop (hc : ClosedUnder Z P) (fixed : TensordotFixedPosition) {al : Alloc A} {sub : List Nat}
    (hs : ∀ d ∈ sub, 0 < d) (n i : Nat) {ls rs : List (View A)} (hls : ∀ v ∈ ls, Full P v)
    (hrs : ∀ v ∈ rs, Full P v) {buf : List A} (hb : buf.length = (i + n) * sub.prod)
    (hp : ∀ x ∈ buf.take (i * sub.prod), P x) :
    Post (stackLoop fixed al sub sub.prod i n ls rs buf) fun buf' => ∀ x ∈ buf', P x := by
  induction n generalizing i ls rs buf with
  | zero =>
    refine .ok fun x hx => hp x ?_
    rw [List.take_of_length_le (by rw [hb]; simp)]
    exact hx
  | succ n ih =>
    refine .bind (.unwrapO fun l hl => hls l (List.mem_of_head? hl)) fun l hl =>
      .bind (.unwrapO fun r hr => hrs r (List.mem_of_head? hr)) fun r hr => .bind (hl.fixed hc hr) fun w hw => ?_
    cases hv : w.broadcast sub with
    | none => exact .panic
    | some w' =>
      obtain ⟨hw', hsh⟩ := hw.broadcast hs w' hv
      refine .bind hw'.toVec fun data hd => ?_
      rw [hsh] at hd
      have e1 : i * sub.prod ≤ buf.length := by rw [hb]; exact Nat.mul_le_mul_right _ (by omega)
      have hlen : (buf.take (i * sub.prod) ++ data).length = (i + 1) * sub.prod := by
        rw [List.length_append, List.length_take, Nat.min_eq_left e1, hd.1, Nat.add_mul, Nat.one_mul]
      refine ih (i + 1) (fun v hv => hls v (List.mem_of_mem_tail hv)) (fun v hv => hrs v (List.mem_of_mem_tail hv)) ?_ ?_
      · rw [List.length_append, hlen, List.length_drop, hb, ← Nat.sub_mul, ← Nat.add_mul]
        congr 1
        omega
      · rw [List.take_append_of_le_length (by rw [hlen]), List.take_of_length_le (by rw [hlen])]
        intro x hx
        rcases List.mem_append.1 hx with hx | hx
        · exact hp x hx
        · exact hd.2 x hx

theorem Full.stacked (hc : ClosedUnder Z P) (ht : al.Tight) {p : StackedTensordotGeneral}
    (hpos : ∀ d ∈ p.intermediateShape, 0 < d) {l r : View A} (hl : Full P l) (hr : Full P r) :
    Post (p.run al l r) (Full P) := by
  refine .bind hl.permute fun lp hlp => .bind hlp.toVec fun ld hld => ?_
  cases hlre : Einsum.fromShapeVec p.lhsOutputShape ld with
  | none => exact .panic
  | some lre =>
    have hlre := Full.fromShapeVec (by rw [hld.1]; exact hlp.prod) hld.2 lre hlre
    refine .bind hr.permute fun rp hrp => .bind hrp.toVec fun rd hrd => ?_
    cases hrre : Einsum.fromShapeVec p.rhsOutputShape rd with
    | none => exact .panic
    | some rre =>
      have hrre := Full.fromShapeVec (by rw [hrd.1]; exact hrp.prod) hrd.2 rre hrre
      refine .bind hlre.outerIter fun ls hls => .bind hrre.outerIter fun rs hrs => ?_
      cases hi : p.intermediateShape with
      | nil => exact .panic
      | cons n sub =>
        rw [hi] at hpos
        dsimp only
        refine .bind (Full.stackLoop hc _ (fun d hd => hpos d (by simp [hd])) n 0 hls hrs (by simp) (by simp))
          fun buf hb => ?_
        have hinter : Full P (⟨buf, 0, n :: sub, defaultStrides (n :: sub)⟩ : View A) := ⟨hb, hpos⟩
        cases hv : View.intoShape (⟨buf, 0, n :: sub, defaultStrides (n :: sub)⟩ : View A) p.outputShape with
        | none => exact .panic
        | some res => exact (hinter.intoShape res hv).permutation (ht.sub 1)

/-- The sizes recorded in the contractor are positive. -/
def PairOp.Pos : PairOp → Prop
  | .broadcastProductGeneral p => ∀ d ∈ p.outputSizes, 0 < d
  | .stackedTensordotGeneral p => ∀ d ∈ p.intermediateShape, 0 < d
  | _ => True

theorem Full.pair (hc : ClosedUnder Z P) (ht : al.Tight) {op : PairOp} (ho : op.Pos) {l r : View A} (hl : Full P l)
    (hr : Full P r) : Post (op.run al l r) (Full P) := by
  cases op with
  | hadamardProduct => exact hl.mul hc ht hr
  | hadamardProductGeneral p => exact .bind hl.permute fun _ hl' => .bind hr.permute fun _ hr' => hl'.mul hc ht hr'
  | tensordotFixedPosition p => exact hl.fixed hc hr
  | tensordotGeneral p => exact hl.general hc ht hr
  | scalarMatrixProduct => exact hl.scalarMatrix hc ht hr
  | scalarMatrixProductGeneral p => exact .bind hr.permute fun _ hr' => hl.scalarMatrix hc ht hr'
  | matrixScalarProduct => exact hl.matrixScalar hc ht hr
  | matrixScalarProductGeneral p => exact .bind hl.permute fun _ hl' => hl'.matrixScalar hc ht hr
  | broadcastProductGeneral p =>
    exact .bind hl.permute fun _ hl' => .bind hr.permute fun _ hr' => .bind (hl'.insertAxes _) fun _ hl'' =>
      .bind (hr'.insertAxes _) fun _ hr'' => .bind (.unwrapO fun w hw => (hl''.broadcast ho w hw).1) fun _ hl''' =>
      .bind (.unwrapO fun w hw => (hr''.broadcast ho w hw).1) fun _ hr''' => hl'''.mul hc ht hr'''
  | stackedTensordotGeneral p => exact hl.stacked hc ht ho hr

/-! ## Compiled contractions -/

/-- The recorded sizes are positive. -/
def SizedContraction.Pos (sc : SizedContraction) : Prop := ∀ c d, sc.outputSize c = some d → 0 < d

theorem SizedContraction.Pos.get {sc : SizedContraction} (h : sc.Pos) (c : Char) :
    Post (sc.outputSize.get c) fun d => 0 < d := by
  unfold OutputSize.get
  cases hc : sc.outputSize c with
  | none => exact .panic
  | some d => exact .ok (h c d hc)

theorem SizedContraction.Pos.sizes {sc : SizedContraction} (h : sc.Pos) (l : List Char) :
    Post (sizesOf sc l) fun ds => ∀ d ∈ ds, 0 < d :=
  (Post.mapE fun c _ => h.get c).mono fun _ hd => hd.2

theorem SizedContraction.Pos.subset {sc : SizedContraction} (h : sc.Pos) {ho : HashOrd} {ops : List (List Char)}
    {out : List Char} : Post (unwrapR (sc.subset ho ops out)) SizedContraction.Pos := by
  intro sc' hs
  cases hr : sc.subset ho ops out with
  | error e => rw [hr] at hs; cases hs
  | ok sc'' =>
    rw [hr] at hs
    cases hs
    unfold SizedContraction.subset at hr
    dsimp only at hr
    split at hr
    · cases hr
    · cases hf : Contraction.fromIndices (ho.sub 4) ops out with
      | error e => rw [hf] at hr; cases hr
      | ok c =>
        rw [hf] at hr
        cases hr
        intro c d hc
        dsimp only at hc
        split at hc
        · exact h c d hc
        · cases hc

theorem SizedContraction.Pos.diag {sc : SizedContraction} (h : sc.Pos) :
    Post (Diagonalization.new sc) fun d => ∀ n ∈ d.outputShape, 0 < n :=
  .bind .trivial fun _ _ => .bind .trivial fun _ _ => .bind (h.sizes _) fun _ hs => .ok hs

theorem SizedContraction.Pos.singletonOp {sc : SizedContraction} (h : sc.Pos) (m : SingletonMethod) :
    Post (SingletonOp.new sc m) SingletonOp.Pos := by
  cases m with
  | identity => exact .ok True.intro
  | permutation => exact .bind .trivial fun _ _ => .ok True.intro
  | summation => exact .bind .trivial fun _ _ => .ok True.intro
  | diagonalization => exact .bind h.diag fun _ hd => .ok hd
  | permutationAndSummation => exact .bind .trivial fun _ _ => .ok True.intro
  | diagonalizationAndSummation =>
    refine .bind (Q := fun d : DiagonalizationAndSummation => ∀ n ∈ d.diagonalization.outputShape, 0 < n) ?_ fun _ hd => .ok hd
    exact .bind h.diag fun _ hd => .bind .trivial fun _ _ => .bind .trivial fun _ _ => .ok hd

theorem SizedContraction.Pos.singleton {sc : SizedContraction} (h : sc.Pos) :
    Post (SingletonContraction.new sc) fun c => c.op.Pos :=
  .bind .trivial fun _ _ => .bind (h.singletonOp _) fun _ ho => .ok ho

theorem SizedContraction.Pos.stackClassify {sc : SizedContraction} (h : sc.Pos)
    (l : List ((Option Nat × Option Nat) × Char)) (acc : StackAcc) (ha : 0 < acc.stackLen) :
    Post (stackClassify sc l acc) fun acc' => 0 < acc'.stackLen := by
  induction l generalizing acc with
  | nil => exact .ok ha
  | cons x l ih =>
    obtain ⟨⟨_ | lp, _ | rp⟩, c⟩ := x
    · exact .panic
    · exact .bind .trivial fun _ _ => ih _ ha
    · exact .bind .trivial fun _ _ => ih _ ha
    · exact .bind (h.get c) fun n hn => ih _ (Nat.mul_pos ha hn)

theorem SizedContraction.Pos.pairOp {sc : SizedContraction} (h : sc.Pos) (m : PairMethod) :
    Post (PairOp.new sc m) PairOp.Pos := by
  cases m with
  | broadcastProductGeneral =>
    refine .bind (Q := fun p : BroadcastProductGeneral => ∀ d ∈ p.outputSizes, 0 < d) ?_ fun _ hd => .ok hd
    exact .bind .trivial fun _ _ => .bind .trivial fun _ _ => .bind .trivial fun _ _ => .bind .trivial fun _ _ =>
      .bind .trivial fun _ _ => .bind (h.sizes _) fun _ hd => .ok hd
  | stackedTensordotGeneral =>
    refine .bind (Q := fun p : StackedTensordotGeneral => ∀ d ∈ p.intermediateShape, 0 < d) ?_ fun _ hd => .ok hd
    refine .bind .trivial fun _ _ => .bind .trivial fun _ _ => .bind .trivial fun _ _ => .bind .trivial fun _ _ =>
      .bind .trivial fun _ _ => .bind (h.stackClassify _ _ (by decide)) fun acc ha => .bind .trivial fun x _ => ?_
    refine .bind (h.sizes _) fun ls hls => .bind (h.sizes _) fun rs hrs => .bind .trivial fun _ _ =>
      .bind .trivial fun _ _ => .bind .trivial fun _ _ => .ok ?_
    intro d hd
    rcases List.mem_cons.1 hd with rfl | hd
    · exact ha
    · rcases List.mem_append.1 hd with hd | hd
      · exact hls d hd
      · exact hrs d hd
  | _ => exact .bind .trivial fun _ _ => .ok True.intro

/-- The sizes recorded in the contractors of a step are positive. -/
def PairContraction.Pos (p : PairContraction) : Prop :=
  (∀ s, p.lhsSimplification = some s → s.op.Pos) ∧ (∀ s, p.rhsSimplification = some s → s.op.Pos) ∧ p.op.Pos

theorem SizedContraction.Pos.simplification {sc : SizedContraction} (h : sc.Pos) (ho : HashOrd)
    (this other out : List Char) :
    Post (SimplificationMethodAndOutput.fromIndicesAndSizes ho this other out sc) fun o => ∀ s, o = some s → s.op.Pos := by
  refine .bind h.subset fun sc' h' => .bind h'.singleton fun c hc => ?_
  split
  · exact .ok (by simp)
  · exact .ok (by simp)
  · exact .bind .trivial fun _ _ => .ok (by rintro s ⟨⟩; exact hc)

theorem SizedContraction.Pos.pair {sc : SizedContraction} (h : sc.Pos) (ho : HashOrd) :
    Post (PairContraction.new ho sc) PairContraction.Pos :=
  .bind .trivial fun _ _ => .bind .trivial fun _ _ => .bind .trivial fun _ _ => .bind (h.simplification _ _ _ _) fun _ hl =>
    .bind (h.simplification _ _ _ _) fun _ hr => .bind h.subset fun _ h' => .bind .trivial fun _ _ =>
    .bind (h'.pairOp _) fun _ hop => .bind .trivial fun _ _ => .ok ⟨hl, hr, hop⟩

theorem SizedContraction.Pos.steps {sc : SizedContraction} (h : sc.Pos) (ho : HashOrd) (first idx : Nat)
    (lhs : List Char) (rest : List (List Char)) (nums : List Nat) :
    Post (generateSteps ho sc first idx lhs rest nums) fun l => ∀ s ∈ l, s.sizedContraction.Pos := by
  induction rest generalizing idx lhs nums with
  | nil => exact .ok (by simp)
  | cons rhs later ih =>
    cases nums with
    | nil => exact .ok (by simp)
    | cons num nums =>
      refine .bind h.subset fun sc' h' => .bind (ih _ _ _) fun l hl => .ok ?_
      intro s hs
      rcases List.mem_cons.1 hs with rfl | hs
      · exact h'
      · exact hl s hs

/-- The sizes of all contractions of the order are positive. -/
def ContractionOrder.Pos : ContractionOrder → Prop
  | .singleton sc => sc.Pos
  | .pairs steps => ∀ s ∈ steps, s.sizedContraction.Pos

theorem SizedContraction.Pos.path {sc : SizedContraction} (h : sc.Pos) (ho : HashOrd) (order : List Nat) :
    Post (generatePath ho sc order) ContractionOrder.Pos := by
  refine .bind (.bind .trivial fun _ _ => .bind .trivial fun _ _ => h.subset) fun p hp => ?_
  split
  · exact .ok hp
  · refine .bind hp.subset fun sc' h' => .ok ?_
    intro s hs
    rw [List.mem_singleton.1 hs]
    exact h'
  · exact .bind (hp.steps _ _ _ _ _ _) fun _ hl => .ok hl
  · exact .panic

theorem SizedContraction.Pos.order {sc : SizedContraction} (h : sc.Pos) (ho : HashOrd) (m : OptimizationMethod) :
    Post (generateOptimizedOrder ho sc m) ContractionOrder.Pos := by
  cases m with
  | naive => exact h.path _ _
  | reverse => exact h.path _ _
  | _ => exact .panic

/-- The sizes recorded in the contractors of a path are positive. -/
def EinsumPath.Pos (p : EinsumPath) : Prop :=
  match p.steps with
  | .singletonContraction c => c.op.Pos
  | .pairContractions l => ∀ c ∈ l, c.Pos

theorem compileSteps_pos (l : List PairStep) (hl : ∀ s ∈ l, s.sizedContraction.Pos) (ho : HashOrd) :
    Post (compileSteps ho l) fun cs => ∀ c ∈ cs, c.Pos := by
  induction l generalizing ho with
  | nil => exact .ok (by simp)
  | cons s l ih =>
    refine .bind ((hl s (by simp)).pair _) fun c hc => .bind (ih (fun s hs => hl s (by simp [hs])) _) fun cs hcs => .ok ?_
    intro x hx
    rcases List.mem_cons.1 hx with rfl | hx
    · exact hc
    · exact hcs x hx

theorem ContractionOrder.Pos.path {o : ContractionOrder} (h : o.Pos) (ho : HashOrd) :
    Post (EinsumPath.fromPath ho o) EinsumPath.Pos := by
  cases o with
  | singleton sc => exact .bind (SizedContraction.Pos.singleton h) fun _ hc => .ok hc
  | pairs l => exact .bind (compileSteps_pos l h ho) fun _ hc => .ok hc

/-! ## Running -/

theorem Full.simplify (hc : ClosedUnder Z P) (ht : al.Tight) {o : Option SimplificationMethodAndOutput}
    (ho : ∀ s, o = some s → s.op.Pos) {v : View A} (h : Full P v) : Post (simplifyOperand al o v) (Full P) := by
  cases o with
  | none => exact .ok h
  | some s => exact h.singleton hc ht (ho s rfl)

theorem Full.contraction (hc : ClosedUnder Z P) (ht : al.Tight) {p : PairContraction} (hp : p.Pos) {l r : View A}
    (hl : Full P l) (hr : Full P r) : Post (p.run al l r) (Full P) :=
  .bind (hl.simplify hc (ht.sub 0) hp.1) fun _ hl' => .bind (hr.simplify hc (ht.sub 1) hp.2.1) fun _ hr' =>
    hl'.pair hc (ht.sub 2) hp.2.2 hr'

omit [Zero A] [Add A] [Mul A] [MulAdd A] in
theorem Full.fetch {operands inter : List (View A)} (ho : ∀ v ∈ operands, Full P v) (hi : ∀ v ∈ inter, Full P v)
    (n : OperandNumber) : Post (fetch operands inter n) (Full P) := by
  cases n with
  | input n => exact .index ho
  | intermediateResult n => exact .index hi

theorem Full.runSteps (hc : ClosedUnder Z P) {operands : List (View A)} (ho : ∀ v ∈ operands, Full P v)
    (steps : List (PairContraction × PairStep)) (hs : ∀ s ∈ steps, s.1.Pos) {al : Alloc A} (ht : al.Tight)
    {inter : List (View A)} (hi : ∀ v ∈ inter, Full P v) :
    Post (runSteps al operands steps inter) fun l => ∀ v ∈ l, Full P v := by
  induction steps generalizing al inter with
  | nil => exact .ok hi
  | cons s steps ih =>
    obtain ⟨step, os⟩ := s
    refine .bind (Full.fetch ho hi _) fun l hl => .bind (Full.fetch ho hi _) fun r hr =>
      .bind (hl.contraction hc (ht.sub 0) (hs (step, os) (by simp)) hr) fun w hw =>
      ih (fun s h => hs s (by simp [h])) (ht.sub 1) ?_
    intro v hv
    rcases List.mem_append.1 hv with hv | hv
    · exact hi v hv
    · rw [List.mem_singleton.1 hv]; exact hw

theorem EinsumPath.Pos.run {p : EinsumPath} (hp : p.Pos) (hc : ClosedUnder Z P) (ht : al.Tight)
    {operands : List (View A)} (ho : ∀ v ∈ operands, Full P v) : Post (p.contractOperands al operands) (Full P) := by
  obtain ⟨o, s⟩ := p
  cases s with
  | singletonContraction c =>
    cases o with
    | singleton sc => exact .bind (.index ho) fun _ hv => hv.singleton hc ht hp
    | pairs l => exact .panic
  | pairContractions cs =>
    cases o with
    | singleton sc => exact .panic
    | pairs l =>
      refine .bind (Full.runSteps hc ho _ (fun s hs => ?_) ht (by simp)) fun inter hi => .unwrapO fun v hv => ?_
      · exact hp s.1 (List.of_mem_zip (a := s.1) (b := s.2) hs).1
      · exact hi v (List.mem_of_getLast? hv)

/-! ## Whole calls -/

theorem callSC_pos {inputs : List (List Char)} {out : List Char} {dims : Char → Nat}
    (hd : ∀ c ∈ inputs.flatten, dims c ≠ 0) : (callSC inputs out dims).Pos := by
  intro c d h
  simp only [callSC] at h
  split at h
  · next hc =>
    cases h
    exact Nat.pos_of_ne_zero (hd c hc)
  · cases h

/-- The elements of the result of a valid call on arrays without empty axes. -/
theorem einsum_full (hc : ClosedUnder Z P) (ht : al.Tight) {s : String} {operands : List (View A)}
    {inputs : List (List Char)} {out : List Char} {dims : Char → Nat} (hd : Denotes s inputs out)
    (hs : Sized dims inputs (operands.map View.shape)) (h0 : ∀ c ∈ inputs.flatten, dims c ≠ 0)
    (ho : ∀ v ∈ operands, Full P v) (h : HashOrd) :
    Post (einsum h al s operands) fun x => ∀ r, x = .ok r → Full P r := by
  unfold Einsum.einsum
  rw [validateAndSize_ok (h.sub 0) hd hs]
  have hp := callSC_pos (out := out) h0
  exact .bind (.bind (.bind (hp.order _ _) fun _ h' => h'.path _) fun _ hp' => hp'.run hc ht ho)
    fun r hr => .ok (by rintro r' ⟨⟩; exact hr)

omit [Zero A] [Add A] [Mul A] [MulAdd A] in
/-- The same for a compiled path. -/
theorem einsumPath_pos {s : String} {operands : List (View A)} {inputs : List (List Char)} {out : List Char}
    {dims : Char → Nat} (hd : Denotes s inputs out) (hs : Sized dims inputs (operands.map View.shape))
    (h0 : ∀ c ∈ inputs.flatten, dims c ≠ 0) (h : HashOrd) (m : OptimizationMethod) :
    Post (einsumPath h s operands m) fun x => ∀ p, x = .ok p → p.Pos := by
  unfold einsumPath validateAndOptimizeOrder
  rw [validateAndSize_ok ((h.sub 0).sub 0) hd hs]
  have hp := callSC_pos (out := out) h0
  refine .bind (Q := fun x => ∀ o, x = .ok o → o.Pos) (.bind (hp.order _ m) fun o ho => .ok (by rintro _ ⟨⟩; exact ho))
    fun x hx => ?_
  cases x with
  | error e => exact .ok (by simp)
  | ok o => exact .bind ((hx o rfl).path _) fun p hp => .ok (by rintro _ ⟨⟩; exact hp)

end Einsum
