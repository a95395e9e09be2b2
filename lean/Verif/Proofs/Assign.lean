import Verif.Model.Assign
import Verif.Proofs.Safe
import Verif.SpecArray

/-! # Assignments through mutable views -/

namespace Einsum

open Spec

variable {A : Type}

theorem writeAt_ok {buf : List A} {n : Nat} (h : n < buf.length) (x : A) :
    writeAt buf (n : Int) x = .ok (buf.set n x) := by
  simp [writeAt, h]

/-- Writes to different addresses inside the buffer. -/
theorem writeAll_ok (ps : List (Int × A)) (buf : List A) (hn : (ps.map Prod.fst).Nodup)
    (hb : ∀ p ∈ ps, ∃ n : Nat, p.1 = n ∧ n < buf.length) :
    ∃ buf', writeAll ps buf = .ok buf' ∧ buf'.length = buf.length ∧
      (∀ p ∈ ps, ∀ n : Nat, p.1 = n → buf'[n]? = some p.2) ∧
      ∀ n : Nat, (∀ p ∈ ps, p.1 ≠ n) → buf'[n]? = buf[n]? := by
  induction ps generalizing buf with
  | nil => exact ⟨buf, rfl, rfl, by simp, by simp⟩
  | cons p ps ih =>
    obtain ⟨a, x⟩ := p
    obtain ⟨n, hn0, hlt⟩ := hb (a, x) (by simp)
    simp only at hn0
    subst hn0
    simp only [List.map_cons, List.nodup_cons] at hn
    obtain ⟨buf', h1, h2, h3, h4⟩ := ih (buf.set n x) hn.2
      (fun q hq => by simpa using hb q (List.mem_cons_of_mem _ hq))
    refine ⟨buf', by rw [writeAll, writeAt_ok hlt, bind_ok, h1], by simpa using h2, ?_, ?_⟩
    · intro q hq m hm
      rcases List.mem_cons.1 hq with rfl | hq
      · have : n = m := by simpa using hm
        subst this
        rw [h4 n fun q hq he => hn.1 (he ▸ List.mem_map_of_mem hq)]
        simp [hlt]
      · exact h3 q hq m hm
    · intro m hm
      rw [h4 m fun q hq => hm q (List.mem_cons_of_mem _ hq)]
      have : n ≠ m := by simpa using hm (↑n, x) (by simp)
      simp [this]

theorem readAt_eq_ok {buf : List A} {a : Int} {x : A} (h : readAt buf a = .ok x) :
    ∃ n : Nat, a = n ∧ buf[n]? = some x := by
  unfold readAt at h
  split at h
  · rename_i ha
    refine ⟨a.toNat, by omega, ?_⟩
    split at h
    · rename_i y hy; rw [hy]; cases h; rfl
    · cases h
  · cases h

theorem View.Wf.address {v : View A} (h : v.Wf) {idx : List Nat} (hi : InB v.shape idx) :
    ∃ n : Nat, Spec.address v idx = n ∧ n < v.buf.length := by
  obtain ⟨x, hx⟩ := h.2 idx hi
  rw [View.read, if_pos hi] at hx
  obtain ⟨n, h1, h2⟩ := readAt_eq_ok hx
  exact ⟨n, h1, (List.getElem?_eq_some_iff.1 h2).1⟩

/-- Assignment of an array that can be broadcast. -/
theorem Holds.assign {out src src' : View A} {s : List Nat} {T : List Nat → A} (h : Holds src s T)
    (hw : out.Wf) (hx : Exclusive out) (hb : src.broadcast out.shape = some src') :
    ∃ out', out.assign src = .ok out' ∧ Assigned out out' fun idx => T (bcIdx s idx) := by
  have hs := h.broadcast hb
  have hz : ((allIdx out.shape).map fun idx => out.off + dotI out.strides idx).zip
      ((allIdx out.shape).map fun idx => T (bcIdx s idx)) =
      (allIdx out.shape).map fun idx => (Spec.address out idx, T (bcIdx s idx)) := by
    rw [List.zip_map']; rfl
  obtain ⟨buf', h1, h2, h3, h4⟩ := writeAll_ok
    ((allIdx out.shape).map fun idx => (Spec.address out idx, T (bcIdx s idx))) out.buf
    (by
      rw [List.map_map]
      refine List.Nodup.map_on ?_ (nodup_allIdx _)
      intro a ha b hb' he
      exact hx a b (mem_allIdx.1 ha) (mem_allIdx.1 hb') he)
    (by
      intro p hp
      obtain ⟨idx, hi, rfl⟩ := List.mem_map.1 hp
      exact hw.address (mem_allIdx.1 hi))
  refine ⟨{ out with buf := buf' }, ?_, rfl, rfl, rfl, h2, ?_, ?_⟩
  · simp only [View.assign, hb, hs.toVec, bind_ok]
    rw [hz, h1]; rfl
  · intro idx hi
    obtain ⟨n, hn, -⟩ := hw.address hi
    have := h3 _ (List.mem_map.2 ⟨idx, mem_allIdx.2 hi, rfl⟩) n hn
    rw [View.read, if_pos hi]
    change Einsum.readAt buf' (Spec.address out idx) = _
    rw [hn]
    exact readAt_nat this
  · intro n hn
    refine h4 n fun p hp => ?_
    obtain ⟨idx, hi, rfl⟩ := List.mem_map.1 hp
    exact hn idx (mem_allIdx.1 hi)

/-! ## Broadcasting in terms of shapes -/

theorem broadcastRev_isSome {s : List Nat} {st : List Int} {new : List Nat} (hl : st.length = s.length) :
    (broadcastRev s st new).isSome ↔
      s.length ≤ new.length ∧ List.Forall₂ (fun d n => d = n ∨ d = 1) s (new.take s.length) := by
  induction s generalizing st new with
  | nil => simp [broadcastRev]
  | cons d ds ih =>
    cases st with
    | nil => simp at hl
    | cons x st =>
      cases new with
      | nil => simp [broadcastRev]
      | cons n ns =>
        have := ih (st := st) (new := ns) (by simpa using hl)
        simp only [broadcastRev, List.length_cons, Nat.add_le_add_iff_right, List.take_succ_cons,
          List.forall₂_cons]
        split
        · rename_i h; simp [h, this]
        · rename_i h
          split
          · rename_i h'; simp [h', this]
          · rename_i h'; simp [h, h']

theorem broadcast_isSome {v : View A} (hl : v.strides.length = v.shape.length) (t : List Nat) :
    (v.broadcast t).isSome ↔ Broadcasts v.shape t := by
  rw [View.broadcast, Option.isSome_map, broadcastRev_isSome (by simpa using hl), Broadcasts]
  simp only [List.length_reverse]
  refine and_congr_right fun h => ?_
  rw [List.take_reverse, List.forall₂_reverse_iff]

theorem bcIdxRev_eq (s i : List Nat) :
    bcIdxRev s i = List.zipWith (fun d i => if d = 1 then 0 else i) s i := by
  induction s generalizing i with
  | nil => simp [bcIdxRev]
  | cons d ds ih => cases i <;> simp [bcIdxRev, ih]

theorem bcIdx_eq {s idx : List Nat} (h : s.length ≤ idx.length) : bcIdx s idx = sourceIndex s idx := by
  rw [bcIdx, bcIdxRev_eq, sourceIndex]
  have h1 : List.zipWith (fun d i => if d = 1 then 0 else i) s.reverse idx.reverse =
      List.zipWith (fun d i => if d = 1 then 0 else i) s.reverse (idx.drop (idx.length - s.length)).reverse := by
    rw [← List.take_reverse]
    conv_lhs => rw [List.zipWith_eq_zipWith_take_min]
    conv_rhs => rw [List.zipWith_eq_zipWith_take_min]
    simp [h, List.take_take]
  rw [h1, ← List.reverse_zipWith (by simp; omega), List.reverse_reverse]

/-- An assignment succeeds exactly if the shape can be broadcast. -/
theorem assign_spec [Zero A] {out src : View A} (hs : src.Wf) (hw : out.Wf) (hx : Exclusive out)
    {t : List Nat → A} (ht : ∀ idx, InB src.shape idx → src.read idx = .ok (t idx)) :
    (Broadcasts src.shape out.shape → ∃ out', out.assign src = .ok out' ∧
      Assigned out out' fun idx => t (sourceIndex src.shape idx)) ∧
    (¬ Broadcasts src.shape out.shape → out.assign src = panic .ndarray) := by
  have hh : Holds src src.shape t := ⟨rfl, hs.1, ht⟩
  constructor
  · intro hb
    obtain ⟨src', hsrc⟩ := Option.isSome_iff_exists.1 ((broadcast_isSome hs.1 _).2 hb)
    obtain ⟨out', h1, h2⟩ := hh.assign hw hx hsrc
    refine ⟨out', h1, h2.1, h2.2, h2.3, h2.4, fun idx hi => ?_, h2.6⟩
    rw [h2.5 idx hi, bcIdx_eq (by rw [hi.length_eq]; exact hb.1)]
  · intro hb
    have : src.broadcast out.shape = none := by
      rw [← Option.not_isSome_iff_eq_none, broadcast_isSome hs.1]; exact hb
    simp only [View.assign, this]

/-! ## The loop of the stacked contraction -/

theorem writeAll_block (data buf : List A) (a : Nat) (h : a + data.length ≤ buf.length) :
    writeAll (((List.range' a data.length).map Int.ofNat).zip data) buf =
      .ok (buf.take a ++ data ++ buf.drop (a + data.length)) := by
  induction data generalizing a buf with
  | nil => simp [writeAll]
  | cons x data ih =>
    simp only [List.length_cons] at h
    simp only [List.length_cons, List.range'_succ, List.map_cons, List.zip_cons_cons, writeAll]
    rw [Int.ofNat_eq_natCast, writeAt_ok (by omega), bind_ok, ih _ _ (by simp; omega)]
    congr 1
    rw [List.take_set, List.drop_set_of_lt (by omega)]
    have : (buf.take (a + 1)).set a x = buf.take a ++ [x] := by
      rw [List.take_succ_eq_append_getElem (by omega), List.set_append]
      simp [Nat.min_eq_left (show a ≤ buf.length by omega)]
    rw [this]
    simp [Nat.add_assoc, Nat.add_comm 1]

theorem map_ravel_allIdx (s : List Nat) : (allIdx s).map (ravel s) = List.range s.prod := by
  rw [allIdx_eq, List.map_map]
  conv_rhs => rw [← List.map_id (List.range s.prod)]
  refine List.map_congr_left fun n hn => ?_
  simp [ravel_unravel (List.mem_range.1 hn)]

theorem stackLoopAssign_eq [Zero A] [Add A] [Mul A] [MulAdd A] (fixed : TensordotFixedPosition) (al : Alloc A)
    (sub : List Nat) (N n i : Nat) (hi : i + n = N) (ls rs : List (View A)) (buf : List A)
    (hb : buf.length = N * sub.prod) :
    stackLoopAssign fixed al i n ls rs ⟨buf, 0, N :: sub, defaultStrides (N :: sub)⟩ =
      (stackLoop fixed al sub sub.prod i n ls rs buf >>= fun b =>
        .ok ⟨b, 0, N :: sub, defaultStrides (N :: sub)⟩) := by
  induction n generalizing i ls rs buf with
  | zero => rfl
  | succ n ih =>
    have hlt : i < N := by omega
    obtain ⟨x, st, hst⟩ : ∃ x st, defaultStrides (N :: sub) = x :: st := by
      have := defaultStrides_length (N :: sub)
      cases hd : defaultStrides (N :: sub) with
      | nil => simp [hd] at this
      | cons x st => exact ⟨x, st, rfl⟩
    have hsub : ∀ idx, InB sub idx → x * (i : Int) + dotI st idx = ((i * sub.prod + ravel sub idx : Nat) : Int) := by
      intro idx hidx
      have := dotI_default (s := N :: sub) (i := i :: idx) ⟨hlt, hidx⟩
      rwa [hst, dotI_cons, ravel_cons] at this
    have hi1 : (i + 1) * sub.prod ≤ buf.length := by
      rw [hb]; exact Nat.mul_le_mul_right _ (by omega)
    have hi2 : (i + 1) * sub.prod = i * sub.prod + sub.prod := Nat.succ_mul _ _
    have hou : View.outerIter (⟨buf, 0, N :: sub, defaultStrides (N :: sub)⟩ : View A) =
        .ok ((List.range N).map fun (j : Nat) => ⟨buf, 0 + x * (j : Int), sub, st⟩) := by
      rw [hst]; rfl
    rw [stackLoopAssign, stackLoop, hou, bind_ok]
    simp only [List.getElem?_map, List.getElem?_range hlt, Option.map_some, unwrapO_some, bind_ok]
    cases unwrapO ls.head? with
    | error e => rfl
    | ok l =>
    cases unwrapO rs.head? with
    | error e => rfl
    | ok r =>
    simp only [bind_ok, PairOp.contractAndAssign, PairOp.run]
    cases fixed.run (al.sub i) l r with
    | error e => rfl
    | ok res =>
    simp only [bind_ok, View.assign]
    cases hbc : res.broadcast sub with
    | none => rfl
    | some res' =>
    simp only
    cases hd : res'.toVec with
    | error e => rfl
    | ok data =>
    have hlen : data.length = sub.prod := by
      have h1 : res'.shape = sub := by
        rw [View.broadcast] at hbc
        obtain ⟨ss, -, rfl⟩ := Option.map_eq_some_iff.1 hbc
        rfl
      rw [mapE_length hd, allIdx_length, h1]
    have hz : ((allIdx sub).map fun idx => 0 + x * (i : Int) + dotI st idx) =
        (List.range' (i * sub.prod) data.length).map Int.ofNat := by
      rw [hlen, List.range'_eq_map_range, ← map_ravel_allIdx, List.map_map, List.map_map]
      refine List.map_congr_left fun idx hidx => ?_
      simp only [Int.zero_add, Function.comp_apply, Int.ofNat_eq_natCast]
      exact hsub idx (mem_allIdx.1 hidx)
    simp only [bind_ok, hz]
    rw [writeAll_block _ _ _ (by omega)]
    simp only [bind_ok, hlen, ← hi2]
    exact ih (i + 1) (by omega) _ _ _ (by simp [hlen]; omega)

end Einsum
