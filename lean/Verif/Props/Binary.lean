import Mathlib.Data.Nat.Digits.Defs
import Verif.SpecBinary
import Verif.Props.Serde

/-!
# C111: forms that store values one after the other
-/

namespace Einsum

open Spec

variable {α γ β : Type} {f : Format β}

namespace Spec

theorem Reads.pure (a : α) : Reads (β := β) (pure a) a [] := fun _ => rfl

theorem Reads.bind {g : Rd β α} {k : α → Rd β γ} {a : α} {c : γ} {b b' : List β} (h : Reads g a b)
    (h' : Reads (k a) c b') : Reads (g >>= k) c (b ++ b') := by
  intro r
  show (g (b ++ b' ++ r)).bind _ = _
  rw [List.append_assoc, h]
  exact h' r

theorem Local.pure (a : α) : Local (β := β) (pure a) := by
  intro s a' r h
  cases h
  exact ⟨[], rfl, Reads.pure a⟩

theorem Local.refuse : Local (β := β) (refuse (α := α)) := fun _ _ _ h => nomatch h

theorem Local.bind {g : Rd β α} {k : α → Rd β γ} (h : Local g) (h' : ∀ a, Local (k a)) : Local (g >>= k) := by
  intro s c r hs
  change (g s).bind _ = _ at hs
  cases hg : g s with
  | none => rw [hg] at hs; cases hs
  | some x =>
    obtain ⟨a, s'⟩ := x
    rw [hg] at hs
    obtain ⟨b, rfl, hb⟩ := h s a s' hg
    obtain ⟨b', rfl, hb'⟩ := h' a s' c r hs
    exact ⟨b ++ b', (List.append_assoc ..).symm, hb.bind hb'⟩

theorem Stored.of {W : α → List β → Prop} {g : Rd β α} (h : ∀ a b, W a b → Reads g a b) (hl : Local g) :
    Stored W g := by
  have hb : ∀ a b, W a b → g b = some (a, []) := fun a b hw => by simpa using h a b hw []
  refine ⟨fun a b hw r => h a b hw r, fun a b s hw hp hne => ?_, fun a b a' b' hw hw' hp => ?_, hl⟩
  · obtain ⟨t, rfl⟩ := hp
    cases hs : g s with
    | none => rfl
    | some x =>
      obtain ⟨a', r⟩ := x
      obtain ⟨b, rfl, hr⟩ := hl s a' r hs
      have h1 := hr (r ++ t)
      rw [← List.append_assoc, hb a _ hw] at h1
      have h2 : r ++ t = [] := (congrArg Prod.snd (Option.some.inj h1)).symm
      rw [List.append_eq_nil_iff] at h2
      rw [h2.2, List.append_nil] at hne
      exact absurd rfl hne
  · obtain ⟨t, rfl⟩ := hp
    have h1 := h a b hw t
    rw [hb a' _ hw'] at h1
    cases h1
    exact ⟨rfl, (List.append_nil b).symm⟩

end Spec

theorem putAll_nil {b : List β} : putAll [] = some b ↔ b = [] := by
  simp [putAll, eq_comm]

theorem putAll_cons {x : Option (List β)} {l : List (Option (List β))} {b : List β} :
    putAll (x :: l) = some b ↔ ∃ a, x = some a ∧ ∃ c, putAll l = some c ∧ a ++ c = b := by
  cases x with
  | none => simp [putAll]
  | some a =>
    cases h : putAll l with
    | none => simp [putAll, h]
    | some c => simp [putAll, h]

/-! ### Vectors and maps -/

theorem getReads_times {W : α → List β → Prop} {g : Rd β α} (h : ∀ a b, W a b → Reads g a b) {l : List α}
    {bs : List (List β)} (hl : List.Forall₂ W l bs) : Reads (getTimes g l.length) l bs.flatten := by
  induction hl with
  | nil => exact Reads.pure _
  | cons h1 _ ih =>
    have := (h _ _ h1).bind (k := fun a => getTimes g _ >>= fun l => pure (a :: l)) (ih.bind (Reads.pure _))
    rwa [List.append_nil] at this

theorem getLocal_times {g : Rd β α} (h : Local g) (n : Nat) : Local (getTimes g n) := by
  induction n with
  | zero => exact Local.pure _
  | succ n ih => exact h.bind fun _ => ih.bind fun _ => Local.pure _

theorem putAll_map {put : α → Option (List β)} {l : List α} {b : List β} (h : putAll (l.map put) = some b) :
    ∃ bs, List.Forall₂ (fun a b => put a = some b) l bs ∧ bs.flatten = b := by
  induction l generalizing b with
  | nil => exact ⟨[], .nil, (putAll_nil.1 h).symm⟩
  | cons a l ih =>
    obtain ⟨b1, h1, b2, h2, rfl⟩ := putAll_cons.1 h
    obtain ⟨bs, h3, rfl⟩ := ih h2
    exact ⟨b1 :: bs, .cons h1 h3, rfl⟩

theorem getReads_vec (hf : Lawful f) {put : α → Option (List β)} {g : Rd β α} (h : ∀ a b, put a = some b → Reads g a b)
    (l : List α) (b : List β) (hb : f.putVec put l = some b) : Reads (f.getVec g) l b := by
  obtain ⟨b1, h1, b2, h2, rfl⟩ := putAll_cons.1 hb
  obtain ⟨bs, h3, rfl⟩ := putAll_map h2
  exact (hf.len _ _ h1).bind (getReads_times h h3)

theorem getLocal_vec (hf : Lawful f) {g : Rd β α} (h : Local g) : Local (f.getVec g) :=
  hf.lenLocal.bind fun n => getLocal_times h n

theorem getReads_nats (hf : Lawful f) (l : List Nat) (b : List β) : f.putNats l = some b → Reads f.getNats l b :=
  getReads_vec hf hf.nat l b

theorem getLocal_nats (hf : Lawful f) : Local f.getNats := getLocal_vec hf hf.natLocal

theorem getReads_chars (hf : Lawful f) (l : List Char) (b : List β) : f.putChars l = some b → Reads f.getChars l b :=
  getReads_vec hf hf.char l b

theorem getLocal_chars (hf : Lawful f) : Local f.getChars := getLocal_vec hf hf.charLocal

/-- Inserting all entries, one after the other. -/
def insertAll (e : List (Char × Nat)) (m : OutputSize) : OutputSize := e.foldl (fun m x => m.insert x.1 x.2) m

theorem getReads_entries (hf : Lawful f) (e : List (Char × Nat)) (bs : List (List β))
    (h : List.Forall₂ (fun (x : Char × Nat) b => putAll [f.putChar x.1, f.putNat x.2] = some b) e bs)
    (m : OutputSize) : Reads (f.getEntries e.length m) (insertAll e m) bs.flatten := by
  induction h generalizing m with
  | nil => exact Reads.pure _
  | @cons x b e bs h1 _ ih =>
    obtain ⟨b1, h5, b2, h2, rfl⟩ := putAll_cons.1 h1
    obtain ⟨b3, h3, b4, h4, rfl⟩ := putAll_cons.1 h2
    cases putAll_nil.1 h4
    have := (hf.char _ _ h5).bind (k := fun c => f.getNat >>= fun k => f.getEntries e.length (m.insert c k))
      ((hf.nat _ _ h3).bind (ih (m.insert x.1 x.2)))
    simp only [List.flatten_cons, List.append_nil, List.append_assoc]
    exact this

theorem getLocal_entries (hf : Lawful f) (n : Nat) (m : OutputSize) : Local (f.getEntries n m) := by
  induction n generalizing m with
  | zero => exact Local.pure _
  | succ n ih => exact hf.charLocal.bind fun _ => hf.natLocal.bind fun _ => ih _

theorem insertAll_json (e : List (Char × Nat)) (m : OutputSize) :
    insertEntries (e.map fun x => (String.singleton x.1, Json.num x.2)) m = some (insertAll e m) := by
  induction e generalizing m with
  | nil => rfl
  | cons x e ih =>
    have := readChar_write x.1
    simp only [writeChar] at this
    simp only [List.map_cons, insertEntries, this, readNat, Option.bind_eq_bind, Option.bind_some]
    exact ih _

theorem insertAll_entries {m : OutputSize} {e : List (Char × Nat)} (h : m.Entries e) :
    insertAll e OutputSize.empty = m := by
  have h1 := readSizes_write h
  simp only [readSizes, writeSizes, insertAll_json] at h1
  exact Option.some.inj h1

theorem getReads_sizes (hf : Lawful f) {m : OutputSize} {e : List (Char × Nat)} (h : m.Entries e) (b : List β)
    (hb : f.putSizes e = some b) : Reads f.getSizes m b := by
  obtain ⟨b1, h1, b2, h2, rfl⟩ := putAll_cons.1 hb
  obtain ⟨bs, h3, rfl⟩ := putAll_map h2
  have := (hf.len _ _ h1).bind (k := fun n => f.getEntries n OutputSize.empty)
    (getReads_entries hf e bs h3 OutputSize.empty)
  rwa [insertAll_entries h] at this

theorem getLocal_sizes (hf : Lawful f) : Local f.getSizes := hf.lenLocal.bind fun n => getLocal_entries hf n _

/-! ### Structs -/

theorem reads1 {p : Option (List β)} {g : Rd β α} {a : α} {k : α → γ}
    (h : ∀ b, p = some b → Reads g a b) (b : List β) (hb : putAll [p] = some b) :
    Reads (g >>= fun x => Pure.pure (k x)) (k a) b := by
  obtain ⟨b1, h1, b2, h2, rfl⟩ := putAll_cons.1 hb
  cases putAll_nil.1 h2
  exact (h _ h1).bind (Reads.pure _)

theorem readsS {p : Option (List β)} {l : List (Option (List β))} {g : Rd β α} {a : α} {k : α → Rd β γ} {c : γ}
    (h : ∀ b, p = some b → Reads g a b) (h' : ∀ b, putAll l = some b → Reads (k a) c b) (b : List β)
    (hb : putAll (p :: l) = some b) : Reads (g >>= k) c b := by
  obtain ⟨b1, h1, b2, h2, rfl⟩ := putAll_cons.1 hb
  exact (h _ h1).bind (h' _ h2)

theorem Spec.Stored.reads {put : α → Option (List β)} {g : Rd β α} (h : Stored (fun a b => put a = some b) g) (a : α)
    (b : List β) : put a = some b → Reads g a b := h.back a b

theorem Spec.Stored.local {W : α → List β → Prop} {g : Rd β α} (h : Stored W g) : Local g := h.front

theorem Contraction.stored (hf : Lawful f) : Stored (fun x b => Contraction.put f x = some b) (Contraction.get f) :=
  .of (fun _ => readsS (getReads_vec hf (getReads_chars hf) _) (readsS (getReads_chars hf _) (reads1 (getReads_chars hf _))))
    ((getLocal_vec hf (getLocal_chars hf)).bind fun _ => (getLocal_chars hf).bind fun _ => (getLocal_chars hf).bind fun _ => Local.pure _)

theorem SizedContraction.stored (hf : Lawful f) : Stored (SizedContraction.Puts f) (SizedContraction.get f) :=
  .of (fun _ b ⟨_, he, hb⟩ => readsS ((Contraction.stored hf).reads _) (reads1 (getReads_sizes hf he)) b hb)
    ((Contraction.stored hf).local.bind fun _ => (getLocal_sizes hf).bind fun _ => Local.pure _)

theorem OperandNumber.stored (hf : Lawful f) :
    Stored (fun x b => OperandNumber.put f x = some b) (OperandNumber.get f) := by
  refine .of (fun x b hb => ?_) (hf.indexLocal.bind fun i => ?_)
  · cases x with
    | input n => exact readsS (hf.index _) (reads1 (hf.nat _)) b hb
    | intermediateResult n => exact readsS (hf.index _) (reads1 (hf.nat _)) b hb
  · split
    · exact hf.natLocal.bind fun _ => Local.pure _
    · exact hf.natLocal.bind fun _ => Local.pure _
    · exact Local.refuse

theorem OperandNumPair.stored (hf : Lawful f) : Stored (fun x b => OperandNumPair.put f x = some b) (OperandNumPair.get f) :=
  .of (fun _ => readsS ((OperandNumber.stored hf).reads _) (reads1 ((OperandNumber.stored hf).reads _)))
    (((OperandNumber.stored hf).local).bind fun _ => ((OperandNumber.stored hf).local).bind fun _ => Local.pure _)

theorem PairStep.stored (hf : Lawful f) : Stored (PairStep.Puts f) (PairStep.get f) :=
  .of (fun _ b ⟨_, h1, hb⟩ => readsS (g := SizedContraction.get f)
      (fun _ h => Option.some.inj h ▸ (SizedContraction.stored hf).back _ _ h1) (reads1 ((OperandNumPair.stored hf).reads _)) b hb)
    ((SizedContraction.stored hf).local.bind fun _ => (OperandNumPair.stored hf).local.bind fun _ => Local.pure _)

theorem putAll_some (bs : List (List β)) : putAll (bs.map some) = some bs.flatten := by
  induction bs with
  | nil => rfl
  | cons b bs ih => simp [putAll, ih]

theorem ContractionOrder.stored (hf : Lawful f) : Stored (ContractionOrder.Puts f) (ContractionOrder.get f) := by
  refine .of (fun x b hb => ?_) (hf.indexLocal.bind fun i => ?_)
  · cases x with
    | singleton sc =>
      obtain ⟨b1, h1, hb⟩ := hb
      exact readsS (hf.index _) (reads1 fun _ h => Option.some.inj h ▸ (SizedContraction.stored hf).back _ _ h1) b hb
    | pairs steps =>
      obtain ⟨bs, h1, hb⟩ := hb
      refine readsS (hf.index _) (reads1 fun b2 h => ?_) b hb
      obtain ⟨b3, h3, b4, h4, rfl⟩ := putAll_cons.1 h
      rw [putAll_some] at h4
      cases h4
      rw [← h1.length_eq] at h3
      exact (hf.len _ _ h3).bind (getReads_times (PairStep.stored hf).back h1)
  · split
    · exact (SizedContraction.stored hf).local.bind fun _ => Local.pure _
    · exact (getLocal_vec hf (PairStep.stored hf).local).bind fun _ => Local.pure _
    · exact Local.refuse

/-- A variant without content. -/
theorem getReads_variant (hf : Lawful f) {i : Nat} {k : Nat → Rd β α} {g : Rd β α} {a : α} (hg : g = f.getIndex >>= k)
    (h : k i = Pure.pure a) (b : List β) (hb : f.putIndex i = some b) : Reads g a b := by
  subst hg
  have := (hf.index i b hb).bind (k := k) (h ▸ Reads.pure a)
  rwa [List.append_nil] at this

theorem OptimizationMethod.stored (hf : Lawful f) :
    Stored (fun x b => OptimizationMethod.put f x = some b) (OptimizationMethod.get f) := by
  refine .of (fun x b hb => ?_) (hf.indexLocal.bind fun i => ?_)
  · cases x <;> exact getReads_variant hf (g := OptimizationMethod.get f) rfl rfl b hb
  · split <;> first | exact Local.pure _ | exact Local.refuse

theorem SingletonMethod.stored (hf : Lawful f) :
    Stored (fun x b => SingletonMethod.put f x = some b) (SingletonMethod.get f) := by
  refine .of (fun x b hb => ?_) (hf.indexLocal.bind fun i => ?_)
  · cases x <;> exact getReads_variant hf (g := SingletonMethod.get f) rfl rfl b hb
  · split <;> first | exact Local.pure _ | exact Local.refuse

theorem PairMethod.stored (hf : Lawful f) :
    Stored (fun x b => PairMethod.put f x = some b) (PairMethod.get f) := by
  refine .of (fun x b hb => ?_) (hf.indexLocal.bind fun i => ?_)
  · cases x <;> exact getReads_variant hf (g := PairMethod.get f) rfl rfl b hb
  · split <;> first | exact Local.pure _ | exact Local.refuse

theorem SingletonSummary.stored (hf : Lawful f) : Stored (fun x b => SingletonSummary.put f x = some b) (SingletonSummary.get f) :=
  .of (fun _ => readsS (hf.nat _) (readsS (hf.nat _) (reads1 (hf.nat _))))
    ((hf.natLocal).bind fun _ => (hf.natLocal).bind fun _ => (hf.natLocal).bind fun _ => Local.pure _)

theorem PairSummary.stored (hf : Lawful f) : Stored (fun x b => PairSummary.put f x = some b) (PairSummary.get f) :=
  .of (fun _ => readsS (hf.nat _) (readsS (hf.nat _) (readsS (hf.nat _) (reads1 (hf.nat _)))))
    ((hf.natLocal).bind fun _ => (hf.natLocal).bind fun _ => (hf.natLocal).bind fun _ => (hf.natLocal).bind fun _ => Local.pure _)

theorem Permutation.stored (hf : Lawful f) : Stored (fun x b => Permutation.put f x = some b) (Permutation.get f) :=
  .of (fun _ => reads1 (getReads_nats hf _))
    ((getLocal_nats hf).bind fun _ => Local.pure _)

theorem Summation.stored (hf : Lawful f) : Stored (fun x b => Summation.put f x = some b) (Summation.get f) :=
  .of (fun _ => readsS (getReads_nats hf _) (reads1 (getReads_nats hf _)))
    ((getLocal_nats hf).bind fun _ => (getLocal_nats hf).bind fun _ => Local.pure _)

theorem Diagonalization.stored (hf : Lawful f) : Stored (fun x b => Diagonalization.put f x = some b) (Diagonalization.get f) :=
  .of (fun _ => readsS (getReads_nats hf _) (reads1 (getReads_nats hf _)))
    ((getLocal_nats hf).bind fun _ => (getLocal_nats hf).bind fun _ => Local.pure _)

theorem PermutationAndSummation.stored (hf : Lawful f) : Stored (fun x b => PermutationAndSummation.put f x = some b) (PermutationAndSummation.get f) :=
  .of (fun _ => readsS ((Permutation.stored hf).reads _) (reads1 ((Summation.stored hf).reads _)))
    (((Permutation.stored hf).local).bind fun _ => ((Summation.stored hf).local).bind fun _ => Local.pure _)

theorem DiagonalizationAndSummation.stored (hf : Lawful f) : Stored (fun x b => DiagonalizationAndSummation.put f x = some b) (DiagonalizationAndSummation.get f) :=
  .of (fun _ => readsS ((Diagonalization.stored hf).reads _) (reads1 ((Summation.stored hf).reads _)))
    (((Diagonalization.stored hf).local).bind fun _ => ((Summation.stored hf).local).bind fun _ => Local.pure _)

theorem TensordotFixedPosition.stored (hf : Lawful f) : Stored (fun x b => TensordotFixedPosition.put f x = some b) (TensordotFixedPosition.get f) :=
  .of (fun _ => readsS (hf.nat _) (readsS (hf.nat _) (readsS (hf.nat _) (reads1 (getReads_nats hf _)))))
    ((hf.natLocal).bind fun _ => (hf.natLocal).bind fun _ => (hf.natLocal).bind fun _ => (getLocal_nats hf).bind fun _ => Local.pure _)

theorem TensordotGeneral.stored (hf : Lawful f) : Stored (fun x b => TensordotGeneral.put f x = some b) (TensordotGeneral.get f) :=
  .of (fun _ => readsS ((Permutation.stored hf).reads _) (readsS ((Permutation.stored hf).reads _) (readsS ((TensordotFixedPosition.stored hf).reads _) (reads1 ((Permutation.stored hf).reads _)))))
    (((Permutation.stored hf).local).bind fun _ => ((Permutation.stored hf).local).bind fun _ => ((TensordotFixedPosition.stored hf).local).bind fun _ => ((Permutation.stored hf).local).bind fun _ => Local.pure _)

theorem HadamardProductGeneral.stored (hf : Lawful f) : Stored (fun x b => HadamardProductGeneral.put f x = some b) (HadamardProductGeneral.get f) :=
  .of (fun _ => readsS ((Permutation.stored hf).reads _) (reads1 ((Permutation.stored hf).reads _)))
    (((Permutation.stored hf).local).bind fun _ => ((Permutation.stored hf).local).bind fun _ => Local.pure _)

theorem ScalarMatrixProductGeneral.stored (hf : Lawful f) : Stored (fun x b => ScalarMatrixProductGeneral.put f x = some b) (ScalarMatrixProductGeneral.get f) :=
  .of (fun _ => reads1 ((Permutation.stored hf).reads _))
    (((Permutation.stored hf).local).bind fun _ => Local.pure _)

theorem MatrixScalarProductGeneral.stored (hf : Lawful f) : Stored (fun x b => MatrixScalarProductGeneral.put f x = some b) (MatrixScalarProductGeneral.get f) :=
  .of (fun _ => reads1 ((Permutation.stored hf).reads _))
    (((Permutation.stored hf).local).bind fun _ => Local.pure _)

theorem BroadcastProductGeneral.stored (hf : Lawful f) : Stored (fun x b => BroadcastProductGeneral.put f x = some b) (BroadcastProductGeneral.get f) :=
  .of (fun _ => readsS ((Permutation.stored hf).reads _) (readsS ((Permutation.stored hf).reads _) (readsS (getReads_nats hf _) (readsS (getReads_nats hf _) (reads1 (getReads_nats hf _))))))
    (((Permutation.stored hf).local).bind fun _ => ((Permutation.stored hf).local).bind fun _ => (getLocal_nats hf).bind fun _ => (getLocal_nats hf).bind fun _ => (getLocal_nats hf).bind fun _ => Local.pure _)

theorem StackedTensordotGeneral.stored (hf : Lawful f) : Stored (fun x b => StackedTensordotGeneral.put f x = some b) (StackedTensordotGeneral.get f) :=
  .of (fun _ => readsS ((Permutation.stored hf).reads _) (readsS ((Permutation.stored hf).reads _) (readsS (getReads_nats hf _) (readsS (getReads_nats hf _) (readsS (getReads_nats hf _) (readsS ((TensordotFixedPosition.stored hf).reads _) (readsS (getReads_nats hf _) (reads1 ((Permutation.stored hf).reads _)))))))))
    (((Permutation.stored hf).local).bind fun _ => ((Permutation.stored hf).local).bind fun _ => (getLocal_nats hf).bind fun _ => (getLocal_nats hf).bind fun _ => (getLocal_nats hf).bind fun _ => ((TensordotFixedPosition.stored hf).local).bind fun _ => (getLocal_nats hf).bind fun _ => ((Permutation.stored hf).local).bind fun _ => Local.pure _)

/-! ### The theorems -/

/-- C111: in every lawful format, every method, summary and contractor is read back as itself, its form is refused when
cut off and is not the beginning of another one. -/
theorem C111_contractors (hf : Lawful f) :
    Stored (fun x b => OptimizationMethod.put f x = some b) (OptimizationMethod.get f) ∧
    Stored (fun x b => SingletonMethod.put f x = some b) (SingletonMethod.get f) ∧
    Stored (fun x b => SingletonSummary.put f x = some b) (SingletonSummary.get f) ∧
    Stored (fun x b => PairMethod.put f x = some b) (PairMethod.get f) ∧
    Stored (fun x b => PairSummary.put f x = some b) (PairSummary.get f) ∧
    Stored (fun x b => Permutation.put f x = some b) (Permutation.get f) ∧
    Stored (fun x b => Summation.put f x = some b) (Summation.get f) ∧
    Stored (fun x b => Diagonalization.put f x = some b) (Diagonalization.get f) ∧
    Stored (fun x b => PermutationAndSummation.put f x = some b) (PermutationAndSummation.get f) ∧
    Stored (fun x b => DiagonalizationAndSummation.put f x = some b) (DiagonalizationAndSummation.get f) ∧
    Stored (fun x b => TensordotFixedPosition.put f x = some b) (TensordotFixedPosition.get f) ∧
    Stored (fun x b => TensordotGeneral.put f x = some b) (TensordotGeneral.get f) ∧
    Stored (fun x b => HadamardProductGeneral.put f x = some b) (HadamardProductGeneral.get f) ∧
    Stored (fun x b => ScalarMatrixProductGeneral.put f x = some b) (ScalarMatrixProductGeneral.get f) ∧
    Stored (fun x b => MatrixScalarProductGeneral.put f x = some b) (MatrixScalarProductGeneral.get f) ∧
    Stored (fun x b => BroadcastProductGeneral.put f x = some b) (BroadcastProductGeneral.get f) ∧
    Stored (fun x b => StackedTensordotGeneral.put f x = some b) (StackedTensordotGeneral.get f) :=
  ⟨OptimizationMethod.stored hf, SingletonMethod.stored hf, SingletonSummary.stored hf, PairMethod.stored hf, PairSummary.stored hf, Permutation.stored hf, Summation.stored hf, Diagonalization.stored hf, PermutationAndSummation.stored hf, DiagonalizationAndSummation.stored hf, TensordotFixedPosition.stored hf, TensordotGeneral.stored hf, HadamardProductGeneral.stored hf, ScalarMatrixProductGeneral.stored hf, MatrixScalarProductGeneral.stored hf, BroadcastProductGeneral.stored hf, StackedTensordotGeneral.stored hf⟩

/-- C111: so are contractions and contraction orders, in whatever order the sizes were written. -/
theorem C111_order (hf : Lawful f) :
    Stored (fun c b => Contraction.put f c = some b) (Contraction.get f) ∧
    Stored (SizedContraction.Puts f) (SizedContraction.get f) ∧
    Stored (fun x b => OperandNumber.put f x = some b) (OperandNumber.get f) ∧
    Stored (fun x b => OperandNumPair.put f x = some b) (OperandNumPair.get f) ∧
    Stored (PairStep.Puts f) (PairStep.get f) ∧
    Stored (ContractionOrder.Puts f) (ContractionOrder.get f) :=
  ⟨Contraction.stored hf, SizedContraction.stored hf, OperandNumber.stored hf, OperandNumPair.stored hf,
    PairStep.stored hf, ContractionOrder.stored hf⟩

theorem putAll_total {l : List (Option (List β))} (h : ∀ x ∈ l, ∃ b, x = some b) : ∃ b, putAll l = some b := by
  induction l with
  | nil => exact ⟨[], rfl⟩
  | cons x l ih =>
    obtain ⟨a, rfl⟩ := h x (by simp)
    obtain ⟨b, hb⟩ := ih fun y hy => h y (by simp [hy])
    exact ⟨a ++ b, by simp [putAll, hb]⟩

theorem vec_total (ht : Total f) {put : α → Option (List β)} (h : ∀ a, ∃ b, put a = some b) (l : List α) :
    ∃ b, f.putVec put l = some b := by
  refine putAll_total fun x hx => ?_
  rcases List.mem_cons.1 hx with rfl | hx
  · exact ht.len _
  · obtain ⟨a, -, rfl⟩ := List.mem_map.1 hx
    exact h a

theorem all_nil : ∀ x ∈ ([] : List (Option (List β))), ∃ b, x = some b := nofun

theorem all_cons {x : Option (List β)} {l : List (Option (List β))} (h : ∃ b, x = some b)
    (h' : ∀ x ∈ l, ∃ b, x = some b) : ∀ y ∈ x :: l, ∃ b, y = some b := List.forall_mem_cons.2 ⟨h, h'⟩

theorem contraction_total (ht : Total f) (c : Contraction) : ∃ b, c.put f = some b :=
  putAll_total (all_cons (vec_total ht (vec_total ht ht.char) _) (all_cons (vec_total ht ht.char _)
    (all_cons (vec_total ht ht.char _) all_nil)))

theorem sized_total (ht : Total f) {sc : SizedContraction} {j : Json} (hj : sc.Writes j) : ∃ b, sc.Puts f b := by
  obtain ⟨e, he⟩ := hj
  obtain ⟨b, hb⟩ := putAll_total (all_cons (contraction_total ht sc.contraction) (all_cons (vec_total ht
    (fun x : Char × Nat => putAll_total (all_cons (ht.char x.1) (all_cons (ht.nat x.2) all_nil))) e) all_nil))
  exact ⟨b, e, he, hb⟩

theorem number_total (ht : Total f) (n : OperandNumber) : ∃ b, n.put f = some b := by
  cases n <;> exact putAll_total (all_cons (ht.index _) (all_cons (ht.nat _) all_nil))

theorem step_total (ht : Total f) {p : PairStep} {j : Json} (hj : p.Writes j) : ∃ b, p.Puts f b := by
  obtain ⟨j, hj⟩ := hj
  obtain ⟨b, hb⟩ := sized_total ht hj
  obtain ⟨b', hb'⟩ := putAll_total (all_cons ⟨b, rfl⟩ (all_cons (putAll_total (all_cons
    (number_total ht p.operandNums.lhs) (all_cons (number_total ht p.operandNums.rhs) all_nil))) all_nil))
  exact ⟨b', b, hb, hb'⟩

theorem order_total (ht : Total f) {o : ContractionOrder} {j : Json} (hj : o.Writes j) : ∃ b, o.Puts f b := by
  cases hj with
  | singleton sc j h =>
    obtain ⟨b, hb⟩ := sized_total ht h
    obtain ⟨b', hb'⟩ := putAll_total (all_cons (ht.index 0) (all_cons ⟨b, rfl⟩ all_nil))
    exact ⟨b', b, hb, hb'⟩
  | pairs steps js h =>
    have : ∃ bs, List.Forall₂ (PairStep.Puts f) steps bs := by
      induction h with
      | nil => exact ⟨[], .nil⟩
      | cons h1 _ ih =>
        obtain ⟨b, hb⟩ := step_total ht h1
        obtain ⟨bs, hbs⟩ := ih
        exact ⟨b :: bs, .cons hb hbs⟩
    obtain ⟨bs, hbs⟩ := this
    obtain ⟨b', hb'⟩ := putAll_total (all_cons (ht.index 1) (all_cons (vec_total ht (fun b => ⟨b, rfl⟩) bs) all_nil))
    exact ⟨b', bs, hbs, hb'⟩

theorem simplification_total (ht : Total f) (s : SimplificationMethodAndOutput) : ∃ b, s.put f = some b :=
  putAll_total (all_cons (by cases s.method <;> exact ht.index _) (all_cons (vec_total ht ht.char _)
    (all_cons (ht.str _) all_nil)))

theorem option_total (ht : Total f) (s : Option SimplificationMethodAndOutput) :
    ∃ b, f.putOption (SimplificationMethodAndOutput.put f) s = some b := by
  cases s with
  | none => exact ht.tag _
  | some s => exact putAll_total (all_cons (ht.tag _) (all_cons (simplification_total ht s) all_nil))

theorem steps_total (ht : Total f) (s : EinsumPathSteps) : ∃ b, s.put f = some b := by
  cases s with
  | singletonContraction c =>
    exact putAll_total (all_cons (ht.index _) (all_cons (putAll_total (all_cons
      (by cases c.method <;> exact ht.index _) all_nil)) all_nil))
  | pairContractions l =>
    exact putAll_total (all_cons (ht.index _) (all_cons (vec_total ht (fun c => putAll_total (all_cons
      (option_total ht _) (all_cons (option_total ht _) (all_cons (by cases c.method <;> exact ht.index _)
        (all_cons (ht.str _) all_nil))))) l) all_nil))

theorem path_total (ht : Total f) {p : EinsumPath} {j : Json} (hj : p.Writes j) : ∃ b, p.Puts f b := by
  obtain ⟨j, hj⟩ := hj
  obtain ⟨b, hb⟩ := order_total ht hj
  obtain ⟨b', hb'⟩ := putAll_total (all_cons ⟨b, rfl⟩ (all_cons (steps_total ht p.steps) all_nil))
  exact ⟨b', b, hb, hb'⟩

/-- C111: a path compiled by `einsum_path` can be written in every format that refuses nothing. Whatever is written begins,
in every lawful format, with an order from which `from_path` compiles the same path again; if the hash order is different, it compiles one that returns the same arrays, for all operands of the
same shapes. -/
theorem C111_path (hf : Lawful f) {B : Type} (h : HashOrd) (s : String) (operands₀ : List (View B))
    (inputs : List (List Char)) (out : List Char) (dims : Char → Nat) (m : OptimizationMethod)
    (hm : m = .naive ∨ m = .reverse) (hd : Denotes s inputs out) (hs : Sized dims inputs (operands₀.map View.shape)) :
    ∃ p, einsumPath h s operands₀ m = .ok (.ok p) ∧ (Total f → ∃ b, p.Puts f b) ∧
      ∀ b, p.Puts f b → ∃ o r, ContractionOrder.get f b = some (o, r) ∧ EinsumPath.fromPath (h.sub 1) o = .ok p ∧
        ∀ h' : HashOrd, ∃ q, EinsumPath.fromPath h' o = .ok q ∧
          ∀ (A : Type) [CommSemiring A] (al al' : Alloc A) (operands : List (View A)),
            operands.map View.shape = operands₀.map View.shape → (∀ v ∈ operands, v.Wf) →
            NoEmptyDiagonal dims inputs →
            ∃ r r', p.contractOperands al operands = .ok r ∧ q.contractOperands al' operands = .ok r' ∧
              SameArray r r' := by
  obtain ⟨p, h1, ⟨j, hj⟩, h2⟩ := C60_path h s operands₀ inputs out dims m hm hd hs
  refine ⟨p, h1, fun ht => path_total ht hj, fun b ⟨b1, hb1, hb⟩ => ?_⟩
  obtain ⟨_, j', o, rfl, h3, h4, h5, h6⟩ := h2 j hj
  have ho : p.contractionOrder = o := fromPath_order h5
  obtain ⟨_, e1, b2, -, rfl⟩ := putAll_cons.1 hb
  cases e1
  exact ⟨o, b2, ho ▸ (ContractionOrder.stored hf).back _ _ hb1 b2, h5, h6⟩

/-! ### How values are laid out -/

theorem positional_nats (l : List Nat) : positional f (writeNats l) = f.putNats l := by
  have : ∀ l : List Nat, positionalItems f (l.map Json.num) = putAll (l.map f.putNat) := by
    intro l
    induction l with
    | nil => simp [positionalItems, putAll]
    | cons n l ih => simp [positionalItems, positional, putAll, ih]
  simp [writeNats, writeVec, positional, Format.putNats, Format.putVec, putAll, this]

theorem positional_char (c : Char) : positional f (writeChar c) = f.putChar c := by
  simp [writeChar, positional]

theorem positional_vec {w : α → Json} {put : α → Option (List β)} (h : ∀ a, positional f (w a) = put a) (l : List α) :
    positional f (writeVec w l) = f.putVec put l := by
  have : ∀ l : List α, positionalItems f (l.map w) = putAll (l.map put) := by
    intro l
    induction l with
    | nil => simp [positionalItems, putAll]
    | cons n l ih => simp [positionalItems, putAll, ih, h]
  simp [writeVec, positional, Format.putVec, putAll, this]

theorem positional_fixed (x : TensordotFixedPosition) : x.put f = positional f x.write := by
  simp [TensordotFixedPosition.put, TensordotFixedPosition.write, positional, positionalFields, positional_nats, putAll]

theorem positional_permutation (x : Permutation) : x.put f = positional f x.write := by
  simp [Permutation.put, Permutation.write, positional, positionalFields, positional_nats, putAll]

theorem positional_summation (x : Summation) : x.put f = positional f x.write := by
  simp [Summation.put, Summation.write, positional, positionalFields, positional_nats, putAll]

theorem positional_diagonalization (x : Diagonalization) : x.put f = positional f x.write := by
  simp [Diagonalization.put, Diagonalization.write, positional, positionalFields, positional_nats, putAll]

/-- C111: what is written of a contraction, a summary or a contractor is its JSON form without the names. A method is
written as the number of methods declared before it. -/
theorem C111_layout (f : Format β) :
    (∀ x : Contraction, x.put f = positional f x.write) ∧
    (∀ x : SingletonSummary, x.put f = positional f x.write) ∧
    (∀ x : PairSummary, x.put f = positional f x.write) ∧
    (∀ x : Permutation, x.put f = positional f x.write) ∧
    (∀ x : Summation, x.put f = positional f x.write) ∧
    (∀ x : Diagonalization, x.put f = positional f x.write) ∧
    (∀ x : PermutationAndSummation, x.put f = positional f x.write) ∧
    (∀ x : DiagonalizationAndSummation, x.put f = positional f x.write) ∧
    (∀ x : TensordotFixedPosition, x.put f = positional f x.write) ∧
    (∀ x : TensordotGeneral, x.put f = positional f x.write) ∧
    (∀ x : HadamardProductGeneral, x.put f = positional f x.write) ∧
    (∀ x : ScalarMatrixProductGeneral, x.put f = positional f x.write) ∧
    (∀ x : MatrixScalarProductGeneral, x.put f = positional f x.write) ∧
    (∀ x : BroadcastProductGeneral, x.put f = positional f x.write) ∧
    (∀ x : StackedTensordotGeneral, x.put f = positional f x.write) ∧
    (∀ x : OptimizationMethod, x.put f = f.putIndex x.ctorIdx) ∧
    (∀ x : SingletonMethod, x.put f = f.putIndex x.ctorIdx) ∧
    (∀ x : PairMethod, x.put f = f.putIndex x.ctorIdx) := by
  refine ⟨fun x => ?_, fun x => ?_, fun x => ?_, positional_permutation, positional_summation,
    positional_diagonalization, fun x => ?_, fun x => ?_, positional_fixed, fun x => ?_, fun x => ?_, fun x => ?_,
    fun x => ?_, fun x => ?_, fun x => ?_, fun x => by cases x <;> rfl, fun x => by cases x <;> rfl,
    fun x => by cases x <;> rfl⟩
  · have h1 : ∀ l, positional f (writeChars l) = f.putChars l := positional_vec positional_char
    simp [Contraction.put, Contraction.write, positional, positionalFields, putAll, h1, positional_vec h1]
  · simp [SingletonSummary.put, SingletonSummary.write, positional, positionalFields, putAll]
  · simp [PairSummary.put, PairSummary.write, positional, positionalFields, putAll]
  · simp [PermutationAndSummation.put, PermutationAndSummation.write, positional, positionalFields, putAll,
      positional_permutation, positional_summation]
  · simp [DiagonalizationAndSummation.put, DiagonalizationAndSummation.write, positional, positionalFields, putAll,
      positional_diagonalization, positional_summation]
  · simp [TensordotGeneral.put, TensordotGeneral.write, positional, positionalFields, putAll, positional_permutation,
      positional_fixed]
  · simp [HadamardProductGeneral.put, HadamardProductGeneral.write, positional, positionalFields, putAll,
      positional_permutation, writeUnit]
  · simp [ScalarMatrixProductGeneral.put, ScalarMatrixProductGeneral.write, positional, positionalFields, putAll,
      positional_permutation, writeUnit]
  · simp [MatrixScalarProductGeneral.put, MatrixScalarProductGeneral.write, positional, positionalFields, putAll,
      positional_permutation, writeUnit]
  · simp [BroadcastProductGeneral.put, BroadcastProductGeneral.write, positional, positionalFields, putAll,
      positional_permutation, positional_nats, writeUnit]
  · simp [StackedTensordotGeneral.put, StackedTensordotGeneral.write, positional, positionalFields, putAll,
      positional_permutation, positional_nats, positional_fixed]

/-! ### What is refused, and maps with repeated keys -/

/-- C111: an index of a variant that does not exist is refused. -/
theorem C111_unknown (f : Format β) (s r : List β) (i : Nat) (h : f.getIndex s = some (i, r)) :
    (2 ≤ i → OperandNumber.get f s = none ∧ ContractionOrder.get f s = none) ∧
    (5 ≤ i → OptimizationMethod.get f s = none) ∧ (6 ≤ i → SingletonMethod.get f s = none) ∧
    (10 ≤ i → PairMethod.get f s = none) := by
  have hb : ∀ {α : Type} (k : Nat → Rd β α), (f.getIndex >>= k) s = k i r := fun k => by
    show (f.getIndex s).bind _ = _
    rw [h]; rfl
  refine ⟨fun hi => ?_, fun hi => ?_, fun hi => ?_, fun hi => ?_⟩
  · obtain ⟨k, rfl⟩ := Nat.exists_eq_add_of_le' hi
    exact ⟨hb _, hb _⟩
  · obtain ⟨k, rfl⟩ := Nat.exists_eq_add_of_le' hi
    exact hb _
  · obtain ⟨k, rfl⟩ := Nat.exists_eq_add_of_le' hi
    exact hb _
  · obtain ⟨k, rfl⟩ := Nat.exists_eq_add_of_le' hi
    exact hb _

theorem insertAll_last (e : List (Char × Nat)) (m : OutputSize) (c : Char) :
    insertAll e m c = (lastEntry e c).or (m c) := by
  induction e generalizing m with
  | nil => rfl
  | cons x e ih =>
    have h1 : insertAll (x :: e) m = insertAll e (m.insert x.1 x.2) := rfl
    rw [h1, ih]
    simp only [lastEntry, List.reverse_cons, List.find?_append]
    cases hf : e.reverse.find? fun x => decide (x.1 = c) with
    | some y => rfl
    | none =>
      by_cases hc : x.1 = c
      · simp [OutputSize.insert, hc]
      · simp [OutputSize.insert, hc, Ne.symm hc]

/-- C111: of several entries of a map with the same key the last one counts. -/
theorem C111_sizes (hf : Lawful f) (e : List (Char × Nat)) (b r : List β) (hb : f.putSizes e = some b) :
    ∃ m, f.getSizes (b ++ r) = some (m, r) ∧ ∀ c, m c = lastEntry e c := by
  obtain ⟨b1, h1, b2, h2, rfl⟩ := putAll_cons.1 hb
  obtain ⟨bs, h3, rfl⟩ := putAll_map h2
  refine ⟨_, ((hf.len _ _ h1).bind (k := fun n => f.getEntries n OutputSize.empty)
    (getReads_entries hf e bs h3 OutputSize.empty)) r, fun c => ?_⟩
  rw [insertAll_last]
  cases lastEntry e c <;> rfl

/-! ### What is shown of the steps -/

section
variable {κ κ' : Type}

theorem Spec.Stored.distinct {put : α → Option (List β)} {g : Rd β α} (h : Stored (fun a b => put a = some b) g)
    (w : α → κ) : Distinct put w := by
  intro a a' b b' r r' hb hb' he
  have h1 := h.back a b hb r
  rw [he, h.back a' b' hb' r'] at h1
  cases h1
  exact ⟨rfl, (List.append_cancel_right he)⟩

/-- A list of different values, of the same length. -/
theorem distinct_items {put : α → Option (List β)} {w : α → κ} (h : Distinct put w) {l l' : List α}
    (hl : l.length = l'.length) {b b' r r' : List β} (hb : putAll (l.map put) = some b)
    (hb' : putAll (l'.map put) = some b') (he : b ++ r = b' ++ r') : l.map w = l'.map w ∧ b = b' := by
  induction l generalizing l' b b' with
  | nil =>
    cases l' with
    | nil => exact ⟨rfl, by rw [putAll_nil.1 hb, putAll_nil.1 hb']⟩
    | cons x l' => cases hl
  | cons a l ih =>
    cases l' with
    | nil => cases hl
    | cons a' l' =>
      obtain ⟨b1, h1, b2, h2, rfl⟩ := putAll_cons.1 hb
      obtain ⟨c1, k1, c2, k2, rfl⟩ := putAll_cons.1 hb'
      rw [List.append_assoc, List.append_assoc] at he
      obtain ⟨e1, rfl⟩ := h _ _ _ _ _ _ h1 k1 he
      obtain ⟨e2, rfl⟩ := ih (by simpa using hl) h2 k2 (List.append_cancel_left he)
      exact ⟨by simp [e1, e2], rfl⟩

theorem distinct_len (hf : Lawful f) : Distinct f.putLen id := fun a a' b b' r r' hb hb' he => by
  have h1 := hf.len a b hb r
  rw [he, hf.len a' b' hb' r'] at h1
  cases h1
  exact ⟨rfl, List.append_cancel_right he⟩

theorem distinct_index (hf : Lawful f) : Distinct f.putIndex id := fun a a' b b' r r' hb hb' he => by
  have h1 := hf.index a b hb r
  rw [he, hf.index a' b' hb' r'] at h1
  cases h1
  exact ⟨rfl, List.append_cancel_right he⟩

theorem distinct_char (hf : Lawful f) : Distinct f.putChar id := fun a a' b b' r r' hb hb' he => by
  have h1 := hf.char a b hb r
  rw [he, hf.char a' b' hb' r'] at h1
  cases h1
  exact ⟨rfl, List.append_cancel_right he⟩

theorem distinct_vec (hf : Lawful f) {put : α → Option (List β)} {w : α → κ} (h : Distinct put w) :
    Distinct (f.putVec put) (List.map w) := by
  intro l l' b b' r r' hb hb' he
  obtain ⟨b1, h1, b2, h2, rfl⟩ := putAll_cons.1 hb
  obtain ⟨c1, k1, c2, k2, rfl⟩ := putAll_cons.1 hb'
  rw [List.append_assoc, List.append_assoc] at he
  obtain ⟨e1, rfl⟩ := distinct_len hf _ _ _ _ _ _ h1 k1 he
  obtain ⟨e2, rfl⟩ := distinct_items h e1 h2 k2 (List.append_cancel_left he)
  exact ⟨e2, rfl⟩

theorem distinct_nil : Distinct (fun _ : α => putAll ([] : List (Option (List β)))) fun _ => () :=
  fun a a' b b' r r' hb hb' _ => ⟨rfl, by rw [putAll_nil.1 hb, putAll_nil.1 hb']⟩

theorem distinct_cons {p : α → Option (List β)} {q : α → List (Option (List β))} {w : α → κ} {w' : α → κ'}
    (h : Distinct p w) (h' : Distinct (fun a => putAll (q a)) w') :
    Distinct (fun a => putAll (p a :: q a)) fun a => (w a, w' a) := by
  intro a a' b b' r r' hb hb' he
  obtain ⟨b1, h1, b2, h2, rfl⟩ := putAll_cons.1 hb
  obtain ⟨c1, k1, c2, k2, rfl⟩ := putAll_cons.1 hb'
  rw [List.append_assoc, List.append_assoc] at he
  obtain ⟨e1, rfl⟩ := h _ _ _ _ _ _ h1 k1 he
  obtain ⟨e2, rfl⟩ := h' _ _ _ _ _ _ h2 k2 (List.append_cancel_left he)
  exact ⟨Prod.ext e1 e2, rfl⟩

theorem distinct_comp {γ : Type} {p : α → Option (List β)} {w : α → κ} (h : Distinct p w) (g : γ → α) :
    Distinct (fun a => p (g a)) fun a => w (g a) := fun a a' b b' r r' hb hb' he => h (g a) (g a') b b' r r' hb hb' he

theorem distinct_weaken {p : α → Option (List β)} {w : α → κ} {w' : α → κ'} (h : Distinct p w)
    (hw : ∀ a a', w a = w a' → w' a = w' a') : Distinct p w' := fun a a' b b' r r' hb hb' he =>
  ⟨hw _ _ (h a a' b b' r r' hb hb' he).1, (h a a' b b' r r' hb hb' he).2⟩

variable (hf : Lawful f) (ht : Distinct f.putTag id) (hs : Distinct f.putStr id)
include hf hs

theorem distinct_simplification : Distinct (SimplificationMethodAndOutput.put f) SimplificationMethodAndOutput.write := by
  refine distinct_weaken (distinct_cons (distinct_comp ((SingletonMethod.stored hf).distinct id)
    SimplificationMethodAndOutput.method) (distinct_cons (distinct_comp (distinct_vec hf (distinct_char hf))
      SimplificationMethodAndOutput.newIndices) (distinct_cons (distinct_comp hs
        SimplificationMethodAndOutput.einsumString) distinct_nil))) fun a a' h => ?_
  simp only [id, List.map_id_fun, Prod.mk.injEq] at h
  simp only [SimplificationMethodAndOutput.write, h.1, h.2.1, h.2.2.1]

include ht

theorem distinct_option : Distinct (f.putOption (SimplificationMethodAndOutput.put f))
    (writeOption SimplificationMethodAndOutput.write) := by
  intro a a' b b' r r' hb hb' he
  cases a with
  | none =>
    cases a' with
    | none => exact ⟨rfl, Option.some.inj (hb.symm.trans hb')⟩
    | some x' =>
      obtain ⟨c1, k1, c2, k2, rfl⟩ := putAll_cons.1 hb'
      rw [List.append_assoc] at he
      exact nomatch (ht _ _ _ _ _ _ hb k1 he).1
  | some x =>
    obtain ⟨b1, h1, b2, h2, rfl⟩ := putAll_cons.1 hb
    rw [List.append_assoc] at he
    cases a' with
    | none => exact nomatch (ht _ _ _ _ _ _ h1 hb' he).1
    | some x' =>
      obtain ⟨c1, k1, c2, k2, rfl⟩ := putAll_cons.1 hb'
      rw [List.append_assoc] at he
      obtain ⟨-, rfl⟩ := ht _ _ _ _ _ _ h1 k1 he
      obtain ⟨b3, h3, b4, h4, rfl⟩ := putAll_cons.1 h2
      obtain ⟨c3, k3, c4, k4, rfl⟩ := putAll_cons.1 k2
      cases putAll_nil.1 h4
      cases putAll_nil.1 k4
      simp only [List.append_nil] at he
      obtain ⟨e1, rfl⟩ := distinct_simplification hf hs _ _ _ _ _ _ h3 k3 (List.append_cancel_left he)
      exact ⟨e1, rfl⟩

theorem distinct_pair : Distinct (PairContraction.put f) PairContraction.write := by
  refine distinct_weaken (distinct_cons (distinct_comp (distinct_option hf ht hs) PairContraction.lhsSimplification)
    (distinct_cons (distinct_comp (distinct_option hf ht hs) PairContraction.rhsSimplification)
      (distinct_cons (distinct_comp ((PairMethod.stored hf).distinct id) PairContraction.method)
        (distinct_cons (distinct_comp hs PairContraction.simplifiedEinsumString) distinct_nil)))) fun a a' h => ?_
  simp only [id, Prod.mk.injEq] at h
  simp only [PairContraction.write, h.1, h.2.1, h.2.2.1, h.2.2.2.1]

/-- C111: the form of the compiled steps tells as much as their JSON form: the methods, the simplifications and the
strings. -/
theorem C111_steps : Distinct (EinsumPathSteps.put f) EinsumPathSteps.write := by
  intro a a' b b' r r' hb hb' he
  cases a with
  | singletonContraction x =>
    cases a' with
    | singletonContraction x' =>
      obtain ⟨e, rfl⟩ := distinct_cons (distinct_comp (distinct_index hf) fun _ => 0) (distinct_cons
        (distinct_cons (distinct_comp ((SingletonMethod.stored hf).distinct id) SingletonContraction.method)
          distinct_nil) distinct_nil) x x' b b' r r' hb hb' he
      simp only [id, Prod.mk.injEq] at e
      exact ⟨by simp only [EinsumPathSteps.write, SingletonContraction.write, e.2.1.1], rfl⟩
    | pairContractions l' =>
      obtain ⟨b1, h1, b2, h2, rfl⟩ := putAll_cons.1 hb
      obtain ⟨c1, k1, c2, k2, rfl⟩ := putAll_cons.1 hb'
      rw [List.append_assoc, List.append_assoc] at he
      exact nomatch (distinct_index hf _ _ _ _ _ _ h1 k1 he).1
  | pairContractions l =>
    cases a' with
    | singletonContraction x' =>
      obtain ⟨b1, h1, b2, h2, rfl⟩ := putAll_cons.1 hb
      obtain ⟨c1, k1, c2, k2, rfl⟩ := putAll_cons.1 hb'
      rw [List.append_assoc, List.append_assoc] at he
      exact nomatch (distinct_index hf _ _ _ _ _ _ h1 k1 he).1
    | pairContractions l' =>
      obtain ⟨e, rfl⟩ := distinct_cons (distinct_comp (distinct_index hf) fun _ => 1) (distinct_cons
        (distinct_vec hf (distinct_pair hf ht hs)) distinct_nil) l l' b b' r r' hb hb' he
      simp only [id, Prod.mk.injEq] at e
      exact ⟨by simp only [EinsumPathSteps.write, writeVec, e.2.1], rfl⟩

end

/-! ### bincode -/

theorem putLE_iff (k n : Nat) (b : List UInt8) :
    putLE k n = some b ↔ b.length = k ∧ b.foldr (fun x m => x.toNat + 256 * m) 0 = n := by
  induction k generalizing n b with
  | zero =>
    cases b with
    | nil => by_cases h : n = 0 <;> simp [putLE, h, eq_comm]
    | cons x b => by_cases h : n = 0 <;> simp [putLE, h]
  | succ k ih =>
    cases b with
    | nil => cases h : putLE k (n / 256) <;> simp [putLE, h]
    | cons x b =>
      have h1 : putLE (k + 1) n = some (x :: b) ↔ UInt8.ofNat (n % 256) = x ∧ putLE k (n / 256) = some b := by
        cases h : putLE k (n / 256) <;> simp [putLE, h]
      rw [h1, ih]
      have hx := x.toNat_lt
      simp only [List.length_cons, List.foldr_cons, Nat.add_right_cancel_iff]
      constructor
      · rintro ⟨rfl, h2, h3⟩
        refine ⟨h2, ?_⟩
        rw [h3, UInt8.toNat_ofNat']
        omega
      · rintro ⟨h2, rfl⟩
        refine ⟨?_, h2, by omega⟩
        apply UInt8.toNat_inj.1
        rw [UInt8.toNat_ofNat']
        omega

theorem putLE_fits (k n : Nat) : (∃ b, putLE k n = some b) ↔ n < 256 ^ k := by
  induction k generalizing n with
  | zero => by_cases h : n = 0 <;> simp [putLE, h]
  | succ k ih =>
    have : (∃ b, putLE (k + 1) n = some b) ↔ ∃ b, putLE k (n / 256) = some b := by
      cases h : putLE k (n / 256) <;> simp [putLE, h]
    rw [this, ih, Nat.div_lt_iff_lt_mul (by decide), Nat.pow_succ]

theorem getLocal_byte : Local getByte := by
  intro s a r h
  cases s with
  | nil => cases h
  | cons b l => cases h; exact ⟨[a], rfl, fun _ => rfl⟩

theorem getLocal_le (k : Nat) : Local (getLE k) := by
  induction k with
  | zero => exact Local.pure _
  | succ k ih => exact getLocal_byte.bind fun _ => ih.bind fun _ => Local.pure _

theorem getReads_le (k n : Nat) (b : List UInt8) (h : putLE k n = some b) : Reads (getLE k) n b := by
  obtain ⟨rfl, rfl⟩ := (putLE_iff k n b).1 h
  clear h
  induction b with
  | nil => exact Reads.pure _
  | cons x b ih =>
    have := Reads.bind (g := getByte) (k := fun y => getLE b.length >>= fun n => Pure.pure (y.toNat + 256 * n))
      (fun _ => rfl : Reads getByte x [x]) (ih.bind (Reads.pure _))
    rw [List.append_nil] at this
    exact this

theorem getReads_utf8 (c : Char) : Reads getUtf8 c (String.utf8EncodeChar c) := by
  intro r
  have : (String.utf8EncodeChar c ++ r).toByteArray.utf8DecodeChar? 0 = some c := by
    rw [List.toByteArray_append]
    exact ByteArray.utf8DecodeChar?_utf8EncodeChar_append
  simp only [getUtf8, this]
  rw [← String.length_utf8EncodeChar, List.drop_left]

theorem getLocal_utf8 : Local getUtf8 := by
  intro s a r h
  unfold getUtf8 at h
  split at h
  · cases h
  · rename_i c hc
    cases h
    refine ⟨String.utf8EncodeChar a, ?_, getReads_utf8 a⟩
    obtain ⟨l, hl⟩ := ByteArray.exists_of_utf8DecodeChar?_eq_some hc
    have h1 := congrArg (fun b => b.data.toList) hl
    simp only [List.data_toByteArray, ByteArray.data_append, Array.toList_append] at h1
    rw [h1, ← String.length_utf8EncodeChar, List.drop_left]

/-- C111: bincode is a lawful format, and it writes every `usize` of 64 bits. -/
theorem C111_bincode : Lawful bincode ∧ (∀ n, (∃ b, bincode.putNat n = some b) ↔ n < 2 ^ 64) := by
  refine ⟨⟨getReads_le 8, fun c b h => Option.some.inj h ▸ getReads_utf8 c, getReads_le 8, getReads_le 4, getLocal_le 8, getLocal_utf8,
    getLocal_le 8, getLocal_le 4⟩, fun n => ?_⟩
  exact (putLE_fits 8 n).trans (by norm_num)

/-- C111: the bytes of bincode. Numbers and lengths take eight bytes and indices of variants four, the lowest byte first;
characters and strings are in UTF-8, strings with their length before; an `Option` is the byte 0, or the byte 1 and the content. -/
theorem C111_bytes :
    (∀ n b, bincode.putNat n = some b ↔ b.length = 8 ∧ Nat.ofDigits 256 (b.map UInt8.toNat) = n) ∧
    (∀ n b, bincode.putLen n = some b ↔ b.length = 8 ∧ Nat.ofDigits 256 (b.map UInt8.toNat) = n) ∧
    (∀ n b, bincode.putIndex n = some b ↔ b.length = 4 ∧ Nat.ofDigits 256 (b.map UInt8.toNat) = n) ∧
    (∀ c, bincode.putChar c = some (String.singleton c).toByteArray.data.toList) ∧
    (∀ s b, bincode.putStr s = some b ↔ ∃ l, bincode.putLen s.toByteArray.size = some l ∧ b = l ++ s.toByteArray.data.toList) ∧
    ∀ (α : Type) (put : α → Option (List UInt8)), bincode.putOption put none = some [0] ∧
      ∀ a, bincode.putOption put (some a) = (put a).map (1 :: ·) := by
  have key : ∀ k n b, putLE k n = some b ↔ b.length = k ∧ Nat.ofDigits 256 (b.map UInt8.toNat) = n := fun k n b => by
    rw [putLE_iff, Nat.ofDigits_eq_foldr, List.foldr_map]
    rfl
  refine ⟨key 8, key 8, key 4, fun c => ?_, fun s b => ?_, fun α put => ⟨rfl, fun a => ?_⟩⟩
  · simp [bincode, List.utf8Encode]
  · simp only [bincode, putAll_cons]
    simp [putAll, eq_comm]
  · cases h : put a <;> simp [bincode, Format.putOption, putAll, h]

theorem C111_bincode_steps : Distinct (EinsumPathSteps.put bincode) EinsumPathSteps.write := by
  refine C111_steps C111_bincode.1 (fun a a' b b' r r' hb hb' he => ?_) fun a a' b b' r r' hb hb' he => ?_
  · cases hb
    cases hb'
    cases a <;> cases a' <;> simp at he ⊢
  · obtain ⟨b1, h1, b2, h2, rfl⟩ := putAll_cons.1 hb
    obtain ⟨c1, k1, c2, k2, rfl⟩ := putAll_cons.1 hb'
    obtain ⟨b3, h3, b4, h4, rfl⟩ := putAll_cons.1 h2
    obtain ⟨c3, k3, c4, k4, rfl⟩ := putAll_cons.1 k2
    cases putAll_nil.1 h4
    cases putAll_nil.1 k4
    cases h3
    cases k3
    simp only [List.append_nil, List.append_assoc] at he ⊢
    obtain ⟨e1, rfl⟩ := distinct_len C111_bincode.1 _ _ _ _ _ _ h1 k1 he
    have e2 := (List.append_inj (List.append_cancel_left he) (by simpa using e1)).1
    have e3 : a.toByteArray = a'.toByteArray := ByteArray.ext (Array.toList_inj.1 e2)
    exact ⟨String.toByteArray_inj.1 e3, by rw [e2]⟩

/-! ## Examples -/

namespace Ex

/-- Values as they are, one item each. -/
inductive Token where
  | num (n : Nat)
  | char (c : Char)
  | len (n : Nat)
  | index (n : Nat)
  | tag (b : Bool)
  | str (s : String)

def tokens : Format Token where
  putNat n := some [.num n]
  putChar c := some [.char c]
  putLen n := some [.len n]
  putIndex n := some [.index n]
  putTag b := some [.tag b]
  putStr s := some [.str s]
  getNat | .num n :: l => some (n, l) | _ => none
  getChar | .char c :: l => some (c, l) | _ => none
  getLen | .len n :: l => some (n, l) | _ => none
  getIndex | .index n :: l => some (n, l) | _ => none

theorem tokens_lawful : Lawful tokens := by
  refine ⟨fun _ _ h => by cases h; exact fun _ => rfl, fun _ _ h => by cases h; exact fun _ => rfl,
    fun _ _ h => by cases h; exact fun _ => rfl, fun _ _ h => by cases h; exact fun _ => rfl, ?_, ?_, ?_, ?_⟩ <;>
  · intro s a r h
    simp only [tokens] at h
    split at h
    · cases h; exact ⟨[_], rfl, fun _ => rfl⟩
    · cases h

theorem tokens_total : Total tokens :=
  ⟨fun _ => ⟨_, rfl⟩, fun _ => ⟨_, rfl⟩, fun _ => ⟨_, rfl⟩, fun _ => ⟨_, rfl⟩, fun _ => ⟨_, rfl⟩, fun _ => ⟨_, rfl⟩⟩

example : bincode.putNat 258 = some [2, 1, 0, 0, 0, 0, 0, 0] := (C111_bytes.1 258 _).2 (by decide)

example := C111_contractors tokens_lawful
example := C111_order C111_bincode.1

example : ∃ p b o r, einsumPath HashOrd.reversed "ij,jjk,kj->ij" [m23, m332, m23] .naive = .ok (.ok p) ∧
    p.Puts tokens b ∧ ContractionOrder.get tokens b = some (o, r) ∧
    EinsumPath.fromPath (HashOrd.reversed.sub 1) o = .ok p := by
  obtain ⟨p, h1, h2, h3⟩ := C111_path tokens_lawful HashOrd.reversed "ij,jjk,kj->ij" [m23, m332, m23] _ _ _ .naive
    (.inl rfl) denotes_three call_three.sized
  obtain ⟨b, hb⟩ := h2 tokens_total
  obtain ⟨o, r, h4, h5, -⟩ := h3 b hb
  exact ⟨p, b, o, r, h1, hb, h4, h5⟩

/-- In bincode. -/
example : OperandNumPair.put bincode ⟨.input 1, .intermediateResult 258⟩ =
    some [0, 0, 0, 0, 1, 0, 0, 0, 0, 0, 0, 0, 1, 0, 0, 0, 2, 1, 0, 0, 0, 0, 0, 0] := by decide

example : Contraction.put bincode ⟨[['é']], [], ['é']⟩ = some [1, 0, 0, 0, 0, 0, 0, 0, 1, 0, 0, 0, 0, 0, 0, 0, 195, 169,
    0, 0, 0, 0, 0, 0, 0, 0, 1, 0, 0, 0, 0, 0, 0, 0, 195, 169] := by decide

/-- The order of a matrix product in bincode; without its last byte it is refused. -/
example : ∃ b, (ContractionOrder.pairs [matmulStep]).Puts bincode b ∧
    (∀ r, ContractionOrder.get bincode (b ++ r) = some (.pairs [matmulStep], r)) ∧
    ContractionOrder.get bincode b.dropLast = none := by
  have hs := ContractionOrder.stored C111_bincode.1
  have hp : (ContractionOrder.pairs [matmulStep]).Puts bincode _ :=
    ⟨[_], .cons ⟨_, ⟨_, matmulEntries, rfl⟩, rfl⟩ .nil, rfl⟩
  exact ⟨_, hp, hs.back _ _ hp, hs.cut _ _ _ hp (List.dropLast_prefix _) (by decide)⟩

/-- Variant 7 of an order does not exist. -/
example : ContractionOrder.get bincode [7, 0, 0, 0, 1] = none :=
  ((C111_unknown bincode [7, 0, 0, 0, 1] [1] 7 rfl).1 (by decide)).2

/-- A map with two sizes for `i`. -/
example : ∃ m, tokens.getSizes ([.len 3, .char 'i', .num 2, .char 'j', .num 5, .char 'i', .num 4] ++ [.num 9]) =
    some (m, [.num 9]) ∧ m 'i' = some 4 ∧ m 'j' = some 5 := by
  obtain ⟨m, h1, h2⟩ := C111_sizes tokens_lawful [('i', 2), ('j', 5), ('i', 4)] _ [.num 9] rfl
  exact ⟨m, h1, h2 'i', h2 'j'⟩

/-- The tags and strings of `tokens` are distinct. -/
example : Distinct (EinsumPathSteps.put tokens) EinsumPathSteps.write := by
  refine C111_steps tokens_lawful ?_ ?_ <;>
  · intro a a' b b' r r' hb hb' he
    cases hb
    cases hb'
    cases he
    exact ⟨rfl, rfl⟩

example (x : StackedTensordotGeneral) := (C111_layout bincode).2.2.2.2.2.2.2.2.2.2.2.2.2.2.1 x

end Ex

end Einsum
