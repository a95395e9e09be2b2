import Verif.Model.DebugForms
import Verif.Props.DebugReadable
import Verif.Props.Serde
import Verif.Props.Stored

/-!
# Property C106: `Debug` output in both forms, with escapes

As in C69, but a part of `{:#?}` output is indented by an amount that depends on where it stands: it must be readable at
every depth.
-/

namespace Einsum

open Spec

variable {α β : Type}

/-! ## Escapes -/

/-- The number written in hexadecimal digits. -/
def hexValue (l : List Char) : Nat :=
  l.foldl (fun n c => 16 * n + if c.toNat ≤ 57 then c.toNat - 48 else c.toNat - 87) 0

theorem hex_digits (n : Nat) : hexValue (Nat.toDigits 16 n) = n ∧ ∀ c ∈ Nat.toDigits 16 n, c ≠ '}' := by
  have key : ∀ m, m < 16 → Nat.digitChar m ≠ '}' ∧
      (if (Nat.digitChar m).toNat ≤ 57 then (Nat.digitChar m).toNat - 48 else (Nat.digitChar m).toNat - 87) = m := by
    decide
  induction n using Nat.strongRecOn with
  | _ n ih =>
    rw [Nat.toDigits_eq_if (by decide)]
    split
    next h =>
      refine ⟨?_, fun c hc => ?_⟩
      · have := (key n h).2
        simpa [hexValue] using this
      · rw [List.mem_singleton] at hc
        exact hc ▸ (key n h).1
    next h =>
      obtain ⟨h1, h2⟩ := ih (n / 16) (by omega)
      have h3 := key (n % 16) (by omega)
      refine ⟨?_, fun c hc => ?_⟩
      · unfold hexValue at h1 ⊢
        rw [List.foldl_append, h1]
        simp only [List.foldl_cons, List.foldl_nil, h3.2]
        omega
      · rcases List.mem_append.1 hc with hc | hc
        · exact h2 c hc
        · rw [List.mem_singleton] at hc
          exact hc ▸ h3.1

/-- The character that an escaped text begins with, and the rest. -/
def unescape : List Char → Option (Char × List Char)
  | [] => none
  | c :: r => if c = '\\' then
      match r with
      | [] => none
      | d :: r =>
        if d = '0' then some ('\x00', r)
        else if d = 't' then some ('\t', r)
        else if d = 'r' then some ('\r', r)
        else if d = 'n' then some ('\n', r)
        else if d = 'u' then
          some (Char.ofNat (hexValue (r.tail.takeWhile (· ≠ '}'))), (r.tail.dropWhile (· ≠ '}')).tail)
        else some (d, r)
    else some (c, r)

theorem unescape_escape (plain : Char → Bool) (q : Char) (hq : q = '\'' ∨ q = '"') (c : Char) (s : List Char) :
    unescape ((escapeChar plain q c).toList ++ s) = some (c, s) := by
  unfold escapeChar
  split_ifs with h1 h2 h3 h4 h5 h6 h7
  · subst h1; simp [unescape]
  · subst h2; simp [unescape]
  · subst h3; simp [unescape]
  · subst h4; simp [unescape]
  · subst h5; simp [unescape]
  · subst h6; rcases hq with rfl | rfl <;> simp [unescape]
  · simp [unescape, h5]
  · obtain ⟨e1, e2⟩ := hex_digits c.toNat
    have hd : ∀ (l : List Char) (r : List Char), (∀ x ∈ l, x ≠ '}') →
        (l ++ '}' :: r).takeWhile (· ≠ '}') = l ∧ (l ++ '}' :: r).dropWhile (· ≠ '}') = '}' :: r := by
      intro l r
      induction l with
      | nil => simp
      | cons x l ih =>
        intro hx
        have hx' := ih fun y hy => hx y (by simp [hy])
        have hx0 := hx x (by simp)
        simp [hx0] at hx' ⊢
        exact hx'
    have ht : ("\\u{" ++ String.ofList (Nat.toDigits 16 c.toNat) ++ "}").toList ++ s =
        '\\' :: 'u' :: '{' :: (Nat.toDigits 16 c.toNat ++ '}' :: s) := by
      simp
    rw [ht, unescape, if_pos rfl]
    obtain ⟨t1, t2⟩ := hd (Nat.toDigits 16 c.toNat) s e2
    simp only [List.tail_cons, t1, t2, e1, Char.ofNat_toNat]
    simp

theorem escape_read {plain : Char → Bool} {q : Char} (hq : q = '\'' ∨ q = '"') {c d : Char} {s t : List Char}
    (he : (escapeChar plain q c).toList ++ s = (escapeChar plain q d).toList ++ t) : c = d ∧ s = t := by
  have h := unescape_escape plain q hq c s
  rw [he, unescape_escape plain q hq d t] at h
  simpa [eq_comm] using h

/-- An escaped character does not begin with the quote and contains no end of line. -/
theorem escape_first (plain : Char → Bool) (q : Char) (hq : q = '\'' ∨ q = '"') (c : Char) :
    (∃ d l, (escapeChar plain q c).toList = d :: l ∧ d ≠ q) ∧ '\n' ∉ (escapeChar plain q c).toList := by
  have hq' : q ≠ '\\' := by rcases hq with rfl | rfl <;> decide
  have hq'' : q ≠ '\n' := by rcases hq with rfl | rfl <;> decide
  unfold escapeChar
  split_ifs with h1 h2 h3 h4 h5 h6 h7
  · exact ⟨⟨'\\', ['0'], by simp, hq'.symm⟩, by simp⟩
  · exact ⟨⟨'\\', ['t'], by simp, hq'.symm⟩, by simp⟩
  · exact ⟨⟨'\\', ['r'], by simp, hq'.symm⟩, by simp⟩
  · exact ⟨⟨'\\', ['n'], by simp, hq'.symm⟩, by simp⟩
  · exact ⟨⟨'\\', ['\\'], by simp, hq'.symm⟩, by simp⟩
  · exact ⟨⟨'\\', [q], by simp, hq'.symm⟩, by simp [hq''.symm]⟩
  · exact ⟨⟨c, [], by simp, h6⟩, by simp [Ne.symm h4]⟩
  · refine ⟨⟨'\\', _, by simp; rfl, hq'.symm⟩, ?_⟩
    have key : ∀ m, m < 16 → Nat.digitChar m ≠ '\n' := by decide
    have hn : ∀ n, '\n' ∉ Nat.toDigits 16 n := by
      intro n
      induction n using Nat.strongRecOn with
      | _ n ih =>
        rw [Nat.toDigits_eq_if (by decide)]
        split
        next h => simp [(key n h).symm]
        next h => simp [(key (n % 16) (by omega)).symm, ih (n / 16) (by omega)]
    simp [hn]

theorem reads_quoteChar (plain : Char → Bool) : Reads (fun _ => True) (quoteChar plain) := by
  have hq : "'".toList = ['\''] := by decide
  intro c d s t _ _ _ _ he
  simp only [quoteChar, String.toList_append, List.append_assoc, List.append_cancel_left_eq] at he
  obtain ⟨rfl, h⟩ := escape_read (.inl rfl) he
  exact ⟨rfl, by simpa [hq] using h⟩

theorem reads_quoteString (plain : Char → Bool) : Reads (fun _ => True) (quoteString plain) := by
  have hq : "\"".toList = ['"'] := by decide
  have key : ∀ (l m s t : List Char), (writePieces (l.map (escapeChar plain '"'))).toList ++ '"' :: s =
      (writePieces (m.map (escapeChar plain '"'))).toList ++ '"' :: t → l = m ∧ s = t := by
    intro l
    induction l with
    | nil =>
      intro m s t he
      cases m with
      | nil => simpa [writePieces] using he
      | cons d m =>
        obtain ⟨⟨c, k, h1, h2⟩, -⟩ := escape_first plain '"' (.inr rfl) d
        simp [writePieces, h1] at he
        exact absurd he.1.symm h2
    | cons c l ih =>
      intro m s t he
      cases m with
      | nil =>
        obtain ⟨⟨d, k, h1, h2⟩, -⟩ := escape_first plain '"' (.inr rfl) c
        simp [writePieces, h1] at he
        exact absurd he.1 h2
      | cons d m =>
        simp only [List.map_cons, writePieces, String.toList_append, List.append_assoc] at he
        obtain ⟨rfl, h⟩ := escape_read (.inr rfl) he
        obtain ⟨rfl, h'⟩ := ih m s t h
        exact ⟨rfl, h'⟩
  intro a b s t _ _ _ _ he
  simp only [quoteString, String.toList_append, hq, List.append_assoc, List.cons_append, List.nil_append,
    List.cons.injEq, true_and] at he
  obtain ⟨h1, h2⟩ := key _ _ _ _ he
  exact ⟨String.toList_injective h1, h2⟩

/-! ## Indentation -/

/-- The text at depth `k`: each further line begins with `4 * k` blanks. -/
def deeper (k : Nat) (s : String) : String :=
  String.ofList (s.toList.flatMap fun c => if c = '\n' then '\n' :: List.replicate (4 * k) ' ' else [c])

theorem deeper_append (k : Nat) (a b : String) : deeper k (a ++ b) = deeper k a ++ deeper k b := by
  simp [deeper]

theorem deeper_zero (s : String) : deeper 0 s = s := by
  have h : ∀ l : List Char, (l.flatMap fun c => if c = '\n' then '\n' :: List.replicate (4 * 0) ' ' else [c]) = l := by
    intro l
    induction l with
    | nil => rfl
    | cons c l ih =>
      rw [List.flatMap_cons, ih]
      split <;> simp_all
  rw [deeper, h, String.ofList_toList]

theorem deeper_plain (k : Nat) {s : String} (hs : '\n' ∉ s.toList) : deeper k s = s := by
  have h : ∀ l : List Char, '\n' ∉ l →
      (l.flatMap fun c => if c = '\n' then '\n' :: List.replicate (4 * k) ' ' else [c]) = l := by
    intro l
    induction l with
    | nil => intro _; rfl
    | cons c l ih =>
      intro hc
      rw [List.mem_cons, not_or] at hc
      rw [List.flatMap_cons, ih hc.2, if_neg (Ne.symm hc.1), List.singleton_append]
  rw [deeper, h _ hs, String.ofList_toList]

theorem deeper_pad (k : Nat) (s : String) : deeper k (padLines s) = deeper (k + 1) s := by
  have h : ∀ l : List Char, ((l.flatMap fun c => if c = '\n' then ['\n', ' ', ' ', ' ', ' '] else [c]).flatMap
      fun c => if c = '\n' then '\n' :: List.replicate (4 * k) ' ' else [c]) =
      l.flatMap fun c => if c = '\n' then '\n' :: List.replicate (4 * (k + 1)) ' ' else [c] := by
    intro l
    rw [List.flatMap_assoc]
    congr 1
    funext c
    by_cases hc : c = '\n'
    · subst hc
      have : List.replicate (4 * (k + 1)) ' ' = List.replicate (4 * k) ' ' ++ List.replicate 4 ' ' := by
        rw [List.replicate_append_replicate]; congr 1
      simp [this, List.replicate_succ]
    · simp [hc]
  simp only [deeper, padLines, String.toList_ofList, h]

theorem deeper_pieces (k : Nat) (l : List String) : deeper k (writePieces l) = writePieces (l.map (deeper k)) := by
  induction l with
  | nil => rfl
  | cons a l ih => rw [writePieces, deeper_append, ih]; rfl

theorem deeper_first (k : Nat) {s : String} {c : Char} {l : List Char} (h : s.toList = c :: l) :
    ∃ m, (deeper k s).toList = c :: m := by
  rw [deeper, h, String.toList_ofList, List.flatMap_cons]
  split
  · rename_i hc; exact ⟨_, by rw [hc]; rfl⟩
  · exact ⟨_, rfl⟩

/-! ## Reading at every depth -/

/-- The depths at which a text of the form is printed. -/
def At (form : Form) (k : Nat) : Prop := form = .line → k = 0

/-- The value can be read off its text, at every depth. -/
def ReadsIn (form : Form) (P : α → Prop) (f : α → String) : Prop :=
  ∀ k, At form k → Reads P fun x => deeper k (f x)

theorem at_zero (form : Form) : At form 0 := fun _ => rfl

theorem at_succ {form : Form} {k : Nat} (hf : form = .pretty) : At form (k + 1) := by
  subst hf; rintro ⟨⟩

theorem ReadsIn.reads {form : Form} {P : α → Prop} {f : α → String} (h : ReadsIn form P f) : Reads P f := by
  have := h 0 (at_zero form)
  simpa only [deeper_zero] using this

/-- A text of one line. -/
theorem reads_oneLine {form : Form} {P : α → Prop} {f : α → String} (h : Reads P f) (hn : ∀ x, P x → '\n' ∉ (f x).toList) :
    ReadsIn form P f := fun k _ x y s t hx hy hs ht he => by
  simp only [deeper_plain k (hn x hx), deeper_plain k (hn y hy)] at he
  exact h x y s t hx hy hs ht he

/-- Items between brackets. -/
theorem reads_items {form : Form} {P : α → Prop} {f : α → String} (h : ReadsIn form P f) (op cl : String) (d : Char)
    (hcl : cl.toList = [d]) (hd : d.isAlphanum = false) (hd1 : d ≠ ' ') (hd2 : d ≠ ',') (hd3 : d ≠ '\n')
    (hf : ∀ x, ∃ c l, (f x).toList = c :: l ∧ c ≠ d) :
    ReadsIn form (fun l => ∀ x ∈ l, P x) fun l : List α => debugItems form op "" cl (l.map f) := by
  have t2 : ", ".toList = [',', ' '] := by decide
  have hcl' : ∀ k, deeper k cl = cl := fun k => deeper_plain k (by rw [hcl]; simpa using hd3.symm)
  cases form with
  | line =>
    intro k hk
    obtain rfl : k = 0 := hk rfl
    have hr := h.reads
    have one : ∀ (x : α) (l : List α), commaSep ((x :: l).map f) = f x ++ (if l = [] then "" else ", " ++ commaSep (l.map f)) := by
      intro x l
      cases l with
      | nil => simp [commaSep]
      | cons y l => simp [commaSep, String.append_assoc]
    have hend : ∀ (l : List α) s, Ends ((if l = [] then "" else ", " ++ commaSep (l.map f)).toList ++ (d :: s)) := by
      intro l s
      split
      · simpa [Ends] using hd
      · simp [Ends, t2]
    have key : ∀ l m : List α, (∀ x ∈ l, P x) → (∀ x ∈ m, P x) → ∀ s t,
        (commaSep (l.map f)).toList ++ (d :: s) = (commaSep (m.map f)).toList ++ (d :: t) → l = m ∧ s = t := by
      intro l
      induction l with
      | nil =>
        intro m _ _ s t he
        cases m with
        | nil => simpa [commaSep] using he
        | cons y m =>
          obtain ⟨c, k, h1, h2⟩ := hf y
          rw [one, String.toList_append, h1] at he
          simp [commaSep] at he
          exact absurd he.1.symm h2
      | cons x l ih =>
        intro m hl hm s t he
        cases m with
        | nil =>
          obtain ⟨c, k, h1, h2⟩ := hf x
          rw [one, String.toList_append, h1] at he
          simp [commaSep] at he
          exact absurd he.1 h2
        | cons y m =>
          rw [one, one, String.toList_append, String.toList_append, List.append_assoc, List.append_assoc] at he
          obtain ⟨rfl, e2⟩ := hr x y _ _ (hl x (by simp)) (hm y (by simp)) (hend _ _) (hend _ _) he
          by_cases hl0 : l = [] <;> by_cases hm0 : m = []
          · subst hl0 hm0
            simp at e2
            exact ⟨rfl, e2⟩
          · rw [if_pos hl0, if_neg hm0, String.toList_append, t2] at e2
            simp [hd2] at e2
          · rw [if_neg hl0, if_pos hm0, String.toList_append, t2] at e2
            simp [hd2.symm] at e2
          · rw [if_neg hl0, if_neg hm0, String.toList_append, String.toList_append, List.append_assoc,
              List.append_assoc, List.append_cancel_left_eq] at e2
            obtain ⟨rfl, h⟩ := ih m (fun x hx => hl x (by simp [hx])) (fun x hx => hm x (by simp [hx])) s t e2
            exact ⟨rfl, h⟩
    intro l m s t hl hm _ _ he
    simp only [deeper_zero, debugItems, String.toList_append, String.append_empty, List.append_assoc,
      List.append_cancel_left_eq, hcl, List.cons_append, List.nil_append] at he
    exact key l m hl hm s t he
  | pretty =>
    intro k _
    let sp : List Char := List.replicate (4 * k) ' '
    let body : List α → List Char := fun l => (deeper k (writePieces ((l.map f).map prettyItem))).toList
    have hnl : (deeper k "\n").toList = '\n' :: sp := by simp [deeper, sp]
    have hcomma : (deeper k ",\n").toList = ',' :: '\n' :: sp := by
      have e : ",\n".toList = [',', '\n'] := by decide
      simp [deeper, sp, e]
    have hbody : ∀ x l, body (x :: l) =
        "    ".toList ++ ((deeper (k + 1) (f x)).toList ++ (',' :: '\n' :: sp ++ body l)) := by
      intro x l
      have e : deeper k "    " = "    " := deeper_plain k (by decide)
      simp only [body, List.map_cons, writePieces, prettyItem, deeper_append, String.toList_append, hcomma, e, deeper_pad,
        List.append_assoc, List.cons_append]
    have hblank : "    ".toList = [' ', ' ', ' ', ' '] := by decide
    have hnil : body [] = [] := by simp [body, writePieces, deeper]
    have key : ∀ l m : List α, (∀ x ∈ l, P x) → (∀ x ∈ m, P x) → ∀ s t,
        body l ++ d :: s = body m ++ d :: t → l = m ∧ s = t := by
      intro l
      induction l with
      | nil =>
        intro m _ _ s t he
        cases m with
        | nil => simpa [hnil] using he
        | cons y m => simp [hnil, hbody, hblank, hd1] at he
      | cons x l ih =>
        intro m hl hm s t he
        cases m with
        | nil => simp [hnil, hbody, hblank, hd1.symm] at he
        | cons y m =>
          simp only [hbody, List.append_assoc, List.append_cancel_left_eq] at he
          obtain ⟨rfl, e2⟩ := h (k + 1) (at_succ rfl) x y _ _ (hl x (by simp)) (hm y (by simp)) (by simp [Ends])
            (by simp [Ends]) he
          simp only [List.cons_append, List.cons.injEq, true_and, List.append_cancel_left_eq] at e2
          obtain ⟨rfl, h'⟩ := ih m (fun x hx => hl x (by simp [hx])) (fun x hx => hm x (by simp [hx])) s t e2
          exact ⟨rfl, h'⟩
    intro l m s t hl hm _ _ he
    have hall : ∀ l : List α, (deeper k (debugItems .pretty op "" cl (l.map f))).toList =
        (deeper k op).toList ++ ((if l = [] then [] else '\n' :: sp ++ body l) ++ [d]) := by
      intro l
      by_cases hl : l = []
      · subst hl
        simp [debugItems, hcl, deeper, hd3]
      · have : l.map f ≠ [] := by simpa using hl
        simp only [debugItems, if_neg this, if_neg hl, deeper_append, String.toList_append, hnl, hcl', hcl, body]
        simp
    simp only [hall, List.append_assoc, List.append_cancel_left_eq] at he
    by_cases hl0 : l = [] <;> by_cases hm0 : m = []
    · subst hl0 hm0
      exact ⟨rfl, by simpa using he⟩
    · simp [hl0, hm0, hd3] at he
    · simp [hl0, hm0, hd3.symm] at he
    · simp only [if_neg hl0, if_neg hm0, List.cons_append, List.append_assoc, List.cons.injEq, true_and,
        List.append_cancel_left_eq, List.nil_append] at he
      exact key l m hl hm s t he

/-- Parts between brackets, each after a fixed text. -/
theorem parts_read {form : Form} {P : α → Prop} {op blank cl : String} {parts : List (String × (α → String))}
    (hne : parts ≠ []) (hcl : ∃ c l, (blank ++ cl).toList = c :: l ∧ c.isAlphanum = false)
    (hf : ∀ f ∈ parts, ∀ k, At form k → Free P fun x => deeper k (f.2 x)) {k : Nat} (hk : At form k) {x y : α}
    {s t : List Char} (hx : P x) (hy : P y) (hs : Ends s) (ht : Ends t)
    (he : (deeper k (debugItems form op blank cl (parts.map fun f => f.1 ++ f.2 x))).toList ++ s =
      (deeper k (debugItems form op blank cl (parts.map fun f => f.1 ++ f.2 y))).toList ++ t) :
    (∃ k', At form k' ∧ ∀ f ∈ parts, deeper k' (f.2 x) = deeper k' (f.2 y)) ∧ s = t := by
  cases form with
  | line =>
    obtain rfl : k = 0 := hk rfl
    cases parts with
    | nil => exact absurd rfl hne
    | cons f l =>
      have hstart : ∀ l : List (String × (α → String)),
          Starts (l.flatMap (fun f => [fun _ => ", " ++ f.1, f.2]) ++ [fun _ => blank ++ cl]) := by
        intro l
        cases l with
        | nil => exact starts_lit hcl
        | cons f l =>
          refine starts_lit ⟨',', ' ' :: f.1.toList, ?_, by decide⟩
          have h1 : ", ".toList = [',', ' '] := by decide
          simp [String.toList_append, h1]
      have hfree : ∀ g ∈ f :: l, Free P g.2 := by
        intro g hg
        have := hf g hg 0 (at_zero _)
        simpa only [deeper_zero] using this
      have hread : ∀ l : List (String × (α → String)), (∀ f ∈ l, Free P f.2) →
          Readable P (l.flatMap (fun f => [fun _ => ", " ++ f.1, f.2]) ++ [fun _ => blank ++ cl]) := by
        intro l
        induction l with
        | nil => exact fun _ => .lit _ .nil
        | cons f l ih =>
          intro h
          exact .lit _ (.val (h f (by simp)) (hstart l) (ih fun g hg => h g (by simp [hg])))
      have htext : ∀ x : α, debugItems .line op blank cl ((f :: l).map fun f => f.1 ++ f.2 x) =
          writePieces ((((fun _ => op ++ blank ++ f.1) :: f.2 :: (l.flatMap (fun f => [fun _ => ", " ++ f.1, f.2]) ++
            [fun _ => blank ++ cl])) : List (α → String)).map fun g => g x) := by
        intro x
        have key : ∀ (l : List (String × (α → String))) (a : String),
            commaSep (a :: l.map fun f => f.1 ++ f.2 x) ++ (blank ++ cl) = a ++ writePieces
              ((l.flatMap (fun f => [fun _ => ", " ++ f.1, f.2]) ++ [fun _ => blank ++ cl] : List (α → String)).map
                fun g => g x) := by
          intro l
          induction l with
          | nil => intro a; simp [commaSep, writePieces]
          | cons f l ih =>
            intro a
            rw [List.map_cons, commaSep, String.append_assoc, String.append_assoc, ih]
            simp [writePieces, String.append_assoc]
        rw [debugItems, List.map_cons, String.append_assoc, String.append_assoc, String.append_assoc, key]
        simp [writePieces, String.append_assoc]
      rw [deeper_zero, deeper_zero, htext, htext] at he
      have hall := (Readable.lit (op ++ blank ++ f.1) (.val (hfree f (by simp)) (hstart l)
        (hread l fun g hg => hfree g (by simp [hg])))).read hx hy hs ht he
      refine ⟨⟨0, at_zero _, fun g hg => ?_⟩, hall.2⟩
      rw [deeper_zero, deeper_zero]
      refine hall.1 g.2 ?_
      rcases List.mem_cons.1 hg with rfl | hg
      · simp
      · simp only [List.mem_cons, List.mem_append, List.mem_flatMap]
        exact .inr (.inr (.inl ⟨g, hg, by simp⟩))
  | pretty =>
    let piece : String × (α → String) → List (α → String) := fun f =>
      [fun _ => deeper k ("    " ++ padLines f.1), fun x => deeper (k + 1) (f.2 x), fun _ => deeper k ",\n"]
    have htext : ∀ x : α, deeper k (debugItems .pretty op blank cl (parts.map fun f => f.1 ++ f.2 x)) =
        writePieces ((((fun _ => deeper k (op ++ "\n")) :: (parts.flatMap piece ++ [fun _ => deeper k cl])) :
          List (α → String)).map fun g => g x) := by
      intro x
      have key : ∀ l : List (String × (α → String)),
          deeper k (writePieces ((l.map fun f => f.1 ++ f.2 x).map prettyItem)) ++ deeper k cl = writePieces
            ((l.flatMap piece ++ [fun _ => deeper k cl] : List (α → String)).map fun g => g x) := by
        intro l
        induction l with
        | nil => simp [writePieces, deeper]
        | cons f l ih =>
          have hp : padLines (f.1 ++ f.2 x) = padLines f.1 ++ padLines (f.2 x) := by simp [padLines]
          simp only [List.map_cons, writePieces, prettyItem, hp, deeper_append, String.append_assoc, ih, deeper_pad]
          simp [piece, writePieces, deeper_append, String.append_assoc, deeper_pad]
      have hne' : (parts.map fun f => f.1 ++ f.2 x) ≠ [] := by simpa using hne
      rw [debugItems]
      simp only [if_neg hne', deeper_append, String.append_assoc, key]
      simp [writePieces, String.append_assoc]
    have hcomma : Starts (α := α) [fun _ => deeper k ",\n"] := by
      obtain ⟨m, hm⟩ := deeper_first k (s := ",\n") (c := ',') (l := ['\n']) (by decide)
      exact starts_lit ⟨',', m, hm, by decide⟩
    have hread : ∀ l : List (String × (α → String)), (∀ f ∈ l, f ∈ parts) →
        Readable P (l.flatMap piece ++ [fun _ => deeper k cl]) := by
      intro l
      induction l with
      | nil => exact fun _ => .lit _ .nil
      | cons f l ih =>
        intro h
        exact .lit _ (.val (hf f (h f (by simp)) (k + 1) (at_succ rfl)) hcomma
          (.lit _ (ih fun g hg => h g (by simp [hg]))))
    rw [htext, htext] at he
    have hall := (Readable.lit _ (hread parts fun _ h => h)).read hx hy hs ht he
    refine ⟨⟨k + 1, at_succ rfl, fun g hg => hall.1 (fun x => deeper (k + 1) (g.2 x)) ?_⟩, hall.2⟩
    simp only [List.mem_cons, List.mem_append, List.mem_flatMap]
    exact .inr (.inl ⟨g, hg, by simp [piece]⟩)

theorem ReadsIn.free {form : Form} {P : α → Prop} {Q : β → Prop} {f : α → String} (h : ReadsIn form P f) (p : β → α)
    (hp : ∀ x, Q x → P (p x)) : ∀ k, At form k → Free Q fun x => deeper k (f (p x)) := fun k hk =>
  (h k hk).free p hp

/-- A struct whose fields can be read. -/
theorem fields_read {form : Form} {P : α → Prop} {name : String} {fields : List (String × (α → String))}
    (hne : fields ≠ []) (hf : ∀ f ∈ fields, ∀ k, At form k → Free P fun x => deeper k (f.2 x)) {k : Nat}
    (hk : At form k) {x y : α} {s t : List Char} (hx : P x) (hy : P y) (hs : Ends s) (ht : Ends t)
    (he : (deeper k (showStruct form name (fields.map fun f => (f.1, f.2 x)))).toList ++ s =
      (deeper k (showStruct form name (fields.map fun f => (f.1, f.2 y)))).toList ++ t) :
    (∃ k', At form k' ∧ ∀ f ∈ fields, deeper k' (f.2 x) = deeper k' (f.2 y)) ∧ s = t := by
  have h := parts_read (form := form) (P := P) (op := name ++ " {") (blank := " ") (cl := "}")
    (parts := fields.map fun f => (f.1 ++ ": ", f.2)) (by simpa using hne) ⟨' ', ['}'], by decide, by decide⟩
    (by
      intro g hg
      obtain ⟨f, hf', rfl⟩ := List.mem_map.1 hg
      exact hf f hf') hk hx hy hs ht (by
      simpa only [showStruct, List.map_map, Function.comp_def] using he)
  obtain ⟨⟨k', h1, h2⟩, h3⟩ := h
  exact ⟨⟨k', h1, fun f hf => h2 (f.1 ++ ": ", f.2) (List.mem_map.2 ⟨f, hf, rfl⟩)⟩, h3⟩

theorem reads_tuple {form : Form} {P : α → Prop} {f : α → String} (h : ReadsIn form P f) (name : String) :
    ReadsIn form P fun x => showTuple form name (f x) := by
  intro k hk x y s t hx hy hs ht he
  obtain ⟨⟨k', h1, h2⟩, h3⟩ := parts_read (form := form) (P := P) (op := name ++ "(") (blank := "") (cl := ")")
    (parts := [("", f)]) (by simp) ⟨')', [], by decide, by decide⟩ (by
      simpa using h.free (fun x => x) fun _ h => h) hk hx hy hs ht (by simpa [showTuple] using he)
  exact ⟨(h k' h1).inj hx hy (h2 ("", f) (by simp)), h3⟩

/-- The text of a variant begins with its name. -/
theorem tuple_name (form : Form) (k : Nat) (name item : String) (hn : '\n' ∉ name.toList) :
    ∃ r, (deeper k (showTuple form name item)).toList = name.toList ++ '(' :: r := by
  have h : ∀ a : String, ∃ r, (deeper k (name ++ "(" ++ a)).toList = name.toList ++ '(' :: r := by
    intro a
    rw [deeper_append, deeper_append, deeper_plain k hn, deeper_plain k (s := "(") (by decide)]
    exact ⟨_, by simp; rfl⟩
  cases form with
  | line =>
    obtain ⟨r, hr⟩ := h (commaSep [item] ++ ")")
    exact ⟨r, by rw [← hr]; simp [showTuple, debugItems, String.append_assoc]⟩
  | pretty =>
    obtain ⟨r, hr⟩ := h ("\n" ++ writePieces ([item].map prettyItem) ++ ")")
    exact ⟨r, by rw [← hr]; simp [showTuple, debugItems, String.append_assoc]⟩

/-! ## The types -/

theorem reads_natIn (form : Form) : ReadsIn form (fun _ => True) Nat.repr := by
  refine reads_oneLine reads_nat fun n _ hm => ?_
  rw [Nat.toList_repr] at hm
  have := Nat.isDigit_of_mem_toDigits (by decide) (by decide) hm
  simp at this

theorem reads_charIn (form : Form) (plain : Char → Bool) : ReadsIn form (fun _ => True) (quoteChar plain) := by
  refine reads_oneLine (reads_quoteChar plain) fun c _ hm => ?_
  have hq : "'".toList = ['\''] := by decide
  have := (escape_first plain '\'' (.inl rfl) c).2
  simp [quoteChar, hq] at hm
  exact this hm

theorem ReadsIn.all {form : Form} {P : α → Prop} {f : α → String} (h : ReadsIn form P f) (hp : ∀ x, P x) :
    ReadsIn form (fun _ => True) f := fun k hk x y s t _ _ => h k hk x y s t (hp x) (hp y)

theorem reads_charsIn (form : Form) (plain : Char → Bool) : ReadsIn form (fun _ => True) (showChars form plain) :=
  (reads_items (reads_charIn form plain) "[" "]" ']' (by decide) (by decide) (by decide) (by decide) (by decide)
    fun c => ⟨'\'', _, by simp [quoteChar]; rfl, by decide⟩).all fun _ => by simp

theorem items_first (form : Form) (op blank cl : String) (items : List String) {c : Char} {l : List Char}
    (ho : op.toList = c :: l) : ∃ m, (debugItems form op blank cl items).toList = c :: m := by
  cases form with
  | line => exact ⟨_, by simp [debugItems, ho]; rfl⟩
  | pretty => exact ⟨_, by simp [debugItems, ho]; rfl⟩

theorem reads_charssIn (form : Form) (plain : Char → Bool) :
    ReadsIn form (fun _ => True) fun l : List (List Char) => showVec form (l.map (showChars form plain)) :=
  (reads_items (reads_charsIn form plain) "[" "]" ']' (by decide) (by decide) (by decide) (by decide) (by decide)
    fun l => by
      obtain ⟨m, hm⟩ := items_first form "[" "" "]" (l.map (quoteChar plain)) (c := '[') (l := []) (by decide)
      exact ⟨'[', m, hm, by decide⟩).all fun _ => by simp

theorem reads_contraction (form : Form) (plain : Char → Bool) :
    ReadsIn form (fun _ => True) (Contraction.show form plain) := by
  intro k hk x y s t hx hy hs ht he
  obtain ⟨⟨k', h1, h2⟩, h3⟩ := fields_read (form := form) (P := fun _ => True) (name := "Contraction")
    (fields := [("operand_indices", fun c : Contraction => showVec form (c.operandIndices.map (showChars form plain))),
      ("output_indices", fun c => showChars form plain c.outputIndices),
      ("summation_indices", fun c => showChars form plain c.summationIndices)]) (by simp)
    (by
      simp only [List.forall_mem_cons, List.not_mem_nil, false_implies, implies_true, and_true]
      exact ⟨(reads_charssIn form plain).free Contraction.operandIndices (by simp),
        (reads_charsIn form plain).free Contraction.outputIndices (by simp),
        (reads_charsIn form plain).free Contraction.summationIndices (by simp)⟩) hk hx hy hs ht he
  simp only [List.forall_mem_cons, List.not_mem_nil, false_implies, implies_true, and_true] at h2
  have e1 := (reads_charssIn form plain k' h1).inj trivial trivial h2.1
  have e2 := (reads_charsIn form plain k' h1).inj trivial trivial h2.2.1
  have e3 := (reads_charsIn form plain k' h1).inj trivial trivial h2.2.2
  refine ⟨?_, h3⟩
  cases x; cases y; simp_all

theorem reads_entry (form : Form) (plain : Char → Bool) :
    ReadsIn form (fun _ => True) fun e : Char × Nat => quoteChar plain e.1 ++ ": " ++ e.2.repr := by
  have hc := reads_charIn form plain
  have hn := reads_natIn form
  intro k hk x y s t _ _ hs ht he
  have hsep : ∀ r, Ends ((deeper k ": ").toList ++ r) := by
    intro r
    rw [deeper_plain k (by decide)]
    have : ": ".toList = [':', ' '] := by decide
    simp [Ends, this]
  simp only [deeper_append, String.toList_append, List.append_assoc] at he
  obtain ⟨e1, he⟩ := hc k hk x.1 y.1 _ _ trivial trivial (hsep _) (hsep _) he
  rw [List.append_cancel_left_eq] at he
  obtain ⟨e2, he⟩ := hn k hk x.2 y.2 _ _ trivial trivial hs ht he
  exact ⟨Prod.ext e1 e2, he⟩

theorem reads_map (form : Form) (plain : Char → Bool) :
    ReadsIn form (fun _ => True) (showSizes form plain) := by
  have h := (reads_items (reads_entry form plain) "{" "}" '}' (by decide) (by decide) (by decide) (by decide) (by decide)
    fun c => ⟨'\'', _, by simp [quoteChar]; rfl, by decide⟩).all fun _ => by simp
  unfold showSizes
  simpa only [showMap, List.map_map, Function.comp_def] using h

theorem reads_visited (form : Form) (plain : Char → Bool) :
    ReadsIn form (fun _ => True) (Visited.show form plain) := by
  intro k hk x y s t hx hy hs ht he
  obtain ⟨⟨k', h1, h2⟩, h3⟩ := fields_read (form := form) (P := fun _ => True) (name := "SizedContraction")
    (fields := [("contraction", fun x : Visited => x.contraction.show form plain),
      ("output_size", fun x => showSizes form plain x.entries)]) (by simp)
    (by
      simp only [List.forall_mem_cons, List.not_mem_nil, false_implies, implies_true, and_true]
      exact ⟨(reads_contraction form plain).free Visited.contraction (by simp),
        (reads_map form plain).free Visited.entries (by simp)⟩) hk hx hy hs ht he
  simp only [List.forall_mem_cons, List.not_mem_nil, false_implies, implies_true, and_true] at h2
  have e1 := (reads_contraction form plain k' h1).inj trivial trivial h2.1
  have e2 := (reads_map form plain k' h1).inj trivial trivial h2.2
  rcases x with ⟨c, e⟩
  rcases y with ⟨c', e'⟩
  exact ⟨congr (congrArg Visited.mk e1) e2, h3⟩

theorem reads_operandNumber (form : Form) : ReadsIn form (fun _ => True) (OperandNumber.show form) := by
  have hi := reads_tuple (reads_natIn form) "Input"
  have hr := reads_tuple (reads_natIn form) "IntermediateResult"
  have h1 : "Input".toList = ['I', 'n', 'p', 'u', 't'] := by decide
  have h2 : "IntermediateResult".toList = 'I' :: 'n' :: 't' :: "ermediateResult".toList := by decide
  intro k hk x y s t hx hy hs ht he
  cases x with
  | input m =>
    cases y with
    | input n =>
      obtain ⟨rfl, h⟩ := hi k hk m n s t trivial trivial hs ht he
      exact ⟨rfl, h⟩
    | intermediateResult n =>
      obtain ⟨r, hr⟩ := tuple_name form k "Input" m.repr (by decide)
      obtain ⟨q, hq⟩ := tuple_name form k "IntermediateResult" n.repr (by decide)
      simp [OperandNumber.show, hr, hq, h1, h2] at he
  | intermediateResult m =>
    cases y with
    | input n =>
      obtain ⟨r, hr⟩ := tuple_name form k "Input" n.repr (by decide)
      obtain ⟨q, hq⟩ := tuple_name form k "IntermediateResult" m.repr (by decide)
      simp [OperandNumber.show, hr, hq, h1, h2] at he
    | intermediateResult n =>
      obtain ⟨rfl, h⟩ := hr k hk m n s t trivial trivial hs ht he
      exact ⟨rfl, h⟩

theorem reads_operandNumPair (form : Form) : ReadsIn form (fun _ => True) (OperandNumPair.show form) := by
  intro k hk x y s t hx hy hs ht he
  obtain ⟨⟨k', h1, h2⟩, h3⟩ := fields_read (form := form) (P := fun _ => True) (name := "OperandNumPair")
    (fields := [("lhs", fun p : OperandNumPair => p.lhs.show form), ("rhs", fun p => p.rhs.show form)]) (by simp)
    (by
      simp only [List.forall_mem_cons, List.not_mem_nil, false_implies, implies_true, and_true]
      exact ⟨(reads_operandNumber form).free OperandNumPair.lhs (by simp),
        (reads_operandNumber form).free OperandNumPair.rhs (by simp)⟩) hk hx hy hs ht he
  simp only [List.forall_mem_cons, List.not_mem_nil, false_implies, implies_true, and_true] at h2
  have e1 := (reads_operandNumber form k' h1).inj trivial trivial h2.1
  have e2 := (reads_operandNumber form k' h1).inj trivial trivial h2.2
  refine ⟨?_, h3⟩
  cases x; cases y; simp_all

theorem reads_step (form : Form) (plain : Char → Bool) : ReadsIn form (fun _ => True) (showStep form plain) := by
  intro k hk x y s t hx hy hs ht he
  obtain ⟨⟨k', h1, h2⟩, h3⟩ := fields_read (form := form) (P := fun _ => True) (name := "Pair")
    (fields := [("sized_contraction", fun x : Visited × OperandNumPair => x.1.show form plain),
      ("operand_nums", fun x => x.2.show form)]) (by simp)
    (by
      simp only [List.forall_mem_cons, List.not_mem_nil, false_implies, implies_true, and_true]
      exact ⟨(reads_visited form plain).free Prod.fst (by simp),
        (reads_operandNumPair form).free Prod.snd (by simp)⟩) hk hx hy hs ht he
  simp only [List.forall_mem_cons, List.not_mem_nil, false_implies, implies_true, and_true] at h2
  have e1 := (reads_visited form plain k' h1).inj trivial trivial h2.1
  have e2 := (reads_operandNumPair form k' h1).inj trivial trivial h2.2
  exact ⟨Prod.ext e1 e2, h3⟩

theorem reads_steps (form : Form) (plain : Char → Bool) :
    ReadsIn form (fun _ => True) fun l : List (Visited × OperandNumPair) => showVec form (l.map (showStep form plain)) :=
  (reads_items (reads_step form plain) "[" "]" ']' (by decide) (by decide) (by decide) (by decide) (by decide)
    fun x => by
      obtain ⟨m, hm⟩ := items_first form ("Pair" ++ " {") " " "}" ([("sized_contraction", x.1.show form plain),
        ("operand_nums", x.2.show form)].map fun f => f.1 ++ ": " ++ f.2) (c := 'P') (l := ['a', 'i', 'r', ' ', '{'])
        (by decide)
      exact ⟨'P', m, hm, by decide⟩).all fun _ => by simp

theorem Visited.of_unique {x : Visited} {a b : SizedContraction} (ha : x.Of a) (hb : x.Of b) : a = b := by
  obtain ⟨c, m⟩ := a
  obtain ⟨d, n⟩ := b
  have h1 : c = d := ha.1.symm.trans hb.1
  have h2 : m = n := by
    funext l
    have h : ∀ v, m l = some v ↔ n l = some v := fun v => (ha.2.2 l v).symm.trans (hb.2.2 l v)
    exact Option.ext h
  rw [h1, h2]

theorem forall₂_unique {γ : Type} {R : α → γ → Prop} (hR : ∀ a b c, R a c → R b c → a = b) {l m : List α} {r : List γ}
    (h1 : List.Forall₂ R l r) (h2 : List.Forall₂ R m r) : l = m := by
  induction h1 generalizing m with
  | nil => cases h2; rfl
  | cons h _ ih =>
    cases h2 with
    | cons h' t => rw [hR _ _ _ h h', ih t]

/-- C106: a contraction can be read off its `Debug` output, in both forms and whatever its labels are. -/
theorem C106_contraction (form : Form) (plain : Char → Bool) (a b : Contraction) (h : a.show form plain = b.show form plain) :
    a = b :=
  (reads_contraction form plain).reads.inj trivial trivial h

/-- C106: so can a sized contraction, although its map is printed in any order. -/
theorem C106_sized (form : Form) (plain : Char → Bool) (a b : SizedContraction) (text : String)
    (ha : a.Prints form plain text) (hb : b.Prints form plain text) : a = b := by
  obtain ⟨x, hx, rfl⟩ := ha
  obtain ⟨y, hy, he⟩ := hb
  obtain rfl := (reads_visited form plain).reads.inj trivial trivial he
  exact Visited.of_unique hx hy

/-- C106: so can a contraction order. -/
theorem C106_order (form : Form) (plain : Char → Bool) (a b : ContractionOrder) (text : String)
    (ha : a.Prints form plain text) (hb : b.Prints form plain text) : a = b := by
  have h1 : "Singleton".toList = 'S' :: "ingleton".toList := by decide
  have h2 : "Pairs".toList = 'P' :: "airs".toList := by decide
  have hne : ∀ x y, showTuple form "Singleton" x ≠ showTuple form "Pairs" y := by
    intro x y he
    obtain ⟨r, hr⟩ := tuple_name form 0 "Singleton" x (by decide)
    obtain ⟨q, hq⟩ := tuple_name form 0 "Pairs" y (by decide)
    rw [he, hq] at hr
    simp [h1, h2] at hr
  generalize ht : text = text' at hb
  cases ha with
  | singleton sc x hx =>
    cases hb with
    | singleton sc' y hy =>
      obtain rfl := (reads_tuple (reads_visited form plain) "Singleton").reads.inj trivial trivial ht
      rw [Visited.of_unique hx hy]
    | pairs steps ys hy => exact absurd ht (hne _ _)
  | pairs steps xs hx =>
    cases hb with
    | singleton sc' y hy => exact absurd ht.symm (hne _ _)
    | pairs steps' ys hy =>
      obtain rfl := (reads_tuple (reads_steps form plain) "Pairs").reads.inj trivial trivial ht
      congr 1
      refine forall₂_unique ?_ hx hy
      rintro ⟨sa, na⟩ ⟨sb, nb⟩ x ⟨h1, h2⟩ ⟨h3, h4⟩
      obtain rfl : sa = sb := Visited.of_unique h1 h3
      obtain rfl : na = nb := h2.symm.trans h4
      rfl

/-- What can be serialised can be printed. -/
theorem prints_of_writes {o : ContractionOrder} {j : Json} (h : o.Writes j) (form : Form) (plain : Char → Bool) :
    ∃ text, o.Prints form plain text := by
  cases h with
  | singleton sc j h =>
    obtain ⟨e, he⟩ := h
    exact ⟨_, .singleton sc ⟨sc.contraction, e⟩ ⟨rfl, he⟩⟩
  | pairs steps js h =>
    have : ∃ xs : List (Visited × OperandNumPair),
        List.Forall₂ (fun st x => x.1.Of st.sizedContraction ∧ x.2 = st.operandNums) steps xs := by
      induction h with
      | nil => exact ⟨[], .nil⟩
      | @cons st j l l' h _ ih =>
        obtain ⟨xs, hx⟩ := ih
        obtain ⟨j, ⟨e, he⟩⟩ := h
        exact ⟨(⟨st.sizedContraction.contraction, e⟩, st.operandNums) :: xs, .cons ⟨⟨rfl, he⟩, rfl⟩ hx⟩
    obtain ⟨xs, hx⟩ := this
    exact ⟨_, .pairs steps xs hx⟩

/-- The order of a compiled path, and its compilation. -/
theorem compiled_order {A : Type} {h : HashOrd} {s : String} {ops : List (View A)} {m : OptimizationMethod}
    {p : EinsumPath} (hp : einsumPath h s ops m = .ok (.ok p)) :
    EinsumPath.fromPath (h.sub 1) p.contractionOrder = .ok p ∧ ∃ j, p.contractionOrder.Writes j := by
  obtain ⟨sc, o, -, h2, h3⟩ := einsumPath_inv hp
  rw [fromPath_order h3]
  refine ⟨h3, ?_⟩
  cases m with
  | naive => exact generatePath_writes h2
  | reverse => exact generatePath_writes h2
  | greedy => cases h2
  | optimal => cases h2
  | branch => cases h2

/-- C106: the order of a compiled path has a text; if the texts of the orders of two paths are the same, the orders are,
and the paths return the same on all arrays if they were compiled under the same hash order, or if no step simplifies an
operand. -/
theorem C106_runs {A B : Type} (form : Form) (plain : Char → Bool) (h h' : HashOrd) (s s' : String)
    (ops : List (View A)) (ops' : List (View B)) (m m' : OptimizationMethod) (p q : EinsumPath)
    (hp : einsumPath h s ops m = .ok (.ok p)) (hq : einsumPath h' s' ops' m' = .ok (.ok q)) :
    (∃ text, p.contractionOrder.Prints form plain text) ∧
    ∀ text, p.contractionOrder.Prints form plain text → q.contractionOrder.Prints form plain text →
      p.contractionOrder = q.contractionOrder ∧ (h.sub 1 = h'.sub 1 → p = q) ∧
      ((∀ steps, p.contractionOrder = .pairs steps → ∀ st ∈ steps, Plain st) →
        ∀ (C : Type) [Zero C] [Add C] [Mul C] [MulAdd C] (al : Alloc C) (operands : List (View C)),
          p.contractOperands al operands = q.contractOperands al operands) := by
  obtain ⟨p1, j, p2⟩ := compiled_order hp
  obtain ⟨q1, -⟩ := compiled_order hq
  refine ⟨prints_of_writes p2 form plain, fun text hpt hqt => ?_⟩
  have he := C106_order form plain _ _ text hpt hqt
  refine ⟨he, fun hh => ?_, fun hpl C _ _ _ _ al operands => ?_⟩
  · rw [he, hh, q1] at p1
    simpa using p1.symm
  · rw [← he] at q1
    cases ho : p.contractionOrder with
    | singleton sc =>
      rw [ho] at p1 q1
      rw [C100_singleton sc (h.sub 1) (h'.sub 1), q1] at p1
      obtain rfl : q = p := by simpa using p1
      rfl
    | pairs steps =>
      rw [ho] at p1 q1
      exact C100_literal steps (hpl steps ho) _ _ p q p1 q1 al operands

/-! ## Paths -/

theorem reads_simplification' (plain : Char → Bool) :
    Reads (fun _ => True) (SimplificationMethodAndOutput.show plain) := by
  intro x y s t hx hy hs ht he
  have h := (Readable.lit (P := fun _ => True) "SingletonContraction { method: "
    (.val (reads_singletonMethod.free SimplificationMethodAndOutput.method fun _ _ => trivial)
      (starts_lit ⟨',', " op: ".toList, by decide, by decide⟩) (.lit ", op: "
    (.val (reads_singletonOp.free SimplificationMethodAndOutput.op fun _ _ => trivial)
      (starts_lit ⟨',', " new_indices: ".toList, by decide, by decide⟩) (.lit ", new_indices: "
    (.val ((reads_charsIn .line plain).reads.free SimplificationMethodAndOutput.newIndices fun _ _ => trivial)
      (starts_lit ⟨',', " einsum_string: ".toList, by decide, by decide⟩) (.lit ", einsum_string: "
    (.val ((reads_quoteString plain).free SimplificationMethodAndOutput.einsumString fun _ _ => trivial)
      (starts_lit ⟨' ', ['}'], by decide, by decide⟩) (.lit " }" .nil))))))))).read hx hy hs ht he
  simp only [List.forall_mem_cons, List.not_mem_nil, false_implies, implies_true, and_true, true_and] at h
  obtain ⟨⟨h1, h2, h3, h4⟩, h5⟩ := h
  have e1 := reads_singletonMethod.inj trivial trivial h1
  have e2 := reads_singletonOp.inj trivial trivial h2
  have e3 := (reads_charsIn .line plain).reads.inj trivial trivial h3
  have e4 := (reads_quoteString plain).inj trivial trivial h4
  refine ⟨?_, h5⟩
  cases x; cases y; simp_all

theorem reads_pairContraction' (plain : Char → Bool) : Reads (fun _ => True) (PairContraction.show plain) := by
  have hopt : Reads (fun _ => True) (debugOption (SimplificationMethodAndOutput.show plain)) :=
    fun x y s t _ _ => reads_option (reads_simplification' plain) x y s t (fun _ _ => trivial) fun _ _ => trivial
  intro x y s t hx hy hs ht he
  have h := (Readable.lit (P := fun _ => True) "PairContraction { lhs_simplification: "
    (.val (hopt.free PairContraction.lhsSimplification fun _ _ => trivial)
      (starts_lit ⟨',', " rhs_simplification: ".toList, by decide, by decide⟩) (.lit ", rhs_simplification: "
    (.val (hopt.free PairContraction.rhsSimplification fun _ _ => trivial)
      (starts_lit ⟨',', " method: ".toList, by decide, by decide⟩) (.lit ", method: "
    (.val (reads_pairMethod.free PairContraction.method fun _ _ => trivial)
      (starts_lit ⟨',', " op: ".toList, by decide, by decide⟩) (.lit ", op: "
    (.val (reads_pairOp.free PairContraction.op fun _ _ => trivial)
      (starts_lit ⟨',', " simplified_einsum_string: ".toList, by decide, by decide⟩)
        (.lit ", simplified_einsum_string: "
    (.val ((reads_quoteString plain).free PairContraction.simplifiedEinsumString fun _ _ => trivial) (l := []) trivial
      .nil)))))))))).read hx hy hs ht he
  simp only [List.forall_mem_cons, List.not_mem_nil, false_implies, implies_true, and_true, true_and] at h
  obtain ⟨⟨h1, h2, h3, h4, h5⟩, h6⟩ := h
  have e1 := hopt.inj trivial trivial h1
  have e2 := hopt.inj trivial trivial h2
  have e3 := reads_pairMethod.inj trivial trivial h3
  have e4 := reads_pairOp.inj trivial trivial h4
  have e5 := (reads_quoteString plain).inj trivial trivial h5
  refine ⟨?_, h6⟩
  cases x; cases y; simp_all

theorem pair_first (plain : Char → Bool) (c : PairContraction) : ∃ l, (c.show plain).toList = 'P' :: l := by
  have h1 : "PairContraction { lhs_simplification: ".toList = 'P' :: "airContraction { lhs_simplification: ".toList := by
    decide
  exact ⟨_, by simp only [PairContraction.show, writePieces, String.toList_append, h1, List.cons_append]; rfl⟩

/-- C106: with the escapes, any two paths print the same text exactly if their steps are the same, also if they are built
by hand and their recorded strings contain quotes. -/
theorem C106_path (plain : Char → Bool) (p q : EinsumPath) : p.show plain = q.show plain ↔ p.steps = q.steps := by
  have hp : Reads (fun _ => True) fun l : List PairContraction => showVec .line (l.map (PairContraction.show plain)) := by
    have h0 : ReadsIn .line (fun _ => True) (PairContraction.show plain) := by
      intro k hk
      obtain rfl : k = 0 := hk rfl
      simpa only [deeper_zero] using reads_pairContraction' plain
    exact ((reads_items h0 "[" "]" ']' (by decide) (by decide) (by decide) (by decide) (by decide) fun c => by
      obtain ⟨l, hl⟩ := pair_first plain c
      exact ⟨'P', l, hl, by decide⟩).all fun _ => by simp).reads
  have ho : "only_step: ".toList = 'o' :: "nly_step: ".toList := by decide
  have hs : "steps: ".toList = 's' :: "teps: ".toList := by decide
  constructor
  · intro he
    replace he := congrArg String.toList he
    obtain ⟨po, ps⟩ := p
    obtain ⟨qo, qs⟩ := q
    cases ps with
    | singletonContraction c =>
      cases qs with
      | singletonContraction d =>
        simp only [EinsumPath.show, writePieces, String.toList_append, List.append_cancel_left_eq] at he
        obtain ⟨rfl, -⟩ := reads_singletonContraction c d [] [] trivial trivial ends_nil ends_nil (by simpa using he)
        rfl
      | pairContractions ds =>
        simp only [EinsumPath.show, writePieces, String.toList_append, ho, hs, List.cons_append, List.cons.injEq] at he
        exact absurd he.1 (by decide)
    | pairContractions cs =>
      cases qs with
      | singletonContraction d =>
        simp only [EinsumPath.show, writePieces, String.toList_append, ho, hs, List.cons_append, List.cons.injEq] at he
        exact absurd he.1 (by decide)
      | pairContractions ds =>
        simp only [EinsumPath.show, writePieces, String.toList_append, List.append_cancel_left_eq] at he
        obtain ⟨rfl, -⟩ := hp cs ds [] [] trivial trivial ends_nil ends_nil (by simpa using he)
        rfl
  · intro he
    simp only [EinsumPath.show, he]

theorem escape_written {plain : Char → Bool} {q c : Char} (hq : q = '\'' ∨ q = '"') (hw : Written c)
    (hp : plain c = true) : escapeChar plain q c = String.singleton c := by
  have hne : ∀ d : Char, ¬ Written d → c ≠ d := fun d hd h => hd (h ▸ hw)
  have hnw : ∀ d : Char, d ∈ ['\x00', '\t', '\r', '\n', '\\', '\'', '"'] → ¬ Written d := by
    intro d hd
    simp only [List.mem_cons, List.not_mem_nil, or_false] at hd
    rcases hd with rfl | rfl | rfl | rfl | rfl | rfl | rfl <;> simp [Written, Letter]
  have hcq : c ≠ q := by
    rcases hq with rfl | rfl
    · exact hne _ (hnw _ (by simp))
    · exact hne _ (hnw _ (by simp))
  unfold escapeChar
  rw [if_neg (hne _ (hnw _ (by simp))), if_neg (hne _ (hnw _ (by simp))), if_neg (hne _ (hnw _ (by simp))),
    if_neg (hne _ (hnw _ (by simp))), if_neg (hne _ (hnw _ (by simp))), if_neg hcq, if_pos hp]

/-- C106: in a compiled path nothing is escaped, so that `{:?}` and `{:#?}` print the text of C56 and C69. -/
theorem C106_compiled {A : Type} (plain : Char → Bool) (hpl : ∀ c, Written c → plain c = true) (h : HashOrd) (s : String)
    (operands : List (View A)) (inputs : List (List Char)) (out : List Char) (dims : Char → Nat)
    (hd : Denotes s inputs out) (hs : Sized dims inputs (operands.map View.shape)) (m : OptimizationMethod)
    (p : EinsumPath) (hp : einsumPath h s operands m = .ok (.ok p)) : p.show plain = p.debug := by
  have hm : m = .naive ∨ m = .reverse := by
    obtain ⟨sc, o, -, h2, -⟩ := einsumPath_inv hp
    cases m with
    | naive => exact .inl rfl
    | reverse => exact .inr rfl
    | greedy => cases h2
    | optimal => cases h2
    | branch => cases h2
  obtain ⟨hl, -⟩ := compiled_lettered hd hs hm hp
  have hstr : ∀ x : String, (∀ c ∈ x.toList, Written c) → quoteString plain x = debugString x := by
    intro x hx
    have key : ∀ l : List Char, (∀ c ∈ l, Written c) → writePieces (l.map (escapeChar plain '"')) = String.ofList l := by
      intro l
      induction l with
      | nil => intro _; rfl
      | cons c l ih =>
        intro h
        rw [List.map_cons, writePieces, ih fun d hd => h d (by simp [hd]),
          escape_written (.inr rfl) (h c (by simp)) (hpl c (h c (by simp)))]
        apply String.toList_injective
        simp
    rw [quoteString, key _ hx, String.ofList_toList]
    rfl
  have hchars : ∀ l : List Char, (∀ c ∈ l, Letter c) → showChars .line plain l = debugChars l := by
    intro l h
    have : l.map (quoteChar plain) = l.map fun c => "'" ++ String.singleton c ++ "'" :=
      List.map_congr_left fun c hc => by
        rw [quoteChar, escape_written (.inl rfl) (.inl (h c hc)) (hpl c (.inl (h c hc)))]
    simp [showChars, showVec, debugItems, debugChars, debugVec, this]
  have hsimp : ∀ o : Option SimplificationMethodAndOutput, (∀ y ∈ o, y.Lettered) →
      debugOption (SimplificationMethodAndOutput.show plain) o = debugOption SimplificationMethodAndOutput.debug o := by
    intro o h
    cases o with
    | none => rfl
    | some y =>
      have hy := h y rfl
      simp only [debugOption, SimplificationMethodAndOutput.show, SimplificationMethodAndOutput.debug, hchars _ hy.1,
        hstr _ hy.2]
  unfold EinsumPath.show EinsumPath.debug
  cases hst : p.steps with
  | singletonContraction c => rfl
  | pairContractions cs =>
    rw [hst] at hl
    have : cs.map (PairContraction.show plain) = cs.map PairContraction.debug :=
      List.map_congr_left fun c hc => by
        have hc := hl c hc
        simp only [PairContraction.show, PairContraction.debug, hsimp _ hc.1, hsimp _ hc.2.1, hstr _ hc.2.2]
    simp [showVec, debugItems, debugVec, this]

/-- C106: the other printed types. -/
theorem C106_others (form : Form) : (∀ a b : SingletonSummary, a.show form = b.show form → a = b) ∧
    (∀ a b : PairSummary, a.show form = b.show form → a = b) ∧
    (∀ a b : OptimizationMethod, a.show = b.show → a = b) ∧
    (∀ a b : OperandNumPair, a.show form = b.show form → a = b) := by
  have hn := reads_natIn form
  refine ⟨fun x y he => ?_, fun x y he => ?_, fun a b => ?_, fun a b he => ?_⟩
  · obtain ⟨⟨k', h1, h2⟩, -⟩ := fields_read (form := form) (P := fun _ => True) (name := "SingletonSummary")
      (fields := [("num_summed_axes", fun x : SingletonSummary => x.numSummedAxes.repr),
        ("num_diagonalized_axes", fun x => x.numDiagonalizedAxes.repr),
        ("num_reordered_axes", fun x => x.numReorderedAxes.repr)]) (by simp)
      (by
        simp only [List.forall_mem_cons, List.not_mem_nil, false_implies, implies_true, and_true]
        exact ⟨hn.free SingletonSummary.numSummedAxes (by simp), hn.free SingletonSummary.numDiagonalizedAxes (by simp),
          hn.free SingletonSummary.numReorderedAxes (by simp)⟩) (at_zero form) (x := x) (y := y) trivial trivial ends_nil
      ends_nil (congrArg (fun t => (deeper 0 t).toList ++ []) he)
    simp only [List.forall_mem_cons, List.not_mem_nil, false_implies, implies_true, and_true] at h2
    have e1 := (hn k' h1).inj trivial trivial h2.1
    have e2 := (hn k' h1).inj trivial trivial h2.2.1
    have e3 := (hn k' h1).inj trivial trivial h2.2.2
    cases x; cases y; simp_all
  · obtain ⟨⟨k', h1, h2⟩, -⟩ := fields_read (form := form) (P := fun _ => True) (name := "PairSummary")
      (fields := [("num_stacked_axes", fun x : PairSummary => x.numStackedAxes.repr),
        ("num_lhs_outer_axes", fun x => x.numLhsOuterAxes.repr), ("num_rhs_outer_axes", fun x => x.numRhsOuterAxes.repr),
        ("num_contracted_axes", fun x => x.numContractedAxes.repr)]) (by simp)
      (by
        simp only [List.forall_mem_cons, List.not_mem_nil, false_implies, implies_true, and_true]
        exact ⟨hn.free PairSummary.numStackedAxes (by simp), hn.free PairSummary.numLhsOuterAxes (by simp),
          hn.free PairSummary.numRhsOuterAxes (by simp), hn.free PairSummary.numContractedAxes (by simp)⟩) (at_zero form)
      (x := x) (y := y) trivial trivial ends_nil ends_nil (congrArg (fun t => (deeper 0 t).toList ++ []) he)
    simp only [List.forall_mem_cons, List.not_mem_nil, false_implies, implies_true, and_true] at h2
    have e1 := (hn k' h1).inj trivial trivial h2.1
    have e2 := (hn k' h1).inj trivial trivial h2.2.1
    have e3 := (hn k' h1).inj trivial trivial h2.2.2.1
    have e4 := (hn k' h1).inj trivial trivial h2.2.2.2
    cases x; cases y; simp_all
  · cases a <;> cases b <;> first | (intro; rfl) | (intro h; exact absurd h (by decide))
  · exact (reads_operandNumPair form).reads.inj trivial trivial he

/-- C106: the names printed for the methods are those written by serde. -/
theorem C106_methods (m : OptimizationMethod) : m.write = .str m.show := by
  cases m <;> rfl

/-! ## Examples -/

namespace Ex

/-- The order of a product, as printed by `{:?}` if the map is visited in the order `k`, `i`, `j`. -/
theorem matmulPrints (form : Form) (plain : Char → Bool) : (ContractionOrder.pairs [matmulStep]).Prints form plain
    (showTuple form "Pairs" (showVec form [showStep form plain
      (⟨matmulStep.sizedContraction.contraction, [('k', 2), ('i', 2), ('j', 3)]⟩, matmulStep.operandNums)])) :=
  .pairs _ [_] (.cons ⟨⟨rfl, matmulEntries⟩, rfl⟩ .nil)

example : (ContractionOrder.pairs [matmulStep]).Prints .line (fun _ => true)
    ("Pairs([Pair { sized_contraction: SizedContraction { contraction: Contraction { operand_indices: [['i', 'j'], " ++
      "['j', 'k']], output_indices: ['i', 'k'], summation_indices: ['j'] }, output_size: {'k': 2, 'i': 2, 'j': 3} }, " ++
      "operand_nums: OperandNumPair { lhs: Input(1), rhs: IntermediateResult(0) } }])") := by
  have h := matmulPrints .line fun _ => true
  have e : showTuple .line "Pairs" (showVec .line [showStep .line (fun _ => true)
      (⟨matmulStep.sizedContraction.contraction, [('k', 2), ('i', 2), ('j', 3)]⟩, matmulStep.operandNums)]) =
    "Pairs([Pair { sized_contraction: SizedContraction { contraction: Contraction { operand_indices: [['i', 'j'], " ++
      "['j', 'k']], output_indices: ['i', 'k'], summation_indices: ['j'] }, output_size: {'k': 2, 'i': 2, 'j': 3} }, " ++
      "operand_nums: OperandNumPair { lhs: Input(1), rhs: IntermediateResult(0) } }])" := by decide +kernel
  rwa [e] at h

example (o : ContractionOrder) (h : o.Prints .pretty (fun _ => true) (showTuple .pretty "Pairs" (showVec .pretty
    [showStep .pretty (fun _ => true)
      (⟨matmulStep.sizedContraction.contraction, [('k', 2), ('i', 2), ('j', 3)]⟩, matmulStep.operandNums)]))) :
    o = .pairs [matmulStep] :=
  C106_order _ _ _ _ _ h (matmulPrints _ _)

/-- Labels that are escaped. -/
example : (Contraction.mk [['i', '\''], ['\n', '\x07']] ['"'] []).show .line (fun c => c.toNat ≥ 32) =
    "Contraction { operand_indices: [['i', '\\''], ['\\n', '\\u{7}']], output_indices: ['\"'], summation_indices: [] }" := by
  decide +kernel

example : (Contraction.mk [['i']] [] ['i']).show .pretty (fun _ => true) =
    "Contraction {\n    operand_indices: [\n        [\n            'i',\n        ],\n    ],\n    output_indices: [],\n" ++
      "    summation_indices: [\n        'i',\n    ],\n}" := by
  decide +kernel

/-- The orders of the paths that C69 cannot tell apart have different texts. -/
example : ∃ p q, einsumPath HashOrd.insertion "i,i,i->i" [first 10, first 20, first 30] .naive = .ok (.ok p) ∧
    einsumPath HashOrd.insertion "i,i,i->i" [first 10, first 20, first 30] .reverse = .ok (.ok q) ∧
    p.show (fun _ => true) = q.show (fun _ => true) ∧ ∀ form plain text,
      ¬ (p.contractionOrder.Prints form plain text ∧ q.contractionOrder.Prints form plain text) := by
  obtain ⟨p, q, hp, hq, he, h1, h2⟩ := C69_order_not_shown
  have hd : Denotes "i,i,i->i" [['i'], ['i'], ['i']] ['i'] :=
    .inl ⟨by decide, ⟨by simp, by simp [Letter], by simp [Letter]⟩, by simp [OutputOk, Used]⟩
  have hs : Sized (fun _ => 2) [['i'], ['i'], ['i']] ([first 10, first 20, first 30].map View.shape) :=
    .cons rfl (.cons rfl (.cons rfl .nil))
  refine ⟨p, q, hp, hq, ?_, fun form plain text h => ?_⟩
  · rw [C106_compiled _ (by simp) _ _ _ _ _ _ hd hs _ p hp, C106_compiled _ (by simp) _ _ _ _ _ _ hd hs _ q hq, he]
  · obtain ⟨-, hr⟩ := C106_runs form plain _ _ _ _ _ _ _ _ p q hp hq
    obtain rfl := (hr text h.1 h.2).2.1 rfl
    rw [h1] at h2
    exact absurd h2 (by decide)

end Ex

end Einsum
