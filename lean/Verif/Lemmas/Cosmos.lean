import Verif.Spec.Cosmos
import Verif.Lemmas.Printer
import Verif.Lemmas.Symbols
import Verif.Lemmas.Comments
import Verif.Lemmas.SizeSpec
import Verif.Lemmas.Files

namespace Apg
open Spec

/-! ### Words -/

theorem words_blank (t : Text) : words (' ' :: t) = words t := by simp [words]

theorem words_blanks (n : Nat) (t : Text) : words (List.replicate n ' ' ++ t) = words t := by
  induction n with
  | zero => rfl
  | succ n ih => rw [List.replicate_succ, List.cons_append, words_blank, ih]

theorem words_word {w : Text} (hne : w ≠ []) (hw : ' ' ∉ w) (t : Text) :
    words (w ++ ' ' :: t) = w :: words t := by
  induction w with
  | nil => exact absurd rfl hne
  | cons c w ih =>
    simp only [List.mem_cons, not_or] at hw
    have hc : c ≠ ' ' := fun h => hw.1 h.symm
    cases w with
    | nil => simp [words, hc]
    | cons d w =>
      have hd : d ≠ ' ' := fun h => hw.2 (by rw [h]; exact List.Mem.head _)
      have := ih (by simp) hw.2
      rw [List.cons_append, words, if_neg hc, this]
      simp [hd]

theorem words_end {w : Text} (hne : w ≠ []) (hw : ' ' ∉ w) : words w = [w] := by
  induction w with
  | nil => exact absurd rfl hne
  | cons c w ih =>
    simp only [List.mem_cons, not_or] at hw
    have hc : c ≠ ' ' := fun h => hw.1 h.symm
    cases w with
    | nil => simp [words, hc]
    | cons d w =>
      have hd : d ≠ ' ' := fun h => hw.2 (by rw [h]; exact List.Mem.head _)
      have := ih (by simp) hw.2
      rw [words, if_neg hc, this]
      simp [hd]

theorem words_end_blanks {w : Text} (hne : w ≠ []) (hw : ' ' ∉ w) (n : Nat) :
    words (w ++ List.replicate n ' ') = [w] := by
  cases n with
  | zero => simpa using words_end hne hw
  | succ n =>
    rw [List.replicate_succ, words_word hne hw]
    have := words_blanks n []
    simp only [List.append_nil] at this
    rw [this]; rfl

theorem words_trailing (t : Text) : words (t ++ [' ']) = words t := by
  induction t with
  | nil => simp [words]
  | cons c t ih =>
    rw [List.cons_append, words, words, ih]
    split
    · rfl
    · cases t with
      | nil => simp [words]
      | cons d t => simp

theorem words_padRight {w : Text} (hne : w ≠ []) (hw : ' ' ∉ w) (n : Nat) (t : Text) :
    words (padRight n w ++ ' ' :: t) = w :: words t := by
  unfold padRight
  rw [List.append_assoc]
  cases n - w.length with
  | zero => simpa using words_word hne hw t
  | succ k =>
    rw [List.replicate_succ, List.cons_append, words_word hne hw, words_blanks, words_blank]

theorem words_padLeft {w : Text} (hne : w ≠ []) (hw : ' ' ∉ w) (n : Nat) (t : Text) :
    words (padLeft n w ++ ' ' :: t) = w :: words t := by
  unfold padLeft
  rw [List.append_assoc, words_blanks, words_word hne hw]

theorem words_padLeft_end (n : Nat) (w : Text) : words (padLeft n w ++ [' ']) = words w := by
  unfold padLeft
  rw [List.append_assoc, words_blanks, words_trailing]

/-! ### Lines -/

theorem takeWhile_quote {a b : Text} (h : '"' ∉ a) : (a ++ '"' :: b).takeWhile (· ≠ '"') = a := by
  induction a with
  | nil => simp
  | cons c a ih =>
    simp only [List.mem_cons, not_or] at h
    have hc : c ≠ '"' := fun e => h.1 e.symm
    simp only [List.cons_append, List.takeWhile_cons, ih h.2]
    simp [hc]

theorem takeWhile_no_quote {a : Text} (h : '"' ∉ a) : a.takeWhile (· ≠ '"') = a := by
  induction a with
  | nil => simp
  | cons c a ih =>
    simp only [List.mem_cons, not_or] at h
    have hc : c ≠ '"' := fun e => h.1 e.symm
    simp only [List.takeWhile_cons, ih h.2]
    simp [hc]

/-- Reading line by line. -/
theorem readRest_line {l : Text} (h : '\n' ∉ l) (t : Text) :
    readRest (l ++ '\n' :: t) = (readRest t).add (readLine l) := by
  unfold readRest
  rw [linesOf_append, linesOf_single h]
  rfl

theorem readRest_nil : readRest [] = {} := by decide

theorem dropTrailingSpace_mid {a : Text} (h : '\n' ∉ a) (b : Text) (hb : b.head? ≠ some '\n') :
    dropTrailingSpace (a ++ b) = a ++ dropTrailingSpace b := by
  induction a with
  | nil => rfl
  | cons c a ih =>
    simp only [List.mem_cons, not_or] at h
    have hc : c ≠ '\n' := fun e => h.1 e.symm
    have hh : (a ++ b).head? ≠ some '\n' := by
      cases a with
      | nil => simpa using hb
      | cons d a =>
        simp only [List.cons_append, List.head?_cons, ne_eq, Option.some.injEq]
        exact fun e => h.2 (by rw [e]; exact List.Mem.head _)
    rw [List.cons_append]
    cases hab : a ++ b with
    | nil =>
      rw [hab] at ih
      have := ih h.2
      simp only [List.append_eq_nil_iff] at hab
      obtain ⟨rfl, rfl⟩ := hab
      simp [dropTrailingSpace]
    | cons d r =>
      rw [hab] at hh ih
      simp only [List.head?_cons, ne_eq, Option.some.injEq] at hh
      rw [dropTrailingSpace]
      · rw [ih h.2]; rfl
      · intro r' h1 h2; cases h2; exact hh rfl

/-- Text with none of the characters that end a line or start a description. -/
def Plain (t : Text) : Prop := ∀ c ∈ t, c ≠ '\n' ∧ c ≠ '"'

theorem Plain.append {a b : Text} (ha : Plain a) (hb : Plain b) : Plain (a ++ b) := by
  intro c hc
  rcases List.mem_append.1 hc with h | h
  · exact ha c h
  · exact hb c h

theorem Plain.cons {c : Char} {b : Text} (ha : c ≠ '\n' ∧ c ≠ '"') (hb : Plain b) : Plain (c :: b) := by
  intro d hd
  rcases List.mem_cons.1 hd with rfl | h
  · exact ha
  · exact hb d h

theorem Plain.newline {a : Text} (ha : Plain a) : '\n' ∉ a := fun h => (ha _ h).1 rfl
theorem Plain.quote {a : Text} (ha : Plain a) : '"' ∉ a := fun h => (ha _ h).2 rfl

theorem Plain.blanks (n : Nat) : Plain (List.replicate n ' ') := by
  intro c hc
  rw [(List.mem_replicate.1 hc).2]; decide

theorem Plain.padLeft {t : Text} (h : Plain t) (n : Nat) : Plain (padLeft n t) :=
  Plain.append (Plain.blanks _) h

theorem Plain.padRight {t : Text} (h : Plain t) (n : Nat) : Plain (padRight n t) :=
  Plain.append h (Plain.blanks _)

theorem Spec.IsWord.plain {t : Text} (h : IsWord t) : Plain t := fun c hc => ⟨(h.2 c hc).2.1, (h.2 c hc).2.2⟩
theorem Spec.IsWord.blank {t : Text} (h : IsWord t) : ' ' ∉ t := fun hc => (h.2 _ hc).1 rfl

theorem isWord_digits (n : Nat) : IsWord (digits 10 n) := by
  refine ⟨digits_ne_nil _ _, fun c hc => ?_⟩
  have := digits_chars n c hc
  refine ⟨?_, ?_, ?_⟩ <;> rintro rfl <;> exact absurd this (by decide)

theorem isWord_intText (i : Int) : IsWord (intText i) := by
  refine ⟨?_, fun c hc => ?_⟩
  · unfold intText
    split
    · simp
    · exact digits_ne_nil _ _
  · have := intText_chars i c hc
    refine ⟨?_, ?_, ?_⟩ <;> rintro rfl <;> exact absurd this (by decide)

/-- An entry whose texts are as validation leaves them. -/
structure GoodEntry (p : Printer) (e : Entry) : Prop where
  name : IsWord e.name
  specific : Plain e.specific
  comment : '\n' ∉ e.comment
  states : ∀ s ∈ e.states, IsWord s
  unit : ∀ c ∈ e.unit, c ≠ ' ' ∧ c ≠ '\n' ∧ c ≠ '"'
  range : ∀ r, e.range = some r → IsWord (p.num r.1) ∧ IsWord (p.num r.2)

/-- The part of an item line before the description. -/
def itemHead (e : Entry) : Text :=
  "    ".toList ++ (padRight 19 (itemFields e).2.2.text ++ ' ' :: (padRight 31 e.name ++
    ' ' :: (padLeft 7 (intText e.bits) ++ ' ' :: (padRight 7 (itemFields e).1 ++
    ' ' :: (padLeft 7 (itemFields e).2.1 ++ [' '])))))

theorem itemKind_word (k : ItemKind) : IsWord k.text := by
  cases k <;> exact ⟨by decide, by decide⟩

/-- Text of the type of an item. -/
def typeText : CType → Text
  | .bool => "UINT".toList
  | .double => "FLOAT".toList
  | .uint => "UINT".toList
  | .int => "INT".toList
  | .string => "STRING".toList
  | .float => "FLOAT".toList

theorem itemFields_type (e : Entry) : (itemFields e).1 = typeText e.ctype := rfl

theorem itemType_word (e : Entry) : IsWord (itemFields e).1 := by
  rw [itemFields_type]
  cases e.ctype <;> exact ⟨by decide, by decide⟩

theorem itemValue_plain {p : Printer} {e : Entry} (h : GoodEntry p e) : Plain (itemFields e).2.1 := by
  unfold itemFields
  simp only
  split
  · split <;> unfold Plain <;> decide
  · exact h.specific

theorem itemHead_plain {p : Printer} {e : Entry} (h : GoodEntry p e) : Plain (itemHead e) := by
  have hb : (' ' : Char) ≠ '\n' ∧ (' ' : Char) ≠ '"' := by decide
  unfold itemHead
  refine Plain.append (by unfold Plain; decide) (Plain.append ((itemKind_word _).plain.padRight _)
    (Plain.cons hb (Plain.append (h.name.plain.padRight _) (Plain.cons hb
    (Plain.append ((isWord_intText _).plain.padLeft _) (Plain.cons hb
    (Plain.append ((itemType_word e).plain.padRight _) (Plain.cons hb
    (Plain.append ((itemValue_plain h).padLeft _) (Plain.cons hb ?_))))))))))
  intro c hc; cases hc

theorem itemHead_words {p : Printer} {e : Entry} (h : GoodEntry p e) :
    words (itemHead e) = (itemFields e).2.2.text :: e.name :: intText e.bits :: (itemFields e).1 ::
      words (itemFields e).2.1 := by
  unfold itemHead
  rw [show "    ".toList = List.replicate 4 ' ' by decide, words_blanks,
    words_padRight (itemKind_word _).1 (itemKind_word _).blank,
    words_padRight h.name.1 h.name.blank,
    words_padLeft (isWord_intText _).1 (isWord_intText _).blank,
    words_padRight (itemType_word e).1 (itemType_word e).blank, words_padLeft_end]

/-- An item line without its line break. -/
def itemBody (e : Entry) : Text :=
  itemHead e ++ '"' :: (e.comment ++ '"' :: (if e.little then " LITTLE_ENDIAN".toList else []))

theorem itemLine_eq {p : Printer} {e : Entry} (h : GoodEntry p e) :
    itemLine e = itemBody e ++ ['\n'] := by
  have hpre : itemLine e = dropTrailingSpace ((itemHead e ++ '"' :: (e.comment ++ ['"'])) ++
      (' ' :: ((if e.little then "LITTLE_ENDIAN".toList else []) ++ ['\n']))) := by
    unfold itemLine itemHead
    simp only [List.append_assoc, List.cons_append, List.nil_append]
    rfl
  have hn : '\n' ∉ itemHead e ++ '"' :: (e.comment ++ ['"']) := by
    simp only [List.mem_append, List.mem_cons, List.not_mem_nil, or_false, not_or]
    exact ⟨(itemHead_plain h).newline, by decide, h.comment, by decide⟩
  rw [hpre, dropTrailingSpace_mid hn _ (by rw [List.head?_cons]; decide)]
  unfold itemBody
  cases e.little with
  | false =>
    rw [show dropTrailingSpace (' ' :: ((if false = true then "LITTLE_ENDIAN".toList else []) ++ ['\n'])) =
      ['\n'] by decide]
    simp
  | true =>
    rw [show dropTrailingSpace (' ' :: ((if true = true then "LITTLE_ENDIAN".toList else []) ++ ['\n'])) =
      " LITTLE_ENDIAN".toList ++ ['\n'] by decide, if_pos rfl]
    generalize " LITTLE_ENDIAN".toList = s
    simp

theorem itemBody_newline {p : Printer} {e : Entry} (h : GoodEntry p e) : '\n' ∉ itemBody e := by
  unfold itemBody
  simp only [List.mem_append, List.mem_cons, not_or]
  refine ⟨(itemHead_plain h).newline, by decide, h.comment, by decide, ?_⟩
  split <;> decide

theorem itemBody_little (e : Entry) :
    "\" LITTLE_ENDIAN".toList.isSuffixOf (itemBody e) = e.little := by
  unfold itemBody
  cases e.little with
  | true =>
    rw [List.isSuffixOf_iff_suffix, if_pos rfl]
    rw [show "\" LITTLE_ENDIAN".toList = '"' :: " LITTLE_ENDIAN".toList by decide]
    generalize " LITTLE_ENDIAN".toList = s
    exact ⟨itemHead e ++ '"' :: e.comment, by simp⟩
  | false =>
    rw [Bool.eq_false_iff]
    intro h
    rw [List.isSuffixOf_iff_suffix] at h
    obtain ⟨a, ha⟩ := h
    have := congrArg List.getLast? ha
    rw [show "\" LITTLE_ENDIAN".toList = "\" LITTLE_ENDIA".toList ++ ['N'] by decide] at this
    generalize "\" LITTLE_ENDIA".toList = s at this
    rw [← List.append_assoc, List.getLast?_append] at this
    simp [List.getLast?_append, List.getLast?_cons] at this

/-- What is read back from an item line. -/
theorem readLine_item {p : Printer} {e : Entry} (h : GoodEntry p e) :
    readLine (itemBody e) = .item (itemFields e).2.2.text e.name (some e.bits) (itemFields e).1
      (words (itemFields e).2.1) e.little := by
  have hw : words ((itemBody e).takeWhile (· ≠ '"')) = (itemFields e).2.2.text :: e.name ::
      intText e.bits :: (itemFields e).1 :: words (itemFields e).2.1 := by
    rw [show itemBody e = itemHead e ++ '"' :: (e.comment ++ '"' ::
      (if e.little then " LITTLE_ENDIAN".toList else [])) from rfl, takeWhile_quote (itemHead_plain h).quote,
      itemHead_words h]
  unfold readLine
  rw [hw, itemBody_little]
  simp only
  have hk : ∀ k : ItemKind, k.text ≠ "TELEMETRY".toList ∧ (k.text = "APPEND_ITEM".toList ∨
      k.text = "APPEND_ID_ITEM".toList ∨ k.text = "APPEND_ARRAY_ITEM".toList) := by
    intro k; cases k <;> decide
  rw [if_neg (hk _).1, if_pos (hk _).2, readInt_intText]

theorem readLine_state {s : Text} (h : IsWord s) (i : Nat) :
    readLine ("        STATE ".toList ++ padRight 31 s ++ ' ' :: digits 10 i) =
      .state s (some i) := by
  have hd := isWord_digits i
  have hp : Plain ("        STATE ".toList ++ padRight 31 s ++ ' ' :: digits 10 i) :=
    Plain.append (Plain.append (by unfold Plain; decide) (h.plain.padRight _))
      (Plain.cons (by decide) hd.plain)
  have hw : words ("        STATE ".toList ++ padRight 31 s ++ ' ' :: digits 10 i) =
      ["STATE".toList, s, digits 10 i] := by
    rw [show "        STATE ".toList = List.replicate 8 ' ' ++ ("STATE".toList ++ [' ']) by decide]
    simp only [List.append_assoc, List.cons_append, List.nil_append]
    rw [words_blanks, words_word (by decide) (by decide), words_padRight h.1 h.blank,
      words_end hd.1 hd.blank]
  unfold readLine
  rw [takeWhile_no_quote hp.quote, hw]
  simp only
  rw [if_neg (by decide), if_neg (by decide), if_pos trivial]
  have := readInt_intText (i : Int)
  rw [show intText (i : Int) = digits 10 i by unfold intText; rw [if_neg (by omega)]; rfl] at this
  rw [this]

theorem stateLine_newline {s : Text} (h : IsWord s) (i : Nat) :
    '\n' ∉ "        STATE ".toList ++ padRight 31 s ++ ' ' :: digits 10 i :=
  (Plain.append (Plain.append (by unfold Plain; decide) (h.plain.padRight _))
    (Plain.cons (by decide) (isWord_digits i).plain)).newline

/-- The states with their numbers. -/
def numbered : Nat → List Text → List (List Char × Option Int)
  | _, [] => []
  | i, s :: ss => (s, some (i : Int)) :: numbered (i + 1) ss

theorem stateLines_cons (i : Nat) (s : Text) (ss : List Text) (t : Text) : stateLines i (s :: ss) ++ t =
    ("        STATE ".toList ++ padRight 31 s ++ ' ' :: digits 10 i) ++ '\n' ::
      (stateLines (i + 1) ss ++ t) := by
  have h : stateLines i (s :: ss) = ("        STATE ".toList ++ padRight 31 s ++ ' ' :: digits 10 i) ++
    '\n' :: stateLines (i + 1) ss := rfl
  rw [h]
  generalize "        STATE ".toList ++ padRight 31 s ++ ' ' :: digits 10 i = a
  simp

theorem readRest_states {ss : List Text} (h : ∀ s ∈ ss, IsWord s) (t : Text) : ∀ i : Nat,
    readRest (stateLines i ss ++ t) =
      { readRest t with states := numbered i ss ++ (readRest t).states } := by
  induction ss with
  | nil => intro i; rfl
  | cons s ss ih =>
    intro i
    have hs := h s (List.Mem.head _)
    rw [stateLines_cons, readRest_line (stateLine_newline hs i), ih (fun s hs => h s (List.Mem.tail _ hs)),
      readLine_state hs]
    rfl

/-- The words of a LIMITS line. -/
def limitArgs (p : Printer) (r : Num × Num) : List Text :=
  ["DEFAULT".toList, ['5'], "ENABLED".toList, p.num r.1, p.num r.1, p.num r.2, p.num r.2]

/-- A LIMITS line without its line break. -/
def limitsBody (p : Printer) (r : Num × Num) : Text :=
  "        LIMITS DEFAULT 5 ENABLED ".toList ++ (p.num r.1 ++ ' ' :: (p.num r.1 ++ ' ' :: (p.num r.2 ++
    ' ' :: p.num r.2)))

theorem limitsBody_plain {p : Printer} {r : Num × Num} (h1 : IsWord (p.num r.1))
    (h2 : IsWord (p.num r.2)) : Plain (limitsBody p r) := by
  have hb : (' ' : Char) ≠ '\n' ∧ (' ' : Char) ≠ '"' := by decide
  exact Plain.append (by unfold Plain; decide) (Plain.append h1.plain (Plain.cons hb
    (Plain.append h1.plain (Plain.cons hb (Plain.append h2.plain (Plain.cons hb h2.plain))))))

theorem readLine_limits {p : Printer} {r : Num × Num} (h1 : IsWord (p.num r.1))
    (h2 : IsWord (p.num r.2)) : readLine (limitsBody p r) = .limits (limitArgs p r) := by
  have hw : words (limitsBody p r) = "LIMITS".toList :: limitArgs p r := by
    unfold limitsBody
    rw [show "        LIMITS DEFAULT 5 ENABLED ".toList = List.replicate 8 ' ' ++
      ("LIMITS".toList ++ ' ' :: ("DEFAULT".toList ++ ' ' :: (['5'] ++ ' ' ::
        ("ENABLED".toList ++ [' '])))) by decide]
    have e1 : words "LIMITS".toList = ["LIMITS".toList] := by decide
    simp only [List.append_assoc, List.cons_append]
    rw [words_blanks, words_word (by decide) (by decide), words_word (by decide) (by decide)]
    rw [show ∀ t : Text, '5' :: ([] ++ ' ' :: t) = ['5'] ++ ' ' :: t from fun _ => rfl,
      words_word (by decide) (by decide), words_word (by decide) (by decide)]
    simp only [List.nil_append]
    rw [words_word h1.1 h1.blank, words_word h1.1 h1.blank, words_word h2.1 h2.blank,
      words_end h2.1 h2.blank]
    rfl
  unfold readLine
  rw [takeWhile_no_quote (limitsBody_plain h1 h2).quote, hw]
  simp only
  rw [if_neg (by decide), if_neg (by decide), if_neg (by decide), if_pos trivial]

theorem readRest_limits {p : Printer} {r : Num × Num} (h1 : IsWord (p.num r.1))
    (h2 : IsWord (p.num r.2)) (t : Text) : readRest (limitsLine p r ++ t) =
      { readRest t with limits := limitArgs p r :: (readRest t).limits } := by
  have : limitsLine p r ++ t = limitsBody p r ++ '\n' :: t := by
    unfold limitsLine limitsBody
    generalize "        LIMITS DEFAULT 5 ENABLED ".toList = a
    simp
  rw [this, readRest_line (limitsBody_plain h1 h2).newline, readLine_limits h1 h2]
  rfl

theorem unitsLine_plain {u : Text} (h : IsWord u) : Plain ("        UNITS ".toList ++ (u ++ ' ' :: u)) :=
  Plain.append (by unfold Plain; decide) (Plain.append h.plain (Plain.cons (by decide) h.plain))

theorem readLine_units {u : Text} (h : IsWord u) :
    readLine ("        UNITS ".toList ++ (u ++ ' ' :: u)) = .units [u, u] := by
  have hw : words ("        UNITS ".toList ++ (u ++ ' ' :: u)) = ["UNITS".toList, u, u] := by
    rw [show "        UNITS ".toList = List.replicate 8 ' ' ++ ("UNITS".toList ++ [' ']) by decide]
    simp only [List.append_assoc, List.cons_append, List.nil_append]
    rw [words_blanks, words_word (by decide) (by decide), words_word h.1 h.blank, words_end h.1 h.blank]
  unfold readLine
  rw [takeWhile_no_quote (unitsLine_plain h).quote, hw]
  simp only
  rw [if_neg (by decide), if_neg (by decide), if_neg (by decide), if_neg (by decide), if_pos trivial]

theorem readRest_units {u : Text} (h : IsWord u) (t : Text) :
    readRest ("        UNITS ".toList ++ u ++ ' ' :: u ++ ['\n'] ++ t) =
      { readRest t with units := [u, u] :: (readRest t).units } := by
  have : "        UNITS ".toList ++ u ++ ' ' :: u ++ ['\n'] ++ t =
      ("        UNITS ".toList ++ (u ++ ' ' :: u)) ++ '\n' :: t := by
    generalize "        UNITS ".toList = a
    simp
  rw [this, readRest_line (unitsLine_plain h).newline, readLine_units h]
  rfl

/-- What is read back from an entry. -/
def readItem (p : Printer) (e : Entry) : CosmosItem where
  kind := (itemFields e).2.2.text
  name := e.name
  bits := some e.bits
  type := (itemFields e).1
  value := words (itemFields e).2.1
  little := e.little
  states := numbered 0 e.states
  limits := e.range.toList.map (limitArgs p)
  units := if e.unit = [] then [] else [[e.unit, e.unit]]

/-- Nothing is pending. -/
def Done (r : CosmosRest) : Prop := r.states = [] ∧ r.limits = [] ∧ r.units = []

theorem readRest_entry {p : Printer} {e : Entry} (h : GoodEntry p e) {t : Text}
    (hd : Done (readRest t)) : readRest (entryText p e ++ t) =
      { items := readItem p e :: (readRest t).items, packets := (readRest t).packets } := by
  have h1 : readRest ((if e.unit = [] then [] else "        UNITS ".toList ++ e.unit ++ ' ' :: e.unit ++
      ['\n']) ++ t) = { readRest t with units := (readItem p e).units } := by
    unfold readItem
    split
    · rename_i hu
      simp only [List.nil_append]
      rw [← hd.2.2]
    · rename_i hu
      rw [readRest_units ⟨hu, h.unit⟩, hd.2.2]
  have h2 : readRest ((match e.range with | none => [] | some r => limitsLine p r) ++
      ((if e.unit = [] then [] else "        UNITS ".toList ++ e.unit ++ ' ' :: e.unit ++ ['\n']) ++ t)) =
      { readRest t with units := (readItem p e).units, limits := (readItem p e).limits } := by
    unfold readItem at h1 ⊢
    cases hr : e.range with
    | none =>
      rw [List.nil_append, h1]
      simp only [Option.toList_none, List.map_nil]
      rw [← hd.2.1]
    | some r =>
      simp only
      obtain ⟨k1, k2⟩ := h.range r hr
      rw [readRest_limits k1 k2, h1]
      simp [hd.2.1]
  have hx : entryText p e ++ t = itemBody e ++ '\n' :: (stateLines 0 e.states ++
      ((match e.range with | none => [] | some r => limitsLine p r) ++
      ((if e.unit = [] then [] else "        UNITS ".toList ++ e.unit ++ ' ' :: e.unit ++ ['\n']) ++ t))) := by
    unfold entryText
    rw [itemLine_eq h]
    generalize "        UNITS ".toList = a
    simp only [List.append_assoc, List.cons_append, List.nil_append]
    rfl
  rw [hx, readRest_line (itemBody_newline h), readRest_states h.states, h2, readLine_item h]
  unfold CosmosRest.add readItem
  simp [hd.1]

theorem readRest_entries {p : Printer} {es : List Entry} (h : ∀ e ∈ es, GoodEntry p e) {t : Text}
    (hd : Done (readRest t)) : readRest (es.flatMap (entryText p) ++ t) =
      { readRest t with items := es.map (readItem p) ++ (readRest t).items } := by
  induction es with
  | nil => rfl
  | cons e es ih =>
    have := ih (fun e he => h e (List.Mem.tail _ he))
    rw [List.flatMap_cons, List.append_assoc, readRest_entry (h e (List.Mem.head _)), this]
    · simp only [List.map_cons, List.cons_append]
      rw [hd.1, hd.2.1, hd.2.2]
    · rw [this]; exact hd

/-- A TELEMETRY line without its line break. -/
def packetBody (target comment name : Text) : Text :=
  "TELEMETRY ".toList ++ (target ++ ' ' :: (name ++ ' ' :: ("BIG_ENDIAN ".toList ++ '"' :: (comment ++ ['"']))))

theorem readLine_packet {target comment name : Text} (ht : IsWord target) (hn : IsWord name) :
    readLine (packetBody target comment name) = .packet target name := by
  have hp : Plain ("TELEMETRY ".toList ++ (target ++ ' ' :: (name ++ ' ' :: "BIG_ENDIAN ".toList))) :=
    Plain.append (by unfold Plain; decide) (Plain.append ht.plain (Plain.cons (by decide)
      (Plain.append hn.plain (Plain.cons (by decide) (by unfold Plain; decide)))))
  have hw : words ("TELEMETRY ".toList ++ (target ++ ' ' :: (name ++ ' ' :: "BIG_ENDIAN ".toList))) =
      ["TELEMETRY".toList, target, name, "BIG_ENDIAN".toList] := by
    rw [show "TELEMETRY ".toList = "TELEMETRY".toList ++ [' '] by decide]
    simp only [List.append_assoc, List.cons_append, List.nil_append]
    rw [words_word (by decide) (by decide), words_word ht.1 ht.blank, words_word hn.1 hn.blank,
      show words "BIG_ENDIAN ".toList = ["BIG_ENDIAN".toList] by decide]
  have he : packetBody target comment name = ("TELEMETRY ".toList ++ (target ++ ' ' :: (name ++ ' ' ::
      "BIG_ENDIAN ".toList))) ++ '"' :: (comment ++ ['"']) := by
    unfold packetBody
    generalize "TELEMETRY ".toList = a
    generalize "BIG_ENDIAN ".toList = b
    simp
  unfold readLine
  rw [he, takeWhile_quote hp.quote, hw]
  simp only
  rw [if_pos trivial]

theorem packetText_eq (p : Printer) (target comment name : Text) (es : List Entry) :
    packetText p target comment name es =
      packetBody target comment name ++ '\n' :: es.flatMap (entryText p) := by
  unfold packetText packetBody
  rw [show " BIG_ENDIAN \"".toList = ' ' :: ("BIG_ENDIAN ".toList ++ ['"']) by decide,
    show "\"\n".toList = ['"', '\n'] by decide]
  generalize "TELEMETRY ".toList = a
  generalize "BIG_ENDIAN ".toList = b
  simp

theorem readRest_packet {p : Printer} {target comment name : Text} {es : List Entry}
    (ht : IsWord target) (hn : IsWord name) (hc : '\n' ∉ comment) (h : ∀ e ∈ es, GoodEntry p e)
    {t : Text} (hd : Done (readRest t)) (hi : (readRest t).items = []) :
    readRest ('\n' :: packetText p target comment name es ++ t) =
      { packets := ⟨target, name, es.map (readItem p)⟩ :: (readRest t).packets } := by
  have hnl : '\n' ∉ packetBody target comment name := by
    unfold packetBody
    simp only [List.mem_append, List.mem_cons, not_or, List.not_mem_nil, not_false_eq_true, and_true]
    exact ⟨by decide, ht.plain.newline, by decide, hn.plain.newline, by decide, by decide, by decide,
      hc, by decide⟩
  have h0 := readRest_line (l := []) (by simp) (packetText p target comment name es ++ t)
  rw [List.nil_append, show readLine [] = .other by decide] at h0
  rw [List.cons_append, h0, packetText_eq, List.append_assoc, List.cons_append, readRest_line hnl,
    readRest_entries h hd, readLine_packet ht hn]
  simp [CosmosRest.add, hi]

/-- A packet as it is printed. -/
structure PacketData where
  name : Text
  comment : Text
  entries : List Entry

theorem readCosmos_text {p : Printer} {target : Text} (ht : IsWord target) {ps : List PacketData}
    (hps : ∀ x ∈ ps, IsWord x.name ∧ '\n' ∉ x.comment ∧ ∀ e ∈ x.entries, GoodEntry p e) :
    readCosmos (cosmosText (ps.map fun x => packetText p target x.comment x.name x.entries)) =
      ps.map fun x => ⟨target, x.name, x.entries.map (readItem p)⟩ := by
  have : ∀ ps : List PacketData,
      (∀ x ∈ ps, IsWord x.name ∧ '\n' ∉ x.comment ∧ ∀ e ∈ x.entries, GoodEntry p e) →
      readRest ((ps.map fun x => packetText p target x.comment x.name x.entries).flatMap
        fun t => '\n' :: t) =
      { packets := ps.map fun x => ⟨target, x.name, x.entries.map (readItem p)⟩ } := by
    intro ps hps
    induction ps with
    | nil => simpa using readRest_nil
    | cons x ps ih =>
      have ih' := ih (fun x hx => hps x (List.Mem.tail _ hx))
      obtain ⟨h1, h2, h3⟩ := hps x (List.Mem.head _)
      rw [List.map_cons, List.flatMap_cons, readRest_packet ht h1 h2 h3, ih']
      · rfl
      · rw [ih']; exact ⟨rfl, rfl, rfl⟩
      · rw [ih']
  unfold readCosmos cosmosText
  rw [show "# This file was autogenerated from ASN.1 model.\n".toList =
    "# This file was autogenerated from ASN.1 model.".toList ++ ['\n'] by decide, List.append_assoc,
    List.cons_append, List.nil_append, readRest_line (by decide), this ps hps,
    show readLine "# This file was autogenerated from ASN.1 model.".toList = .other by decide]
  rfl

end Apg
