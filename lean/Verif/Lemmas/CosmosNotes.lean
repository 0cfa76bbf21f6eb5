import Verif.Lemmas.CosmosSize
import Verif.Spec.CosmosNotes

/-!
# Lemmas on descriptions in COSMOS files
-/

namespace Apg
open Spec

/-! ### Quotes -/

theorem quoted_char {c : Char} (h1 : c ≠ '"') (h2 : c ≠ '\\') (r : Text) :
    quoted (c :: r) = (quoted r).map fun x => (c :: x.1, x.2) := by
  rw [quoted] <;> simp_all

theorem quoted_escaped (c : Char) (r : Text) :
    quoted ('\\' :: c :: r) = (quoted r).map fun x => ('\\' :: c :: x.1, x.2) := by
  rw [quoted]

theorem quoted_end (r : Text) : quoted ('"' :: r) = some ([], r) := by rw [quoted]

theorem quoted_of {t : Text} (h : Quotable t) (r : Text) : quoted (t ++ '"' :: r) = some (t, r) := by
  induction h with
  | nil => exact quoted_end r
  | char h1 h2 _ ih => rw [List.cons_append, quoted_char h1 h2, ih]; rfl
  | escaped _ ih => rw [List.cons_append, List.cons_append, quoted_escaped, ih]; rfl

theorem quotable_of : ∀ (n : Nat) (t r r' : Text), t.length ≤ n →
    quoted (t ++ '"' :: r) = some (t, r') → Quotable t := by
  intro n
  induction n with
  | zero =>
    intro t r r' hn _
    rw [List.eq_nil_of_length_eq_zero (l := t) (by omega)]
    exact .nil
  | succ n ih =>
    intro t r r' hn h
    cases t with
    | nil => exact .nil
    | cons c t =>
      rw [List.cons_append] at h
      by_cases h1 : c = '"'
      · subst h1; rw [quoted_end] at h; cases h
      · by_cases h2 : c = '\\'
        · subst h2
          cases t with
          | nil =>
            rw [List.nil_append, quoted_escaped] at h
            cases hq : quoted r with
            | none => rw [hq] at h; cases h
            | some x => rw [hq] at h; simp at h
          | cons d t =>
            rw [List.cons_append, quoted_escaped] at h
            cases hq : quoted (t ++ '"' :: r) with
            | none => rw [hq] at h; cases h
            | some x =>
              rw [hq] at h
              simp only [Option.map_some, Option.some.injEq, Prod.mk.injEq, List.cons.injEq, true_and] at h
              obtain ⟨x1, x2⟩ := x
              obtain ⟨h3, h4⟩ := h
              simp only at h3 h4
              subst h3
              simp only [List.length_cons] at hn
              exact .escaped (ih _ _ _ (by omega) hq)
        · rw [quoted_char h1 h2] at h
          cases hq : quoted (t ++ '"' :: r) with
          | none => rw [hq] at h; cases h
          | some x =>
            rw [hq] at h
            simp only [Option.map_some, Option.some.injEq, Prod.mk.injEq, List.cons.injEq, true_and] at h
            obtain ⟨x1, x2⟩ := x
            obtain ⟨h3, h4⟩ := h
            simp only at h3 h4
            subst h3
            simp only [List.length_cons] at hn
            exact .char h1 h2 (ih _ _ _ (by omega) hq)

theorem quotedText_eq {a : Text} (h : '"' ∉ a) (r : Text) :
    quotedText (a ++ '"' :: r) = (quoted r).map fun x => (x.1, words x.2) := by
  have : (a ++ '"' :: r).dropWhile (· ≠ '"') = '"' :: r := by
    rw [List.dropWhile_append_of_pos (fun c hc => by simpa using fun he : c = '"' => h (he ▸ hc))]
    simp
  unfold quotedText
  rw [this]

theorem quotedText_iff {a t s : Text} (h : '"' ∉ a) :
    (∃ ws, quotedText (a ++ '"' :: (t ++ '"' :: s)) = some (t, ws)) ↔ Quotable t := by
  rw [quotedText_eq h]
  constructor
  · rintro ⟨ws, h1⟩
    cases hq : quoted (t ++ '"' :: s) with
    | none => rw [hq] at h1; cases h1
    | some x =>
      rw [hq] at h1
      obtain ⟨x1, x2⟩ := x
      simp only [Option.map_some, Option.some.injEq, Prod.mk.injEq] at h1
      obtain ⟨rfl, _⟩ := h1
      exact quotable_of _ _ _ _ (Nat.le_refl _) hq
  · intro hq
    exact ⟨words s, by rw [quoted_of hq]; rfl⟩

theorem quotedText_of {a t s : Text} (h : '"' ∉ a) (hq : Quotable t) :
    quotedText (a ++ '"' :: (t ++ '"' :: s)) = some (t, words s) := by
  rw [quotedText_eq h, quoted_of hq]
  rfl

/-! ### Lines -/

theorem readNotes_line {l : Text} (h : '\n' ∉ l) (t : Text) :
    readNotes (l ++ '\n' :: t) = (readNote l).toList ++ readNotes t := by
  unfold readNotes
  rw [linesOf_append, linesOf_single h, List.filterMap_append]
  cases hl : readNote l <;> simp [hl]

theorem readNotes_none {l : Text} (h : '\n' ∉ l) (hn : readNote l = none) (t : Text) :
    readNotes (l ++ '\n' :: t) = readNotes t := by
  rw [readNotes_line h, hn]; rfl

theorem readNotes_states {ss : List Text} (h : ∀ s ∈ ss, IsWord s) (t : Text) : ∀ i : Nat,
    readNotes (stateLines i ss ++ t) = readNotes t := by
  induction ss with
  | nil => intro i; rfl
  | cons s ss ih =>
    intro i
    have hs := h s (List.Mem.head _)
    rw [stateLines_cons, readNotes_none (stateLine_newline hs i), ih (fun s hs => h s (List.Mem.tail _ hs))]
    unfold readNote
    rw [readLine_state hs]

theorem readNotes_limits {p : Printer} {r : Num × Num} (h1 : IsWord (p.num r.1))
    (h2 : IsWord (p.num r.2)) (t : Text) : readNotes (limitsLine p r ++ t) = readNotes t := by
  have : limitsLine p r ++ t = limitsBody p r ++ '\n' :: t := by
    unfold limitsLine limitsBody
    generalize "        LIMITS DEFAULT 5 ENABLED ".toList = a
    simp
  rw [this, readNotes_none (limitsBody_plain h1 h2).newline]
  unfold readNote
  rw [readLine_limits h1 h2]

theorem readNotes_units {u : Text} (h : IsWord u) (t : Text) :
    readNotes ("        UNITS ".toList ++ u ++ ' ' :: u ++ ['\n'] ++ t) = readNotes t := by
  have : "        UNITS ".toList ++ u ++ ' ' :: u ++ ['\n'] ++ t =
      ("        UNITS ".toList ++ (u ++ ' ' :: u)) ++ '\n' :: t := by
    generalize "        UNITS ".toList = a
    simp
  rw [this, readNotes_none (unitsLine_plain h).newline]
  unfold readNote
  rw [readLine_units h]

/-- What is read of the description of an entry. -/
def entryNote (e : Entry) : CosmosNote := ⟨false, e.name, quotedText (itemBody e)⟩

theorem readNotes_entry {p : Printer} {e : Entry} (h : GoodEntry p e) (t : Text) :
    readNotes (entryText p e ++ t) = entryNote e :: readNotes t := by
  have h1 : readNotes ((if e.unit = [] then [] else "        UNITS ".toList ++ e.unit ++ ' ' :: e.unit ++
      ['\n']) ++ t) = readNotes t := by
    split
    · rfl
    · rename_i hu
      exact readNotes_units ⟨hu, h.unit⟩ t
  have h2 : readNotes ((match e.range with | none => [] | some r => limitsLine p r) ++
      ((if e.unit = [] then [] else "        UNITS ".toList ++ e.unit ++ ' ' :: e.unit ++ ['\n']) ++ t)) =
      readNotes t := by
    cases hr : e.range with
    | none => exact h1
    | some r =>
      obtain ⟨k1, k2⟩ := h.range r hr
      exact (readNotes_limits k1 k2 _).trans h1
  have hx : entryText p e ++ t = itemBody e ++ '\n' :: (stateLines 0 e.states ++
      ((match e.range with | none => [] | some r => limitsLine p r) ++
      ((if e.unit = [] then [] else "        UNITS ".toList ++ e.unit ++ ' ' :: e.unit ++ ['\n']) ++ t))) := by
    unfold entryText
    rw [itemLine_eq h]
    generalize "        UNITS ".toList = a
    simp only [List.append_assoc, List.cons_append, List.nil_append]
    rfl
  rw [hx, readNotes_line (itemBody_newline h), readNotes_states h.states, h2]
  unfold readNote
  rw [readLine_item h]
  rfl

theorem readNotes_entries {p : Printer} {es : List Entry} (h : ∀ e ∈ es, GoodEntry p e) (t : Text) :
    readNotes (es.flatMap (entryText p) ++ t) = es.map entryNote ++ readNotes t := by
  induction es with
  | nil => rfl
  | cons e es ih =>
    rw [List.flatMap_cons, List.append_assoc, readNotes_entry (h e (List.Mem.head _)),
      ih (fun e he => h e (List.Mem.tail _ he))]
    rfl

/-- What is read of the description of a packet. -/
def packetNote (target : Text) (x : PacketData) : CosmosNote :=
  ⟨true, x.name, quotedText (packetBody target x.comment x.name)⟩

theorem readNotes_text {p : Printer} {target : Text} (ht : IsWord target) {ps : List PacketData}
    (hps : ∀ x ∈ ps, IsWord x.name ∧ '\n' ∉ x.comment ∧ ∀ e ∈ x.entries, GoodEntry p e) :
    readNotes (cosmosText (ps.map fun x => packetText p target x.comment x.name x.entries)) =
      ps.flatMap fun x => packetNote target x :: x.entries.map entryNote := by
  have key : ∀ ps : List PacketData,
      (∀ x ∈ ps, IsWord x.name ∧ '\n' ∉ x.comment ∧ ∀ e ∈ x.entries, GoodEntry p e) →
      readNotes ((ps.map fun x => packetText p target x.comment x.name x.entries).flatMap
        fun t => '\n' :: t) = ps.flatMap fun x => packetNote target x :: x.entries.map entryNote := by
    intro ps hps
    induction ps with
    | nil => exact (by decide : readNotes [] = [])
    | cons x ps ih =>
      obtain ⟨h1, h2, h3⟩ := hps x (List.Mem.head _)
      have hnl : '\n' ∉ packetBody target x.comment x.name := by
        unfold packetBody
        simp only [List.mem_append, List.mem_cons, not_or, List.not_mem_nil, not_false_eq_true, and_true]
        exact ⟨by decide, ht.plain.newline, by decide, h1.plain.newline, by decide, by decide, by decide,
          h2, by decide⟩
      have h0 := readNotes_none (l := []) (by simp) (by decide)
      simp only [List.nil_append] at h0
      rw [List.map_cons, List.flatMap_cons, List.cons_append, h0, packetText_eq, List.append_assoc,
        List.cons_append, readNotes_line hnl, readNotes_entries h3, ih (fun x hx => hps x (List.Mem.tail _ hx)),
        List.flatMap_cons]
      have : readNote (packetBody target x.comment x.name) = some (packetNote target x) := by
        unfold readNote
        rw [readLine_packet ht h1]
        rfl
      rw [this]
      rfl
  unfold cosmosText
  rw [show "# This file was autogenerated from ASN.1 model.\n".toList =
    "# This file was autogenerated from ASN.1 model.".toList ++ ['\n'] by decide, List.append_assoc,
    List.cons_append, List.nil_append, readNotes_none (by decide) (by decide), key ps hps]

theorem packetBody_quote {target comment name : Text} (ht : IsWord target) (hn : IsWord name) :
    ∃ a : Text, '"' ∉ a ∧ packetBody target comment name = a ++ '"' :: (comment ++ '"' :: []) := by
  refine ⟨"TELEMETRY ".toList ++ (target ++ ' ' :: (name ++ ' ' :: "BIG_ENDIAN ".toList)), ?_, ?_⟩
  · have hp : Plain ("TELEMETRY ".toList ++ (target ++ ' ' :: (name ++ ' ' :: "BIG_ENDIAN ".toList))) :=
      Plain.append (by unfold Plain; decide) (Plain.append ht.plain (Plain.cons (by decide)
        (Plain.append hn.plain (Plain.cons (by decide) (by unfold Plain; decide)))))
    exact hp.quote
  · unfold packetBody
    generalize "TELEMETRY ".toList = a
    generalize "BIG_ENDIAN ".toList = b
    simp

end Apg
