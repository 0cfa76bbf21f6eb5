import Verif.Lemmas.Parser
import Verif.Spec.Syntax

/-!
# Reading what is written: the parser on the texts of `Spec/Syntax.lean`
-/

namespace Apg

open Spec Parse

/-- The style of the texts that the parser is proved to read. -/
abbrev strictStyle : Style := .strict decimalFloat

/-! ### Words -/

theorem lMinus : "--".toList =
    ['-', '-'] := by decide
theorem lLittle : "ENDIANNESS(LITTLE)".toList =
    ['E', 'N', 'D', 'I', 'A', 'N', 'N', 'E', 'S', 'S', '(', 'L', 'I', 'T', 'T', 'L', 'E', ')'] := by decide
theorem lReal : " REAL".toList =
    [' ', 'R', 'E', 'A', 'L'] := by decide
theorem lRealP : " REAL(".toList =
    [' ', 'R', 'E', 'A', 'L', '('] := by decide
theorem lDots : " .. ".toList =
    [' ', '.', '.', ' '] := by decide
theorem lInteger : " INTEGER".toList =
    [' ', 'I', 'N', 'T', 'E', 'G', 'E', 'R'] := by decide
theorem lIntegerP : " INTEGER(".toList =
    [' ', 'I', 'N', 'T', 'E', 'G', 'E', 'R', '('] := by decide
theorem lDot2 : "..".toList =
    ['.', '.'] := by decide
theorem lNull : " NULL".toList =
    [' ', 'N', 'U', 'L', 'L'] := by decide
theorem lNull' : "NULL".toList =
    ['N', 'U', 'L', 'L'] := by decide
theorem lBoolean : " BOOLEAN".toList =
    [' ', 'B', 'O', 'O', 'L', 'E', 'A', 'N'] := by decide
theorem lBoolean' : "BOOLEAN".toList =
    ['B', 'O', 'O', 'L', 'E', 'A', 'N'] := by decide
theorem lIa5 : " IA5String (SIZE (".toList =
    [' ', 'I', 'A', '5', 'S', 't', 'r', 'i', 'n', 'g', ' ', '(', 'S', 'I', 'Z', 'E', ' ', '('] := by decide
theorem lIa5' : "IA5String".toList =
    ['I', 'A', '5', 'S', 't', 'r', 'i', 'n', 'g'] := by decide
theorem lNumeric : " NumericString (SIZE (".toList =
    [' ', 'N', 'u', 'm', 'e', 'r', 'i', 'c', 'S', 't', 'r', 'i', 'n', 'g', ' ', '(', 'S', 'I', 'Z', 'E', ' ', '('] := by decide
theorem lNumeric' : "NumericString".toList =
    ['N', 'u', 'm', 'e', 'r', 'i', 'c', 'S', 't', 'r', 'i', 'n', 'g'] := by decide
theorem lSize : " (SIZE (".toList =
    [' ', '(', 'S', 'I', 'Z', 'E', ' ', '('] := by decide
theorem lClose2 : "))".toList =
    [')', ')'] := by decide
theorem lArray : " SEQUENCE (SIZE (".toList =
    [' ', 'S', 'E', 'Q', 'U', 'E', 'N', 'C', 'E', ' ', '(', 'S', 'I', 'Z', 'E', ' ', '('] := by decide
theorem lOf : ")) OF".toList =
    [')', ')', ' ', 'O', 'F'] := by decide
theorem lTrue : "TRUE".toList =
    ['T', 'R', 'U', 'E'] := by decide
theorem lFalse : "FALSE".toList =
    ['F', 'A', 'L', 'S', 'E'] := by decide
theorem lWith : "(WITH COMPONENTS {".toList =
    ['(', 'W', 'I', 'T', 'H', ' ', 'C', 'O', 'M', 'P', 'O', 'N', 'E', 'N', 'T', 'S', ' ', '{'] := by decide
theorem lEndWith : "})".toList =
    ['}', ')'] := by decide
theorem lSequence : "::= SEQUENCE {".toList =
    [':', ':', '=', ' ', 'S', 'E', 'Q', 'U', 'E', 'N', 'C', 'E', ' ', '{'] := by decide
theorem lChoice : "::= CHOICE {".toList =
    [':', ':', '=', ' ', 'C', 'H', 'O', 'I', 'C', 'E', ' ', '{'] := by decide
theorem lEnumerated : "::= ENUMERATED {".toList =
    [':', ':', '=', ' ', 'E', 'N', 'U', 'M', 'E', 'R', 'A', 'T', 'E', 'D', ' ', '{'] := by decide
theorem lAssign : "::=".toList =
    [':', ':', '='] := by decide
theorem lFrom : "FROM Module-".toList =
    ['F', 'R', 'O', 'M', ' ', 'M', 'o', 'd', 'u', 'l', 'e', '-'] := by decide
theorem lImports : "IMPORTS".toList =
    ['I', 'M', 'P', 'O', 'R', 'T', 'S'] := by decide
theorem lModule : "Module-".toList =
    ['M', 'o', 'd', 'u', 'l', 'e', '-'] := by decide
theorem lBegin : "DEFINITIONS AUTOMATIC TAGS ::= BEGIN".toList =
    ['D', 'E', 'F', 'I', 'N', 'I', 'T', 'I', 'O', 'N', 'S', ' ', 'A', 'U', 'T', 'O', 'M', 'A', 'T', 'I', 'C', ' ', 'T', 'A', 'G', 'S', ' ', ':', ':', '=', ' ', 'B', 'E', 'G', 'I', 'N'] := by decide
theorem lEnd : "END".toList =
    ['E', 'N', 'D'] := by decide

/-! ### White space and literals -/

theorem isWs_iff (c : Char) : isWs c = true ↔ c = ' ' ∨ c = '\t' ∨ c = '\n' ∨ c = '\r' := by
  simp [isWs, or_assoc]

theorem skipWs_space {w : Text} (hw : Space w) (t : Text) : skipWs (w ++ t) = skipWs t := by
  induction w with
  | nil => rfl
  | cons c w ih =>
    have h1 := (isWs_iff c).mpr (hw c (List.Mem.head _))
    show (c :: (w ++ t)).dropWhile isWs = _
    rw [List.dropWhile_cons_of_pos h1]
    exact ih fun d hd => hw d (List.Mem.tail _ hd)

theorem skipWs_cons {c : Char} (h : isWs c = false) (t : Text) : skipWs (c :: t) = c :: t :=
  List.dropWhile_cons_of_neg (by simp [h])

theorem space_append {a b : Text} (ha : Space a) (hb : Space b) : Space (a ++ b) := by
  intro c hc
  rcases List.mem_append.mp hc with h | h
  · exact ha c h
  · exact hb c h

theorem space_nil : Space [] := fun _ h => by cases h

theorem lit_append (s t : Text) : lit s (s ++ t) = some t := by
  induction s with
  | nil => rfl
  | cons c s ih => show (if c = c then lit s (s ++ t) else none) = _; rw [if_pos rfl, ih]

theorem lit_cons_ne {c d : Char} (h : c ≠ d) (s t : Text) : lit (c :: s) (d :: t) = none := by
  unfold lit; rw [if_neg h]

/-- The next character that is not white space satisfies `P`. -/
def After (P : Char → Prop) (t : Text) : Prop := ∃ c r, skipWs t = c :: r ∧ P c

theorem After.space {P : Char → Prop} {t w : Text} (h : After P t) (hw : Space w) :
    After P (w ++ t) := by
  obtain ⟨c, r, h1, h2⟩ := h
  exact ⟨c, r, by rw [skipWs_space hw, h1], h2⟩

theorem After.mk {P : Char → Prop} {w : Text} (hw : Space w) {c : Char} (hc : isWs c = false)
    (hp : P c) (r : Text) : After P (w ++ c :: r) :=
  ⟨c, r, by rw [skipWs_space hw, skipWs_cons hc], hp⟩

theorem After.imp {P Q : Char → Prop} {t : Text} (h : After P t) (hpq : ∀ c, P c → Q c) :
    After Q t := by
  obtain ⟨c, r, h1, h2⟩ := h
  exact ⟨c, r, h1, hpq c h2⟩

theorem tok_lit {w : Text} (hw : Space w) {c : Char} (hc : isWs c = false) (s t : Text) :
    tok (c :: s) (w ++ (c :: s ++ t)) = some t := by
  unfold tok
  rw [skipWs_space hw]
  show lit (c :: s) (skipWs (c :: (s ++ t))) = _
  rw [skipWs_cons hc]
  exact lit_append (c :: s) t

theorem tok_none {c : Char} {s t : Text} (h : After (· ≠ c) t) : tok (c :: s) t = none := by
  obtain ⟨d, r, h1, h2⟩ := h
  unfold tok
  rw [h1]
  exact lit_cons_ne (Ne.symm h2) _ _

theorem head_of_skipWs {t : Text} {c : Char} {r : Text} (h : skipWs t = c :: r) :
    ∃ d t', t = d :: t' ∧ (isWs d = true ∨ d = c ∧ t' = r) := by
  cases t with
  | nil => cases h
  | cons d t =>
    refine ⟨d, t, rfl, ?_⟩
    cases hd : isWs d with
    | true => exact .inl rfl
    | false =>
      rw [skipWs_cons hd] at h
      cases h; exact .inr ⟨rfl, rfl⟩

/-! ### Names -/

/-- A name ends here. -/
def NameEnd (t : Text) : Prop := nameRest t = ([], t)

theorem nameEnd_nil : NameEnd [] := rfl

theorem nameEnd_cons {c : Char} (h : isNameChar c = false) (hd : c ≠ '-') (t : Text) :
    NameEnd (c :: t) := by
  cases t with
  | nil => unfold NameEnd nameRest; simp [h]
  | cons d t => unfold NameEnd nameRest; simp [h, hd]

theorem nameEnd_dash (t : Text) : NameEnd ('-' :: '-' :: t) := by
  unfold NameEnd nameRest
  have : isNameChar '-' = false := by decide
  simp [this]

theorem isNameChar_ws {c : Char} (h : isWs c = true) : isNameChar c = false ∧ c ≠ '-' := by
  rcases (isWs_iff c).mp h with rfl | rfl | rfl | rfl <;> decide

theorem nameEnd_after {t : Text} (h : After (fun c => isNameChar c = false ∧ c ≠ '-') t) :
    NameEnd t := by
  obtain ⟨c, r, h1, h2⟩ := h
  obtain ⟨d, t', rfl, hd | ⟨rfl, rfl⟩⟩ := head_of_skipWs h1
  · exact nameEnd_cons (isNameChar_ws hd).1 (isNameChar_ws hd).2 _
  · exact nameEnd_cons h2.1 h2.2 _

theorem nameRest_append {l t : Text} (hl : nameTail l = true) (ht : NameEnd t) :
    nameRest (l ++ t) = (l, t) := by
  induction l using nameTail.induct with
  | case1 => exact ht
  | case2 c cs ih =>
    have h : (reAlnum c && nameTail cs) = true := hl
    simp only [Bool.and_eq_true] at h
    have hm : isNameChar '-' = false := by decide
    show nameRest ('-' :: c :: (cs ++ t)) = _
    unfold nameRest
    rw [isNameChar_eq c, h.1, hm, ih h.2]
    rfl
  | case3 c cs hne ih =>
    have h : (reAlnum c && nameTail cs) = true := by
      rw [nameTail.eq_def] at hl
      split at hl
      · rename_i h; cases h
      · rename_i h
        obtain ⟨rfl, rfl⟩ := List.cons.inj h
        exact absurd rfl fun h => hne _ _ h rfl
      · rename_i h
        obtain ⟨rfl, rfl⟩ := List.cons.inj h
        exact hl
    simp only [Bool.and_eq_true] at h
    have ih := ih h.2
    show nameRest (c :: (cs ++ t)) = _
    cases hu : cs ++ t with
    | nil => rw [hu] at ih; unfold nameRest; rw [isNameChar_eq, h.1]
             have h3 := congrArg Prod.fst ih; have h4 := congrArg Prod.snd ih
             simp [nameRest] at h3 h4; simp [h3, h4]
    | cons d u => rw [hu] at ih; unfold nameRest; rw [isNameChar_eq, h.1, ih]; rfl

theorem lower_not_ws {c : Char} (h : ('a' ≤ c && c ≤ 'z') = true) : isWs c = false := by
  cases hc : isWs c with
  | false => rfl
  | true => rcases (isWs_iff c).mp hc with rfl | rfl | rfl | rfl <;> revert h <;> decide

theorem upper_not_ws {c : Char} (h : ('A' ≤ c && c ≤ 'Z') = true) : isWs c = false := by
  cases hc : isWs c with
  | false => rfl
  | true => rcases (isWs_iff c).mp hc with rfl | rfl | rfl | rfl <;> revert h <;> decide

theorem name_cases {k : String} (p : Char → Bool) (h : (match k.toList with
      | c :: cs => p c && nameTail cs
      | [] => false) = true) : ∃ c cs, k.toList = c :: cs ∧ p c = true ∧ nameTail cs = true := by
  cases hk : k.toList with
  | nil => rw [hk] at h; cases h
  | cons c cs =>
    rw [hk] at h
    simp only [Bool.and_eq_true] at h
    exact ⟨c, cs, rfl, h⟩

theorem lower_cases {k : String} (h : isNameLower k = true) :
    ∃ c cs, k.toList = c :: cs ∧ ('a' ≤ c && c ≤ 'z') = true ∧ nameTail cs = true :=
  name_cases reLower h

theorem capital_cases {k : String} (h : isNameCapital k = true) :
    ∃ c cs, k.toList = c :: cs ∧ ('A' ≤ c && c ≤ 'Z') = true ∧ nameTail cs = true :=
  name_cases reUpper h

theorem ofList_of_toList {k : String} {l : List Char} (h : k.toList = l) : String.ofList l = k := by
  rw [← h]; exact String.ofList_toList

theorem nameLower_cons (c : Char) (t : Text) : nameLower (c :: t) =
    if ('a' ≤ c && c ≤ 'z') = true then
      some (String.ofList (c :: (nameRest t).1), (nameRest t).2) else none := rfl

theorem nameCapital_cons (c : Char) (t : Text) : nameCapital (c :: t) =
    if ('A' ≤ c && c ≤ 'Z') = true then
      some (String.ofList (c :: (nameRest t).1), (nameRest t).2) else none := rfl

theorem nameLower_syntax {k : String} {w t : Text} (hk : isNameLower k = true) (hw : Space w)
    (ht : NameEnd t) : nameLower (skipWs (w ++ (k.toList ++ t))) = some (k, t) := by
  obtain ⟨c, cs, h1, h2, h3⟩ := lower_cases hk
  rw [skipWs_space hw, h1]
  show nameLower (skipWs (c :: (cs ++ t))) = _
  rw [skipWs_cons (lower_not_ws h2)]
  rw [nameLower_cons, if_pos h2, nameRest_append h3 ht]
  simp only [ofList_of_toList h1]

theorem nameCapital_here {k : String} {t : Text} (hk : isNameCapital k = true)
    (ht : NameEnd t) : nameCapital (k.toList ++ t) = some (k, t) := by
  obtain ⟨c, cs, h1, h2, h3⟩ := capital_cases hk
  rw [h1]
  show nameCapital (c :: (cs ++ t)) = _
  rw [nameCapital_cons, if_pos h2, nameRest_append h3 ht]
  simp only [ofList_of_toList h1]

theorem nameCapital_syntax {k : String} {w t : Text} (hk : isNameCapital k = true) (hw : Space w)
    (ht : NameEnd t) : nameCapital (skipWs (w ++ (k.toList ++ t))) = some (k, t) := by
  have hk' := hk
  obtain ⟨c, cs, h1, h2, h3⟩ := capital_cases hk
  rw [skipWs_space hw]
  have : skipWs (k.toList ++ t) = k.toList ++ t := by
    rw [h1]; exact skipWs_cons (upper_not_ws h2) _
  rw [this]
  exact nameCapital_here hk' ht

theorem nameLower_none {t : Text} (h : After (fun c => ('a' ≤ c && c ≤ 'z') = false) t) :
    nameLower (skipWs t) = none := by
  obtain ⟨c, r, h1, h2⟩ := h
  rw [h1, nameLower_cons, h2]; rfl

theorem nameCapital_none {t : Text} (h : After (fun c => ('A' ≤ c && c ≤ 'Z') = false) t) :
    nameCapital (skipWs t) = none := by
  obtain ⟨c, r, h1, h2⟩ := h
  rw [h1, nameCapital_cons, h2]; rfl

theorem after_lower {k : String} {w t : Text} (hk : isNameLower k = true) (hw : Space w) :
    After (fun c => ('a' ≤ c && c ≤ 'z') = true) (w ++ (k.toList ++ t)) := by
  obtain ⟨c, cs, h1, h2, _⟩ := lower_cases hk
  rw [h1]; exact After.mk hw (lower_not_ws h2) h2 _

theorem after_capital {k : String} {w t : Text} (hk : isNameCapital k = true) (hw : Space w) :
    After (fun c => ('A' ≤ c && c ≤ 'Z') = true) (w ++ (k.toList ++ t)) := by
  obtain ⟨c, cs, h1, h2, _⟩ := capital_cases hk
  rw [h1]; exact After.mk hw (upper_not_ws h2) h2 _

end Apg
