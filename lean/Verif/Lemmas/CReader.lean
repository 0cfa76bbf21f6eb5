import Verif.Spec.CReader
import Verif.Lemmas.Symbols
import Verif.Lemmas.Header

namespace Apg
open Spec

/-! ### Comments -/

/-- What is left of `a` does not depend on the text after it. -/
def Reads (a a' : Text) : Prop :=
  ∀ t, noComments .code (splice (a ++ t)) = a' ++ noComments .code (splice t)

theorem Reads.nil : Reads [] [] := fun _ => rfl

theorem Reads.append {a a' b b' : Text} (h : Reads a a') (h' : Reads b b') : Reads (a ++ b) (a' ++ b') := by
  intro t
  rw [List.append_assoc, h, h', List.append_assoc]

theorem splice_cons {c : Char} {t : Text} (h : c ≠ '\\' ∨ t.head? ≠ some '\n') : splice (c :: t) = c :: splice t := by
  rw [splice]
  rintro r rfl rfl
  rcases h with h | h
  · exact h rfl
  · exact h rfl

/-- Text without line breaks and a character that is not one. -/
theorem splice_text {a : Text} (h : '\n' ∉ a) {c : Char} (hc : c ≠ '\n' ∨ a.getLast? ≠ some '\\') (t : Text) :
    splice (a ++ c :: t) = a ++ splice (c :: t) := by
  induction a with
  | nil => rfl
  | cons d a ih =>
    simp only [List.mem_cons, not_or] at h
    rw [List.cons_append, splice_cons, ih h.2, List.cons_append]
    · rcases hc with hc | hc
      · exact .inl hc
      · cases a with
        | nil => exact .inr (by simp)
        | cons e a => exact .inr (by simpa using hc)
    · cases a with
      | nil =>
        rcases hc with hc | hc
        · exact .inr (by simpa using hc)
        · exact .inl (by simpa using hc)
      | cons e a =>
        refine .inr ?_
        simp only [List.cons_append, List.head?_cons, ne_eq, Option.some.injEq]
        simp only [List.mem_cons, not_or] at h
        exact fun he => h.2.1 he.symm

theorem noComments_code {c : Char} (h : c ≠ '/') (t : Text) :
    noComments .code (c :: t) = c :: noComments .code t := by
  rw [noComments] <;> simp [h]

theorem reads_char {c : Char} (h : c ≠ '/') (h' : c ≠ '\\') : Reads [c] [c] := by
  intro t
  rw [List.singleton_append, splice_cons (.inl h'), noComments_code h, List.singleton_append]

theorem reads_plain {a : Text} (h : ∀ c ∈ a, c ≠ '/' ∧ c ≠ '\\') : Reads a a := by
  induction a with
  | nil => exact .nil
  | cons c a ih =>
    have := (reads_char (h c (by simp)).1 (h c (by simp)).2).append (ih fun d hd => h d (by simp [hd]))
    exact this

theorem reads_lit {a : Text} (h : (a.all fun c => c != '/' && c != '\\') = true) : Reads a a := by
  refine reads_plain fun c hc => ?_
  have := List.all_eq_true.1 h c hc
  simpa using this

theorem noComments_line {a : Text} (h : '\n' ∉ a) (t : Text) :
    noComments .line (a ++ '\n' :: t) = '\n' :: noComments .code t := by
  induction a with
  | nil => simp [noComments]
  | cons c a ih =>
    simp only [List.mem_cons, not_or] at h
    rw [List.cons_append, noComments, if_neg (Ne.symm h.1), ih h.2]

theorem reads_note {body : Text} (h : '\n' ∉ body) (h' : body.getLast? ≠ some '\\') :
    Reads ("//".toList ++ body ++ ['\n']) ['\n'] := by
  intro t
  have h1 : splice (("//".toList ++ body) ++ '\n' :: t) = ("//".toList ++ body) ++ splice ('\n' :: t) := by
    refine splice_text ?_ (.inr ?_) t
    · simp [h]
    · rw [List.getLast?_append]
      cases hb : body.getLast? with
      | none => decide
      | some c => rw [hb] at h'; simpa using h'
  rw [List.append_assoc, List.singleton_append, h1, splice_cons (.inl (by decide)), List.append_assoc]
  show noComments .code ('/' :: '/' :: (body ++ '\n' :: splice t)) = _
  rw [noComments, noComments_line h, List.singleton_append]

theorem noComments_block {c : Char} {t : Text} (h : c ≠ '*' ∨ t.head? ≠ some '/') :
    noComments .block (c :: t) = noComments .block t := by
  rw [noComments]
  rintro r rfl rfl
  rcases h with h | h
  · exact h rfl
  · exact h rfl

/-- The end of a comment. -/
theorem block_close {x : Text} (hn : '\n' ∉ x) (hx : ¬ "*/".toList <:+: x) {c : Char} (hc : c = ' ' ∨ c = '\n')
    (u : Text) :
    noComments .block (splice (x ++ c :: '*' :: '/' :: u)) = noComments .code (splice u) := by
  have hend : noComments .block (splice ('*' :: '/' :: u)) = noComments .code (splice u) := by
    rw [splice_cons (.inl (by decide)), splice_cons (.inl (by decide)), noComments]
  induction x with
  | nil =>
    rw [List.nil_append, splice_cons, noComments_block, hend]
    · rcases hc with rfl | rfl <;> exact .inl (by decide)
    · rcases hc with rfl | rfl <;> exact .inl (by decide)
  | cons d x ih =>
    simp only [List.mem_cons, not_or] at hn
    have hx' : ¬ "*/".toList <:+: x := fun h => hx (h.trans (List.suffix_cons d x).isInfix)
    have ih := ih hn.2 hx'
    rw [List.cons_append]
    by_cases hs : d ≠ '\\' ∨ (x ++ c :: '*' :: '/' :: u).head? ≠ some '\n'
    · rw [splice_cons hs, noComments_block, ih]
      by_cases hd : d = '*'
      · refine .inr ?_
        subst hd
        cases x with
        | nil =>
          rcases hc with rfl | rfl <;> (rw [List.nil_append, splice_cons (.inl (by decide))]; simp)
        | cons e x =>
          have he : e ≠ '/' := by
            rintro rfl
            exact hx ⟨[], x, rfl⟩
          rw [List.cons_append]
          by_cases hs' : e ≠ '\\' ∨ (x ++ c :: '*' :: '/' :: u).head? ≠ some '\n'
          · rw [splice_cons hs']; simpa using he
          · simp only [not_or, Decidable.not_not, ne_eq] at hs'
            obtain ⟨rfl, h2⟩ := hs'
            cases x with
            | nil =>
              simp only [List.nil_append, List.head?_cons, Option.some.injEq] at h2
              subst h2
              rw [List.nil_append, splice, splice_cons (.inl (by decide))]
              simp
            | cons f x =>
              simp only [List.cons_append, List.head?_cons, Option.some.injEq] at h2
              subst h2
              simp at hn
      · exact .inl hd
    · simp only [not_or, Decidable.not_not, ne_eq] at hs
      obtain ⟨rfl, h2⟩ := hs
      cases x with
      | nil =>
        simp only [List.nil_append, List.head?_cons, Option.some.injEq] at h2
        subst h2
        rw [List.nil_append, splice, hend]
      | cons f x =>
        simp only [List.cons_append, List.head?_cons, Option.some.injEq] at h2
        subst h2
        simp at hn

/-- Text inside a comment that does not close it. -/
theorem block_skip {a : Text} (h : (a.all fun c => c != '*' && c != '\\') = true) (t : Text) :
    noComments .block (splice (a ++ t)) = noComments .block (splice t) := by
  induction a with
  | nil => rfl
  | cons c a ih =>
    simp only [List.all_cons, Bool.and_eq_true, bne_iff_ne] at h
    rw [List.cons_append, splice_cons (.inl h.1.2), noComments_block (.inl h.1.1)]
    exact ih (by simpa using h.2)

theorem reads_open (t : Text) :
    noComments .code (splice ('/' :: '*' :: t)) = ' ' :: noComments .block (splice t) := by
  rw [splice_cons (.inl (by decide)), splice_cons (.inl (by decide)), noComments]

theorem reads_defComment {c : Comment} (hn : '\n' ∉ c.text.toList) (hx : NoClose c) :
    Reads ("/* ".toList ++ c.text.toList ++ " */\n".toList) " \n".toList := by
  intro t
  have e : "/* ".toList ++ c.text.toList ++ " */\n".toList ++ t =
      '/' :: '*' :: ([' '] ++ (c.text.toList ++ ' ' :: '*' :: '/' :: '\n' :: t)) := by
    simp
  rw [e, reads_open, block_skip (by decide), block_close hn hx (.inl rfl), splice_cons (.inl (by decide)),
    noComments_code (by decide)]
  rfl

theorem reads_doc {doc : Text} (hn : '\n' ∉ doc) (hx : ¬ "*/".toList <:+: doc) :
    Reads ("/*\nThis file was autogenerated from ASN.1 model.".toList ++
      (if doc = [] then [] else "\n\n".toList ++ doc) ++ "\n*/\n".toList) " \n".toList := by
  intro t
  have e : "/*\nThis file was autogenerated from ASN.1 model.".toList ++
      (if doc = [] then [] else "\n\n".toList ++ doc) ++ "\n*/\n".toList ++ t =
      '/' :: '*' :: (("\nThis file was autogenerated from ASN.1 model.".toList ++
      (if doc = [] then [] else "\n\n".toList)) ++ (doc ++ '\n' :: '*' :: '/' :: '\n' :: t)) := by
    split
    · rename_i h; rw [h]; simp
    · simp
  rw [e, reads_open, block_skip, block_close hn hx (.inr rfl), splice_cons (.inl (by decide)),
    noComments_code (by decide)]
  · rfl
  · split <;> decide +kernel

/-! ### Lines -/

/-- The directives `ds` and then the tokens `ts` of `a` do not depend on the text after it. -/
def Sees (a : Text) (ds ts : List Text) : Prop :=
  ∀ t, cItems (a ++ t) = ds.map .inl ++ ts.map .inr ++ cItems t

theorem Sees.nil : Sees [] [] [] := fun _ => rfl

theorem Sees.append {a b : Text} {ds ts ts' : List Text} (h : Sees a ds ts) (h' : Sees b [] ts') :
    Sees (a ++ b) ds (ts ++ ts') := by
  intro t
  rw [List.append_assoc, h, h']
  simp

theorem Sees.before {a b : Text} {ds ds' ts : List Text} (h : Sees a ds []) (h' : Sees b ds' ts) :
    Sees (a ++ b) (ds ++ ds') ts := by
  intro t
  rw [List.append_assoc, h, h']
  simp

theorem cLines_line {a l : Text} (h : Reads a (l ++ ['\n'])) (hl : '\n' ∉ l) (t : Text) :
    cLines (a ++ t) = l :: cLines t := by
  unfold cLines
  rw [h, List.append_assoc, List.singleton_append, linesOf_append, linesOf_single hl, List.singleton_append]

theorem sees_code {a l : Text} (h : Reads a (l ++ ['\n'])) (hl : '\n' ∉ l) (hd : isDirective l = false) :
    Sees a [] (tokens l) := by
  intro t
  unfold cItems
  rw [cLines_line h hl, List.flatMap_cons, if_neg (by simp [hd])]
  simp

theorem sees_directive {a l : Text} (h : Reads a (l ++ ['\n'])) (hl : '\n' ∉ l) (hd : isDirective l = true) :
    Sees a [l] [] := by
  intro t
  unfold cItems
  rw [cLines_line h hl, List.flatMap_cons, if_pos hd]
  simp

theorem sees_end : cItems [] = [] := by decide +kernel

/-! ### Tokens -/

theorem lexFrom_cons (w : Text) (c : Char) (t : Text) : lexFrom w (c :: t) =
    if wordChar c then lexFrom (w ++ [c]) t
    else (if w = [] then [] else [w]) ++ (if c = ' ' ∨ c = '\n' ∨ c = '\t' then [] else [[c]]) ++ lexFrom [] t := rfl

theorem lexFrom_append (w a : Text) {c : Char} (hc : wordChar c = false) (t : Text) :
    lexFrom w (a ++ c :: t) = lexFrom w a ++ lexFrom [] (c :: t) := by
  induction a generalizing w with
  | nil => simp [lexFrom, hc]
  | cons d a ih =>
    rw [List.cons_append, lexFrom_cons w d a, lexFrom_cons w d]
    split
    · exact ih _
    · rw [ih, List.append_assoc, List.append_assoc, List.append_assoc]

theorem lexFrom_word (w : Text) {a : Text} (h : ∀ c ∈ a, wordChar c = true) : lexFrom w a = lexFrom (w ++ a) [] := by
  induction a generalizing w with
  | nil => simp
  | cons c a ih =>
    rw [lexFrom_cons, if_pos (h c (by simp)), ih _ fun d hd => h d (by simp [hd]), List.append_assoc, List.singleton_append]

theorem tokens_word {a : Text} (hne : a ≠ []) (h : ∀ c ∈ a, wordChar c = true) : tokens a = [a] := by
  unfold tokens
  rw [lexFrom_word [] h, lexFrom, List.nil_append, if_neg hne]

theorem tokens_nil : tokens [] = [] := by simp [tokens, lexFrom]

/-- Blanks separate words. -/
theorem tokens_blank (a t : Text) : tokens (a ++ ' ' :: t) = tokens a ++ tokens t := by
  unfold tokens
  rw [lexFrom_append _ _ (by decide), lexFrom, if_neg (by decide)]
  simp

/-- Symbols stand for themselves. -/
theorem tokens_symbol (a : Text) {c : Char} (hc : (!wordChar c && c != ' ' && c != '\n' && c != '\t') = true) (t : Text) :
    tokens (a ++ c :: t) = tokens a ++ [c] :: tokens t := by
  simp only [Bool.and_eq_true, Bool.not_eq_true', bne_iff_ne] at hc
  unfold tokens
  rw [lexFrom_append _ _ hc.1.1.1, lexFrom, if_neg (by simp [hc.1.1.1])]
  simp [hc.1.1.2, hc.1.2, hc.2]

/-- The tokens of a number. -/
theorem tokens_number {d : Text} {i : Int} (h : readInt d = some i) :
    readNumber (tokens d) = some i ∧ ∀ w ∈ tokens d, w = ['-'] ∨ w ≠ [] ∧ ∀ c ∈ w, wordChar c = true := by
  have hdig : ∀ {t : Text} {n : Nat}, readDec t = some n → t ≠ [] ∧ ∀ c ∈ t, wordChar c = true := by
    intro t n ht
    have hr := readDec_nat ht
    refine ⟨?_, ?_⟩
    · rintro rfl
      simp [readNat] at hr
    · intro c hc
      have h' : ∀ c ∈ cSymbols, (digitVal c).isSome = false := by decide +kernel
      have := readNat_chars hr c hc
      unfold wordChar
      cases hm : cSymbols.contains c with
      | false => rfl
      | true => rw [h' c (List.contains_iff_mem.1 hm)] at this; cases this
  have h0 := h
  unfold readInt at h
  split at h
  · rename_i t
    simp only [Option.map_eq_some_iff] at h
    obtain ⟨n, hn, rfl⟩ := h
    obtain ⟨h1, h2⟩ := hdig hn
    have e : tokens ('-' :: t) = [['-'], t] := by
      have := tokens_symbol [] (c := '-') (by decide) t
      rw [List.nil_append, tokens_nil, tokens_word h1 h2] at this
      exact this
    rw [e]
    refine ⟨by simpa [readNumber] using h0, ?_⟩
    intro w hw
    simp only [List.mem_cons, List.not_mem_nil, or_false] at hw
    rcases hw with rfl | rfl
    · exact .inl rfl
    · exact .inr ⟨h1, h2⟩
  · simp only [Option.map_eq_some_iff] at h
    obtain ⟨n, hn, rfl⟩ := h
    obtain ⟨h1, h2⟩ := hdig hn
    rw [tokens_word h1 h2]
    refine ⟨h0, ?_⟩
    intro w hw
    simp only [List.mem_cons, List.not_mem_nil, or_false] at hw
    subst hw
    exact .inr ⟨h1, h2⟩

end Apg
