import Verif.Lemmas.CReader

namespace Apg
open Spec

/-! ### Characters -/

/-- Text of one line, without comments. -/
def Plain1 (l : Text) : Prop := ∀ c ∈ l, c ≠ '/' ∧ c ≠ '\\' ∧ c ≠ '\n'

theorem Plain1.append {a b : Text} (h : Plain1 a) (h' : Plain1 b) : Plain1 (a ++ b) := by
  intro c hc
  rcases List.mem_append.1 hc with hc | hc
  · exact h c hc
  · exact h' c hc

theorem Plain1.cons {c : Char} {b : Text} (h : c ≠ '/' ∧ c ≠ '\\' ∧ c ≠ '\n') (h' : Plain1 b) : Plain1 (c :: b) :=
  Plain1.append (a := [c]) (by intro d hd; simp only [List.mem_singleton] at hd; exact hd ▸ h) h'

theorem plain1_lit {l : Text} (h : (l.all fun c => c != '/' && c != '\\' && c != '\n') = true) : Plain1 l := by
  intro c hc
  have := List.all_eq_true.1 h c hc
  simp only [Bool.and_eq_true, bne_iff_ne] at this
  exact ⟨this.1.1, this.1.2, this.2⟩

theorem wordChar_ne {c d : Char} (h : wordChar c = true) (hd : wordChar d = false) : c ≠ d := by
  rintro rfl
  rw [h] at hd; cases hd

theorem plain1_word {l : Text} (h : ∀ c ∈ l, wordChar c = true) : Plain1 l := fun c hc =>
  ⟨wordChar_ne (h c hc) (by decide), wordChar_ne (h c hc) (by decide), wordChar_ne (h c hc) (by decide)⟩

theorem plain1_number {d : Text} {i : Int} (h : readInt d = some i) : Plain1 d := by
  intro c hc
  rcases readInt_wordChar h c hc with rfl | h
  · decide
  · exact ⟨wordChar_ne h (by decide), wordChar_ne h (by decide), wordChar_ne h (by decide)⟩

theorem Plain1.newline {l : Text} (h : Plain1 l) : '\n' ∉ l := fun hc => (h _ hc).2.2 rfl

theorem Plain1.reads {l : Text} (h : Plain1 l) : Reads l l := reads_plain fun c hc => ⟨(h c hc).1, (h c hc).2.1⟩

theorem isDirective_blank (l : Text) : isDirective (' ' :: l) = isDirective l := rfl

theorem isDirective_cons {c : Char} (hc : c ≠ ' ') (l : Text) : isDirective (c :: l) = (c == '#') := by
  unfold isDirective
  rw [List.dropWhile_cons_of_neg (by simpa using hc)]
  simp

theorem isDirective_word {w : Text} (hne : w ≠ []) (h : ∀ c ∈ w, wordChar c = true) (t : Text) :
    isDirective (w ++ t) = false := by
  cases w with
  | nil => exact absurd rfl hne
  | cons c w =>
    rw [List.cons_append, isDirective_cons (wordChar_ne (h c (by simp)) (by decide))]
    simpa using wordChar_ne (h c (by simp)) (show wordChar '#' = false by decide)

theorem sees_plain {l : Text} (h : Plain1 l) (hd : isDirective l = false) : Sees (l ++ ['\n']) [] (tokens l) :=
  sees_code (h.reads.append (reads_char (by decide) (by decide))) h.newline hd

theorem sees_noted {l body : Text} (h : Plain1 l) (hd : isDirective l = false) (hb : '\n' ∉ body)
    (hb' : body.getLast? ≠ some '\\') : Sees (l ++ ("//".toList ++ body ++ ['\n'])) [] (tokens l) :=
  sees_code (h.reads.append (reads_note hb hb')) h.newline hd

/-! ### Notes -/

theorem trimRight_append (a b : Text) :
    trimRight (a ++ b) = if trimRight b = [] then trimRight a else a ++ trimRight b := by
  unfold trimRight
  rw [List.reverse_append]
  by_cases h : List.dropWhile (fun x => decide (x = ' ')) b.reverse = []
  · rw [h, List.reverse_nil, if_pos rfl]
    congr 1
    have : ∀ (x y : Text), List.dropWhile (fun x => decide (x = ' ')) x = [] →
        List.dropWhile (fun x => decide (x = ' ')) (x ++ y) = List.dropWhile (fun x => decide (x = ' ')) y := by
      intro x y hx
      induction x with
      | nil => rfl
      | cons c x ih =>
        by_cases hc : c = ' '
        · subst hc
          rw [List.cons_append, List.dropWhile_cons_of_pos (by simp)]
          rw [List.dropWhile_cons_of_pos (by simp)] at hx
          exact ih hx
        · rw [List.dropWhile_cons_of_neg (by simpa using hc)] at hx
          cases hx
    exact this _ _ h
  · rw [if_neg (by simpa using h)]
    have : ∀ (x y : Text), List.dropWhile (fun x => decide (x = ' ')) x ≠ [] →
        List.dropWhile (fun x => decide (x = ' ')) (x ++ y) = List.dropWhile (fun x => decide (x = ' ')) x ++ y := by
      intro x y hx
      induction x with
      | nil => exact absurd rfl hx
      | cons c x ih =>
        by_cases hc : c = ' '
        · subst hc
          rw [List.cons_append, List.dropWhile_cons_of_pos (by simp), List.dropWhile_cons_of_pos (by simp)]
          rw [List.dropWhile_cons_of_pos (by simp)] at hx
          exact ih hx
        · rw [List.cons_append, List.dropWhile_cons_of_neg (by simpa using hc),
            List.dropWhile_cons_of_neg (by simpa using hc), List.cons_append]
    rw [this _ _ h, List.reverse_append, List.reverse_reverse]

theorem trimmed_last {a b : Text} (h : (trimRight b).getLast? ≠ some '\\') (ha : (trimRight a).getLast? ≠ some '\\') :
    (trimRight (a ++ b)).getLast? ≠ some '\\' := by
  rw [trimRight_append]
  split
  · exact ha
  · rw [List.getLast?_append]
    cases hb : (trimRight b).getLast? with
    | none => rename_i hn; exact absurd (List.getLast?_eq_none_iff.1 hb) hn
    | some c => rw [hb] at h; simpa using h

theorem note_last {x : Comment} (h : NoBackslash x) : (trimRight (' ' :: noteBody x)).getLast? ≠ some '\\' := by
  refine trimmed_last (a := [' ']) ?_ (by decide)
  refine trimmed_last h ?_
  split
  · decide
  · have e : '[' :: x.unit.toList ++ "] ".toList = ('[' :: x.unit.toList) ++ "] ".toList := rfl
    rw [e, trimRight_append, if_neg (by decide), List.getLast?_append]
    have : (trimRight "] ".toList).getLast? = some ']' := by decide +kernel
    rw [this]
    simp

theorem import_last {x : Comment} (h : NoBackslash x) :
    (trimRight (' ' :: x.text.toList)).getLast? ≠ some '\\' := trimmed_last (a := [' ']) h (by decide)

/-- A line with a note. -/
theorem sees_note {l cmt pre : Text} {c : Option Comment} (hl : Plain1 l) (hd : ∀ r, isDirective (l ++ r) = false)
    (hn : NoteText c pre cmt) (hp : ∃ n, pre = List.replicate n ' ') (hb : ∀ x ∈ c, NoBackslash x) :
    Sees (l ++ cmt ++ ['\n']) [] (tokens l) := by
  obtain ⟨n, rfl⟩ := hp
  cases c with
  | none =>
    rw [hn.1 rfl, List.append_nil]
    exact sees_plain hl (by simpa using hd [])
  | some x =>
    obtain ⟨body, rfl, h1, h2⟩ := hn.2 x rfl
    have e : l ++ (List.replicate n ' ' ++ "//".toList ++ body) ++ ['\n'] =
        (l ++ List.replicate n ' ') ++ ("//".toList ++ body ++ ['\n']) := by
      generalize "//".toList = s
      simp only [List.append_assoc]
    have ht : ∀ m (a : Text), tokens (a ++ List.replicate m ' ') = tokens a := by
      intro m
      induction m with
      | zero => intro a; rw [List.replicate_zero, List.append_nil]
      | succ m ih =>
        intro a
        rw [List.replicate_succ, tokens_blank]
        have := ih []
        rw [List.nil_append, tokens_nil] at this
        rw [this, List.append_nil]
    rw [e, ← ht n l]
    refine sees_noted (hl.append ?_) (hd _) h1 (h2 ▸ note_last (hb x rfl))
    intro c hc
    rw [List.eq_of_mem_replicate hc]
    decide

/-- A line that is only a note. -/
theorem sees_own_note {cmt : Text} {c : Option Comment} (hn : NoteText c "  ".toList cmt)
    (hb : ∀ x ∈ c, NoBackslash x) : Sees (cmt ++ (if cmt = [] then [] else ['\n'])) [] [] := by
  cases c with
  | none => rw [hn.1 rfl]; exact .nil
  | some x =>
    obtain ⟨body, rfl, h1, h2⟩ := hn.2 x rfl
    rw [if_neg (by simp), List.append_assoc, List.append_assoc]
    have := sees_noted (l := "  ".toList) (plain1_lit (by decide)) (by decide) h1 (h2 ▸ note_last (hb x rfl))
    rw [List.append_assoc] at this
    exact this

/-! ### Words -/

theorem nameStart_word {c : Char} (h : nameRest c = true) : wordChar c = true := by
  have h' : ∀ c ∈ cSymbols, nameRest c = false := by decide +kernel
  unfold wordChar
  cases hm : cSymbols.contains c with
  | false => rfl
  | true => rw [h' c (List.contains_iff_mem.1 hm)] at h; cases h

theorem isName_word {w : Text} (h : isName w = true) : w ≠ [] ∧ ∀ c ∈ w, wordChar c = true := by
  cases w with
  | nil => cases h
  | cons c w =>
    simp only [isName, Bool.and_eq_true, List.all_eq_true] at h
    refine ⟨by simp, ?_⟩
    intro d hd
    simp only [List.mem_cons] at hd
    rcases hd with rfl | hd
    · exact nameStart_word (by simp [nameRest, h.1.1])
    · exact nameStart_word (h.1.2 d hd)

theorem isType_word {w : Text} (h : isType [w] = true) : w ≠ [] ∧ ∀ c ∈ w, wordChar c = true := by
  simp only [isType, Bool.or_eq_true] at h
  rcases h with h | h
  · exact isName_word h
  · have hk : ∀ w ∈ typeKeywords, w ≠ [] ∧ ∀ c ∈ w, wordChar c = true := by decide +kernel
    exact hk w (List.contains_iff_mem.1 h)

theorem word_ne {w : Text} {c : Char} (h : w ≠ [] ∧ ∀ c ∈ w, wordChar c = true) (hc : wordChar c = false) : w ≠ [c] := by
  rintro rfl
  rw [h.2 c (by simp)] at hc; cases hc

theorem isName_of {w : Text} (h : ∃ c r, w = c :: r ∧ nameStart c = true ∧ ∀ d ∈ r, nameRest d = true)
    (hr : NotReserved w) : isName w = true := by
  obtain ⟨c, r, rfl, h1, h2⟩ := h
  simp only [isName, Bool.and_eq_true, List.all_eq_true, Bool.not_eq_true', h1, true_and]
  refine ⟨fun d hd => h2 d hd, ?_⟩
  cases hk : (keywords.map String.toList).contains (c :: r) with
  | false => rfl
  | true => exact absurd (List.contains_iff_mem.1 hk) hr

theorem reLower_start {d : Char} (h : reLower d = true) : nameStart d = true := by
  simp only [nameStart, Bool.or_eq_true, Char.isAlpha]
  refine .inl (.inr ?_)
  simp only [reLower, Bool.and_eq_true, decide_eq_true_eq] at h
  simp only [Char.isLower, Bool.and_eq_true, decide_eq_true_eq]
  exact h

theorem reUpper_start {d : Char} (h : reUpper d = true) : nameStart d = true := by
  simp only [nameStart, Bool.or_eq_true, Char.isAlpha]
  refine .inl (.inl ?_)
  simp only [reUpper, Bool.and_eq_true, decide_eq_true_eq] at h
  simp only [Char.isUpper, decide_eq_true_eq]
  exact h

theorem tailChar_name {d : Char} (h : TailChar d) : nameRest d = true := by
  simp only [nameRest, Bool.or_eq_true, decide_eq_true_eq]
  rcases h with rfl | h | h
  · exact .inl (.inl (by decide))
  · exact .inl (.inl (reLower_start h))
  · by_cases hd : d.toNat < 128
    · refine .inl (.inr ?_)
      have hall : ∀ n < 128, reDigit (Char.ofNat n) = true → (Char.ofNat n).isDigit = true := by decide +kernel
      have := hall d.toNat hd
      rw [Char.ofNat_toNat] at this
      exact this h
    · exact .inr (by omega)

end Apg
