import Verif.Model.Text
import Verif.Spec.Names

namespace Apg
open Spec

/-- Characters of names. -/
def nameChar (c : Char) : Bool := c == '-' || reLower c || reUpper c || reDigit c

theorem nameTail_chars : ∀ (l : List Char), nameTail l = true → ∀ c ∈ l, c = '-' ∨ reAlnum c = true := by
  intro l
  induction l using nameTail.induct with
  | case1 => simp
  | case2 c cs ih =>
    intro h x hx
    simp only [nameTail, Bool.and_eq_true] at h
    simp only [List.mem_cons] at hx
    rcases hx with rfl | rfl | hx
    · exact Or.inl rfl
    · exact Or.inr h.1
    · exact ih h.2 x hx
  | case3 c cs hne ih =>
    intro h x hx
    rw [nameTail] at h
    · simp only [Bool.and_eq_true] at h
      simp only [List.mem_cons] at hx
      rcases hx with rfl | hx
      · exact Or.inr h.1
      · exact ih h.2 x hx
    · exact hne

theorem nameTail_alnum {l : List Char} (h : nameTail l = true) {c : Char} (hc : c ∈ l) :
    c = '-' ∨ reLower c = true ∨ reDigit c = true := by
  rcases nameTail_chars l h c hc with h | h
  · exact Or.inl h
  · simp [reAlnum] at h; exact Or.inr h

/-- Names start with a letter and go on with lower-case letters, digits and `-`. -/
theorem grammarName_cases {s : String} (h : GrammarName s) :
    ∃ c cs, s.toList = c :: cs ∧ (reLower c = true ∨ reUpper c = true) ∧ nameTail cs = true := by
  rcases h with h | h
  · unfold isNameLower at h
    split at h
    · rename_i c cs hs
      simp only [Bool.and_eq_true] at h
      exact ⟨c, cs, hs, Or.inl h.1, h.2⟩
    · cases h
  · unfold isNameCapital at h
    split at h
    · rename_i c cs hs
      simp only [Bool.and_eq_true] at h
      exact ⟨c, cs, hs, Or.inr h.1, h.2⟩
    · cases h

theorem nameChar_of_mem {s : String} (h : GrammarName s) {c : Char} (hc : c ∈ s.toList) :
    nameChar c = true := by
  obtain ⟨d, cs, hs, hd, ht⟩ := grammarName_cases h
  rw [hs] at hc
  unfold nameChar
  simp only [List.mem_cons] at hc
  rcases hc with rfl | hc
  · rcases hd with hd | hd <;> simp [hd]
  · rcases nameTail_alnum ht hc with h | h | h <;> simp [h]

theorem underscore_not_mem {s : String} (h : GrammarName s) : '_' ∉ s.toList := fun hc => by
  have := nameChar_of_mem h hc
  revert this; decide +kernel

theorem upper_tail {s : String} (h : GrammarName s) {c d : Char} {cs : List Char}
    (hs : s.toList = c :: cs) (hd : d ∈ cs) : reUpper d = false := by
  obtain ⟨c', cs', hs', _, ht⟩ := grammarName_cases h
  rw [hs] at hs'
  cases hs'
  have key : ∀ d : Char, reUpper d = true → ¬ (d = '-' ∨ reLower d = true ∨ reDigit d = true) := by
    intro d hd
    simp only [reUpper, Bool.and_eq_true, decide_eq_true_eq] at hd
    have h1 : 65 ≤ d.toNat := hd.1
    have h2 : d.toNat ≤ 90 := hd.2
    rintro (rfl | hl | hg)
    · revert h1; decide
    · simp only [reLower, Bool.and_eq_true, decide_eq_true_eq] at hl
      have : 97 ≤ d.toNat := hl.1
      omega
    · simp only [reDigit, List.any_eq_true, Bool.and_eq_true, decide_eq_true_eq] at hg
      obtain ⟨s, hs, h3, h4⟩ := hg
      have hb : ∀ s ∈ digitBlocks, s = 48 ∨ 1000 ≤ s := by decide
      rcases hb s hs with rfl | hb <;> omega
  cases hu : reUpper d with
  | false => rfl
  | true => exact absurd (nameTail_alnum ht hd) (key d hu)

theorem cName_eq {s : String} (h : GrammarName s) : cName s = ident s := by
  have h1 : s.toList ≠ "IA5String".toList := by
    intro he
    have := upper_tail h (c := 'I') (cs := "A5String".toList) (by rw [he]; rfl) (d := 'A') (by decide)
    revert this; decide
  have h2 : s.toList ≠ "NumericString".toList := by
    intro he
    have := upper_tail h (c := 'N') (cs := "umericString".toList) (by rw [he]; rfl) (d := 'S') (by decide)
    revert this; decide
  unfold cName cNameText
  rw [if_neg (by simp only [not_or]; exact ⟨h1, h2⟩)]
  rfl

theorem map_dash_inj : ∀ {l l' : List Char}, '_' ∉ l → '_' ∉ l' →
    l.map (fun c => if c = '-' then '_' else c) = l'.map (fun c => if c = '-' then '_' else c) →
    l = l'
  | [], [], _, _, _ => rfl
  | [], _ :: _, _, _, h => by simp at h
  | _ :: _, [], _, _, h => by simp at h
  | c :: l, c' :: l', h1, h2, h => by
    simp only [List.map_cons, List.cons.injEq] at h
    simp only [List.mem_cons, not_or] at h1 h2
    have hc : c = c' := by
      have h3 := h.1
      by_cases e1 : c = '-' <;> by_cases e2 : c' = '-'
      · rw [e1, e2]
      · simp [e1, e2] at h3; exact absurd h3 h2.1
      · simp [e1, e2] at h3; exact absurd h3.symm h1.1
      · simpa [e1, e2] using h3
    rw [hc, map_dash_inj h1.2 h2.2 h.2]

theorem ident_inj {s s' : String} (h : GrammarName s) (h' : GrammarName s')
    (he : ident s = ident s') : s = s' :=
  String.toList_inj.1 (map_dash_inj (underscore_not_mem h) (underscore_not_mem h') he)

theorem cName_inj {s s' : String} (h : GrammarName s) (h' : GrammarName s')
    (he : cName s = cName s') : s = s' := by
  rw [cName_eq h, cName_eq h'] at he
  exact ident_inj h h' he

theorem ident_ne_nil {s : String} (h : GrammarName s) : ident s ≠ [] := by
  obtain ⟨c, cs, hs, _⟩ := grammarName_cases h
  simp [ident, hs]

theorem mem_ident {s : String} (h : GrammarName s) {c : Char} (hc : c ∈ ident s) :
    c = '_' ∨ reLower c = true ∨ reUpper c = true ∨ reDigit c = true := by
  unfold ident at hc
  obtain ⟨d, hd, rfl⟩ := List.mem_map.1 hc
  have := nameChar_of_mem h hd
  by_cases hd' : d = '-'
  · simp [hd']
  · simp only [nameChar, Bool.or_eq_true, beq_iff_eq] at this
    rw [if_neg hd']
    rcases this with ((h | h) | h) | h
    · exact absurd h hd'
    · simp [h]
    · simp [h]
    · simp [h]

/-- Characters that cannot occur in the C form of a name. -/
theorem not_mem_ident {s : String} (h : GrammarName s) (c : Char)
    (hc : (c == '_' || reLower c || reUpper c || reDigit c) = false) : c ∉ ident s := by
  intro hm
  rcases mem_ident h hm with rfl | h | h | h <;> simp_all

end Apg
