import Verif.Lemmas.Names

/-!
# Property C26: C identifiers
-/

namespace Apg
open Spec

/-- Full statement of C26. -/
def C26_full : Prop :=
  (∀ s, GrammarName s → CIdent (cName s) ∧ ∀ k ∈ keywords, cName s ≠ k.toList) ∧
  ∀ s s', GrammarName s → GrammarName s' → cName s = cName s' → s = s'

/-- It fails: `int` is a member name that the grammar accepts. -/
theorem C26_full_false : ¬ C26_full := by
  intro h
  exact (h.1 "int" (Or.inl (by decide +kernel))).2 "int" (by decide) (by decide +kernel)

/-- The statement without reserved words. -/
def C26_syntax_full : Prop := ∀ s, GrammarName s → CIdent (cName s)

/-- It fails too: `\d` in the name pattern matches digits of every script, so that
`x` followed by an Arabic-Indic digit is a name and is written to the C file. -/
theorem C26_syntax_full_false : ¬ C26_syntax_full := by
  intro h
  have h1 := (h "x٣" (Or.inl (by decide +kernel))).2 '٣' (by decide +kernel)
  unfold IsLetter at h1
  revert h1; decide

/-- **C26 (different names, different identifiers).** -/
theorem C26_injective (s s' : String) (h : GrammarName s) (h' : GrammarName s')
    (he : cName s = cName s') : s = s' := cName_inj h h' he

example : GrammarName "Foo-bar" ∧ GrammarName "foo-bar" ∧ cName "Foo-bar" ≠ cName "foo-bar" :=
  ⟨Or.inr (by decide +kernel), Or.inl (by decide +kernel), by decide +kernel⟩

/-- **C26 (identifier syntax), partial.** Missing: names with digits that are not ASCII.
-/
theorem C26_identifier_partial (s : String) (h : GrammarName s)
    (hascii : ∀ c ∈ s.toList, c.toNat < 128) : CIdent (cName s) := by
  rw [cName_eq h]
  have hascii' : ∀ c ∈ ident s, c.toNat < 128 := by
    intro c hc
    obtain ⟨d, hd, rfl⟩ := List.mem_map.1 hc
    split
    · decide
    · exact hascii d hd
  have hl : ∀ c, reLower c = true → IsLetter c := by
    intro c hc
    simp only [reLower, Bool.and_eq_true, decide_eq_true_eq] at hc
    exact Or.inl hc
  have hu : ∀ c, reUpper c = true → IsLetter c := by
    intro c hc
    simp only [reUpper, Bool.and_eq_true, decide_eq_true_eq] at hc
    exact Or.inr hc
  constructor
  · obtain ⟨c, cs, hs, hc, _⟩ := grammarName_cases h
    have hne : c ≠ '-' := by
      rintro rfl
      rcases hc with hc | hc <;> revert hc <;> decide
    refine ⟨c, cs.map fun c => if c = '-' then '_' else c, by simp [ident, hs, hne], Or.inl ?_⟩
    exact hc.elim (hl c) (hu c)
  · intro c hc
    have h1 := hascii' c hc
    rcases mem_ident h hc with h2 | h2 | h2 | h2
    · exact Or.inr (Or.inr h2)
    · exact Or.inl (hl c h2)
    · exact Or.inl (hu c h2)
    · refine Or.inr (Or.inl ?_)
      simp only [reDigit, List.any_eq_true, Bool.and_eq_true, decide_eq_true_eq] at h2
      obtain ⟨s, hs, h3, h4⟩ := h2
      have hb : ∀ s ∈ digitBlocks, s = 48 ∨ 1000 ≤ s := by decide
      rcases hb s hs with rfl | hb
      · constructor
        · show '0'.toNat ≤ c.toNat; exact h3
        · show c.toNat ≤ '9'.toNat
          have : '9'.toNat = 57 := by decide
          omega
      · omega

example : GrammarName "Uint8-t" ∧ ∀ c ∈ "Uint8-t".toList, c.toNat < 128 :=
  ⟨Or.inr (by decide +kernel), by decide +kernel⟩

/-- **C26 (reserved words), partial.** Missing: names of modules, members and
enumeration items, which start with a lower-case letter. -/
theorem C26_not_reserved_partial (s : String) (h : isNameCapital s = true) :
    ∀ k ∈ keywords, cName s ≠ k.toList := by
  intro k hk he
  have hg : GrammarName s := Or.inr h
  rw [cName_eq hg] at he
  unfold isNameCapital at h
  split at h
  · rename_i c cs hs
    simp only [Bool.and_eq_true] at h
    have hne : c ≠ '-' := by rintro rfl; exact absurd h.1 (by decide)
    have hk' : ∀ k ∈ keywords, ∀ c ∈ k.toList.head?, reUpper c = false := by decide +kernel
    have hh : k.toList.head? = some c := by rw [← he]; simp [ident, hs, hne]
    have := hk' k hk c (by rw [hh]; rfl)
    rw [this] at h
    exact absurd h.1 (by simp)
  · cases h

example : isNameCapital "Int" = true := by decide +kernel

end Apg
