import Verif.Lemmas.Names
import Verif.Model.Output

namespace Apg
open Spec

theorem toUpper_lower_val {c : Char} (h : reLower c = true) : c.toUpper.toNat + 32 = c.toNat := by
  have hr := h
  simp only [reLower, Bool.and_eq_true, decide_eq_true_eq] at hr
  have h1 : 97 ≤ c.toNat := hr.1
  have h2 : c.toNat ≤ 122 := hr.2
  have : ∀ n : Fin 123, 97 ≤ n.val → (Char.ofNat n.val).toUpper.toNat + 32 = n.val := by decide
  have := this ⟨c.toNat, by omega⟩ h1
  simpa [Char.ofNat_toNat] using this

theorem toUpper_other {c : Char} (h : reLower c = false) : c.toUpper = c := by
  unfold Char.toUpper
  split
  · rename_i hc
    exfalso
    have h1 : 'a' ≤ c := hc.1
    have h2 : c ≤ 'z' := hc.2
    simp [reLower, h1, h2] at h
  · rfl

theorem reLower_range {c : Char} (h : reLower c = true) : 97 ≤ c.toNat ∧ c.toNat ≤ 122 := by
  simp only [reLower, Bool.and_eq_true, decide_eq_true_eq] at h
  exact h

theorem reUpper_range {c : Char} (h : reUpper c = true) : 65 ≤ c.toNat ∧ c.toNat ≤ 90 := by
  simp only [reUpper, Bool.and_eq_true, decide_eq_true_eq] at h
  exact h

theorem reDigit_range {c : Char} (h : reDigit c = true) :
    (48 ≤ c.toNat ∧ c.toNat ≤ 57) ∨ 1000 ≤ c.toNat := by
  simp only [reDigit, List.any_eq_true, Bool.and_eq_true, decide_eq_true_eq] at h
  obtain ⟨s, hs, h3, h4⟩ := h
  have hb : ∀ s ∈ digitBlocks, s = 48 ∨ 1000 ≤ s := by decide
  rcases hb s hs with rfl | hb <;> omega

/-- Characters of identifiers after the first. -/
def TailChar (c : Char) : Prop := c = '_' ∨ reLower c = true ∨ reDigit c = true

theorem toNat_inj {c d : Char} (h : c.toNat = d.toNat) : c = d := by
  rw [← Char.ofNat_toNat c, h, Char.ofNat_toNat]

theorem tailChar_upper {c : Char} (h : TailChar c) :
    (reLower c = true ∧ 65 ≤ c.toUpper.toNat ∧ c.toUpper.toNat ≤ 90) ∨
    (reLower c = false ∧ c.toUpper = c ∧ (c.toNat < 65 ∨ 90 < c.toNat) ∧ 48 ≤ c.toNat) := by
  cases hl : reLower c with
  | true =>
    have := toUpper_lower_val hl
    have := reLower_range hl
    left; refine ⟨rfl, by omega, by omega⟩
  | false =>
    right
    refine ⟨rfl, toUpper_other hl, ?_⟩
    rcases h with rfl | h | h
    · decide
    · rw [h] at hl; cases hl
    · have := reDigit_range h
      omega

theorem tailChar_upper_inj {c d : Char} (hc : TailChar c) (hd : TailChar d)
    (h : c.toUpper = d.toUpper) : c = d := by
  rcases tailChar_upper hc with ⟨h1, h2⟩ | ⟨h1, h2, h3⟩ <;>
    rcases tailChar_upper hd with ⟨k1, k2⟩ | ⟨k1, k2, k3⟩
  · have e1 := toUpper_lower_val h1
    have e2 := toUpper_lower_val k1
    rw [h] at e1
    exact toNat_inj (by omega)
  · rw [k2] at h
    rw [h] at h2
    omega
  · rw [h2] at h
    rw [← h] at k2
    omega
  · rw [← h2, h, k2]

theorem map_inj_on {α β} {f : α → β} {P : α → Prop} (hf : ∀ a b, P a → P b → f a = f b → a = b) :
    ∀ {l l' : List α}, (∀ a ∈ l, P a) → (∀ a ∈ l', P a) → l.map f = l'.map f → l = l'
  | [], [], _, _, _ => rfl
  | [], _ :: _, _, _, h => by simp at h
  | _ :: _, [], _, _, h => by simp at h
  | a :: l, b :: l', h1, h2, h => by
    simp only [List.map_cons, List.cons.injEq] at h
    rw [hf a b (h1 a (by simp)) (h2 b (by simp)) h.1,
      map_inj_on hf (fun a ha => h1 a (by simp [ha])) (fun a ha => h2 a (by simp [ha])) h.2]

theorem ident_lower_chars {s : String} (h : isNameLower s = true) : ∀ c ∈ ident s, TailChar c := by
  unfold isNameLower at h
  split at h
  · rename_i c cs hs
    simp only [Bool.and_eq_true] at h
    intro d hd
    unfold ident at hd
    rw [hs, List.map_cons, List.mem_cons] at hd
    rcases hd with rfl | hd
    · have hne : c ≠ '-' := by rintro rfl; exact absurd h.1 (by decide)
      rw [if_neg hne]
      exact Or.inr (Or.inl h.1)
    · obtain ⟨e, he, rfl⟩ := List.mem_map.1 hd
      split
      · exact Or.inl rfl
      · rename_i hne
        rcases nameTail_alnum h.2 he with h | h | h
        · exact absurd h hne
        · exact Or.inr (Or.inl h)
        · exact Or.inr (Or.inr h)
  · cases h

theorem ident_capital_chars {s : String} (h : isNameCapital s = true) :
    ∃ c r, ident s = c :: r ∧ reUpper c = true ∧ ∀ d ∈ r, TailChar d := by
  unfold isNameCapital at h
  split at h
  · rename_i c cs hs
    simp only [Bool.and_eq_true] at h
    have hne : c ≠ '-' := by rintro rfl; exact absurd h.1 (by decide)
    refine ⟨c, cs.map fun c => if c = '-' then '_' else c, by simp [ident, hs, hne], h.1, ?_⟩
    intro d hd
    obtain ⟨e, he, rfl⟩ := List.mem_map.1 hd
    split
    · exact Or.inl rfl
    · rename_i hne
      rcases nameTail_alnum h.2 he with h | h | h
      · exact absurd h hne
      · exact Or.inr (Or.inl h)
      · exact Or.inr (Or.inr h)
  · cases h

theorem raise_lower_inj {s t : String} (hs : isNameLower s = true) (ht : isNameLower t = true)
    (h : raise (ident s) = raise (ident t)) : s = t :=
  ident_inj (Or.inl hs) (Or.inl ht)
    (map_inj_on (fun _ _ => tailChar_upper_inj) (ident_lower_chars hs) (ident_lower_chars ht) h)

theorem raise_capital_inj {s t : String} (hs : isNameCapital s = true) (ht : isNameCapital t = true)
    (h : raise (ident s) = raise (ident t)) : s = t := by
  obtain ⟨c, r, h1, h2, h3⟩ := ident_capital_chars hs
  obtain ⟨c', r', h1', h2', h3'⟩ := ident_capital_chars ht
  apply ident_inj (Or.inr hs) (Or.inr ht)
  rw [h1, h1'] at h ⊢
  simp only [raise, List.map_cons, List.cons.injEq] at h
  have up : ∀ {c : Char}, reUpper c = true → c.toUpper = c := by
    intro c hc
    apply toUpper_other
    cases hl : reLower c with
    | false => rfl
    | true => have := reUpper_range hc; have := reLower_range hl; omega
  rw [up h2, up h2'] at h
  rw [h.1, map_inj_on (fun _ _ => tailChar_upper_inj) h3 h3' h.2]

/-! ### Guard symbols -/

/-- Ends of the names of generated headers. -/
def suffixes : List Text := ["_msg.h".toList, "_msgids.h".toList, ".h".toList]

/-- What the guard symbol does with one character. -/
def guardChar (c : Char) : Char := (if c = '.' then '_' else c).toUpper

theorem guardSymbol_eq {n : String} (hn : isNameLower n = true) {x : Text} (hx : x ∈ suffixes) :
    guardSymbol (ident n ++ x) =
      "ASN1_PARSER_".toList ++ ((ident n).map guardChar ++ x.map guardChar) ++ "_INCLUDED".toList := by
  have hdot : '.' ∈ ident n ++ x := by
    simp only [suffixes, List.mem_cons, List.not_mem_nil, or_false] at hx
    rcases hx with rfl | rfl | rfl <;> simp
  have hne : ¬ (ident n ++ x = "IA5String".toList ∨ ident n ++ x = "NumericString".toList) := by
    rintro (h | h) <;> rw [h] at hdot <;> revert hdot <;> decide
  have hdash : ∀ c ∈ ident n ++ x, c ≠ '-' := by
    intro c hc
    rw [List.mem_append] at hc
    rcases hc with hc | hc
    · rintro rfl
      exact not_mem_ident (Or.inl hn) '-' (by decide) hc
    · simp only [suffixes, List.mem_cons, List.not_mem_nil, or_false] at hx
      rcases hx with rfl | rfl | rfl <;> revert c <;> decide
  have hrep : cNameText (ident n ++ x) = ident n ++ x := by
    unfold cNameText
    rw [if_neg hne]
    unfold replaceChar
    have : (ident n ++ x).map (fun c => if c = '-' then '_' else c) = (ident n ++ x).map id :=
      List.map_congr_left (fun c hc => by simp [hdash c hc])
    rw [this, List.map_id]
  unfold guardSymbol
  rw [hrep, ← List.map_append]
  simp only [upper, replaceChar, List.map_map]
  rfl

theorem guardChar_tail {c : Char} (h : TailChar c) : guardChar c = c.toUpper := by
  unfold guardChar
  have : c ≠ '.' := by
    rintro rfl
    rcases h with h | h | h <;> revert h <;> decide
  rw [if_neg this]

theorem guardSymbol_chars {n : String} (hn : isNameLower n = true) {x : Text} (hx : x ∈ suffixes) :
    guardSymbol (ident n ++ x) ≠ [] ∧ ∀ c ∈ guardSymbol (ident n ++ x), c ≠ ' ' ∧ c ≠ '\n' := by
  rw [guardSymbol_eq hn hx]
  refine ⟨by simp, ?_⟩
  intro c hc
  simp only [List.mem_append] at hc
  rcases hc with (hc | hc | hc) | hc
  · revert c; decide
  · obtain ⟨d, hd, rfl⟩ := List.mem_map.1 hc
    have ht := ident_lower_chars hn d hd
    rw [guardChar_tail ht]
    have h48 : 48 ≤ d.toUpper.toNat := by
      rcases tailChar_upper ht with ⟨_, h, _⟩ | ⟨_, h, _, h'⟩
      · omega
      · rw [h]; exact h'
    constructor <;> intro he <;> rw [he] at h48 <;> revert h48 <;> decide
  · simp only [suffixes, List.mem_cons, List.not_mem_nil, or_false] at hx
    rcases hx with rfl | rfl | rfl <;> revert c <;> decide
  · revert c; decide

theorem suffix_stem {n : String} (hn : isNameLower n = true) {x : Text} (hx : x ∈ suffixes) :
    ∃ stem, ident n ++ x = stem ++ ".h".toList ∧ ∀ c ∈ stem, TailChar c := by
  have hc := ident_lower_chars hn
  simp only [suffixes, List.mem_cons, List.not_mem_nil, or_false] at hx
  have hm : ∀ c ∈ "_msg".toList, TailChar c := by unfold TailChar; decide
  have hi : ∀ c ∈ "_msgids".toList, TailChar c := by unfold TailChar; decide
  rcases hx with rfl | rfl | rfl
  · refine ⟨ident n ++ "_msg".toList, by rw [List.append_assoc]; rfl, ?_⟩
    intro c h
    exact (List.mem_append.1 h).elim (hc c) (hm c)
  · refine ⟨ident n ++ "_msgids".toList, by rw [List.append_assoc]; rfl, ?_⟩
    intro c h
    exact (List.mem_append.1 h).elim (hc c) (hi c)
  · exact ⟨ident n, rfl, hc⟩

/-- Different header files have different symbols. -/
theorem guardSymbol_inj {n n' : String} (hn : isNameLower n = true) (hn' : isNameLower n' = true)
    {x x' : Text} (hx : x ∈ suffixes) (hx' : x' ∈ suffixes)
    (h : guardSymbol (ident n ++ x) = guardSymbol (ident n' ++ x')) : ident n ++ x = ident n' ++ x' := by
  rw [guardSymbol_eq hn hx, guardSymbol_eq hn' hx'] at h
  have h1 := List.append_cancel_left (List.append_cancel_right h)
  rw [← List.map_append, ← List.map_append] at h1
  obtain ⟨st, e1, c1⟩ := suffix_stem hn hx
  obtain ⟨st', e2, c2⟩ := suffix_stem hn' hx'
  rw [e1, e2] at h1 ⊢
  rw [List.map_append, List.map_append] at h1
  have h2 := List.append_cancel_right h1
  congr 1
  refine map_inj_on (P := TailChar) (fun c d hc hd he => ?_) c1 c2 h2
  rw [guardChar_tail hc, guardChar_tail hd] at he
  exact tailChar_upper_inj hc hd he

end Apg
