import Verif.Lemmas.CSource
import Verif.Lemmas.Printer

/-!
# Lemmas on the constants in the C files of generate-c
-/

namespace Apg
open Spec

theorem digit_word {c : Char} (h : c.isDigit = true) : wordChar c = true := by
  have h' : ∀ c ∈ cSymbols, c.isDigit = false := by decide +kernel
  unfold wordChar
  cases hm : cSymbols.contains c with
  | false => rfl
  | true => rw [h' c (List.contains_iff_mem.1 hm)] at h; cases h

theorem lexNumbers_number {w : Text} {c : Char} (h : numberChar w c = true) (t : Text) :
    lexNumbers w (c :: t) = lexNumbers (w ++ [c]) t := by
  rw [lexNumbers, if_pos (by simp [h])]

/-- A floating constant is one token. -/
theorem lexNumbers_float {w : Text} (h : FloatText w) : lexNumbers [] w = [w] := by
  obtain ⟨a, f, e, rfl, ha, hf, he, _⟩ := h
  obtain ⟨d0, a', rfl⟩ : ∃ d a', a = d :: a' := by
    cases a with
    | nil => exact absurd rfl ha.1
    | cons d a' => exact ⟨d, a', rfl⟩
  have hd0 := ha.2 d0 (by simp)
  have h1 : lexNumbers [] (d0 :: a' ++ f ++ e) = lexNumbers (d0 :: a') (f ++ e) := by
    rw [List.append_assoc, lexNumbers_word _ fun c hc => digit_word (ha.2 c hc)]
    rfl
  have h2 : ∀ t, lexNumbers (d0 :: a') (f ++ t) = lexNumbers (d0 :: a' ++ f) t := by
    intro t
    rcases hf with rfl | ⟨d, rfl, hd⟩
    · simp
    · rw [List.cons_append, lexNumbers_number (by simp [numberChar, hd0]),
        lexNumbers_word _ fun c hc => digit_word (hd.2 c hc)]
      simp
  have h3 : lexNumbers (d0 :: a' ++ f) e = lexNumbers (d0 :: a' ++ f ++ e) [] := by
    rcases he with rfl | ⟨s, d, rfl, hs, hd⟩
    · simp
    · have hw : ∀ w, lexNumbers w ('e' :: (s ++ d)) = lexNumbers (w ++ ['e']) (s ++ d) := fun w => by
        have := lexNumbers_word w (a := ['e']) (by decide) (s ++ d)
        simpa using this
      rw [show 'e' :: s ++ d = 'e' :: (s ++ d) from rfl, hw]
      have hl : (d0 :: (a' ++ (f ++ ['e']))).getLast? = some 'e' := by
        have := List.getLast?_concat (a := 'e') (l := d0 :: a' ++ f)
        simpa only [List.cons_append, List.append_assoc] using this
      have hs' : lexNumbers (d0 :: a' ++ f ++ ['e']) (s ++ d) = lexNumbers (d0 :: a' ++ f ++ ['e'] ++ s) d := by
        rcases hs with rfl | rfl | rfl
        · simp
        · rw [List.singleton_append, lexNumbers_number]
          simp [numberChar, hd0, hl]
        · rw [List.singleton_append, lexNumbers_number]
          simp [numberChar, hd0, hl]
      rw [hs']
      have := lexNumbers_word (d0 :: a' ++ f ++ ['e'] ++ s) (fun c hc => digit_word (hd.2 c hc)) []
      rw [List.append_nil] at this
      rw [this]
      simp
  rw [h1, h2, h3, lexNumbers_nil]
  simp

theorem lexNumbers_minus {w : Text} (h : lexNumbers [] w = [w]) : lexNumbers [] ('-' :: w) = [['-'], w] := by
  rw [lexNumbers_symbol (by decide), h]

theorem readDec_chars {w : Text} {n : Nat} (h : readDec w = some n) : w ≠ [] ∧ ∀ c ∈ w, (digitVal c).isSome := by
  have hr := readDec_nat h
  refine ⟨?_, readNat_chars hr⟩
  rintro rfl
  simp [readNat] at hr

theorem lexNumbers_dec {w : Text} {n : Nat} (h : readDec w = some n) : lexNumbers [] w = [w] := by
  obtain ⟨h1, h2⟩ := readDec_chars h
  refine lexNumbers_one h1 fun c hc => ?_
  have h' : ∀ c ∈ cSymbols, (digitVal c).isSome = false := by decide +kernel
  have := h2 c hc
  unfold wordChar
  cases hm : cSymbols.contains c with
  | false => rfl
  | true => rw [h' c (List.contains_iff_mem.1 hm)] at this; cases this

theorem float_not_dec {w : Text} (h : FloatText w) {n : Nat} : readDec w ≠ some n := by
  intro hr
  obtain ⟨_, h2⟩ := readDec_chars hr
  obtain ⟨a, f, e, rfl, _, hf, he, hne⟩ := h
  rcases hf with rfl | ⟨d, rfl, _⟩
  · rcases he with rfl | ⟨s, d, rfl, _⟩
    · simp at hne
    · have := h2 'e' (by simp)
      revert this
      decide
  · have := h2 '.' (by simp)
    revert this
    decide

theorem constant_dec {w : Text} {n : Nat} (h : readDec w = some n) : IsConstant w ↔ n < 2 ^ 63 := by
  constructor
  · rintro (⟨k, hk, hlt⟩ | hf)
    · rw [h] at hk
      cases hk
      exact hlt
    · exact absurd h (float_not_dec hf)
  · exact fun hlt => .inl ⟨n, h, hlt⟩

theorem constantTokens_one {w : Text} : ConstantTokens [w] ↔ IsConstant w := by
  constructor
  · rintro ⟨w', h, h' | h'⟩
    · cases h'; exact h
    · cases h'
  · exact fun h => ⟨w, h, .inl rfl⟩

theorem constantTokens_minus {w : Text} : ConstantTokens [['-'], w] ↔ IsConstant w := by
  constructor
  · rintro ⟨w', h, h' | h'⟩
    · cases h'
    · cases h'; exact h
  · exact fun h => ⟨w, h, .inr rfl⟩

theorem constant_int {t : Text} {i : Int} (h : readInt t = some i) : ConstantTokens (lexNumbers [] t) ↔ i.natAbs < 2 ^ 63 := by
  unfold readInt at h
  split at h
  · simp only [Option.map_eq_some_iff] at h
    obtain ⟨n, hn, rfl⟩ := h
    rw [lexNumbers_minus (lexNumbers_dec hn), constantTokens_minus, constant_dec hn]
    simp
  · simp only [Option.map_eq_some_iff] at h
    obtain ⟨n, hn, rfl⟩ := h
    rw [lexNumbers_dec hn, constantTokens_one, constant_dec hn]
    simp

theorem constant_inf : ¬ IsConstant "inf".toList := by
  rintro (⟨n, h, _⟩ | ⟨a, f, e, h, ha, _⟩)
  · have := (readDec_chars h).2 'i' (by decide)
    revert this
    decide
  · cases a with
    | nil => exact ha.1 rfl
    | cons c a =>
      have := ha.2 c (by simp)
      rw [List.append_assoc, List.cons_append] at h
      have e : "inf".toList = ['i', 'n', 'f'] := rfl
      rw [e] at h
      rw [← (List.cons.inj h).1] at this
      revert this
      decide

/-- The value of a clause is a constant in C. -/
theorem constant_value {p : Printer} (hq : PythonFloats p) (v : Leaf) : ConstantTokens (valueTokens p v) ↔ HasConstant v := by
  unfold valueTokens
  have hv := cValue_text p v
  cases v with
  | int i => exact constant_int hv
  | bool b =>
    rw [constant_int hv]
    cases b <;> simp [HasConstant]
  | flt x =>
    cases x with
    | int i => exact constant_int hv
    | flt q =>
      have hv' : cValue p (.flt (.flt q)) = p.float (.flt q) := rfl
      rw [hv']
      obtain ⟨w, hw, h | h⟩ := hq.finite q
      · rw [h, lexNumbers_float hw, constantTokens_one]
        exact ⟨fun _ => trivial, fun _ => .inr hw⟩
      · rw [h, lexNumbers_minus (lexNumbers_float hw), constantTokens_minus]
        exact ⟨fun _ => trivial, fun _ => .inr hw⟩
    | inf b =>
      have hv' : cValue p (.flt (.inf b)) = p.float (.inf b) := rfl
      rw [hv']
      have e1 : lexNumbers [] "inf".toList = ["inf".toList] := by decide +kernel
      have e2 : lexNumbers [] "-inf".toList = [['-'], "inf".toList] := by decide +kernel
      refine ⟨fun h => ?_, fun h => absurd h id⟩
      cases b
      · rw [hq.infinite.1, e1, constantTokens_one] at h
        exact constant_inf h
      · rw [hq.infinite.2, e2, constantTokens_minus] at h
        exact constant_inf h

theorem exPrinter_floats : PythonFloats exPrinter where
  finite q := by
    have hd : ∀ n, Digits (digits 10 n) := by
      intro n
      refine ⟨?_, ?_⟩
      · exact digits_ne_nil 10 n
      · intro c hc
        have := digits_chars n c hc
        revert this
        have : ∀ c ∈ "0123456789".toList, c.isDigit = true := by decide
        exact this c
    refine ⟨digits 10 q.num.natAbs ++ [] ++ ('e' :: [] ++ digits 10 q.den),
      ⟨digits 10 q.num.natAbs, [], 'e' :: [] ++ digits 10 q.den, rfl, hd _, .inl rfl, .inr ⟨[], _, rfl, .inl rfl, hd _⟩,
        .inr (by simp)⟩, ?_⟩
    simp only [exPrinter, intText]
    split
    · exact .inr (by simp)
    · exact .inl (by simp)
  infinite := ⟨rfl, rfl⟩

end Apg
