import Verif.Lemmas.Text
import Verif.Spec.Printer

namespace Apg
open Spec

/-- A printer for the examples: floats as exact fractions `<numerator>e<denominator>`. -/
def exPrinter : Printer where
  float
    | .flt q => intText q.num ++ 'e' :: digits 10 q.den
    | .inf neg => if neg then "-inf".toList else "inf".toList
    | .int _ => []
  object _ := []

theorem split_unique {x : Char} : ∀ {a a' b b' : List Char}, x ∉ a → x ∉ a' →
    a ++ x :: b = a' ++ x :: b' → a = a' ∧ b = b'
  | [], [], _, _, _, _, h => by simpa using h
  | [], c :: a', _, _, _, h2, h => by
    simp only [List.nil_append, List.cons_append, List.cons.injEq] at h
    exact absurd (by simp [h.1]) h2
  | c :: a, [], _, _, h1, _, h => by
    simp only [List.nil_append, List.cons_append, List.cons.injEq] at h
    exact absurd (by simp [h.1]) h1
  | c :: a, d :: a', _, _, h1, h2, h => by
    simp only [List.mem_cons, not_or] at h1 h2
    simp only [List.cons_append, List.cons.injEq] at h
    obtain ⟨r1, r2⟩ := split_unique h1.2 h2.2 h.2
    exact ⟨by rw [h.1, r1], r2⟩

theorem intText_chars (i : Int) : ∀ c ∈ intText i, c = '-' ∨ (digitVal c).isSome :=
  readInt_chars (readInt_intText i)

theorem e_not_mem_intText (i : Int) : 'e' ∉ intText i := by
  intro h
  rcases intText_chars i _ h with h | h <;> revert h <;> decide

theorem readFrom_ten {t : List Char} : ∀ {n m : Nat}, readFrom 10 n t = some m →
    ∀ c ∈ t, c ∈ "0123456789".toList := by
  induction t with
  | nil => intro n m _ c hc; cases hc
  | cons d t ih =>
    intro n m h c hc
    simp only [readFrom] at h
    split at h
    · rename_i v hv
      split at h
      · rename_i hlt
        simp only [List.mem_cons] at hc
        rcases hc with rfl | hc
        · unfold digitVal at hv
          split at hv
          · rename_i hr
            have h1 : 48 ≤ c.toNat := hr.1
            have h2 : c.toNat ≤ 57 := hr.2
            have : ∀ n : Fin 58, 48 ≤ n.val → Char.ofNat n.val ∈ "0123456789".toList := by decide
            have := this ⟨c.toNat, by omega⟩ h1
            simpa [Char.ofNat_toNat] using this
          · split at hv
            · simp only [Option.some.injEq] at hv; omega
            · cases hv
        · exact ih h c hc
      · cases h
    · cases h

theorem digits_chars (n : Nat) : ∀ c ∈ digits 10 n, c ∈ "0123456789".toList :=
  readFrom_ten (readFrom_digits (by omega) (by omega) n)

theorem exPrinter_faithful : Faithful exPrinter := by
  have hdig : ∀ c ∈ "0123456789".toList, c ∈ "0123456789.e+-inf".toList := by decide
  have hint : ∀ i : Int, ∀ c ∈ intText i, c ∈ "0123456789.e+-inf".toList := by
    intro i c hc
    unfold intText at hc
    split at hc
    · simp only [List.mem_cons] at hc
      rcases hc with rfl | hc
      · decide
      · exact hdig c (digits_chars _ c hc)
    · exact hdig c (digits_chars _ c hc)
  constructor
  · intro x hx c hc
    cases x with
    | int i => cases hx
    | flt q =>
      simp only [exPrinter, List.mem_append, List.mem_cons] at hc
      rcases hc with hc | rfl | hc
      · exact hint _ c hc
      · decide
      · exact hdig c (digits_chars _ c hc)
    | inf b => cases b <;> revert c <;> decide
  · intro x hx
    cases x with
    | int i => cases hx
    | flt q => simp [exPrinter]
    | inf b => cases b <;> decide
  · intro x hx
    cases x with
    | int i => cases hx
    | flt q =>
      cases hr : readInt (exPrinter.float (.flt q)) with
      | none => rfl
      | some i =>
        exfalso
        rcases readInt_chars hr 'e' (by simp [exPrinter]) with h | h <;> revert h <;> decide
    | inf b => cases b <;> decide
  · have hmix : ∀ (q : Rat) (b : Bool), exPrinter.float (.flt q) ≠ exPrinter.float (.inf b) := by
      intro q b h
      have h1 : 'e' ∈ exPrinter.float (.flt q) := by simp [exPrinter]
      rw [h] at h1
      cases b <;> revert h1 <;> decide
    intro x y hx hy h
    cases x with
    | int i => cases hx
    | flt q =>
      cases y with
      | int i => cases hy
      | flt r =>
        simp only [exPrinter] at h
        obtain ⟨h1, h2⟩ := split_unique (e_not_mem_intText _) (e_not_mem_intText _) h
        rw [Rat.ext (intText_inj h1) (digits_inj (by omega) (by omega) h2)]
      | inf b => exact absurd h (hmix q b)
    | inf b =>
      cases y with
      | int i => cases hy
      | flt r => exact absurd h.symm (hmix r b)
      | inf b' => cases b <;> cases b' <;> first | rfl | (exfalso; revert h; decide)

end Apg
