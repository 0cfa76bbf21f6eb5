import Verif.Model.Text
import Verif.Spec.Text

namespace Apg
open Spec

theorem digitVal_digitChar {d : Nat} (h : d < 16) : digitVal (digitChar d) = some d := by
  have : ∀ d : Fin 16, digitVal (digitChar d.val) = some d.val := by decide
  exact this ⟨d, h⟩

theorem readFrom_append (b n : Nat) (s t : List Char) :
    readFrom b n (s ++ t) = (readFrom b n s).bind (fun m => readFrom b m t) := by
  induction s generalizing n with
  | nil => simp [readFrom]
  | cons c s ih =>
    simp only [List.cons_append, readFrom]
    split
    · split
      · exact ih _
      · rfl
    · rfl

theorem digits_ne_nil (b n : Nat) : digits b n ≠ [] := by
  rw [digits]; split <;> simp

theorem readFrom_digits {b : Nat} (h2 : 2 ≤ b) (h16 : b ≤ 16) (n : Nat) :
    readFrom b 0 (digits b n) = some n := by
  induction n using Nat.strongRecOn with
  | _ n ih =>
    rw [digits]
    split
    · rename_i h
      have hn : n < b := by omega
      simp [readFrom, digitVal_digitChar (show n < 16 by omega), hn]
    · rename_i h
      have hlt : n / b < n := Nat.div_lt_self (by omega) (by omega)
      rw [readFrom_append, ih _ hlt]
      have hm : n % b < b := Nat.mod_lt _ (by omega)
      simp [readFrom, digitVal_digitChar (show n % b < 16 by omega), hm]
      rw [Nat.mul_comm]
      exact Nat.div_add_mod n b

theorem readNat_digits {b : Nat} (h2 : 2 ≤ b) (h16 : b ≤ 16) (n : Nat) :
    readNat b (digits b n) = some n := by
  simp [readNat, digits_ne_nil, readFrom_digits h2 h16]

theorem readFrom_zeros {b : Nat} (h : 2 ≤ b) (k : Nat) (t : List Char) :
    readFrom b 0 (List.replicate k '0' ++ t) = readFrom b 0 t := by
  induction k with
  | zero => simp
  | succ k ih =>
    simp only [List.replicate_succ, List.cons_append, readFrom]
    have : digitVal '0' = some 0 := by decide
    simp [this, show 0 < b by omega, ih]

theorem readNat_padZero {b : Nat} (h2 : 2 ≤ b) (h16 : b ≤ 16) (w n : Nat) :
    readNat b (padZero w (digits b n)) = some n := by
  have hne : padZero w (digits b n) ≠ [] := by
    simp [padZero, digits_ne_nil]
  rw [readNat, if_neg hne, padZero, readFrom_zeros h2, readFrom_digits h2 h16]

/-- Number of digits. -/
theorem digits_length_le {b : Nat} (h2 : 2 ≤ b) (k n : Nat) (hk : 1 ≤ k) :
    (digits b n).length ≤ k ↔ n < b ^ k := by
  induction k generalizing n with
  | zero => omega
  | succ k ih =>
    rw [digits]
    split
    · rename_i h
      have hn : n < b := by omega
      simp
      calc n < b ^ 1 := by simpa using hn
        _ ≤ b ^ (k + 1) := Nat.pow_le_pow_right (by omega) (by omega)
    · rename_i h
      have hn : b ≤ n := by omega
      simp only [List.length_append, List.length_cons, List.length_nil]
      by_cases hk0 : k = 0
      · subst hk0
        have : 0 < (digits b (n / b)).length := List.length_pos_iff.2 (digits_ne_nil _ _)
        have h1 : ¬ (digits b (n / b)).length + (0 + 1) ≤ 0 + 1 := by omega
        have h2 : ¬ n < b ^ (0 + 1) := by simp; omega
        exact ⟨fun h => absurd h h1, fun h => absurd h h2⟩
      · have := ih (n / b) (by omega)
        rw [Nat.div_lt_iff_lt_mul (by omega), ← Nat.pow_succ] at this
        rw [← this]; omega

theorem digits_all_digit (b n : Nat) : ∀ c ∈ digits b n, ∃ d, c = digitChar d := by
  induction n using Nat.strongRecOn with
  | _ n ih =>
    rw [digits]
    split
    · intro c hc
      simp at hc; exact ⟨_, hc⟩
    · rename_i h
      intro c hc
      rcases List.mem_append.1 hc with hc | hc
      · exact ih _ (Nat.div_lt_self (by omega) (by omega)) c hc
      · simp at hc; exact ⟨_, hc⟩

theorem digits_head (n : Nat) : (digits 10 n).head? = some '0' → n = 0 := by
  induction n using Nat.strongRecOn with
  | _ n ih =>
    rw [digits]
    split
    · rename_i h
      have : ∀ k < 10, [digitChar k].head? = some '0' → k = 0 := by decide
      exact this n (by omega)
    · rename_i h
      intro hh
      have hd : (digits 10 (n / 10)).head? = some '0' := by
        cases hq : digits 10 (n / 10) with
        | nil => exact absurd hq (digits_ne_nil _ _)
        | cons c r => rw [hq] at hh; exact hh
      have := ih (n / 10) (by omega) hd
      omega

theorem readDec_digits (n : Nat) : readDec (digits 10 n) = some n := by
  unfold readDec
  rw [if_neg, readNat_digits (by omega) (by omega)]
  rintro ⟨h1, h2⟩
  cases digits_head n h1
  exact h2 (by decide +kernel)

theorem readDec_nat {t : List Char} {n : Nat} (h : readDec t = some n) : readNat 10 t = some n := by
  unfold readDec at h
  split at h
  · cases h
  · exact h

theorem readInt_intText (i : Int) : readInt (intText i) = some i := by
  unfold intText
  split
  · simp only [readInt, readDec_digits]
    simp; omega
  · have h := readNat_digits (by omega : 2 ≤ 10) (by omega : 10 ≤ 16) i.natAbs
    have hne : ∀ t, digits 10 i.natAbs ≠ '-' :: t := by
      intro t ht
      rw [ht] at h
      have : digitVal '-' = none := by decide
      simp [readNat, readFrom, this] at h
    unfold readInt
    split
    · rename_i t ht; exact absurd ht (hne t)
    · rw [readDec_digits]; simp; omega

theorem digits_inj {b : Nat} (h2 : 2 ≤ b) (h16 : b ≤ 16) {m n : Nat} (h : digits b m = digits b n) :
    m = n := by
  have h1 := readNat_digits h2 h16 m
  rw [h, readNat_digits h2 h16 n] at h1
  simpa using h1.symm

theorem intText_inj {i j : Int} (h : intText i = intText j) : i = j := by
  have h1 := readInt_intText i
  rw [h, readInt_intText j] at h1
  simpa using h1.symm

theorem readFrom_chars {b : Nat} : ∀ {t : List Char} {n m : Nat}, readFrom b n t = some m →
    ∀ c ∈ t, (digitVal c).isSome := by
  intro t
  induction t with
  | nil => intro n m _ c hc; cases hc
  | cons d t ih =>
    intro n m h c hc
    simp only [readFrom] at h
    split at h
    · rename_i v hv
      split at h
      · simp only [List.mem_cons] at hc
        rcases hc with rfl | hc
        · simp [hv]
        · exact ih h c hc
      · cases h
    · cases h

theorem readNat_chars {b : Nat} {t : List Char} {n : Nat} (h : readNat b t = some n) :
    ∀ c ∈ t, (digitVal c).isSome := by
  unfold readNat at h
  split at h
  · cases h
  · exact readFrom_chars h

theorem readInt_chars {t : List Char} {i : Int} (h : readInt t = some i) :
    ∀ c ∈ t, c = '-' ∨ (digitVal c).isSome := by
  unfold readInt at h
  split at h
  · rename_i r
    simp only [Option.map_eq_some_iff] at h
    obtain ⟨n, hn, _⟩ := h
    intro c hc
    simp only [List.mem_cons] at hc
    rcases hc with hc | hc
    · exact Or.inl hc
    · exact Or.inr (readNat_chars (readDec_nat hn) c hc)
  · simp only [Option.map_eq_some_iff] at h
    obtain ⟨n, hn, _⟩ := h
    exact fun c hc => Or.inr (readNat_chars (readDec_nat hn) c hc)

end Apg
