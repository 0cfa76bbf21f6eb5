import Verif.Model.Processor
import Verif.Spec.Numbers

namespace Apg
open Spec

theorem lt_two_pow_bitLength (n : Int) (h : 0 ≤ n) : n < 2 ^ bitLength n := by
  unfold bitLength
  split
  · have : n = 0 := by omega
    subst this; decide
  · have h1 := Nat.lt_log2_self (n := n.natAbs)
    have h2 : (n.natAbs : Int) < ((2 ^ (n.natAbs.log2 + 1) : Nat) : Int) := by exact_mod_cast h1
    have h3 : (n.natAbs : Int) = n := by omega
    rw [h3] at h2
    simpa using h2

theorem two_pow_le_of_lt_bitLength (n : Int) (h : 0 ≤ n) (w : Nat) (hw : w < bitLength n) :
    (2 : Int) ^ w ≤ n := by
  unfold bitLength at hw
  split at hw
  · omega
  · rename_i h0
    have h1 : 2 ^ n.natAbs.log2 ≤ n.natAbs := Nat.log2_self_le h0
    have h2 : 2 ^ w ≤ 2 ^ n.natAbs.log2 := Nat.pow_le_pow_right (by decide) (by omega)
    have h3 : 2 ^ w ≤ n.natAbs := Nat.le_trans h2 h1
    have h4 : ((2 ^ w : Nat) : Int) ≤ (n.natAbs : Int) := by exact_mod_cast h3
    have h5 : (n.natAbs : Int) = n := by omega
    rw [h5] at h4
    simpa using h4

/-- The minimality used in properties: nothing below `bitLength n` holds `n`. -/
theorem not_fits_of_lt_bitLength (n : Int) (h : 0 ≤ n) (w : Nat) (hw : w < bitLength n) :
    ¬ FitsUnsigned w n := by
  intro hf
  have := two_pow_le_of_lt_bitLength n h w hw
  have := hf.2
  omega

theorem Num.lt_iff (a b : Num) : Num.lt a b = true ↔ ∃ q, ¬ Below q a ∧ Below q b := by
  have hmid : ∀ x y : Rat, x < y ↔ ∃ q, ¬ q < x ∧ q < y := by
    intro x y
    constructor
    · intro h; exact ⟨x, Rat.lt_irrefl, h⟩
    · rintro ⟨q, h1, h2⟩
      rw [Rat.not_lt] at h1
      grind
  have hdown : ∀ x : Rat, ∃ q, q < x := fun x => ⟨x - 1, by grind⟩
  have hup : ∀ x : Rat, ∃ q, ¬ q < x := fun x => ⟨x, Rat.lt_irrefl⟩
  cases a with
  | int i =>
    cases b with
    | int j =>
      simp only [Num.lt, Below, decide_eq_true_eq, ← hmid]
      exact Rat.intCast_lt_intCast.symm
    | flt r => simp only [Num.lt, Below, decide_eq_true_eq, ← hmid]
    | inf n => cases n <;> simp [Num.lt, Below, hup]
  | flt r =>
    cases b with
    | int j => simp only [Num.lt, Below, decide_eq_true_eq, ← hmid]
    | flt r' => simp only [Num.lt, Below, decide_eq_true_eq, ← hmid]
    | inf n => cases n <;> simp [Num.lt, Below, hup]
  | inf n =>
    cases n
    · cases b <;> simp [Num.lt, Below]
    · cases b with
      | int j => simp [Num.lt, Below, hdown]
      | flt r' => simp [Num.lt, Below, hdown]
      | inf m => cases m <;> simp [Num.lt, Below]

theorem Num.le_iff (a b : Num) : Num.le a b = true ↔ NumLE a b := by
  unfold Num.le NumLE
  rw [Bool.not_eq_true', ← Bool.not_eq_true, Num.lt_iff]
  constructor
  · intro h q ha
    exact Classical.byContradiction fun hb => h ⟨q, hb, ha⟩
  · rintro h ⟨q, hb, ha⟩
    exact hb (h q ha)

theorem Num.lt_iff_not_le (a b : Num) : Num.lt a b = true ↔ ¬ NumLE b a := by
  rw [← Num.le_iff]; unfold Num.le; simp

theorem Num.eq_iff (a b : Num) : Num.eq a b = true ↔ NumLE a b ∧ NumLE b a := by
  rw [← Num.le_iff, ← Num.le_iff]; unfold Num.eq Num.le
  simp [and_comm]

theorem numLE_int (i j : Int) : NumLE (.int i) (.int j) ↔ i ≤ j := by
  rw [← Num.le_iff]; simp [Num.le, Num.lt]

theorem asn1Type_int (b e : Int) : asn1Type (intType b e) =
    if e < b then .error .valueError
    else if 0 ≤ b then .ok (some .uint) else .ok (some .int) := by
  have hp : posixRange "INTEGER" = none := by decide
  simp only [asn1Type, intType, AType.lo, AType.hi, AType.name, classify, hp]
  by_cases h : e < b
  · simp [Num.lt, h]
  · simp only [Num.lt, h, Num.le]
    by_cases h0 : 0 ≤ b
    · simp [h0, show ¬ b < 0 by omega]
    · simp [h0, show b < 0 by omega]

theorem intBits_spec (b e : Int) (w : Int) (hbe : b ≤ e) :
    intBits b e = .ok w →
      ∃ n : Nat, w = n ∧ n ∈ [8, 16, 32, 64] ∧ FitsSigned n b ∧ FitsSigned n e ∧
        ∀ n' ∈ [8, 16, 32, 64], FitsSigned n' b → FitsSigned n' e → n ≤ n' := by
  unfold intBits FitsSigned
  intro h
  split at h
  · cases h; refine ⟨8, rfl, by simp, by omega, by omega, by simp⟩
  split at h
  · cases h; refine ⟨16, rfl, by simp, by omega, by omega, ?_⟩
    simp; omega
  split at h
  · cases h; refine ⟨32, rfl, by simp, by omega, by omega, ?_⟩
    simp; omega
  split at h
  · cases h; refine ⟨64, rfl, by simp, by omega, by omega, ?_⟩
    simp; omega
  · cases h

end Apg
