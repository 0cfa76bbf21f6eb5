import Verif.Lemmas.Decimal

/-!
# There is only one way to round
-/

namespace Apg
open Spec

theorem mag_lt (f : FloatFmt) {a b : Nat} : a < b ↔ mag f a < mag f b := by
  have hk : (0 : Rat) < ((2 ^ f.minExp : Nat) : Rat) := Rat.natCast_pos.2 (Nat.two_pow_pos _)
  have key : ∀ a b, a < b → mag f a < mag f b := by
    intro a b h
    have h1 : ((f.units a : Nat) : Rat) < ((f.units b : Nat) : Rat) := by exact_mod_cast units_lt f h
    unfold mag
    rw [Rat.div_def, Rat.div_def]
    exact Rat.mul_lt_mul_of_pos_right h1 (Rat.inv_pos.2 hk)
  refine ⟨key a b, fun h => ?_⟩
  rcases Nat.lt_trichotomy a b with h1 | h1 | h1
  · exact h1
  · rw [h1] at h; exact absurd h Rat.lt_irrefl
  · exact absurd (key b a h1) (by grind)

/-- A finite pattern, with its sign. -/
theorem ieee_inv {f : FloatFmt} (hf : FmtOk f) {n : Nat} {y : Rat} (h : ieee f.expBits (f.prec - 1) n = some y) :
    ∃ (s : Bool) (b : Nat), b < f.infBits ∧ b % 2 = n % 2 ∧ y = if s then -mag f b else mag f b := by
  rw [ieee_eq hf] at h
  split at h
  · cases h
  · rename_i hne
    have hT : 0 < 2 ^ f.expBits := Nat.two_pow_pos _
    have hp := hf.prec
    refine ⟨decide (n / 2 ^ (f.expBits + (f.prec - 1)) % 2 = 1), n % 2 ^ (f.expBits + (f.prec - 1)), ?_, ?_, ?_⟩
    · unfold FloatFmt.infBits
      rw [← Nat.div_lt_iff_lt_mul (Nat.two_pow_pos _)]
      rw [Nat.add_comm, Nat.pow_add, Nat.mod_mul_right_div_self]
      have := Nat.mod_lt (n / 2 ^ (f.prec - 1)) hT
      omega
    · rw [show f.expBits + (f.prec - 1) = f.expBits + (f.prec - 2) + 1 by omega, Nat.pow_succ, Nat.mul_comm,
        Nat.mod_mul_right_mod]
    · simpa using (Option.some.inj h).symm

theorem ieee_of {f : FloatFmt} (hf : FmtOk f) (s : Bool) {b : Nat} (h : b < f.infBits) :
    ∃ k, ieee f.expBits (f.prec - 1) k = some (if s then -mag f b else mag f b) :=
  ⟨_, (ieee_withSign hf s h).2⟩

/-- Between two different numbers with even bits there is another number. -/
theorem ieee_between {f : FloatFmt} (hf : FmtOk f) {n n' : Nat} {y z : Rat}
    (hy : ieee f.expBits (f.prec - 1) n = some y) (hz : ieee f.expBits (f.prec - 1) n' = some z)
    (hn : n % 2 = 0) (hn' : n' % 2 = 0) (h : y < z) :
    ∃ k w, ieee f.expBits (f.prec - 1) k = some w ∧ y < w ∧ w < z := by
  obtain ⟨s, a, ha, ha2, rfl⟩ := ieee_inv hf hy
  obtain ⟨t, c, hc, hc2, rfl⟩ := ieee_inv hf hz
  have h0 := mag_zero (f := f)
  have hna := mag_nonneg f a
  have hnc := mag_nonneg f c
  have hinf : ∀ b, b < a ∨ b < c → b < f.infBits := by omega
  cases s <;> cases t <;> simp only [if_true, Bool.false_eq_true, if_false] at h ⊢
  · have hac := (mag_lt f).2 h
    obtain ⟨k, hk⟩ := ieee_of hf false (b := a + 1) (by omega)
    exact ⟨k, _, hk, (mag_lt f).1 (by omega), (mag_lt f).1 (by omega)⟩
  · exfalso; grind
  · by_cases h1 : a = 0
    · subst h1
      rw [h0] at h ⊢
      have hc0 : 0 < c := (mag_lt f).2 (by rw [h0]; grind)
      obtain ⟨k, hk⟩ := ieee_of hf false (b := 1) (by omega)
      refine ⟨k, _, hk, ?_, (mag_lt f).1 (by omega)⟩
      have := (mag_lt f).1 (show 0 < 1 by omega)
      rw [h0] at this
      simp only [Bool.false_eq_true, if_false]
      grind
    · obtain ⟨k, hk⟩ := ieee_of hf true (b := 1) (by omega)
      have h2 := (mag_lt f).1 (show 1 < a by omega)
      have h3 := (mag_lt f).1 (show 0 < 1 by omega)
      rw [h0] at h3
      refine ⟨k, _, hk, ?_, ?_⟩ <;> simp only [if_true] <;> grind
  · have hca : c < a := (mag_lt f).2 (by grind)
    obtain ⟨k, hk⟩ := ieee_of hf true (b := c + 1) (by omega)
    have h1 := (mag_lt f).1 (show c < c + 1 by omega)
    have h2 := (mag_lt f).1 (show c + 1 < a by omega)
    refine ⟨k, _, hk, ?_, ?_⟩ <;> simp only [if_true] <;> grind

/-- The nearest number is unique. -/
theorem nearest_unique {f : FloatFmt} (hf : FmtOk f) {x y y' : Rat} {n n' : Nat}
    (h : Nearest f.expBits (f.prec - 1) x n) (h' : Nearest f.expBits (f.prec - 1) x n')
    (hy : ieee f.expBits (f.prec - 1) n = some y) (hy' : ieee f.expBits (f.prec - 1) n' = some y') : y = y' := by
  obtain ⟨_, a, ha, k⟩ := h
  obtain ⟨_, a', ha', k'⟩ := h'
  rw [hy] at ha; cases ha
  rw [hy'] at ha'; cases ha'
  have e : dist x y = dist x y' := Rat.le_antisymm (k _ _ hy').1 (k' _ _ hy).1
  rcases (k _ _ hy').2 e with h1 | h1
  · exact h1.symm
  rcases (k' _ _ hy).2 e.symm with h2 | h2
  · exact h2
  rcases (Rat.le_total : y ≤ y' ∨ y' ≤ y) with hle | hle
  · by_cases heq : y = y'
    · exact heq
    · obtain ⟨m, w, hw, w1, w2⟩ := ieee_between hf hy hy' h1 h2 (by grind)
      have := (k _ _ hw).1
      unfold dist at e this
      exfalso
      split at e <;> split at e <;> split at this <;> grind
  · by_cases heq : y = y'
    · exact heq
    · obtain ⟨m, w, hw, w1, w2⟩ := ieee_between hf hy' hy h2 h1 (by grind)
      have := (k _ _ hw).1
      unfold dist at e this
      exfalso
      split at e <;> split at e <;> split at this <;> grind

theorem roundsTo_unique {neg : Bool} {v : Rat} {x y : Num} (h : RoundsTo neg v x) (h' : RoundsTo neg v y) : x = y := by
  cases x with
  | int => exact h.elim
  | inf s =>
    cases y with
    | int => exact h'.elim
    | inf t => rw [h.1, h'.1]
    | flt q => exact absurd h.2 (Rat.not_le.2 h'.1)
  | flt p =>
    cases y with
    | int => exact h'.elim
    | inf t => exact absurd h'.2 (Rat.not_le.2 h.1)
    | flt q =>
      obtain ⟨_, n, h1, h2⟩ := h
      obtain ⟨_, m, k1, k2⟩ := h'
      rw [nearest_unique binary64_ok h1 k1 h2 k2]

/-- Decimals have one meaning only. -/
theorem rounds_unique {F : Bool → Nat → Int → Num} (h : Rounds F) : F = Parse.decimalFloat := by
  funext neg m e
  exact roundsTo_unique (h neg m e) (decimalFloat_rounds neg m e)

end Apg
