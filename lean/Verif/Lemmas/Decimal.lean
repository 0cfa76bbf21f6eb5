import Verif.Lemmas.Ieee
import Verif.Model.Parser
import Verif.Spec.Decimal

/-!
# The value of a decimal literal is the nearest double
-/

namespace Apg

open Parse Spec

theorem units_succ (f : FloatFmt) (b : Nat) : f.units b < f.units (b + 1) := by
  unfold FloatFmt.units
  have hP : 0 < 2 ^ (f.prec - 1) := Nat.two_pow_pos _
  generalize 2 ^ (f.prec - 1) = P at *
  have h0 := Nat.div_add_mod b P
  have h1 := Nat.mod_lt b hP
  by_cases h : b % P + 1 < P
  · have e1 : (b + 1) / P = b / P := by
      rw [← h0, Nat.add_assoc, Nat.mul_add_div hP, Nat.mul_add_div hP, Nat.div_eq_of_lt h,
        Nat.div_eq_of_lt h1]
    have e2 : (b + 1) % P = b % P + 1 := by
      conv => lhs; rw [← h0, Nat.add_assoc, Nat.mul_add_mod, Nat.mod_eq_of_lt h]
    simp only [e1, e2]
    split
    · omega
    · exact Nat.mul_lt_mul_of_pos_right (by omega) (Nat.two_pow_pos _)
  · have hm : b % P = P - 1 := by omega
    have e0 : b + 1 = P * (b / P + 1) := by rw [Nat.mul_add, Nat.mul_one]; omega
    have e1 : (b + 1) / P = b / P + 1 := by rw [e0, Nat.mul_div_cancel_left _ hP]
    have e2 : (b + 1) % P = 0 := by rw [e0, Nat.mul_mod_right]
    clear e0
    simp only [e1, e2, hm, Nat.add_one_ne_zero, if_false, Nat.add_zero, Nat.add_sub_cancel]
    split
    · rename_i hz
      simp only [hz, Nat.pow_zero]; omega
    · rename_i hz
      obtain ⟨k, hk⟩ := Nat.exists_eq_succ_of_ne_zero hz
      rw [hk, Nat.succ_sub_one, Nat.pow_succ, Nat.mul_comm (2 ^ k) 2, ← Nat.mul_assoc]
      exact Nat.mul_lt_mul_of_pos_right (by omega) (Nat.two_pow_pos _)

theorem units_lt (f : FloatFmt) {a b : Nat} (h : a < b) : f.units a < f.units b := by
  induction h with
  | refl => exact units_succ f a
  | step _ ih => exact Nat.lt_trans ih (units_succ f _)

theorem units_le (f : FloatFmt) {a b : Nat} (h : a ≤ b) : f.units a ≤ f.units b := by
  rcases Nat.eq_or_lt_of_le h with rfl | h
  · exact Nat.le_refl _
  · exact Nat.le_of_lt (units_lt f h)

/-- The patterns from an even one on are those of the numbers from the middle between it and the one
before on. -/
theorem encode_ge_iff (f : FloatFmt) (hp : 2 ≤ f.prec) (n d : Nat) (hd : 0 < d) {p : Nat}
    (he : p % 2 = 0) (hi : 0 < p) :
    p ≤ f.encode n d ↔
      (f.units (p - 1) + f.units p) * d ≤ 2 * (n * 2 ^ f.minExp) := by
  have hlt : f.units (p - 1) < f.units p := units_lt f (by omega)
  constructor
  · intro h
    have h1 := (encode_nearest f hp n d hd (p - 1)).1
    have h2 := units_le f h
    generalize f.units (f.encode n d) = e at *
    generalize n * 2 ^ f.minExp = X at *
    generalize f.units (p - 1) = lo at *
    generalize f.units p = hi at *
    have m1 : lo * d < hi * d := Nat.mul_lt_mul_of_pos_right hlt hd
    have m2 : hi * d ≤ e * d := Nat.mul_le_mul_right d h2
    rw [Nat.add_mul]
    unfold gap at h1
    omega
  · intro h
    rcases Nat.lt_or_ge (f.encode n d) p with hb | hb
    · exfalso
      have h1 := encode_nearest f hp n d hd p
      have hle : f.encode n d ≤ p - 1 := by omega
      have h2 := units_le f hle
      have hne : f.units p ≠ f.units (f.encode n d) := by
        have := units_lt f hb; omega
      have hodd : f.encode n d % 2 = 0 → f.units (f.encode n d) < f.units (p - 1) := by
        intro h0; exact units_lt f (by omega)
      generalize f.units (f.encode n d) = e at *
      generalize n * 2 ^ f.minExp = X at *
      generalize f.units (p - 1) = lo at *
      generalize f.units p = hi at *
      have m1 : lo * d < hi * d := Nat.mul_lt_mul_of_pos_right hlt hd
      have m2 : e * d ≤ lo * d := Nat.mul_le_mul_right d h2
      rw [Nat.add_mul] at h
      obtain ⟨g1, g2⟩ := h1
      unfold gap at g1 g2
      have heq : e * d = lo * d := by omega
      rcases g2 (by omega) with g | g
      · exact hne g
      · have := Nat.mul_lt_mul_of_pos_right (hodd g) hd
        omega
    · exact hb

/-- Overflow from the middle between the greatest number and the next power of two on. -/
theorem overflow_iff (f : FloatFmt) (hp : 2 ≤ f.prec) (n d : Nat) (hd : 0 < d)
    (he : f.infBits % 2 = 0) (hi : 0 < f.infBits) :
    f.infBits ≤ f.encode n d ↔
      (f.units (f.infBits - 1) + f.units f.infBits) * d ≤ 2 * (n * 2 ^ f.minExp) :=
  encode_ge_iff f hp n d hd he hi

/-- `mag_nearest` for a fraction that need not be in lowest terms. -/
theorem mag_nearest_frac (f : FloatFmt) (hp : 2 ≤ f.prec) {n d : Nat} (hd : 0 < d) {x : Rat}
    (hx : x * (d : Rat) = (n : Rat)) (b : Nat) :
    dist x (mag f (f.encode n d)) ≤ dist x (mag f b) ∧
    (dist x (mag f (f.encode n d)) = dist x (mag f b) →
      mag f b = mag f (f.encode n d) ∨ f.encode n d % 2 = 0) := by
  have hK : (0 : Rat) < ((d * 2 ^ f.minExp : Nat) : Rat) := by
    have := Nat.mul_pos hd (Nat.two_pow_pos f.minExp)
    exact_mod_cast this
  have hs : x * ((d * 2 ^ f.minExp : Nat) : Rat) = ((n * 2 ^ f.minExp : Nat) : Rat) := by
    rw [Rat.natCast_mul, Rat.natCast_mul, ← hx]; grind
  have key : ∀ c, dist x (mag f c) * ((d * 2 ^ f.minExp : Nat) : Rat) =
      ((gap (f.units c * d) (n * 2 ^ f.minExp) : Nat) : Rat) := by
    intro c
    rw [← dist_scale hK, mag_scale, hs, dist_nat, gap_comm]
  have hn := encode_nearest f hp n d hd b
  generalize f.encode n d = e at *
  have k1 := key e
  have k2 := key b
  generalize ((d * 2 ^ f.minExp : Nat) : Rat) = K at *
  constructor
  · have h1 : dist x (mag f e) * K ≤ dist x (mag f b) * K := by
      rw [k1, k2]; exact_mod_cast hn.1
    exact Rat.le_of_mul_le_mul_right h1 hK
  · intro he
    rw [he, k2] at k1
    have h2 : gap (f.units e * d) (n * 2 ^ f.minExp) =
        gap (f.units b * d) (n * 2 ^ f.minExp) := by exact_mod_cast k1.symm
    rcases hn.2 h2 with h3 | h3
    · exact Or.inl (by unfold mag; rw [h3])
    · exact Or.inr h3

theorem mag_zero (f : FloatFmt) : mag f 0 = 0 := by
  unfold mag FloatFmt.units
  simp [Rat.div_def]

theorem nearest_frac {f : FloatFmt} (hp : 2 ≤ f.prec) {n d : Nat} (hd : 0 < d) {x : Rat}
    (hx0 : 0 ≤ x) (hx : x * (d : Rat) = (n : Rat)) {z : Rat} {c : Nat}
    (hz : z = mag f c ∨ z = -mag f c) :
    dist x (mag f (f.encode n d)) ≤ dist x z ∧
    (dist x (mag f (f.encode n d)) = dist x z →
      z = mag f (f.encode n d) ∨ f.encode n d % 2 = 0) := by
  have h := mag_nearest_frac f hp hd hx c
  rcases hz with rfl | rfl
  · exact h
  · have h2 := dist_neg_le hx0 (mag_nonneg f c)
    refine ⟨Rat.le_trans h.1 h2.1, fun he => ?_⟩
    have h3 : dist x (mag f c) ≤ dist x (mag f (f.encode n d)) := by rw [he]; exact h2.1
    have h4 := Rat.le_antisymm h.1 h3
    rcases h2.2 (by rw [← h4, he]) with h5 | h5
    · rcases h.2 h4 with h6 | h6
      · left; rw [← h6, h5]; grind
      · exact Or.inr h6
    · rcases h.2 h4 with h6 | h6
      · left
        have hz : mag f (f.encode n d) = 0 := by
          have h7 := (mag_nearest_frac f hp hd hx 0).1
          rw [mag_zero, h5] at h7
          have h8 : dist (0 : Rat) 0 = 0 := by unfold dist; split <;> grind
          rw [h8] at h7
          exact (dist_self_le (Rat.le_antisymm h7 (dist_nonneg _ _))).symm
        rw [h6, hz]; grind
      · exact Or.inr h6

theorem nearest_signed {f : FloatFmt} (hf : FmtOk f) {n d : Nat} (hd : 0 < d) {x : Rat}
    (hx0 : 0 ≤ x) (hx : x * (d : Rat) = (n : Rat)) (neg : Bool) (hb : f.encode n d < f.infBits) :
    Nearest f.expBits (f.prec - 1) (if neg then -x else x) (f.withSign neg (f.encode n d)) := by
  have hi := ieee_withSign hf neg hb
  refine ⟨hi.1, _, hi.2, ?_⟩
  intro k z hz
  obtain ⟨c, hc⟩ := ieee_some hf hz
  have hpar : f.withSign neg (f.encode n d) % 2 = f.encode n d % 2 := by
    unfold FloatFmt.withSign
    have := hf.prec
    split
    · rw [show f.expBits + f.prec - 1 = f.expBits + f.prec - 2 + 1 by omega, Nat.pow_succ]
      omega
    · rfl
  rw [hpar]
  cases neg with
  | true =>
    have hn := nearest_frac hf.prec hd hx0 hx (z := -z) (c := c) (by grind)
    simp only [if_true]
    rw [dist_comm_neg, show dist (-x) z = dist x (-z) by rw [← dist_comm_neg x (-z), Rat.neg_neg]]
    refine ⟨hn.1, fun he => ?_⟩
    rcases hn.2 he with h1 | h1
    · left; rw [← h1]; grind
    · exact Or.inr h1
  | false =>
    simp only [Bool.false_eq_true, if_false]
    exact nearest_frac hf.prec hd hx0 hx hc

theorem dist_zero {x : Rat} (hx : 0 ≤ x) (neg : Bool) : dist 0 (if neg then -x else x) = x := by
  unfold dist
  cases neg <;> simp only [if_true, Bool.false_eq_true, if_false] <;> split <;> grind

/-- The limit in units of the smallest double. -/
theorem limit64 : binary64.units (binary64.infBits - 1) + binary64.units binary64.infBits =
    2 * ((2 ^ 1024 - 2 ^ 970) * 2 ^ binary64.minExp) := by decide +kernel

theorem decimalFloat_rounds : Rounds decimalFloat := by
  intro neg m e
  have hd : 0 < 10 ^ (-e).toNat := Nat.pow_pos (by omega)
  unfold decimal decimalFloat
  generalize 10 ^ (-e).toNat = d at *
  generalize m * 10 ^ e.toNat = n at *
  have hdr : (0 : Rat) < (d : Rat) := by exact_mod_cast hd
  have hd0 : (d : Rat) ≠ 0 := fun h => by rw [h] at hdr; exact absurd hdr (by decide)
  have hx : (n : Rat) / (d : Rat) * (d : Rat) = (n : Rat) := Rat.div_mul_cancel hd0
  have hx0 : 0 ≤ (n : Rat) / (d : Rat) := by
    rw [Rat.div_def]
    exact Rat.mul_nonneg Rat.natCast_nonneg (Rat.le_of_lt (Rat.inv_pos.2 hdr))
  have hov := overflow_iff binary64 (by decide) n d hd (by decide +kernel) (by decide +kernel)
  rw [limit64] at hov
  have hpow : 0 < 2 ^ binary64.minExp := Nat.two_pow_pos _
  have hov' : binary64.infBits ≤ binary64.encode n d ↔ (2 ^ 1024 - 2 ^ 970) * d ≤ n := by
    rw [hov]
    generalize 2 ^ binary64.minExp = K at *
    generalize 2 ^ 1024 - 2 ^ 970 = L at *
    rw [Nat.mul_assoc, Nat.mul_le_mul_left_iff (by omega), Nat.mul_assoc, Nat.mul_comm K d,
      ← Nat.mul_assoc, Nat.mul_le_mul_right_iff hpow]
  generalize hx' : (n : Rat) / (d : Rat) = x at *
  have hlim : (((2 ^ 1024 - 2 ^ 970 : Nat) : Rat) ≤ x) ↔ (2 ^ 1024 - 2 ^ 970) * d ≤ n := by
    generalize 2 ^ 1024 - 2 ^ 970 = L
    constructor
    · intro h
      have := Rat.mul_le_mul_of_nonneg_right h (Rat.le_of_lt hdr)
      rw [hx] at this
      exact_mod_cast this
    · intro h
      refine Rat.le_of_mul_le_mul_right ?_ hdr
      rw [hx]
      exact_mod_cast h
  by_cases h : binary64.infBits ≤ binary64.encode n d
  · show RoundsTo neg (if neg then -x else x) (if _ then _ else _)
    rw [if_pos h]
    refine ⟨rfl, ?_⟩
    rw [dist_zero hx0]
    exact hlim.mpr (hov'.mp h)
  · show RoundsTo neg (if neg then -x else x) (if _ then _ else _)
    rw [if_neg h]
    refine ⟨?_, binary64.withSign neg (binary64.encode n d), ?_, ?_⟩
    · rw [dist_zero hx0]
      exact Rat.not_le.mp fun h' => h (hov'.mpr (hlim.mp h'))
    · exact nearest_signed binary64_ok hd hx0 hx neg (by omega)
    · exact (ieee_withSign binary64_ok neg (by omega)).2

end Apg
