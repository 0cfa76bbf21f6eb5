import Verif.Lemmas.Size
import Verif.Model.Builder

/-!
# Properties C01, C02, C03: number types and their widths
-/

namespace Apg
open Spec

/-- **C01.** Every accepted unsigned range is given a width that holds all its
values, and no smaller width does. -/
theorem C01_uint_width (b e : Int) (hb : 0 ≤ b) (hbe : b ≤ e) :
    ∃ w : Nat, asn1Type (intType b e) = .ok (some .uint) ∧
      unresolvedSizeBits (intType b e) = .ok (w : Int) ∧
      (∀ v, InRange b e v → FitsUnsigned w v) ∧
      (∀ w' : Nat, (∀ v, InRange b e v → FitsUnsigned w' v) → w ≤ w') := by
  have hc : asn1Type (intType b e) = .ok (some .uint) := by
    rw [asn1Type_int]; simp [hb, show ¬ e < b by omega]
  refine ⟨bitLength e, hc, ?_, ?_, ?_⟩
  · have : (intType b e).cType = some .uint := by simp [AType.cType, hc]
    unfold unresolvedSizeBits
    rw [this]
    simp [intType, getBitSize, AType.hi]
  · intro v hv
    have := lt_two_pow_bitLength e (by omega)
    have := hv.1; have := hv.2
    exact ⟨by omega, by omega⟩
  · intro w' hw'
    refine Nat.le_of_not_lt fun hlt => ?_
    exact not_fits_of_lt_bitLength e (by omega) w' hlt (hw' e ⟨hbe, Int.le_refl _⟩)

/-- `INTEGER(3..100)` needs seven bits. -/
example : unresolvedSizeBits (intType 3 100) = .ok 7 := by decide +kernel
example : (0 : Int) ≤ 3 ∧ (3 : Int) ≤ 100 := by decide

/-- **C02.** A signed range that fits in 64 bits gets the smallest of the widths
8, 16, 32, 64 whose two's complement range contains it; any other signed range is
refused. -/
theorem C02_int_width (b e : Int) (hb : b < 0) (hbe : b ≤ e) :
    asn1Type (intType b e) = .ok (some .int) ∧
    ((∀ v, InRange b e v → FitsSigned 64 v) →
      ∃ w : Nat, unresolvedSizeBits (intType b e) = .ok (w : Int) ∧
        w ∈ [8, 16, 32, 64] ∧
        (∀ v, InRange b e v → FitsSigned w v) ∧
        (∀ w' ∈ [8, 16, 32, 64], (∀ v, InRange b e v → FitsSigned w' v) → w ≤ w')) ∧
    ((¬ ∀ v, InRange b e v → FitsSigned 64 v) →
      unresolvedSizeBits (intType b e) = .error .valueError) := by
  have hc : asn1Type (intType b e) = .ok (some .int) := by
    rw [asn1Type_int]; simp [show ¬ 0 ≤ b by omega, show ¬ e < b by omega]
  have hs : unresolvedSizeBits (intType b e) = intBits b e := by
    have : (intType b e).cType = some .int := by simp [AType.cType, hc]
    unfold unresolvedSizeBits
    rw [this]
    simp [intType, getBitSize, AType.lo, AType.hi]
  have hends : ∀ w, (∀ v, InRange b e v → FitsSigned w v) ↔ FitsSigned w b ∧ FitsSigned w e := by
    intro w
    constructor
    · intro h; exact ⟨h b ⟨Int.le_refl _, hbe⟩, h e ⟨hbe, Int.le_refl _⟩⟩
    · rintro ⟨h1, h2⟩ v hv
      unfold FitsSigned InRange at *
      omega
  refine ⟨hc, ?_, ?_⟩
  · intro h64
    rw [hends] at h64
    rw [hs]
    cases hi : intBits b e with
    | error x =>
      exfalso
      unfold intBits at hi
      unfold FitsSigned at h64
      split at hi; · cases hi
      split at hi; · cases hi
      split at hi; · cases hi
      split at hi; · cases hi
      omega
    | ok w =>
      obtain ⟨n, rfl, hn, h1, h2, h3⟩ := intBits_spec b e w hbe hi
      refine ⟨n, rfl, hn, ?_, ?_⟩
      · rw [hends]; exact ⟨h1, h2⟩
      · intro w' hw' hf
        rw [hends] at hf
        exact h3 w' hw' hf.1 hf.2
  · intro h64
    rw [hends] at h64
    rw [hs]
    unfold FitsSigned at h64
    unfold intBits
    split; · omega
    split; · omega
    split; · omega
    split; · omega
    rfl

/-- `INTEGER(-129..5)` needs 16 bits; `INTEGER(-1..2^63)` is refused. -/
example : unresolvedSizeBits (intType (-129) 5) = .ok 16 := by decide +kernel
example : unresolvedSizeBits (intType (-1) (2 ^ 63)) = .error .valueError := by decide +kernel
example : ¬ ∀ v, InRange (-1) (2 ^ 63) v → FitsSigned 64 v := by
  intro h; have := h (2 ^ 63) ⟨by decide, by decide⟩; unfold FitsSigned at this; omega

/-- **C03 (range check).** A type whose upper bound is below its lower bound is
refused, whatever its name. -/
theorem C03_inverted_range_refused (name : String) (b e : Num) (h : ¬ NumLE b e) :
    asn1Type (.plain name (some b) (some e)) = .error .valueError := by
  simp only [asn1Type, AType.lo, AType.hi]
  rw [if_pos ((Num.lt_iff_not_le _ _).2 h)]

example : ¬ NumLE (.flt (5 / 2)) (.int 2) := by
  rw [← Num.le_iff]; decide +kernel

/-- **C03 (INTEGER).** A ranged INTEGER is unsigned iff its lower bound is not
negative, and signed otherwise. -/
theorem C03_integer_classified (b e : Num) (h : NumLE b e) :
    (NumLE (.int 0) b → asn1Type (.plain "INTEGER" (some b) (some e)) = .ok (some .uint)) ∧
    (¬ NumLE (.int 0) b → asn1Type (.plain "INTEGER" (some b) (some e)) = .ok (some .int)) := by
  have h1 : Num.lt e b = false := by
    rw [← Bool.not_eq_true, Num.lt_iff_not_le]; simpa using h
  have hp : posixRange "INTEGER" = none := by decide
  constructor <;> intro h0 <;>
    simp [asn1Type, AType.lo, AType.hi, AType.name, h1, classify, hp, ← Num.le_iff] at h0 ⊢ <;>
    simp [h0]

example : NumLE (.int (-1)) (.int 7) ∧ ¬ NumLE (.int 0) (.int (-1)) := by
  rw [numLE_int, numLE_int]; decide

/-- **C03 (REAL).** A ranged REAL is single precision iff it lies inside the
single precision limits, double precision iff it lies inside the double limits
only, and is refused otherwise. -/
theorem C03_real_classified (b e : Num) (h : NumLE b e) :
    (NumLE (.flt floatMin) b ∧ NumLE e (.flt floatMax) →
      asn1Type (realType b e) = .ok (some .float)) ∧
    (¬ (NumLE (.flt floatMin) b ∧ NumLE e (.flt floatMax)) →
      NumLE (.flt doubleMin) b ∧ NumLE e (.flt doubleMax) →
      asn1Type (realType b e) = .ok (some .double)) ∧
    (¬ (NumLE (.flt floatMin) b ∧ NumLE e (.flt floatMax)) →
      ¬ (NumLE (.flt doubleMin) b ∧ NumLE e (.flt doubleMax)) →
      asn1Type (realType b e) = .error .floatingPoint) := by
  have h1 : Num.lt e b = false := by
    rw [← Bool.not_eq_true, Num.lt_iff_not_le]; simpa using h
  have hp : posixRange "REAL" = none := by decide
  simp only [← Num.le_iff] at *
  simp only [asn1Type, realType, AType.lo, AType.hi, AType.name, h1, classify, hp]
  refine ⟨?_, ?_, ?_⟩ <;> intros <;> grind

/-- The limits are the documented ones: the doubles nearest to 3.4e38 (in the
binade 2^127..2^128, where doubles are 2^75 apart) and the largest finite double. -/
theorem C03_limits :
    (∃ m : Int, m < 2 ^ 53 ∧ floatMax = ((m * 2 ^ 75 : Int) : Rat) ∧ floatMin = -floatMax) ∧
    (floatMax - (34 * 10 ^ 37 : Int) ≤ (2 ^ 74 : Int) ∧
      ((34 * 10 ^ 37 : Int) : Rat) - floatMax ≤ (2 ^ 74 : Int)) ∧
    doubleMax = (((2 ^ 1024 - 2 ^ 971) : Int) : Rat) ∧ doubleMin = -doubleMax := by
  refine ⟨⟨8999725064576941, by decide, by decide +kernel, by decide +kernel⟩, ⟨by decide +kernel, by decide +kernel⟩,
    by decide +kernel, by decide +kernel⟩

example : asn1Type (realType (.flt (-1)) (.flt 100)) = .ok (some .float) := by decide +kernel
example : asn1Type (realType (.flt 0) (.int (10 ^ 40))) = .ok (some .double) := by decide +kernel
example : asn1Type (realType (.flt 0) (.inf false)) = .error .floatingPoint := by decide +kernel

end Apg
