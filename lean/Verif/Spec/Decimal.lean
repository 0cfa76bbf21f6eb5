import Verif.Spec.Binary

/-!
# Decimals as doubles

What it means that a decimal literal is read as the nearest IEEE 754 double.
-/

namespace Apg.Spec

/-- The number `± m * 10 ^ e`. -/
def decimal (neg : Bool) (m : Nat) (e : Int) : Rat :=
  let v := ((m * 10 ^ e.toNat : Nat) : Rat) / (10 ^ (-e).toNat : Nat)
  if neg then -v else v

/-- `x` is the double for the number `v` with the given sign: infinity from the middle
between the greatest double and the next power of two on, otherwise a nearest double. -/
def RoundsTo (neg : Bool) (v : Rat) : Num → Prop
  | .int _ => False
  | .inf s => s = neg ∧ ((2 ^ 1024 - 2 ^ 970 : Nat) : Rat) ≤ dist 0 v
  | .flt q => dist 0 v < ((2 ^ 1024 - 2 ^ 970 : Nat) : Rat) ∧
      ∃ n, Nearest 11 52 v n ∧ ieee 11 52 n = some q

/-- The meaning of decimals is rounding to the nearest double. -/
def Rounds (F : Bool → Nat → Int → Num) : Prop :=
  ∀ neg m e, RoundsTo neg (decimal neg m e) (F neg m e)

/-- A double: finite or infinite, without the not-a-numbers. -/
def IsDouble : Num → Prop
  | .int _ => False
  | .inf _ => True
  | .flt q => ∃ n, ieee 11 52 n = some q

end Apg.Spec
