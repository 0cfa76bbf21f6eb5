import Verif.Model.Ast

/-!
# Specification vocabulary for numbers

Independent of the model's size and comparison functions.
-/

namespace Apg.Spec

/-- `v` is a value of an unsigned field of `w` bits. -/
def FitsUnsigned (w : Nat) (v : Int) : Prop := 0 ≤ v ∧ v < 2 ^ w

/-- `v` is a value of a two's complement field of `w` bits (`w ≥ 1`). -/
def FitsSigned (w : Nat) (v : Int) : Prop := -(2 ^ (w - 1)) ≤ v ∧ v < 2 ^ (w - 1)

/-- `v` lies in the closed range `[b, e]`. -/
def InRange (b e v : Int) : Prop := b ≤ v ∧ v ≤ e

/-- The rational `q` is strictly below the number. -/
def Below (q : Rat) : Num → Prop
  | .int i => q < (i : Rat)
  | .flt r => q < r
  | .inf true => False
  | .inf false => True

/-- Order of numbers by their lower cuts. -/
def NumLE (a b : Num) : Prop := ∀ q : Rat, Below q a → Below q b

/-- `INTEGER(b..e)` as a type of the tree. -/
def intType (b e : Int) : AType := .plain "INTEGER" (some (.int b)) (some (.int e))

/-- `REAL(b .. e)` as a type of the tree. -/
def realType (b e : Num) : AType := .plain "REAL" (some b) (some e)

end Apg.Spec
