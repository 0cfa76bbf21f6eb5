import Verif.Spec.CFields
import Verif.Spec.Valid

/-!
# Ranges wherever they are written

For the statements of C01 to C06 about whole runs.
-/

namespace Apg.Spec

/-- A type, or the elements of an array, with the bounds `b` and `e`. -/
inductive HasRange : AType → Num → Num → Prop
  | plain {n b e} : HasRange (.plain n (some b) (some e)) b e
  | arr {t len b e} : HasRange t b e → HasRange (.arr t len) b e

/-- The types written in a definition. -/
def typesOf : Def → List AType
  | .seq _ _ ms => ms.map (·.type)
  | .choice _ _ ms => ms.map (·.type)
  | .enum .. => []
  | .simple _ _ t => [t]

/-- The type is `INTEGER(lo..hi)`, a name for it or an array of elements with such a name. -/
def IntegerRange (ds : List Def) (t : AType) (lo hi : Int) : Prop :=
  t = intType lo hi ∨ ∃ n c, UsesName t n ∧ Def.simple n c (intType lo hi) ∈ ds

/-- `w` is the least of 8, 16, 32 and 64 such that two's complement numbers of `w` bits hold the range. -/
def LeastSigned (w : Nat) (b e : Int) : Prop :=
  w ∈ [8, 16, 32, 64] ∧ (∀ v, InRange b e v → FitsSigned w v) ∧
  ∀ w' ∈ [8, 16, 32, 64], (∀ v, InRange b e v → FitsSigned w' v) → w ≤ w'

end Apg.Spec
