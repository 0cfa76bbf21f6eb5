import Verif.Spec.CosmosReal

/-!
# Specification of the values that an item of a COSMOS packet can have
-/

namespace Apg.Spec

/-- Some `w` bits are the number, read with the data type for `t`: an unsigned integer, an integer in two's complement
or an IEEE 754 number. -/
def CanHold (ds : List Def) (w : Nat) (t : AType) (x : Num) : Prop :=
  (ItemType ds t "UINT".toList ∧ ∃ i : Int, x = .int i ∧ 0 ≤ i ∧ i < 2 ^ w) ∨
  (ItemType ds t "INT".toList ∧ ∃ i : Int, x = .int i ∧ -(2 ^ w) ≤ 2 * i ∧ 2 * i < 2 ^ w) ∨
  (ItemType ds t "FLOAT".toList ∧ ∃ q, ratOf x = some q ∧ Exact w q)

/-- The fixed values are values that their leaves can have. -/
def Possible (ds : List Def) (ls : List (List Member)) : Prop :=
  ∀ path m pos w, LeafAt ds ls path m pos w → ∀ v, FixedTo path v → CanHold ds w m.type (leafNum v)

/-- The fixed values are integers in the ranges of the INTEGERs they are for. -/
def InRanges (ds : List Def) (ls : List (List Member)) : Prop :=
  ∀ path ∈ ls, ∀ m, path.getLast? = some m → ∀ v, FixedTo path v →
    ∃ lo hi i, Elementary ds m.type (intType lo hi) ∧ leafNum v = .int i ∧ InRange lo hi i

end Apg.Spec
