import Verif.Spec.CosmosPossible

/-!
# Specification of when messages can be told apart
-/

namespace Apg.Spec

/-- The `w` bits `n` are the number, read with the data type for `t`. -/
def IsNumber (ds : List Def) (w : Nat) (t : AType) (x : Num) (n : Nat) : Prop :=
  (ItemType ds t "UINT".toList ∧ x = .int n) ∨
  (ItemType ds t "INT".toList ∧ x = .int (signedValue w n)) ∨
  (ItemType ds t "FLOAT".toList ∧ ∃ q, ratOf x = some q ∧ realOf w n = some q)

/-- In data with the fixed values, and zeros for BOOLEANs without fixed value, bit `i` is `β`. The sign of zero is the
only bit of a fixed value that is not determined. -/
def Needs (ds : List Def) (ls : List (List Member)) (i : Nat) (β : Bool) : Prop :=
  ∃ path m pos w, LeafAt ds ls path m pos w ∧ pos ≤ i ∧ i < pos + w ∧
    ((∃ v, FixedTo path v ∧ ∀ n, n < 2 ^ w → IsNumber ds w m.type (leafNum v) n → n.testBit (pos + w - 1 - i) = β) ∨
     (IsBoolean ds m.type ∧ (∀ v, ¬ FixedTo path v) ∧ β = false))

/-- No bit must be both set and clear. -/
def Agree (ds : List Def) (ls ls' : List (List Member)) : Prop :=
  ∀ i β β', Needs ds ls i β → Needs ds ls' i β' → β = β'

/-- The message has no nested array, array of sequences or of BOOLEAN, no two clauses reach one of its leaves, and the
leaves that are compared can be compared. -/
structure PlainMessage (ds : List Def) (ms : List Member) (ls : List (List Member)) : Prop where
  flat : ∀ m, Reached ds ms m → FlatMember ds m
  leaves : Leaves ds ms ls
  clear : ∀ path ∈ ls, Clear ds path
  matchable : ∀ path ∈ ls, ∀ m, path.getLast? = some m →
    (∃ v, FixedTo path v) ∨ IsBoolean ds m.type → Matchable ds path m

/-- Fixed leaves of the two messages that have a bit in common have all bits in common and are read in the same way, and
all BOOLEANs are fixed. -/
structure Aligned (ds : List Def) (ls ls' : List (List Member)) : Prop where
  places : ∀ path m pos w path' m' pos' w' v v' i, LeafAt ds ls path m pos w → LeafAt ds ls' path' m' pos' w' →
    FixedTo path v → FixedTo path' v' → pos ≤ i ∧ i < pos + w → pos' ≤ i ∧ i < pos' + w' →
    pos = pos' ∧ w = w' ∧ ∃ ty, ItemType ds m.type ty ∧ ItemType ds m'.type ty
  noBoolean : ∀ path m pos w, LeafAt ds ls path m pos w → (∀ v, ¬ FixedTo path v) → ¬ IsBoolean ds m.type
  noBoolean' : ∀ path m pos w, LeafAt ds ls' path m pos w → (∀ v, ¬ FixedTo path v) → ¬ IsBoolean ds m.type

/-- Leaves in the same bits that are read in the same way are fixed to the same number. -/
def SameValues (ds : List Def) (ls ls' : List (List Member)) : Prop :=
  ∀ path m path' m' pos w ty v v', LeafAt ds ls path m pos w → LeafAt ds ls' path' m' pos w →
    ItemType ds m.type ty → ItemType ds m'.type ty → FixedTo path v → FixedTo path' v' →
    ratOf (leafNum v) = ratOf (leafNum v')

end Apg.Spec
