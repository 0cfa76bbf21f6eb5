import Verif.Spec.CosmosEither

/-!
# Specification of when the binary file of a message is compared with the packet of another message
-/

namespace Apg.Spec

/-- The message has no nested array or array of BOOLEAN, no two clauses reach one of its leaves, the
leaves that are compared can be compared, little endian ones are whole bytes, and all its BOOLEANs are fixed. -/
structure ComparedMessage (ds : List Def) (ms : List Member) (ls : List (List Member)) : Prop where
  flat : ∀ path ∈ ls, ∀ m, path.getLast? = some m → FlatMember ds m
  leaves : Leaves ds ms ls
  clear : ∀ path ∈ ls, Clear ds path
  matchable : ∀ path ∈ ls, ∀ m, path.getLast? = some m →
    (∃ v, FixedTo path v) ∨ IsBoolean ds m.type → MatchableIn ds path m
  whole : WholeBytes ds ls
  noBoolean : ∀ path m pos w, LeafAt ds ls path m pos w → (∀ v, ¬ FixedTo path v) → ¬ IsBoolean ds m.type

/-- Where the second message has a fixed leaf, the first one has a fixed leaf with the same bits, data type and byte
order. -/
def FixedInside (ds : List Def) (ls ls' : List (List Member)) : Prop :=
  ∀ path' m' pos w v', LeafAt ds ls' path' m' pos w → FixedTo path' v' →
    ∃ path m v ty, LeafAt ds ls path m pos w ∧ FixedTo path v ∧ ItemType ds m.type ty ∧ ItemType ds m'.type ty ∧
      isLittle m = isLittle m'

/-- Fixed leaves with the same bits, data type and byte order are fixed to the same number. -/
def SameNumbers (ds : List Def) (ls ls' : List (List Member)) : Prop :=
  ∀ path m path' m' pos w ty v v', LeafAt ds ls path m pos w → LeafAt ds ls' path' m' pos w →
    ItemType ds m.type ty → ItemType ds m'.type ty → isLittle m = isLittle m' → FixedTo path v → FixedTo path' v' →
    ratOf (leafNum v) = ratOf (leafNum v')

end Apg.Spec
