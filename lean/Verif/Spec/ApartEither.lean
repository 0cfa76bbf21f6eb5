import Verif.Spec.CosmosOther

/-!
# Specification of when messages can be told apart, with members of either byte order
-/

namespace Apg.Spec

/-- The bit of the data that is bit `k`, counted from the least significant one, of an item of `w` bits from bit `pos`
on. Little endian items are whole bytes with the least significant one first. -/
def bitPlace (little : Bool) (pos w k : Nat) : Nat :=
  if little then pos + 8 * (k / 8) + (7 - k % 8) else pos + w - 1 - k

/-- In data with the fixed values, and zeros for BOOLEANs without fixed value, bit `i` is `β`. The sign of zero is the
only bit of a fixed value that is not determined. -/
def NeedsIn (ds : List Def) (ls : List (List Member)) (i : Nat) (β : Bool) : Prop :=
  ∃ path m pos w k, LeafAt ds ls path m pos w ∧ k < w ∧ i = bitPlace (isLittle m) pos w k ∧
    ((∃ v, FixedTo path v ∧ ∀ n, n < 2 ^ w → IsNumber ds w m.type (leafNum v) n → n.testBit k = β) ∨
     (IsBoolean ds m.type ∧ (∀ v, ¬ FixedTo path v) ∧ β = false))

/-- No bit must be both set and clear. -/
def AgreeIn (ds : List Def) (ls ls' : List (List Member)) : Prop :=
  ∀ i β β', NeedsIn ds ls i β → NeedsIn ds ls' i β' → β = β'

/-- The message has no nested array or array of BOOLEAN, no two clauses reach one of its leaves, the
leaves that are compared can be compared, and little endian ones are whole bytes. -/
structure EitherMessage (ds : List Def) (ms : List Member) (ls : List (List Member)) : Prop where
  flat : ∀ path ∈ ls, ∀ m, path.getLast? = some m → FlatMember ds m
  leaves : Leaves ds ms ls
  clear : ∀ path ∈ ls, Clear ds path
  matchable : ∀ path ∈ ls, ∀ m, path.getLast? = some m →
    (∃ v, FixedTo path v) ∨ IsBoolean ds m.type → MatchableIn ds path m
  whole : WholeBytes ds ls

/-- Fixed leaves of the two messages that have a bit in common have all bits in common and are read in the same way, and
all BOOLEANs are fixed. -/
structure AlignedIn (ds : List Def) (ls ls' : List (List Member)) : Prop where
  places : ∀ path m pos w path' m' pos' w' v v' i, LeafAt ds ls path m pos w → LeafAt ds ls' path' m' pos' w' →
    FixedTo path v → FixedTo path' v' → pos ≤ i ∧ i < pos + w → pos' ≤ i ∧ i < pos' + w' →
    pos = pos' ∧ w = w' ∧ isLittle m = isLittle m' ∧ ∃ ty, ItemType ds m.type ty ∧ ItemType ds m'.type ty
  noBoolean : ∀ path m pos w, LeafAt ds ls path m pos w → (∀ v, ¬ FixedTo path v) → ¬ IsBoolean ds m.type
  noBoolean' : ∀ path m pos w, LeafAt ds ls' path m pos w → (∀ v, ¬ FixedTo path v) → ¬ IsBoolean ds m.type

end Apg.Spec
