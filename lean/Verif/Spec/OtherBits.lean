import Verif.Spec.ApartEither

/-!
# Specification of when the binary file of a message reaches the members by which another one is recognised
-/

namespace Apg.Spec

/-- Every leaf of the second message that is fixed or BOOLEAN ends no later than some fixed leaf of the first one. -/
def EndsWithin (ds : List Def) (ls ls' : List (List Member)) : Prop :=
  ∀ path' m' pos' w', LeafAt ds ls' path' m' pos' w' → (∃ v, FixedTo path' v) ∨ IsBoolean ds m'.type →
    pos' + w' = 0 ∨ ∃ path m pos w v, LeafAt ds ls path m pos w ∧ FixedTo path v ∧ pos' + w' ≤ pos + w

/-- Bit `i` of the binary file in this byte order is `β`. -/
def FileHas (ds : List Def) (en : Endian) (ls : List (List Member)) (i : Nat) (β : Bool) : Prop :=
  ∃ path m pos w k v, LeafAt ds ls path m pos w ∧ FixedTo path v ∧ k < w ∧
    i = bitPlace (decide (en = .little)) pos w k ∧
    ∀ n, n < 2 ^ w → IsNumber ds w m.type (leafNum v) n → n.testBit k = β

/-- The file has no other bits than the second message needs. -/
def FileAgrees (ds : List Def) (en : Endian) (ls ls' : List (List Member)) : Prop :=
  ∀ i β β', FileHas ds en ls i β → NeedsIn ds ls' i β' → β = β'

end Apg.Spec
