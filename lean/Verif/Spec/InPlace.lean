import Verif.Spec.Unfixed
import Verif.Spec.Local

/-!
# Simple types written in place of their names
-/

namespace Apg.Spec

/-- A type with the types of `σ` in place of their names. -/
def inPlaceType (σ : String → Option AType) : AType → AType
  | .plain n lo hi => (σ n).getD (.plain n lo hi)
  | t => t

/-- A member with types in place of names; the type of elements of an array stays. -/
def inPlaceMember (σ : String → Option AType) (m : Member) : Member := { m with type := inPlaceType σ m.type }

/-- A sequence with types in place of names. -/
def inPlaceDef (σ : String → Option AType) : Def → Def
  | .seq n c ms => .seq n c (ms.map (inPlaceMember σ))
  | d => d

/-- A module with types in place of names in its sequences. -/
def inPlace (σ : String → Option AType) (m : Module) : Module := { m with defs := m.defs.map (inPlaceDef σ) }

/-- `σ` gives the types of some of the simple types. -/
def GivesTypes (ds : List Def) (σ : String → Option AType) : Prop :=
  ∀ n t, σ n = some t → ∃ c, Def.simple n c t ∈ ds

/-- INTEGER or REAL, perhaps with a range. -/
def NumberType (t : AType) : Prop := ∃ n lo hi, t = .plain n lo hi ∧ (n = "INTEGER" ∨ n = "REAL")

/-- Names of types that have a fixed meaning in C. -/
def standardNames : List String :=
  ["Int8-t", "Int16-t", "Int32-t", "Int64-t", "Uint8-t", "Uint16-t", "Uint32-t", "Uint64-t", "Float", "Double"]

/-- `σ` gives the types of some of the simple types, all of them numbers without standard names. -/
structure GivesNumbers (ds : List Def) (σ : String → Option AType) : Prop where
  types : GivesTypes ds σ
  number : ∀ n t, σ n = some t → NumberType t
  name : ∀ n t, σ n = some t → n ∉ standardNames

end Apg.Spec
