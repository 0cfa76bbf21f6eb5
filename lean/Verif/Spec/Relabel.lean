import Verif.Spec.CFields
import Verif.Spec.Cosmos
import Verif.Spec.Defines

/-!
# Renaming members and items
-/

namespace Apg.Spec

/-- The names of members with a meaning of their own: the parts of a CCSDS primary header. -/
def headerKeys : List String :=
  ["primary", "packet-identification", "packet-version-number", "packet-type-is-cmd", "sec-hdr-flag-is-present",
   "application-process-identifier"]

/-- A consistent renaming of members by `κ` and of items of enumerations by `ι`: different names stay different, names with
a meaning of their own stay what they are, and so do the names for the values of BOOLEAN. -/
structure Relabelling (κ ι : String → String) : Prop where
  members : ∀ a b, κ a = κ b → a = b
  items : ∀ a b, ι a = ι b → a = b
  headers : ∀ k ∈ headerKeys, κ k = k
  booleans : ∀ k ∈ ["False", "True"], ι k = k

/-- Every name in a clause. -/
def relabelComps (κ : String → String) : Comps → Comps
  | .nil => .nil
  | .leaf k v r => .leaf (κ k) v (relabelComps κ r)
  | .node k c r => .node (κ k) (relabelComps κ c) (relabelComps κ r)

/-- A member and the members named in its clause. -/
def relabelMember (κ : String → String) (m : Member) : Member :=
  { m with key := κ m.key, comps := m.comps.map (relabelComps κ) }

/-- An item. -/
def relabelEnumItem (ι : String → String) (it : EnumItem) : EnumItem := { it with key := ι it.key }

/-- All members and items of a definition. -/
def relabelDef (κ ι : String → String) : Def → Def
  | .seq n c ms => .seq n c (ms.map (relabelMember κ))
  | .choice n c ms => .choice n c (ms.map (relabelMember κ))
  | .enum n c its => .enum n c (its.map (relabelEnumItem ι))
  | .simple n c t => .simple n c t

/-- All members and items of a module. -/
def relabelModule (κ ι : String → String) (m : Module) : Module := { m with defs := m.defs.map (relabelDef κ ι) }

/-- A fixed value under its new name. -/
def relabelFixed (κ : String → String) : Fixed → Fixed
  | .header c => .header (relabelComps κ c)
  | .value k v => .value (κ k) v

/-- A macro for a fixed value, with the new name and the old value. -/
def RelabelledMacro (p : Printer) (κ : String → String) (x : String × Fixed) (y : List Char × List Char) : Prop :=
  y.1 = macroName x.1 (relabelFixed κ x.2) ∧ ∃ t, y.2 = '(' :: t ++ [')'] ∧ FixedText p x.2 t

/-- A text in place of a name. -/
def relabelText (f : String → String) (t : List Char) : List Char := (f (String.ofList t)).toList

/-- An item of a COSMOS packet with the new names of the member and of its states. -/
def relabelCosmos (κ ι : String → String) (it : CosmosItem) : CosmosItem :=
  { it with name := relabelText κ it.name, states := it.states.map fun s => (relabelText ι s.1, s.2) }

/-- The items of a COSMOS packet. -/
def relabelPacket (κ ι : String → String) (p : CosmosPacket) : CosmosPacket :=
  { p with items := p.items.map (relabelCosmos κ ι) }

/-- Python's `str` of a clause does not depend on the names in it: it has the class and the address of an object. -/
def NameFree (p : Printer) (κ : String → String) : Prop := ∀ c, p.object (relabelComps κ c) = p.object c

end Apg.Spec
