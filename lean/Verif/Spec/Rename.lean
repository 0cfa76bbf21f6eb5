import Verif.Spec.CFields

/-!
# Renaming types and modules
-/

namespace Apg.Spec

/-- The names of types with a meaning of their own. -/
def reservedNames : List String :=
  ["BOOLEAN", "INTEGER", "REAL", "IA5String", "NumericString", "NULL", "Int8-t", "Int16-t", "Int32-t", "Int64-t",
   "Uint8-t", "Uint16-t", "Uint32-t", "Uint64-t", "Float", "Double"]

/-- A consistent renaming of types by `ρ` and of modules by `ν`: different names stay different, and names with a
meaning of their own stay what they are. -/
structure Renaming (ρ ν : String → String) : Prop where
  types : ∀ a b, ρ a = ρ b → a = b
  modules : ∀ a b, ν a = ν b → a = b
  reserved : ∀ n ∈ reservedNames, ρ n = n

/-- Every name in a type. -/
def renameType (ρ : String → String) : AType → AType
  | .plain n lo hi => .plain (ρ n) lo hi
  | .str n len => .str (ρ n) len
  | .arr e len => .arr (renameType ρ e) len

/-- A member keeps its own name. -/
def renameMember (ρ : String → String) (m : Member) : Member := { m with type := renameType ρ m.type }

/-- Names of items are kept. -/
def renameDef (ρ : String → String) : Def → Def
  | .seq n c ms => .seq (ρ n) c (ms.map (renameMember ρ))
  | .choice n c ms => .choice (ρ n) c (ms.map (renameMember ρ))
  | .enum n c its => .enum (ρ n) c its
  | .simple n c t => .simple (ρ n) c (renameType ρ t)

/-- All names of types and modules in a module. -/
def renameModule (ρ ν : String → String) (m : Module) : Module :=
  { m with
    name := ν m.name
    imports := m.imports.map fun i => ⟨i.defs.map ρ, ν i.module⟩
    defs := m.defs.map (renameDef ρ) }

/-- A COSMOS file with a packet for each name; `rests` has for each packet all that follows its name. -/
def packetFile (target : List Char) (names : List String) (rests : List (List Char)) : List Char :=
  "# This file was autogenerated from ASN.1 model.\n".toList ++
    (names.zip rests).flatMap fun x => "\nTELEMETRY ".toList ++ target ++ ' ' :: x.1.toList ++ x.2

/-- A C type and bit-field suffix for a field of type `t` when names are changed: only the name of `t` itself can be
another one. -/
def renameField (ρ : String → String) (t : AType) (f : List Char × List Char) : List Char × List Char :=
  (if f.1 = ident t.name then ident (ρ t.name) else f.1, f.2)

end Apg.Spec
