import Verif.Model.Output
import Verif.Model.Struct
import Verif.Model.CGen

/-!
# `asn1_parser/generators/binary/generator.py`
-/

namespace Apg

/-- `SequenceSpecificationContainer`
(`containers/sequence_specification_container.py`). -/
structure BinSpec where
  ctype : Option CType
  bits : Int
  typeName : String
  deriving DecidableEq, Repr

/-- Dictionary look-up: the last entry of that key. -/
def lastVal {α : Type} : List (String × α) → String → Option α
  | [], _ => none
  | (k, v) :: rest, n =>
    match lastVal rest n with
    | some r => some r
    | none => if k = n then some v else none

/-- `seq_specifications` of one sequence (`binary/generator.py:186-201`): only members
without `WITH COMPONENTS`. -/
def binMembers (ds : List Def) (fuel : Nat) : List Member → Except Err (List (String × BinSpec))
  | [] => .ok []
  | m :: ms =>
    match m.comps with
    | some _ => binMembers ds fuel ms
    | none =>
      sizeMember ds fuel m >>= fun size =>
      binMembers ds fuel ms >>= fun r => .ok ((m.key, ⟨m.type.cType, size, m.type.name⟩) :: r)

/-- `definitions` of a module (`binary/generator.py:180-202`): only its own
sequences. -/
def binDefs (ds : List Def) (fuel : Nat) : List Def → Except Err (List (String × List (String × BinSpec)))
  | [] => .ok []
  | .seq n _ ms :: rest =>
    binMembers ds fuel ms >>= fun s => binDefs ds fuel rest >>= fun r => .ok ((n, s) :: r)
  | _ :: rest => binDefs ds fuel rest

/-- `definitions[asn_type_name][component.get_key()]` (`binary/generator.py:248-254`). -/
def binLookup (defs : List (String × List (String × BinSpec))) (tn key : String) :
    Except Err BinSpec :=
  match lastVal defs tn with
  | none => .error .keyError
  | some ms =>
    match lastVal ms key with
    | none => .error .keyError
    | some s => .ok s

/-- The bytes of one fixed value (`binary/generator.py:265-295`). -/
def leafBytes (e : Option Endian) (s : BinSpec) (v : Leaf) : Except Err (List UInt8) :=
  match s.ctype with
  | none => .error .notImplemented
  | some c =>
    bitToBytes s.bits >>= fun size =>
    if c = .bool ∨ c = .string then .error .notImplemented else structPack e c size v

/-- The loops of `_values_to_bytes_list` and `_component_to_bytes`
(`binary/generator.py:228-236,238-297`). -/
def compBytes (defs : List (String × List (String × BinSpec))) (e : Option Endian) (tn : String) :
    Comps → Except Err (List (List UInt8))
  | .nil => .ok []
  | .leaf k v rest =>
    binLookup defs tn k >>= fun s =>
    leafBytes e s v >>= fun b =>
    compBytes defs e tn rest >>= fun r => .ok (b :: r)
  | .node k c rest =>
    binLookup defs tn k >>= fun s =>
    compBytes defs e s.typeName c >>= fun a =>
    compBytes defs e tn rest >>= fun r => .ok (a ++ r)

/-- `_with_components_handling` (`binary/generator.py:166-210`). -/
def binHandler (ds : List Def) (fuel : Nat) (e : Option Endian) : Handler := fun seqName m mod =>
  match m.comps with
  | none => .ok {}
  | some c =>
    binDefs ds fuel mod.defs >>= fun defs =>
    compBytes defs e m.type.name c >>= fun bs => .ok { bins := [(lowerize seqName, bs)] }

/-- The note on a simple definition (`binary/generator.py:128-135`). -/
def binNote (name : String) (t : AType) : Except Err (List Text) :=
  if name = "Float" ∨ name = "Double" then .ok [] else cNote name t

/-- The binary back end (`binary/generator.py:74-164`). -/
def binBackend (fuel : Nat) (e : Option Endian) (out : Text) (b : Bundle) : Backend where
  includeFile n := cFilename n
  note := binNote
  handler := binHandler b.defs fuel e
  print m cd := printToFile cd (cFilename m.name) out .storedBinary

/-- `generate-binary` (`main.py:71-81`). -/
def runBinary (fuel : Nat) (e : Option Endian) (raw : List Module) (cfg : List String)
    (out : Text) : Run :=
  runCommand fuel (binBackend fuel e out) raw cfg out

end Apg
