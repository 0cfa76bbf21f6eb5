import Verif.Model.Output

/-!
# `asn1_parser/generators/c/generator.py`
-/

namespace Apg

/-- `get_filename` (`c/generator.py:26-28`, `binary/generator.py:70-72`). -/
def cFilename (name : String) : Text := cName name

/-- `shift_level * _C_SPACES`. -/
def indent (level : Nat) : Text := List.replicate (2 * level) ' '

/-- `str(value)` with booleans as 0 and 1 (`c/generator.py:201-208`). -/
def cValue (p : Printer) : Leaf → Text
  | .bool true => ['1']
  | .bool false => ['0']
  | v => p.leaf v

/-- `_process_with_components` (`c/generator.py:174-212`). -/
def cInit (p : Printer) (level : Nat) : Comps → Text
  | .nil => []
  | .leaf k v rest =>
    indent level ++ '.' :: cName k ++ " = ".toList ++ cValue p v ++ ",\n".toList ++ cInit p level rest
  | .node k c rest =>
    indent level ++ '.' :: cName k ++ " = {\n".toList ++ cInit p (level + 1) c ++ indent level ++
      "},\n".toList ++ cInit p level rest

/-- `_process_start_with_component` (`c/generator.py:147-172`). -/
def cInitStart (p : Printer) (seqName : Text) (key : String) (c : Comps) : Text :=
  seqName ++ ' ' :: lowerize seqName ++ " = {\n".toList ++ indent 1 ++ '.' :: cName key ++
    " = {\n".toList ++ cInit p 2 c ++ indent 1 ++ "},\n".toList ++ "};\n".toList

/-- `_with_components_handling` (`c/generator.py:120-145`). -/
def cHandler (p : Printer) : Handler := fun seqName m mod =>
  match m.comps with
  | none => .ok {}
  | some c =>
    .ok { inits := [cInitStart p seqName m.key c]
          predefs := [seqName ++ ' ' :: lowerize seqName ++ [';']]
          initInclude := "#include \"".toList ++ cFilename mod.name ++ ".h\"".toList }

/-- The note on a simple definition (`c/generator.py:83-89`). -/
def cNote (name : String) (_ : AType) : Except Err (List Text) :=
  .ok ["\n// NOTE: ".toList ++ name.toList ++
    " is embedded directly where it is used. Rationale: Bitfields cannot be typedef'd.".toList]

/-- The C back end (`c/generator.py:30-118`): the include has no file extension. -/
def cBackend (p : Printer) (out : Text) (_ : Bundle) : Backend where
  includeFile n := cFilename n
  note := cNote
  handler := cHandler p
  print m cd := printToFile cd (cFilename m.name) out .stored

/-- `generate-c` (`main.py:60-70`). -/
def runC (fuel : Nat) (p : Printer) (raw : List Module) (cfg : List String) (out : Text) : Run :=
  runCommand fuel (cBackend p out) raw cfg out

end Apg
