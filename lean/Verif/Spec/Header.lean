import Verif.Model.Cfs
import Verif.Model.CGen
import Verif.Model.Binary
import Verif.Spec.CFields
import Verif.Spec.Files
import Verif.Spec.Defines

/-!
# Specification of the header files of generate-cfs, generate-c and generate-binary
-/

namespace Apg.Spec

/-- The commands that write C headers. -/
inductive Command where
  | cfs (p : Printer)
  | c (p : Printer)
  | binary (e : Option Endian)

/-- A run of a command. -/
def Command.run (fuel : Nat) (raw : List Module) (cfg : List String) (out : List Char) : Command → Run
  | .cfs p => runCfs fuel p raw cfg out
  | .c p => runC fuel p raw cfg out
  | .binary e => runBinary fuel e raw cfg out

/-- Name of the header with the types of a module. -/
def Command.header : Command → String → List Char
  | .cfs _, m => ident m ++ "_msg.h".toList
  | _, m => ident m ++ ".h".toList

/-- The file named in the include line for a module. -/
def Command.included : Command → String → List Char
  | .cfs p, m => Command.header (.cfs p) m
  | _, m => ident m

/-- The symbol of the include guard of the header of module `m`: its file name in upper case. -/
def Command.guard (cmd : Command) (m : String) : List Char :=
  "ASN1_PARSER_".toList ++ ((cmd.header m).map fun c => (if c = '.' then '_' else c).toUpper) ++ "_INCLUDED".toList

/-- Path of the header of module `m` in directory `out`. -/
def Command.path (cmd : Command) (out : List Char) (m : String) : List Char :=
  inDir out (cmd.header m)

/-- File `path` has text `t`. -/
def HasText (fs : Files) (path t : List Char) : Prop := fs path = some (t.map .inl)

/-- Sources as the grammar builds them that validation accepts as bundle `b`. -/
structure Input (raw : List Module) (cfg : List String) (b : Bundle) : Prop where
  grammar : ∀ m ∈ raw, GrammarModule m
  comments : ∀ m ∈ raw, GrammarComments m
  accepted : buildFromConfig raw cfg = .ok b

/-- A line of a header that is a line comment, after an optional empty line. -/
def IsNote (l : List Char) : Prop := ∃ t, (l = "//".toList ++ t ∨ l = '\n' :: "//".toList ++ t) ∧ '\n' ∉ t

/-- A line comment that does not go on in the next line. -/
def SafeNote (l : List Char) : Prop :=
  ∃ t, (l = "//".toList ++ t ∨ l = '\n' :: "//".toList ++ t) ∧ '\n' ∉ t ∧ t.getLast? ≠ some '\\'

/-- The line for the comment of the imports. -/
def importNote (c : Option Comment) : List (List Char) :=
  match c with
  | none => []
  | some c => ["//".toList ++ trimRight (' ' :: c.text.toList)]

/-- `t` is a type of stdint.h. -/
def StdIntType (t : List Char) : Prop := ∃ n, Posix n t

/-- The blocks of a header for the definitions of `m`: one block per definition that is not
a simple one, no other, each after the blocks it depends on or as the sorter left it. -/
def HasBlocks (T : TypeMap) (D : AType → List Int) (m : Module) (h : HeaderParts) : Prop :=
  ∃ sorted tss, sorted.Perm m.defs ∧ All2 (Block T D) sorted tss ∧ h.blocks = tss.flatten

/-- The struct line of a member, without dimensions. -/
def fieldLineText (ct key sfx : List Char) : List Char :=
  "  ".toList ++ ct ++ ' ' :: key ++ sfx ++ [';']

end Apg.Spec
