import Verif.Spec.Shared
import Verif.Spec.Binary
import Verif.Spec.Order

/-!
# Specification of the files that belong to a module
-/

namespace Apg.Spec

/-- The files of a module: two headers for generate-cfs, header and source for generate-c, header and one
binary file for each sequence with fixed values for generate-binary. -/
def Command.filesOf (cmd : Command) (out : List Char) (m : Module) (q : List Char) : Prop :=
  match cmd with
  | .cfs _ => q = inDir out (ident m.name ++ "_msg.h".toList) ∨ q = inDir out (ident m.name ++ "_msgids.h".toList)
  | .c _ => q = inDir out (ident m.name ++ ".h".toList) ∨ q = inDir out (ident m.name ++ ".c".toList)
  | .binary _ => q = inDir out (ident m.name ++ ".h".toList) ∨
      ∃ d ∈ m.defs, fixedMembers d ≠ [] ∧ q = binPath out d

/-- The modules for which the run of a command has written files are those of `done`, with all their files. -/
def WritesOf (cmd : Command) (r : Run) (out : List Char) (done : List Module) : Prop :=
  ∀ q, FileOf r q ↔ ∃ m ∈ done, cmd.filesOf out m q

end Apg.Spec
