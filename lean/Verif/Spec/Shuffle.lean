import Verif.Model.Ast
import Verif.Spec.Lists
import Verif.Spec.Names

/-!
# Specification of modules whose definitions are written in another order
-/

namespace Apg.Spec

/-- The same module with its definitions written in another order. -/
structure Shuffled (m m' : Module) : Prop where
  name : m'.name = m.name
  comment : m'.comment = m.comment
  commentImport : m'.commentImport = m.commentImport
  imports : m'.imports = m.imports
  defs : m.defs.Perm m'.defs

/-- A part of a file: a text of its own, or one text for each definition, found by its name. -/
inductive Chunk where
  | fixed (t : List Char)
  | each (f : String → List Char)

/-- The text made of the parts for the definitions with these names, in this order. -/
def layout (ps : List Chunk) (names : List String) : List Char :=
  ps.flatMap fun
    | .fixed t => t
    | .each f => names.flatMap f

/-- The texts of the definitions are whole lines. -/
def WholeLines (ps : List Chunk) : Prop :=
  ∀ f, Chunk.each f ∈ ps → ∀ n, f n = [] ∨ (f n).getLast? = some '\n'

/-- Two texts that only differ in the order in which they go through the definitions with these names. -/
def Rearranged (names : List String) (t t' : List Char) : Prop :=
  ∃ ps l l', WholeLines ps ∧ l.Perm names ∧ l'.Perm names ∧ t = layout ps l ∧ t' = layout ps l'

/-- The include line at the top of a C file, which may be missing. -/
def IncludeLine (module : String) (t : List Char) : Prop :=
  t = [] ∨ t = "#include \"".toList ++ ident module ++ ".h\"\n\n".toList

/-- Two C files that, apart from the include line, only differ in the order in which they go through the
definitions. -/
def RearrangedSource (module : String) (names : List String) (t t' : List Char) : Prop :=
  ∃ doc inc inc' body body', IncludeLine module inc ∧ IncludeLine module inc' ∧ Rearranged names body body' ∧
    t = doc ++ inc ++ body ∧ t' = doc ++ inc' ++ body'

end Apg.Spec
