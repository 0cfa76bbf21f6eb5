import Verif.Spec.Shuffle

/-!
# Specification of inputs to which definitions are added
-/

namespace Apg.Spec

/-- The same module with further definitions, in any places, and perhaps further imports. -/
structure Added (m m' : Module) : Prop where
  name : m'.name = m.name
  comment : m'.comment = m.comment
  commentImport : m'.commentImport = m.commentImport
  imports : (m.imports.map (·.module)).Sublist (m'.imports.map (·.module))
  defs : ∀ d ∈ m.defs, d ∈ m'.defs

/-- The parts of a file before and after: each part stays, and whole lines that do not belong to a definition may
come in. -/
inductive KeptChunk : Chunk → Chunk → Prop
  | each (f : String → List Char) : (∀ n, f n = [] ∨ (f n).getLast? = some '\n') → KeptChunk (.each f) (.each f)
  | fixed (t : List Char) : (t = [] ∨ t.getLast? = some '\n') → KeptChunk (.fixed t) (.fixed t)
  | new (t : List Char) : t.getLast? = some '\n' → KeptChunk (.fixed []) (.fixed t)

/-- The second text, for more definitions, has all lines of the first, and the text of each definition is the same. -/
def Kept (names names' : List String) (t t' : List Char) : Prop :=
  ∃ ps ps' l l', All2 KeptChunk ps ps' ∧ l.Perm names ∧ l'.Perm names' ∧ t = layout ps l ∧ t' = layout ps' l'

/-- The same for C files, apart from the include line. -/
def KeptSource (module : String) (names names' : List String) (t t' : List Char) : Prop :=
  ∃ doc inc inc' body body', IncludeLine module inc ∧ IncludeLine module inc' ∧ Kept names names' body body' ∧
    t = doc ++ inc ++ body ∧ t' = doc ++ inc' ++ body'

end Apg.Spec
