import Verif.Spec.Header

/-!
# Specification of modules that import the same in another way
-/

namespace Apg.Spec

/-- Module `m` has an import from module `f`. -/
def NamesModule (m : Module) (f : String) : Prop := ∃ i ∈ m.imports, i.module = f

/-- Module `m` imports type `n` from module `f`. -/
def NamesType (m : Module) (f n : String) : Prop := ∃ i ∈ m.imports, i.module = f ∧ n ∈ i.defs

/-- The same module, except that its imports may come in another order, be grouped in another way, or be repeated. -/
structure Reimported (m m' : Module) : Prop where
  name : m'.name = m.name
  comment : m'.comment = m.comment
  commentImport : m'.commentImport = m.commentImport
  defs : m'.defs = m.defs
  modules : ∀ f, NamesModule m' f ↔ NamesModule m f
  types : ∀ f n, NamesType m' f n ↔ NamesType m f n

/-- The include lines for imports, one line for each. -/
def importLinesOf (cmd : Command) (is : List ImportItem) : List Char :=
  is.flatMap fun i => "#include \"".toList ++ cmd.included i.module ++ "\"\n".toList

/-- The texts of the header at `path` are the same but for the include lines of a module, and these are for the imports
of the two versions of the module. -/
def OtherIncludes (cmd : Command) (out : List Char) (raw raw' : List Module) (fs fs' : Files) (path : List Char) : Prop :=
  ∃ m ∈ raw, ∃ m' ∈ raw', ∃ pre post, Reimported m m' ∧ path = cmd.path out m.name ∧
    HasText fs path (pre ++ importLinesOf cmd m.imports ++ post) ∧
    HasText fs' path (pre ++ importLinesOf cmd m'.imports ++ post)

end Apg.Spec
