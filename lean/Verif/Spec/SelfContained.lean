import Verif.Spec.Header
import Verif.Spec.Bundle

/-!
# Specification of headers that declare what they use
-/

namespace Apg.Spec

/-- Types of the C language. -/
inductive Keyword : List Char → Prop
  | char : Keyword "char".toList
  | int : Keyword "int".toList
  | float : Keyword "float".toList
  | double : Keyword "double".toList

/-- The block is a type definition of the name `n`. -/
def Declares (block n : List Char) : Prop :=
  ∃ cmt body, block = cmt ++ "typedef ".toList ++ body ++ "} __attribute__((packed)) ".toList ++ n ++ [';']

/-- The include line for file `f`. -/
def includeLine (f : List Char) : List Char := "#include \"".toList ++ f ++ ['"']

/-- The file `f`, included next to a header in directory `out`, is the header of one of the modules
`ms` and defines the type `n`. -/
def DeclaredBy (cmd : Command) (fs : Files) (out : List Char) (ms : List Module) (f n : List Char) : Prop :=
  ∃ m ∈ ms, inDir out f = cmd.path out m.name ∧
    ∃ h : HeaderParts, HasText fs (inDir out f) h.text ∧
      HasBlocks (fun _ _ _ => True) (fun t => (dims t).take 1) m h ∧ ∃ block ∈ h.blocks, Declares block n

/-- The type `ct` is known in header `h` after the blocks `earlier`: it is a type of the language, a type
of an included standard header, or defined in an earlier block or in an included header. -/
inductive KnownType (cmd : Command) (fs : Files) (out : List Char) (ms : List Module) (h : HeaderParts)
    (earlier : List (List Char)) (ct : List Char) : Prop
  | keyword : Keyword ct → KnownType cmd fs out ms h earlier ct
  | stdint : StdIntType ct → h.stdint = true → KnownType cmd fs out ms h earlier ct
  | stdbool : ct = "bool".toList → h.stdbool = true → KnownType cmd fs out ms h earlier ct
  | block {b} : b ∈ earlier → Declares b ct → KnownType cmd fs out ms h earlier ct
  | header {f} : includeLine f ∈ h.includes → DeclaredBy cmd fs out ms f ct → KnownType cmd fs out ms h earlier ct

/-- The header of `m`: every struct field has a type that is known where it is used. -/
def SelfContained (cmd : Command) (fs : Files) (out : List Char) (ms : List Module) (m : Module)
    (h : HeaderParts) : Prop :=
  HasText fs (cmd.path out m.name) h.text ∧
  ∃ (sorted : List Def) (tss : List (List (List Char))), sorted.Perm m.defs ∧ h.blocks = tss.flatten ∧
    tss.length = sorted.length ∧
    ∀ (i : Nat) d ts, sorted[i]? = some d → tss[i]? = some ts →
      Block (fun _ ct _ => KnownType cmd fs out ms h (tss.take i).flatten ct) (fun t => (dims t).take 1) d ts

/-- No member is of a CHOICE type or of a type defined as BOOLEAN. -/
structure Declarable (ds : List Def) : Prop where
  choice : ∀ n c ms, Def.choice n c ms ∈ ds → ∀ d ∈ ds, ∀ k ∈ d.members, ¬ UsesName k.type n
  bool : ∀ n c, Def.simple n c (.plain "BOOLEAN" none none) ∈ ds → ∀ d ∈ ds, ∀ k ∈ d.members, ¬ UsesName k.type n

end Apg.Spec
