import Verif.Spec.SelfContained
import Verif.Spec.CLimits
import Verif.Spec.CChoice

/-!
# Specification of translation units: what a C compiler makes of files that include headers

The preprocessor handles the directives that generated headers have: include guards and includes. A translation
unit is a list of pieces; of the directives only the includes of standard headers are left in it.
-/

namespace Apg.Spec

/-- The text of a file, if it is one. -/
def textOf (c : Content) : Option (List Char) := c.mapM fun x => x.getLeft?

/-- The rest of a directive after its keyword. -/
def directive? (kw l : List Char) : Option (List Char) := if kw.isPrefixOf l then some (l.drop kw.length) else none

/-- The pieces before and after the next `#endif`. -/
def cutEndif : List CPiece → Option (List CPiece × List CPiece)
  | [] => none
  | .directive l :: r =>
    if "#endif".toList.isPrefixOf l then some ([], r)
    else (cutEndif r).map fun x => (.directive l :: x.1, x.2)
  | p :: r => (cutEndif r).map fun x => (p :: x.1, x.2)

/-- The preprocessor. `syms` are the symbols defined so far; included files are in directory `out`. The result is
the translation unit and the symbols defined at its end; there is none if a file is missing or not readable, or if
there is another directive. -/
def preprocess (fs : Files) (out : List Char) : Nat → List (List Char) → List CPiece →
    Option (List CPiece × List (List Char))
  | 0, _, _ => none
  | _ + 1, syms, [] => some ([], syms)
  | n + 1, syms, .decl d :: r => (preprocess fs out n syms r).map fun x => (.decl d :: x.1, x.2)
  | n + 1, syms, .directive l :: r =>
    match directive? "#ifndef ".toList l with
    | some s => do
      let (body, rest) ← cutEndif r
      if syms.contains s then preprocess fs out n syms rest else preprocess fs out n syms (body ++ rest)
    | none =>
      match directive? "#define ".toList l with
      | some s => preprocess fs out n (s :: syms) r
      | none =>
        match directive? "#include <".toList l with
        | some _ => (preprocess fs out n syms r).map fun x => (.directive l :: x.1, x.2)
        | none => do
          let f ← directive? "#include \"".toList l
          let c ← fs (inDir out f.dropLast)
          let t ← textOf c
          let ps ← readFile t
          let (unit, syms) ← preprocess fs out n syms ps
          let (unit', syms) ← preprocess fs out n syms r
          pure (unit ++ unit', syms)

/-- The type is known after the pieces `before`: a type of the language, a type of stdint.h, or a struct or
enumeration with a type definition. -/
inductive Knows (before : List CPiece) : List (List Char) → Prop
  | keyword {t} : Keyword t → Knows before [t]
  | stdint {t} : .directive "#include <stdint.h>".toList ∈ before → StdIntType t → Knows before [t]
  | struct {n fs} : .decl (.struct n fs) ∈ before → Knows before [n]
  | enum {n is} : .decl (.enum n is) ∈ before → Knows before [n]

/-- The types that a declaration uses. -/
def CDecl.types : CDecl → List (List (List Char))
  | .struct _ fs => fs.map (·.type)
  | .enum .. => []
  | .union _ fs _ => fs.map (·.type)
  | .object t _ => [[t]]

/-- The identifiers in a declaration. -/
def CDecl.words (d : CDecl) : List (List Char) := d.names ++ d.tags ++ d.fields.map (·.name) ++ d.types.flatten

/-- Names that stdint.h may declare (C11 7.20, 7.31.10). -/
def StdName (n : List Char) : Prop :=
  (∃ x, n = "int".toList ++ x ++ "_t".toList) ∨ ∃ x, n = "uint".toList ++ x ++ "_t".toList

/-- A struct, union or enumeration has a member, and the value of an enumerator is an `int` of 32 bits (C11 6.7.2.1,
6.7.2.2). -/
def CDecl.Filled : CDecl → Prop
  | .struct _ fs => fs ≠ []
  | .enum _ is => is ≠ [] ∧ ∀ i ∈ is, -2147483648 ≤ i.2 ∧ i.2 ≤ 2147483647
  | .union _ fs _ => fs ≠ []
  | .object .. => True

/-- A C compiler accepts the translation unit, `syms` being the symbols that the preprocessor replaces by
nothing. -/
structure Compiles (unit : List CPiece) (syms : List (List Char)) : Prop where
  /-- A type is known where it is used. -/
  known : ∀ a d c, unit = a ++ .decl d :: c → ∀ t ∈ d.types, Knows a t
  /-- No identifier is declared twice in one scope. -/
  clash : NoClash (declsOf unit)
  /-- Arrays and bit-fields are within the limits of the language. -/
  limits : ∀ d ∈ declsOf unit, ∀ f ∈ d.fields, WithinLimits (declsOf unit) f
  /-- No declaration is empty, and enumerators are of type int. -/
  filled : ∀ d ∈ declsOf unit, d.Filled
  /-- No identifier is declared in stdint.h as well. -/
  std : .directive "#include <stdint.h>".toList ∈ unit → ∀ d ∈ declsOf unit, ∀ x ∈ d.names, ¬ StdName x
  /-- No identifier is a symbol of the preprocessor. -/
  symbols : ∀ d ∈ declsOf unit, ∀ x ∈ d.words, x ∉ syms

/-- A C file that includes the headers of the modules `ms`. -/
def includesOf (cmd : Command) (ms : List Module) : List CPiece :=
  ms.map fun m => .directive (includeLine (cmd.header m.name))

/-- What the definitions have to be for C: names are different, alternatives are strings or of defined types or arrays of
such, no CHOICE is used as a type, members need bits, enumerations are within int, and no variable or enumerator has a name of
stdint.h. -/
structure Compilable (cmd : Command) (ds : List Def) : Prop where
  idents : DistinctIdents cmd ds
  declarable : Declarable ds
  choices : ∀ n c ms, Def.choice n c ms ∈ ds → ∀ k ∈ ms,
    NamesBlock ds k.type ∨ (∃ e len, k.type = .arr e len ∧ NamesBlock ds e) ∨ ∃ n len, k.type = .str n len
  limits : ∀ n c ms, Def.seq n c ms ∈ ds → ∀ k ∈ ms, (∀ l ∈ (dims k.type).take 1, 0 < l) ∧ NeedsBits ds k.type
  values : ∀ n c its, Def.enum n c its ∈ ds → ∀ i ∈ its, -2147483648 ≤ i.pos ∧ i.pos ≤ 2147483647
  enumerators : ∀ k ∈ ds.flatMap enumerators, ¬ StdName (ident k)
  variables : ∀ d ∈ ds, HasObject cmd d → ¬ StdName (lowerFirst (ident d.name))

end Apg.Spec
