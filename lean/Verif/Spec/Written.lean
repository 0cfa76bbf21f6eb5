import Verif.Spec.Decimal
import Verif.Spec.Syntax

/-!
# Which modules can be written

A description of the modules that have a text, without the texts: the shape that the grammar
gives, floating-point numbers that exist, and comments that can be told apart from their marks.
-/

namespace Apg.Spec

/-- The bounds of the reals in a type are doubles. -/
def DoublesType : AType → Prop
  | .plain n lo hi => n = "REAL" → ∀ x, lo = some x ∨ hi = some x → IsDouble x
  | .str _ _ => True
  | .arr e _ => DoublesType e

/-- The reals in a clause are doubles. -/
def DoublesComps : Comps → Prop
  | .nil => True
  | .leaf _ v r => (∀ x, v = .flt x → IsDouble x) ∧ DoublesComps r
  | .node _ c r => DoublesComps c ∧ DoublesComps r

/-- The reals in a definition are doubles. -/
def DoublesDef : Def → Prop
  | .seq _ _ ms | .choice _ _ ms =>
      ∀ m ∈ ms, DoublesType m.type ∧ ∀ cs, m.comps = some cs → DoublesComps cs
  | .enum _ _ _ => True
  | .simple _ _ t => DoublesType t

/-- The module can be written. -/
structure Expressible (m : Module) : Prop where
  grammar : GrammarModule m
  comments : GrammarComments m
  /-- the comments are not taken for marks or units -/
  plain : (∀ c ∈ m.comment.toList ++ m.commentImport.toList, Plain c) ∧
    ∀ d ∈ m.defs, ∀ c ∈ commentsOf d, Plain c
  doubles : ∀ d ∈ m.defs, DoublesDef d
  /-- the comment of the imports stands behind imports -/
  imports : m.imports = [] → m.commentImport = none

end Apg.Spec
