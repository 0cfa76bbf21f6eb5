import Verif.Model.Ast
import Verif.Spec.Lists

/-!
# Specification of modules that only differ in their clauses
-/

namespace Apg.Spec
variable (R : Comps → Comps → Prop)

/-- No clause, or clauses in relation. -/
inductive AlteredClause : Option Comps → Option Comps → Prop
  | none : AlteredClause none none
  | some {c c'} : R c c' → AlteredClause (some c) (some c')

/-- The same member but for its clause. -/
structure AlteredMember (m m' : Member) : Prop where
  key : m'.key = m.key
  type : m'.type = m.type
  comment : m'.comment = m.comment
  comps : AlteredClause R m.comps m'.comps

/-- The same definition but for clauses. -/
inductive AlteredDef : Def → Def → Prop
  | same (d) : AlteredDef d d
  | seq {n c ms ms'} : All2 (AlteredMember R) ms ms' → AlteredDef (.seq n c ms) (.seq n c ms')

/-- The same module but for clauses. -/
structure AlteredModule (m m' : Module) : Prop where
  name : m'.name = m.name
  comment : m'.comment = m.comment
  commentImport : m'.commentImport = m.commentImport
  imports : m'.imports = m.imports
  defs : All2 (AlteredDef R) m.defs m'.defs

end Apg.Spec
