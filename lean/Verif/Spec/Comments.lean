import Verif.Spec.Syntax

/-!
# Modules without comments
-/

namespace Apg.Spec

/-- The text without comments; the flag says whether the text starts within a comment. -/
def uncommentFrom : Bool → Chars → Chars
  | _, [] => []
  | true, c :: t => if c = '\n' then c :: uncommentFrom false t else uncommentFrom true t
  | false, '-' :: '-' :: t => uncommentFrom true t
  | false, c :: t => c :: uncommentFrom false t

/-- The text with everything from `--` to the end of the line left out. -/
def uncomment (t : Chars) : Chars := uncommentFrom false t

/-- A member without its comment. -/
def bareMember (m : Member) : Member := { m with comment := none }

/-- An enumeration item without its comment. -/
def bareItem (i : EnumItem) : EnumItem := { i with comment := none }

/-- A definition without comments. -/
def bareDef : Def → Def
  | .seq n _ ms => .seq n none (ms.map bareMember)
  | .choice n _ ms => .choice n none (ms.map bareMember)
  | .enum n _ its => .enum n none (its.map bareItem)
  | .simple n _ t => .simple n none t

/-- A module without comments. -/
def bare (m : Module) : Module :=
  { m with comment := none, commentImport := none, defs := m.defs.map bareDef }

end Apg.Spec
