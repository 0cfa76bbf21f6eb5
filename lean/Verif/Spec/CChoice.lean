import Verif.Spec.CReader

/-!
# Specification of the alternatives of a CHOICE in C
-/

namespace Apg.Spec

/-- The field stands for the alternative: it has its name, its dimension, and the type that a member of a struct
has for it. A width is not asked for, as the alternatives of a union do not share bits with neighbours. -/
def AlternativeOf (ds : List Def) (k : Member) (f : CField) : Prop :=
  f.name = ident k.key ∧ f.dims = (dims k.type).take 1 ∧ ∃ ct sfx, FieldType ds k.type ct sfx ∧ f.type = [ct]

/-- The type is the name of a SEQUENCE, a CHOICE or an ENUMERATED. -/
def NamesBlock (ds : List Def) (t : AType) : Prop :=
  ∃ d ∈ ds, t = .plain d.name none none ∧ d.isSimple = false

end Apg.Spec
