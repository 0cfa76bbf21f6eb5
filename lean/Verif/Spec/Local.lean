import Verif.Spec.Header
import Verif.Spec.Bundle

/-!
# What a generated file depends on
-/

namespace Apg.Spec

/-- Sequences and choices. -/
def Composite : Def → Prop
  | .seq .. => True
  | .choice .. => True
  | _ => False

/-- Fields whose type has this name cannot tell the two sets of definitions apart: the name is not defined in either,
or it is the same simple type, or an enumeration that needs as many bits, or a sequence or choice in both. -/
inductive SameMeaning (ds ds' : List Def) (n : String) : Prop
  | builtIn : (∀ d ∈ ds, d.name ≠ n) → (∀ d ∈ ds', d.name ≠ n) → SameMeaning ds ds' n
  | simple {c c' t} : Def.simple n c t ∈ ds → Def.simple n c' t ∈ ds' → SameMeaning ds ds' n
  | enum {c c' its its' w} : Def.enum n c its ∈ ds → Def.enum n c' its' ∈ ds' →
      LeastForItems w its → LeastForItems w its' → SameMeaning ds ds' n
  | composite {d d'} : d ∈ ds → d' ∈ ds' → d.name = n → d'.name = n → Composite d → Composite d' → SameMeaning ds ds' n

/-- The definition `e` is `d`, or is used in `d` directly or through other definitions. -/
inductive Reaches (ds : List Def) (d : Def) : Def → Prop
  | refl : Reaches ds d d
  | step {e k f} : Reaches ds d e → k ∈ e.members → f ∈ ds → UsesName k.type f.name → Reaches ds d f

end Apg.Spec
