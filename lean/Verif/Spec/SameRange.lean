import Verif.Spec.Sizes
import Verif.Spec.InPlace
import Verif.Spec.Cosmos

/-!
# Ranges of the same sign and width
-/

namespace Apg.Spec

/-- The types are the same but for ranges of numbers, and the ranges agree in sign and width. Ranges of
REAL may only differ if `reals` is set. -/
inductive SameRange (reals : Bool) : AType → AType → Prop
  | same (t : AType) : SameRange reals t t
  | unsigned {lo hi lo' hi' w : Int} : 0 ≤ lo → 0 ≤ lo' → LeafSize (intType lo hi) w → LeafSize (intType lo' hi') w →
      SameRange reals (intType lo hi) (intType lo' hi')
  | signed {lo hi lo' hi' w : Int} : lo < 0 → lo' < 0 → LeafSize (intType lo hi) w → LeafSize (intType lo' hi') w →
      SameRange reals (intType lo hi) (intType lo' hi')
  | real {lo hi lo' hi' : Num} {w : Int} : reals = true → LeafSize (realType lo hi) w → LeafSize (realType lo' hi') w →
      SameRange reals (realType lo hi) (realType lo' hi')
  | array {e e' : AType} (len : Int) : SameRange reals e e' → SameRange reals (.arr e len) (.arr e' len)

/-- The members are the same but for such ranges. -/
def SameRangeMember (reals : Bool) (m m' : Member) : Prop :=
  m'.key = m.key ∧ m'.comment = m.comment ∧ m'.comps = m.comps ∧ SameRange reals m.type m'.type

/-- The definitions are the same but for such ranges. The range of a simple type with a standard name stays. -/
inductive SameRangeDef (reals : Bool) : Def → Def → Prop
  | same (d : Def) : SameRangeDef reals d d
  | seq (n : String) (c : Option Comment) {ms ms' : List Member} : All2 (SameRangeMember reals) ms ms' →
      SameRangeDef reals (.seq n c ms) (.seq n c ms')
  | choice (n : String) (c : Option Comment) {ms ms' : List Member} : All2 (SameRangeMember reals) ms ms' →
      SameRangeDef reals (.choice n c ms) (.choice n c ms')
  | simple {n : String} (c : Option Comment) {t t' : AType} : n ∉ standardNames → SameRange reals t t' →
      SameRangeDef reals (.simple n c t) (.simple n c t')

/-- The modules are the same but for such ranges. -/
def SameRangeModule (reals : Bool) (m m' : Module) : Prop :=
  ∃ ds, m' = { m with defs := ds } ∧ All2 (SameRangeDef reals) m.defs ds

/-- A packet without the limits of its items. -/
def unlimitedPacket (x : CosmosPacket) : CosmosPacket := { x with items := x.items.map fun it => { it with limits := [] } }

end Apg.Spec
