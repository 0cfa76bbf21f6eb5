import Verif.Spec.Agreement

/-!
# Ranges that are made wider
-/

namespace Apg.Spec

/-- The second type is the first, or has a wider range or a greater size. The size of an array is not negative. -/
inductive Wider : AType → AType → Prop
  | same {t} : (∀ e len, t ≠ .arr e len) → Wider t t
  | integer {lo hi lo' hi'} : lo' ≤ lo → hi ≤ hi' → Wider (intType lo hi) (intType lo' hi')
  | real {lo hi lo' hi'} : NumLE lo' lo → NumLE hi hi' → Wider (realType lo hi) (realType lo' hi')
  | str {n len len'} : len ≤ len' → Wider (.str n len) (.str n len')
  | arr {e e' len len'} : Wider e e' → 0 ≤ len → len ≤ len' → Wider (.arr e len) (.arr e' len')

/-- The second member has the same name and a wider type; fixed values and comments do not matter. -/
def WiderMember (m m' : Member) : Prop := m.key = m'.key ∧ Wider m.type m'.type

/-- The second definition is the first with wider types or more items. -/
inductive WiderDef : Def → Def → Prop
  | simple {n c c' t t'} : Wider t t' → WiderDef (.simple n c t) (.simple n c' t')
  | enum {n c c' its its'} : its.length ≤ its'.length → WiderDef (.enum n c its) (.enum n c' its')
  | seq {n c c' ms ms'} : All2 WiderMember ms ms' → WiderDef (.seq n c ms) (.seq n c' ms')
  | choice {n c c' ms ms'} : WiderDef (.choice n c ms) (.choice n c' ms')

/-- Every definition is there with wider types; other definitions are not used by the members there were. -/
structure WiderDefs (ds ds' : List Def) : Prop where
  there : ∀ d ∈ ds, ∃ d' ∈ ds', WiderDef d d'
  other : ∀ d' ∈ ds', (∃ d ∈ ds, WiderDef d d') ∨ ∀ d ∈ ds, ∀ m ∈ d.members, ¬ UsesName m.type d'.name

/-- The second item has the same name and as many or more bits, in total and in each element. -/
def WiderItem (it it' : CosmosItem) : Prop :=
  it.name = it'.name ∧ (∃ w w', it.bits = some w ∧ it'.bits = some w' ∧ w ≤ w') ∧
  ∃ v v', itemLength it = some v ∧ itemLength it' = some v' ∧ v ≤ v'

end Apg.Spec
