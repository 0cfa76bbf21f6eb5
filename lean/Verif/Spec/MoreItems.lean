import Verif.Spec.Append

/-!
# Items that are appended to enumerations
-/

namespace Apg.Spec

/-- The second definition is the first, or the same enumeration with further items at its end. Nothing is said of the
numbers of the items. -/
inductive MoreItems : Def → Def → Prop
  | same {d} : MoreItems d d
  | items {n c c' its its'} : its.map (fun it => (it.key, it.comment)) <+: its'.map (fun it => (it.key, it.comment)) →
      MoreItems (.enum n c its) (.enum n c' its')

/-- Every definition is there, perhaps with further items; other definitions are not used by the members there were. -/
structure MoreItemsDefs (ds ds' : List Def) : Prop where
  there : ∀ d ∈ ds, ∃ d' ∈ ds', MoreItems d d'
  other : ∀ d' ∈ ds', (∃ d ∈ ds, MoreItems d d') ∨ ∀ d ∈ ds, ∀ m ∈ d.members, ¬ UsesName m.type d'.name

/-- If the type names an enumeration, then its items need as many bits before and after. -/
def KeepsBits (ds ds' : List Def) (t : AType) : Prop :=
  ∀ n c c' its its', UsesName t n → Def.enum n c its ∈ ds → Def.enum n c' its' ∈ ds' →
    ∃ w, LeastForItems w its ∧ LeastForItems w its'

/-- The enumeration with the texts of its enumerators. -/
def enumOf (c : Option Comment) (n : String) (lines : List (List Char)) : List Char :=
  defCommentText c ++ "typedef enum {\n".toList ++ lines.flatten ++ "} __attribute__((packed)) ".toList ++ ident n ++ [';']

/-- The items of a leaf of the type before and after: they agree but for further states at the end, and have the same number
of bits exactly if the enumeration needs as many bits. -/
def KeepsStates (ds ds' : List Def) (t : AType) (it it' : CosmosItem) : Prop :=
  it.name = it'.name ∧ it.type = it'.type ∧ it.little = it'.little ∧ it.limits = it'.limits ∧ it.units = it'.units ∧
  it.states <+: it'.states ∧ (it.bits = it'.bits ↔ KeepsBits ds ds' t)

/-- The items of a message with the members `ms`, one for each leaf, before and after. If at most one clause reaches a leaf
and it has as many bits, then its items agree in all but the states. -/
def AddsStates (ds ds' : List Def) (ms : List Member) (items items' : List CosmosItem) : Prop :=
  ∃ xs : List (List Member × CosmosItem × CosmosItem), Leaves ds ms (xs.map (·.1)) ∧ xs.map (·.2.1) = items ∧
    xs.map (·.2.2) = items' ∧ ∀ x ∈ xs, ∀ m, x.1.getLast? = some m → KeepsStates ds ds' m.type x.2.1 x.2.2 ∧
      (Clear ds x.1 → Clear ds' x.1 → x.2.1.bits = x.2.2.bits → { x.2.1 with states := x.2.2.states } = x.2.2)

end Apg.Spec
