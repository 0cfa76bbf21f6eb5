import Verif.Spec.Local
import Verif.Spec.Cosmos
import Verif.Spec.CFields

/-!
# Members that are appended
-/

namespace Apg.Spec

/-- The second definition is the first, or the first with further members at its end. -/
inductive Lengthened : Def → Def → Prop
  | same {d} : Lengthened d d
  | seq {n c c' ms extra} : Lengthened (.seq n c ms) (.seq n c' (ms ++ extra))

/-- Every definition is there, perhaps with further members; other definitions are not used by the members there were. -/
structure LengthenedDefs (ds ds' : List Def) : Prop where
  there : ∀ d ∈ ds, ∃ d' ∈ ds', Lengthened d d'
  other : ∀ d' ∈ ds', (∃ d ∈ ds, Lengthened d d') ∨ ∀ d ∈ ds, ∀ m ∈ d.members, ¬ UsesName m.type d'.name

/-- The struct of a sequence with the texts of its fields. -/
def structOf (c : Option Comment) (n : String) (fields : List (List Char)) : List Char :=
  defCommentText c ++ "typedef struct\n{\n".toList ++ fields.flatten ++ "} __attribute__((packed)) ".toList ++ ident n ++ [';']

/-- `f` is the text of the field of a member. -/
def FieldFor (m : Member) (f : List Char) : Prop := ∃ ct sfx, FieldText m ct sfx ((dims m.type).take 1) f

/-- The items agree in everything but the value that marks a packet. -/
def SameItem (it it' : CosmosItem) : Prop :=
  it.name = it'.name ∧ it.bits = it'.bits ∧ it.type = it'.type ∧ it.little = it'.little ∧ it.states = it'.states ∧
  it.limits = it'.limits ∧ it.units = it'.units

/-- All that the members use, directly or through other definitions, is the same in `ds'`. -/
def InnerSame (ds ds' : List Def) (ms : List Member) : Prop :=
  ∀ m ∈ ms, ∀ f ∈ ds, UsesName m.type f.name → ∀ g, Reaches ds f g → g ∈ ds'

/-- The items of a message with the members `ms` are among the new items in the same order, one for each leaf of the message.
They are at the start if nothing inside has changed. They have the same values where at most one clause reaches. -/
def KeepsItems (ds ds' : List Def) (ms : List Member) (items items' : List CosmosItem) : Prop :=
  ∃ xs : List (List Member × CosmosItem × CosmosItem), Leaves ds ms (xs.map (·.1)) ∧ xs.map (·.2.1) = items ∧
    (xs.map (·.2.2)).Sublist items' ∧ (InnerSame ds ds' ms → xs.map (·.2.2) <+: items') ∧
    ∀ x ∈ xs, SameItem x.2.1 x.2.2 ∧ (Clear ds x.1 → Clear ds' x.1 → x.2.1 = x.2.2)

/-- The appended members have names of their own. -/
def FreshKeys (ds ds' : List Def) : Prop :=
  ∀ n c c' ms extra, Def.seq n c ms ∈ ds → Def.seq n c' (ms ++ extra) ∈ ds' → ∀ k ∈ ms, ∀ x ∈ extra, x.key ≠ k.key

end Apg.Spec
