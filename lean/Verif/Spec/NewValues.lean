import Verif.Spec.ClauseOrder
import Verif.Spec.Unfixed

/-!
# Specification of clauses that fix the same members to other values
-/

namespace Apg.Spec

/-- Two versions of a clause that fix the same members in the same order, except that values of members whose keys are in
`K` may differ. -/
inductive NewValues (K : String → Prop) : Comps → Comps → Prop
  | nil : NewValues K .nil .nil
  | leaf {k v v' r r'} : (¬ K k → v' = v) → NewValues K r r' → NewValues K (.leaf k v r) (.leaf k v' r')
  | node {k c c' r r'} : NewValues K c c' → NewValues K r r' → NewValues K (.node k c r) (.node k c' r')

/-- Two versions of what a clause of a sequence fixes. -/
inductive NewFixed (K : String → Prop) : String × Fixed → String × Fixed → Prop
  | header {n c c'} : NewValues K c c' → NewFixed K (n, .header c) (n, .header c')
  | value {n k v v'} : (¬ K k → v' = v) → NewFixed K (n, .value k v) (n, .value k v')

/-- Two versions of a clause of a sequence on a member. -/
def NewClause (K : String → Prop) (x x' : String × String × Comps) : Prop :=
  x'.1 = x.1 ∧ x'.2.1 = x.2.1 ∧ NewValues K x.2.2 x'.2.2

/-- Two versions of something in the sources, and what is written for them. -/
structure Change (α β : Type) where
  old : α
  new : α
  oldOut : β
  newOut : β

/-- The two versions are related by `S`, what is written is right for both, and it is the same unless the sources differ. -/
def OnlyChanges {α β : Type} (S : α → α → Prop) (T : α → β → Prop) (rows : List (Change α β)) : Prop :=
  ∀ r ∈ rows, S r.old r.new ∧ T r.old r.oldOut ∧ T r.new r.newOut ∧ (r.old = r.new → r.oldOut = r.newOut)

/-- Two versions of an item: the same, or the item of a member in `K` with another value. -/
def NewItem (K : String → Prop) (it it' : CosmosItem) : Prop :=
  it' = it ∨ ∃ k, K k ∧ it.name = k.toList ∧ unvalued it' = unvalued it

/-- Two versions of a packet. -/
def NewPacket (K : String → Prop) (x x' : CosmosPacket) : Prop :=
  x'.target = x.target ∧ x'.name = x.name ∧ All2 (NewItem K) x.items x'.items

end Apg.Spec
