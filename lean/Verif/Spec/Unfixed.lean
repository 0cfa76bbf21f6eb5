import Verif.Spec.Cosmos

/-!
# Sources that differ in fixed values
-/

namespace Apg.Spec

/-- A member without its WITH COMPONENTS clause. -/
def unfixedMember (m : Member) : Member := { m with comps := none }

/-- A definition without clauses in its sequence. -/
def unfixedDef : Def → Def
  | .seq n c ms => .seq n c (ms.map unfixedMember)
  | d => d

/-- A module without clauses in its sequences. -/
def unfixed (m : Module) : Module := { m with defs := m.defs.map unfixedDef }

/-- The modules are the same but for the clauses of members of sequences. -/
def SameButValues (raw raw' : List Module) : Prop := raw.map unfixed = raw'.map unfixed

/-- An item without its value; of an array the value is the size. -/
def unvalued (it : CosmosItem) : CosmosItem :=
  if it.kind = "APPEND_ARRAY_ITEM".toList then it else { it with kind := "APPEND_ITEM".toList, value := [] }

/-- A packet without values. -/
def unvaluedPacket (x : CosmosPacket) : CosmosPacket := { x with items := x.items.map unvalued }

/-- Lines that declare variables for sequences of the module that have clauses, and an empty line after them. -/
def DeclaresVars (m : Module) (t : List Char) : Prop :=
  t = [] ∨ ∃ ns : List String, ns ≠ [] ∧ (∀ n ∈ ns, ∃ ms, IsSequence m.defs n ms ∧ ∃ k ∈ ms, k.comps ≠ none) ∧
    t = ns.flatMap (fun n => ident n ++ ' ' :: lowerFirst (ident n) ++ ";\n".toList) ++ ['\n']

end Apg.Spec
