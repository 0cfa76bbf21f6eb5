import Verif.Spec.Header
import Verif.Spec.Bundle

/-!
# Specification: joined inputs and parts of inputs
-/

namespace Apg.Spec

/-- No module and no type has a name in common. -/
def NamesApart (raw raw' : List Module) : Prop :=
  (∀ m ∈ raw, ∀ m' ∈ raw', m.name ≠ m'.name) ∧ ∀ d ∈ defsOf raw, ∀ d' ∈ defsOf raw', d.name ≠ d'.name

/-- The modules import only from each other. -/
def ImportsWithin (ms : List Module) : Prop := ∀ m ∈ ms, ∀ i ∈ m.imports, ∃ m' ∈ ms, m'.name = i.module

/-- The command succeeds on the modules, given enough steps. -/
def Succeeds (cmd : Command) (raw : List Module) (cfg : List String) (out : List Char) : Prop :=
  ∃ fuel, (cmd.run fuel raw cfg out).result = .ok ()

end Apg.Spec
