import Verif.Spec.Bundle

/-!
# Specification of the two orderings
-/

namespace Apg.Spec

/-- Type names a module may use without defining them: predefined or imported. -/
def Outside (m : Module) (n : String) : Prop :=
  BuiltIn n ∨ ∃ it ∈ m.imports, n ∈ it.defs

/-- Definition `d` has a member of the type called `n`. -/
def Uses (d : Def) (n : String) : Prop :=
  ((∃ nm c ms, d = .seq nm c ms) ∨ (∃ nm c ms, d = .choice nm c ms)) ∧
    ∃ mem ∈ d.members, UsesName mem.type n

/-- All uses are known, and the definitions can be ranked so that a definition
ranks above what it uses: no direct or indirect self use. -/
def WellFounded (m : Module) (rank : Def → Nat) : Prop :=
  ∀ d ∈ m.defs, ∀ n, Uses d n → Outside m n ∨ ∃ e ∈ m.defs, e.name = n ∧ rank e < rank d

/-- A set of definitions each of which needs something that only definitions of
the set provide (or that nothing provides): a use cycle, an unknown use, or
anything depending on one. -/
def Stuck (m : Module) (S : List Def) : Prop :=
  S ≠ [] ∧ ∀ d ∈ S, d ∈ m.defs ∧ ∃ n, Uses d n ∧ ¬ Outside m n ∧ ∀ e ∈ m.defs, e.name = n → e ∈ S

/-- Module `a` imports something from module `b`. -/
def Imports (a b : Module) : Prop := ∃ it ∈ a.imports, it.module = b.name

/-- No import cycle: a ranking in which importing modules rank below. -/
def AcyclicImports (ms : List Module) (rank : Module → Nat) : Prop :=
  ∀ a ∈ ms, ∀ b ∈ ms, Imports a b → rank a < rank b

end Apg.Spec
