import Verif.Spec.CScope
import Verif.Spec.Defines

/-!
# Specification of macros that change declarations
-/

namespace Apg.Spec

/-- The identifiers that a declaration declares in any scope. -/
def CDecl.idents (d : CDecl) : List (List Char) := d.names ++ d.tags ++ d.fields.map (·.name)

/-- The object-like macros of stdint.h (C11 7.20.2, 7.20.3). -/
def stdintMacros : List (List Char) :=
  (["INT", "INT_LEAST", "INT_FAST"].flatMap fun a => ["8", "16", "32", "64"].flatMap fun n =>
    [a ++ n ++ "_MIN", a ++ n ++ "_MAX", "U" ++ a ++ n ++ "_MAX"].map String.toList) ++
  ["INTPTR_MIN", "INTPTR_MAX", "UINTPTR_MAX", "INTMAX_MIN", "INTMAX_MAX", "UINTMAX_MAX", "PTRDIFF_MIN", "PTRDIFF_MAX",
    "SIG_ATOMIC_MIN", "SIG_ATOMIC_MAX", "SIZE_MAX", "WCHAR_MIN", "WCHAR_MAX", "WINT_MIN", "WINT_MAX"].map String.toList

/-- The macros of stdbool.h that are no reserved words (C11 7.18); from C23 on they are reserved words. -/
def stdboolMacros : List (List Char) := ["bool".toList, "true".toList, "false".toList]

/-- None of the macros replaces an identifier that is declared. -/
def Untouched (macros : List (List Char)) (ds : List CDecl) : Prop := ∀ d ∈ ds, ∀ w ∈ d.idents, w ∉ macros

/-- No enumerator, member or variable is called `bool`, `true` or `false`. -/
def NoTruth (cmd : Command) (ds : List Def) : Prop :=
  (∀ k ∈ ds.flatMap enumerators, k ∉ ["bool", "true", "false"]) ∧
  (∀ d ∈ ds, ∀ k ∈ d.members, k.key ∉ ["bool", "true", "false"]) ∧
  ∀ d ∈ ds, HasObject cmd d → d.name ∉ ["Bool", "True", "False"]

end Apg.Spec
