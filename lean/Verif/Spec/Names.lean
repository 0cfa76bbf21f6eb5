import Verif.Spec.Grammar

/-!
# Specification of C identifiers
-/

namespace Apg.Spec

/-- A name allowed by the grammar. -/
def GrammarName (s : String) : Prop := isNameLower s = true ∨ isNameCapital s = true

/-- The C identifier expected for a name: `-` becomes `_`. -/
def ident (s : String) : List Char := s.toList.map fun c => if c = '-' then '_' else c

/-- ASCII letters. -/
def IsLetter (c : Char) : Prop := ('a' ≤ c ∧ c ≤ 'z') ∨ ('A' ≤ c ∧ c ≤ 'Z')

/-- C identifiers (C11 6.4.2.1, without universal character names). -/
def CIdent (t : List Char) : Prop :=
  (∃ c r, t = c :: r ∧ (IsLetter c ∨ c = '_')) ∧
  ∀ c ∈ t, IsLetter c ∨ ('0' ≤ c ∧ c ≤ '9') ∨ c = '_'

/-- Reserved words of C11 (6.4.1). -/
def keywords : List String :=
  ["auto", "break", "case", "char", "const", "continue", "default", "do", "double", "else", "enum",
   "extern", "float", "for", "goto", "if", "inline", "int", "long", "register", "restrict",
   "return", "short", "signed", "sizeof", "static", "struct", "switch", "typedef", "union",
   "unsigned", "void", "volatile", "while", "_Alignas", "_Alignof", "_Atomic", "_Bool",
   "_Complex", "_Generic", "_Imaginary", "_Noreturn", "_Static_assert", "_Thread_local"]

/-- Upper-case text, for ASCII letters. -/
def raise (t : List Char) : List Char := t.map Char.toUpper

end Apg.Spec
