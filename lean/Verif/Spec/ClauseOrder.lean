import Verif.Spec.CInit
import Verif.Spec.Binary
import Verif.Spec.Defines
import Verif.Spec.Altered

/-!
# Specification of clauses that fix the same values in another order
-/

namespace Apg.Spec

/-- A clause that first fixes member `k`, to a value or by an inner clause. -/
def entry (k : String) : Leaf ⊕ Comps → Comps → Comps
  | .inl v, r => .leaf k v r
  | .inr c, r => .node k c r

/-- The same entries in another order, also within inner clauses. -/
inductive Reordered : Comps → Comps → Prop
  | nil : Reordered .nil .nil
  | keep {k x r r'} : Reordered r r' → Reordered (entry k x r) (entry k x r')
  | inner {k c c' r} : Reordered c c' → Reordered (.node k c r) (.node k c' r)
  | swap {k x k' x' r} : Reordered (entry k x (entry k' x' r)) (entry k' x' (entry k x r))
  | trans {c c' c''} : Reordered c c' → Reordered c' c'' → Reordered c c''

/-- The same modules but for the order of clauses. -/
abbrev ReorderedModule : Module → Module → Prop := AlteredModule Reordered

/-- The fixed values of a clause and of its inner clauses, in order. -/
def valuesOf : Comps → List (String × Leaf)
  | .nil => []
  | .leaf k v r => (k, v) :: valuesOf r
  | .node _ c r => valuesOf c ++ valuesOf r

/-- Two texts that only differ in the order of `#define` lines; empty lines go with the line before. -/
def OtherDefines (t t' : List Char) : Prop :=
  ∃ (pre : List Char) (lines lines' : List (List Char)) (post : List Char), lines.Perm lines' ∧
    (∀ l ∈ lines, "#define ".toList.isPrefixOf l = true ∧ l.getLast? = some '\n') ∧ pre.getLast? = some '\n' ∧
    t = pre ++ lines.flatten ++ post ∧ t' = pre ++ lines'.flatten ++ post

/-- Two texts that only differ in variables, which have the same names and whose initialisers say what two versions of a
clause say. -/
def OtherVariables (p : Printer) (t t' : List Char) : Prop :=
  ∃ (pre : List Char) (vars vars' : List (List Char)), t = pre ++ vars.flatten ∧ t' = pre ++ vars'.flatten ∧
    All2 (fun v v' => ∃ n k c c', Reordered c c' ∧ Initialiser p (n, k, c) v ∧ Initialiser p (n, k, c') v') vars vars'

/-- Sequence `n` of one of the modules has the clause. -/
def HasClause (raw : List Module) (n : String) (c : Comps) : Prop :=
  ∃ m ∈ raw, ∃ ms, IsSequence m.defs n ms ∧ ∃ k ∈ ms, k.comps = some c

/-- The bytes of the values of two versions of a clause of sequence `n`: each value has the same bytes in both, but they
come in the order of the clause. -/
def OtherBytes (raw raw' : List Module) (n : String) (bytes bytes' : List UInt8) : Prop :=
  ∃ c c', Reordered c c' ∧ HasClause raw n c ∧ HasClause raw' n c' ∧ ∃ parts parts' : List ((String × Leaf) × List UInt8),
    parts.Perm parts' ∧ parts.map (·.1) = valuesOf c ∧ parts'.map (·.1) = valuesOf c' ∧
    bytes = parts.flatMap (·.2) ∧ bytes' = parts'.flatMap (·.2)

/-- How the contents of the file at `path` may differ. -/
def OtherOrder (cmd : Command) (out : List Char) (raw raw' : List Module) (fs fs' : Files) (path : List Char) : Prop :=
  match cmd with
  | .cfs _ => ∃ m ∈ raw, path = inDir out (ident m.name ++ "_msgids.h".toList) ∧ ∃ t t', HasText fs path t ∧ HasText fs' path t' ∧
      OtherDefines t t'
  | .c p => ∃ m ∈ raw, path = inDir out (ident m.name ++ ".c".toList) ∧ ∃ t t', HasText fs path t ∧ HasText fs' path t' ∧
      OtherVariables p t t'
  | .binary _ => ∃ n, path = inDir out (lowerFirst (ident n) ++ ".bin".toList) ∧ ∃ t t', HasBytes fs path t ∧ HasBytes fs' path t' ∧
      OtherBytes raw raw' n t t'

end Apg.Spec
