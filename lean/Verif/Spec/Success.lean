import Verif.Spec.Valid
import Verif.Spec.Order
import Verif.Spec.CFields
import Verif.Spec.MsgId

/-!
# When generation succeeds

Conditions on accepted modules under which the generators of C code reach their end.
-/

namespace Apg.Spec

/-- Ranges that the generators have a C type for: unsigned ones whose upper end is not 0, signed
ones of at most 64 bits, reals within the floating-point numbers. -/
inductive Bounded : AType → Prop
  | unsigned {b e} : 0 ≤ b → b ≤ e → 1 ≤ e → Bounded (intType b e)
  | signed {b e} : -(2 ^ 63) ≤ b → b < 0 → b ≤ e → e < 2 ^ 63 → Bounded (intType b e)
  | real {b e} : NumLE (.flt (-largestFloat)) b → NumLE b e → NumLE e (.flt largestFloat) →
      Bounded (realType b e)

/-- Types of simple definitions that the generators have a C type for: such ranges, and BOOLEAN,
Float, Double and arrays of them. -/
def Expandable (t : AType) : Prop :=
  Bounded t ∨ UsesName t "BOOLEAN" ∨ UsesName t "Float" ∨ UsesName t "Double"

/-- A struct field can be made for a member of the type `t`: INTEGER and REAL have bounds (and
are not in an array), and a simple definition it names is expandable, unless its name is a type
of stdint.h. -/
def Storable (ds : List Def) (t : AType) : Prop :=
  (∀ n, UsesName t n → n = "INTEGER" ∨ n = "REAL" → Bounded t) ∧
  ∀ n, UsesName t n → (∀ ct, ¬ Posix n ct) → ∀ c st, Def.simple n c st ∈ ds → Expandable st

/-- C structs can be made from the modules. -/
structure Generatable (ms : List Module) : Prop where
  imports : ∃ rank, AcyclicImports ms rank
  types : ∀ m ∈ ms, ∃ rank, Spec.WellFounded m rank
  fields : ∀ n c l, Def.seq n c l ∈ defsOf ms → ∀ k ∈ l, Storable (defsOf ms) k.type

/-- A value that is a whole number. -/
inductive Whole : Leaf → Prop
  | int {i} : Whole (.int i)
  | bool {b} : Whole (.bool b)

/-- A clause on a primary header from which a message id can be made. -/
def HeaderClause (c : Comps) : Prop :=
  ∃ parts, c = headerComps parts ∧ ∀ kv ∈ parts.flatten,
    kv.1 ∈ ["packet-version-number", "packet-type-is-cmd", "sec-hdr-flag-is-present",
      "application-process-identifier"] ∧ Whole kv.2

/-- A clause in which all clauses on `primary` are clauses on primary headers. -/
inductive MessageClause : Comps → Prop
  | nil : MessageClause .nil
  | leaf {k v r} : MessageClause r → MessageClause (.leaf k v r)
  | primary {c r} : HeaderClause c → MessageClause r → MessageClause (.node "primary" c r)
  | node {k c r} : k ≠ "primary" → MessageClause c → MessageClause r → MessageClause (.node k c r)

/-- Types of simple definitions that have a size on their own. -/
inductive Measurable : AType → Prop
  | unsigned {b e} : 0 ≤ b → b ≤ e → Measurable (intType b e)
  | signed {b e} : -(2 ^ 63) ≤ b → b < 0 → b ≤ e → e < 2 ^ 63 → Measurable (intType b e)
  | real {b e} : NumLE (.flt (-largestFloat)) b → NumLE b e → NumLE e (.flt largestFloat) →
      Measurable (realType b e)
  | boolean : Measurable (.plain "BOOLEAN" none none)
  | float : Measurable (.plain "Float" none none)
  | double : Measurable (.plain "Double" none none)
  | str {n len} : Measurable (.str n len)
  | arr {e len} : Measurable (.arr e len)

/-- What generate-cfs needs in addition. -/
structure GeneratableCfs (ms : List Module) : Prop extends Generatable ms where
  clauses : ∀ n c l, Def.seq n c l ∈ defsOf ms → ∀ k ∈ l, ∀ cs, k.comps = some cs → MessageClause cs
  notes : ∀ n c t, Def.simple n c t ∈ defsOf ms → (∃ m ∈ ms, UsedPlainly m n) → Measurable t

end Apg.Spec
