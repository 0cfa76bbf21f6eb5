import Verif.Model.Ast

/-!
# Specification of well-formed bundles

Stated on the syntax tree only.
-/

namespace Apg.Spec

/-- The types that need no definition. -/
def BuiltIn (n : String) : Prop :=
  n = "BOOLEAN" ∨ n = "INTEGER" ∨ n = "REAL" ∨ n = "IA5String" ∨ n = "NumericString"

/-- `t` is, or is an array (of arrays ...) of, the type called `n`. -/
inductive UsesName : AType → String → Prop
  | plain {n lo hi} : UsesName (.plain n lo hi) n
  | str {n len} : UsesName (.str n len) n
  | arr {e len n} : UsesName e n → UsesName (.arr e len) n

/-- `t` is NULL or an array (of arrays ...) of NULL. -/
inductive ContainsNull : AType → Prop
  | here {lo hi} : ContainsNull (.plain "NULL" lo hi)
  | elem {e len} : ContainsNull e → ContainsNull (.arr e len)

/-- `n` is defined in `ds` as a SEQUENCE with the members `ms`. -/
def IsSequence (ds : List Def) (n : String) (ms : List Member) : Prop :=
  ∃ c, Def.seq n c ms ∈ ds

/-- The member is the first one with its key. -/
def FirstOf (ms : List Member) (m : Member) : Prop :=
  ∃ pre post, ms = pre ++ m :: post ∧ ∀ k ∈ pre, k.key ≠ m.key

/-- Every key of the clause `cs` on the type `n`, at any depth, is a member of the
sequence it constrains. Types satisfying `exempt` are not looked into. Where members
share a key, the clause in the clause is about the first of them. -/
inductive Addresses (exempt : String → Prop) (ds : List Def) : String → Comps → Prop
  | exempt {n cs} : exempt n → Addresses exempt ds n cs
  | nil {n ms} : IsSequence ds n ms → Addresses exempt ds n .nil
  | leaf {n ms m v rest} : IsSequence ds n ms → m ∈ ms →
      Addresses exempt ds n rest → Addresses exempt ds n (.leaf m.key v rest)
  | node {n ms m t inner rest} : IsSequence ds n ms → FirstOf ms m → UsesName m.type t →
      Addresses exempt ds t inner → Addresses exempt ds n rest →
      Addresses exempt ds n (.node m.key inner rest)

/-- A member without WITH COMPONENTS in module `m` uses the type `n`. -/
def UsedPlainly (m : Module) (n : String) : Prop :=
  ∃ d ∈ m.defs, ∃ k ∈ d.members, k.comps = none ∧ UsesName k.type n

/-- `n` is visible in `m` as a type defined in `m'`. -/
def ImportedFrom (m : Module) (n : String) (m' : Module) : Prop :=
  ∃ i ∈ m.imports, i.module = m'.name ∧ n ∈ i.defs

/-- All definitions of a list of modules. -/
def defsOf (ms : List Module) : List Def := ms.flatMap (·.defs)

/-- `m'` is `m` or is imported by it, directly or through other modules. -/
inductive ImportsFrom (ms : List Module) : Module → Module → Prop
  | refl {m} : ImportsFrom ms m m
  | step {m i m' m''} : i ∈ m.imports → m' ∈ ms → m'.name = i.module → ImportsFrom ms m' m'' → ImportsFrom ms m m''

/-- No module imports itself, directly or through other modules: a rank decreases along imports. -/
def RankedImports (ms : List Module) (rank : String → Nat) : Prop :=
  ∀ m ∈ ms, ∀ i ∈ m.imports, rank i.module < rank m.name

/-- No sequence contains itself, also not in an array: a rank decreases from a sequence to the
sequences its members are of. -/
def NotNested (ds : List Def) (rank : String → Nat) : Prop :=
  ∀ n ms, IsSequence ds n ms → ∀ m ∈ ms, ∀ t inner, UsesName m.type t → IsSequence ds t inner →
    rank t < rank n

end Apg.Spec
