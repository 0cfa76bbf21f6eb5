import Verif.Spec.Success
import Verif.Spec.Sizes
import Verif.Spec.Binary

/-!
# When generate-binary succeeds
-/

namespace Apg.Spec

/-- The bits counted for a type on its own: its width, and for arrays eight per element, whatever
the elements are. -/
inductive OwnBits : AType → Int → Prop
  | leaf {t w} : LeafSize t w → OwnBits t w
  | arr {e len} : OwnBits (.arr e len) (len * 8)

/-- The bits counted for members of these types, following names (but not in arrays). An
enumeration has the least width for its number of items; a CHOICE has none. -/
inductive Bits (ds : List Def) : List AType → Int → Prop
  | nil : Bits ds [] 0
  | own {t ts w v} : (∀ n lo hi, t = .plain n lo hi → ∀ d ∈ ds, d.name ≠ n) → OwnBits t w →
      Bits ds ts v → Bits ds (t :: ts) (w + v)
  | simple {n lo hi c t ts w v} : Def.simple n c t ∈ ds → OwnBits t w → Bits ds ts v →
      Bits ds (.plain n lo hi :: ts) (w + v)
  | enum {n lo hi c its ts v} (w : Nat) : Def.enum n c its ∈ ds → its.length ≤ 2 ^ w →
      (∀ w', its.length ≤ 2 ^ w' → w ≤ w') → Bits ds ts v → Bits ds (.plain n lo hi :: ts) (w + v)
  | seq {n lo hi c ms ts w v} : Def.seq n c ms ∈ ds → Bits ds (ms.map (·.type)) w → Bits ds ts v →
      Bits ds (.plain n lo hi :: ts) (w + v)

/-- Encodings of values. -/
inductive Encoding where
  | unsigned | signed | single | double

/-- The standard names and their encodings. -/
inductive StandardEncoding : String → Encoding → Prop
  | i8 : StandardEncoding "Int8-t" .signed
  | i16 : StandardEncoding "Int16-t" .signed
  | i32 : StandardEncoding "Int32-t" .signed
  | i64 : StandardEncoding "Int64-t" .signed
  | u8 : StandardEncoding "Uint8-t" .unsigned
  | u16 : StandardEncoding "Uint16-t" .unsigned
  | u32 : StandardEncoding "Uint32-t" .unsigned
  | u64 : StandardEncoding "Uint64-t" .unsigned
  | float : StandardEncoding "Float" .single
  | double : StandardEncoding "Double" .double

/-- The encoding of the type of a member. Names other than the standard ones have none. -/
inductive HasEncoding : AType → Encoding → Prop
  | unsigned {b e} : 0 ≤ b → b ≤ e → HasEncoding (intType b e) .unsigned
  | signed {b e} : b < 0 → b ≤ e → HasEncoding (intType b e) .signed
  | single {b e} : LeafSize (realType b e) 32 → HasEncoding (realType b e) .single
  | double {b e} : LeafSize (realType b e) 64 → HasEncoding (realType b e) .double
  | name {t n k} : UsesName t n → StandardEncoding n k → HasEncoding t k

/-- The value can be written with so many bits in the encoding. Reals have to stay below the
middle between the largest number of the format and the next power of two; integers are made
doubles first. -/
inductive Holds : Encoding → Int → Leaf → Prop
  | unsigned {w v i} : w ∈ [8, 16, 32, 64] → leafNum v = .int i → FitsUnsigned w i →
      Holds .unsigned w v
  | signed {w v i} : w ∈ [8, 16, 32, 64] → leafNum v = .int i → FitsSigned w i →
      Holds .signed w v
  | singleInt {v i} : leafNum v = .int i → i.natAbs < 2 ^ 128 - 2 ^ 103 - 2 ^ 74 →
      Holds .single 32 v
  | single {q} : dist 0 q < ((2 ^ 128 - 2 ^ 103 : Nat) : Rat) → Holds .single 32 (.flt (.flt q))
  | singleInf {neg} : Holds .single 32 (.flt (.inf neg))
  | doubleInt {v i} : leafNum v = .int i → i.natAbs < 2 ^ 1024 - 2 ^ 970 → Holds .double 64 v
  | double {q} : dist 0 q < ((2 ^ 1024 - 2 ^ 970 : Nat) : Rat) → Holds .double 64 (.flt (.flt q))
  | doubleInf {neg} : Holds .double 64 (.flt (.inf neg))

/-- The value can be written for a member of the type. -/
def Fits (ds : List Def) (t : AType) (v : Leaf) : Prop :=
  ∃ k w, HasEncoding t k ∧ Bits ds [t] w ∧ Holds k w v

/-- The member has no clause and is the last one of these with its key. -/
def LastPlain (ms : List Member) (m : Member) : Prop :=
  m.comps = none ∧ ∃ pre post, ms = pre ++ m :: post ∧ ∀ k ∈ post, k.comps = none → k.key ≠ m.key

/-- The clause on the sequence called `n` can be written: its sequences are in the same module
(with the definitions `own`), the members have no clauses of their own (of several with the same
key the last one counts), and the values fit. -/
inductive Writable (ds own : List Def) : String → Comps → Prop
  | nil {n} : Writable ds own n .nil
  | leaf {n ms m v rest} : IsSequence own n ms → LastPlain ms m → Fits ds m.type v →
      Writable ds own n rest → Writable ds own n (.leaf m.key v rest)
  | node {n ms m t inner rest} : IsSequence own n ms → LastPlain ms m → UsesName m.type t →
      Writable ds own t inner → Writable ds own n rest → Writable ds own n (.node m.key inner rest)

/-- What generate-binary needs in addition to what generate-c needs: in modules with clauses all
other members have a size, and the clauses can be written. -/
structure GeneratableBinary (ms : List Module) : Prop extends Generatable ms where
  sizes : ∀ m ∈ ms, (∃ n c l, Def.seq n c l ∈ m.defs ∧ ∃ k ∈ l, k.comps ≠ none) →
    ∀ n c l, Def.seq n c l ∈ m.defs → ∀ k ∈ l, k.comps = none → ∃ w, Bits (defsOf ms) [k.type] w
  clauses : ∀ m ∈ ms, ∀ n c l, Def.seq n c l ∈ m.defs → ∀ k ∈ l, ∀ cs, k.comps = some cs →
    ∀ t, UsesName k.type t → Writable (defsOf ms) m.defs t cs

/-- Every key of the clause on the sequence called `n`, at every depth, is a member of the sequence that it is for. -/
inductive KeysExist (ds : List Def) : String → Comps → Prop
  | nil {n} : KeysExist ds n .nil
  | leaf {n ms m v rest} : IsSequence ds n ms → m ∈ ms → KeysExist ds n rest → KeysExist ds n (.leaf m.key v rest)
  | node {n ms m t inner rest} : IsSequence ds n ms → m ∈ ms → UsesName m.type t → KeysExist ds t inner →
      KeysExist ds n rest → KeysExist ds n (.node m.key inner rest)

end Apg.Spec
