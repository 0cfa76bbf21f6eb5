import Verif.Spec.CosmosData
import Verif.Spec.Values

/-!
# Specification of how COSMOS recognises packets by fixed integers and reals
-/

namespace Apg.Spec

/-- The value of a number that is not infinite. -/
def ratOf : Num → Option Rat
  | .int i => some (i : Rat)
  | .flt q => some q
  | .inf _ => none

/-- The number that `w` bits are in the IEEE 754 format of that width. -/
def realOf (w n : Nat) : Option Rat :=
  if w = 32 then ieee 8 23 n else if w = 64 then ieee 11 52 n else none

/-- The real an item has in the data when it starts at bit `pos`. -/
def realAt (data : List UInt8) (pos w : Nat) : Option Rat := (bitsAt data pos w).bind (realOf w)

/-- The number can be written with `w` bits in the IEEE 754 format of that width without rounding. -/
def Exact (w : Nat) (q : Rat) : Prop := ∃ n, n < 2 ^ w ∧ realOf w n = some q

/-- COSMOS takes the data for the packet with these items, the first of which starts at bit `pos`: all ID items have
their values in the data, those of type FLOAT as IEEE 754 numbers. Only big endian numbers are covered. -/
inductive Recognised (p : Printer) (data : List UInt8) : Nat → List CosmosItem → Prop
  | nil {pos} : Recognised p data pos []
  | other {pos it rest} {w : Nat} : it.kind ≠ "APPEND_ID_ITEM".toList → itemLength it = some (w : Int) →
      Recognised p data (pos + w) rest → Recognised p data pos (it :: rest)
  | int {pos it rest} {w : Nat} {v : Int} : it.kind = "APPEND_ID_ITEM".toList → it.little = false →
      itemLength it = some (w : Int) → idNumber it.value = some v → fieldValue data pos w it.type = some v →
      Recognised p data (pos + w) rest → Recognised p data pos (it :: rest)
  | real {pos it rest} {w : Nat} {x : Num} {q : Rat} : it.kind = "APPEND_ID_ITEM".toList → it.little = false →
      itemLength it = some (w : Int) → it.type = "FLOAT".toList → WordText p it.value x → ratOf x = some q →
      realAt data pos w = some q → Recognised p data (pos + w) rest → Recognised p data pos (it :: rest)

/-- The data have the number in these bits, read with the data type for `t`. -/
def HasNumber (ds : List Def) (data : List UInt8) (pos w : Nat) (t : AType) (x : Num) : Prop :=
  (∃ i, x = .int i ∧ HasValue ds data pos w t i) ∨
  (ItemType ds t "FLOAT".toList ∧ ∃ q, ratOf x = some q ∧ realAt data pos w = some q)

/-- The data have all values that clauses fix, reals included. -/
def CarriesAll (ds : List Def) (data : List UInt8) (ls : List (List Member)) : Prop :=
  ∀ path m pos w, LeafAt ds ls path m pos w → ∀ v, FixedTo path v → HasNumber ds data pos w m.type (leafNum v)

/-- The leaf can be compared: it is big endian and no array, and either an integer, enumeration or BOOLEAN
fixed to integers or, for BOOLEAN only, TRUE and FALSE, or a real fixed to finite numbers. -/
structure Matchable (ds : List Def) (path : List Member) (m : Member) : Prop where
  single : ∀ e len, m.type ≠ .arr e len
  big : ∀ c, m.comment = some c → c.little = false
  value : ∀ v, FixedTo path v → Suits ds m v
  number : ((ItemType ds m.type "UINT".toList ∨ ItemType ds m.type "INT".toList) ∧
      ∀ v, FixedTo path v → ∀ x, v ≠ .flt x) ∨
    (ItemType ds m.type "FLOAT".toList ∧ ∀ v, FixedTo path v → ∃ q, ratOf (leafNum v) = some q)

/-- The fixed reals can be written with the bits they have without rounding. -/
def ExactReals (ds : List Def) (ls : List (List Member)) : Prop :=
  ∀ path m pos w, LeafAt ds ls path m pos w → ItemType ds m.type "FLOAT".toList →
    ∀ v q, FixedTo path v → ratOf (leafNum v) = some q → Exact w q

/-- The leaf is an INTEGER, or a REAL fixed to a finite number. -/
def FileLeaf (ds : List Def) (m : Member) (v : Leaf) : Prop :=
  (∃ lo hi, Elementary ds m.type (intType lo hi)) ∨
  ((∃ lo hi : Rat, Elementary ds m.type (realType (.flt lo) (.flt hi))) ∧
    (m.type.name = "REAL" ∨ m.type.name = "Float" ∨ m.type.name = "Double") ∧ ∃ q, ratOf (leafNum v) = some q)

/-- Condition on a sequence for its binary file to be compared with its packet: it has one clause, and the leaves that
this clause fixes are the first ones, in the order of the clause, and numbers. It has no BOOLEAN, nested array or array
of sequences, and no other clause reaches its members. -/
structure FileFirst (ds : List Def) (ms : List Member) (x : Member × Comps) (pre post : List (List Member)) : Prop where
  flat : ∀ m, Reached ds ms m → FlatMember ds m
  leaves : Leaves ds ms (pre ++ post)
  clear : ∀ path ∈ pre ++ post, Clear ds path
  matchable : ∀ path ∈ pre, ∀ m, path.getLast? = some m → Matchable ds path m
  first : ∀ fixed, Fixes ds x.1.type.name x.2 fixed →
    All2 (fun path f => path.getLast? = some f.1 ∧ FixedTo path f.2 ∧ FileLeaf ds f.1 f.2) pre fixed
  rest : ∀ path ∈ post, ∀ v, ¬ FixedTo path v
  noBoolean : ∀ path ∈ pre ++ post, ∀ m, path.getLast? = some m → ¬ IsBoolean ds m.type

end Apg.Spec
