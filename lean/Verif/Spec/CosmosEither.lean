import Verif.Spec.CosmosOrder
import Verif.Spec.CosmosApart

/-!
# Specification of how COSMOS recognises packets by integers and reals in either byte order
-/

namespace Apg.Spec

/-- The item has its value in the data, read in the byte order of the item: an integer, or an IEEE 754 number. -/
def ItemMatches (p : Printer) (data : List UInt8) (pos w : Nat) (it : CosmosItem) : Prop :=
  (∃ v, idNumber it.value = some v ∧ itemValue data pos w it.little it.type = some v) ∨
  (it.type = "FLOAT".toList ∧ ∃ x q, WordText p it.value x ∧ ratOf x = some q ∧
    (itemBits data pos w it.little).bind (realOf w) = some q)

/-- COSMOS takes the data for the packet with these items, the first of which starts at bit `pos`: all ID items have
their values in the data. -/
inductive Accepts (p : Printer) (data : List UInt8) : Nat → List CosmosItem → Prop
  | nil {pos} : Accepts p data pos []
  | other {pos it rest} {w : Nat} : it.kind ≠ "APPEND_ID_ITEM".toList → itemLength it = some (w : Int) →
      Accepts p data (pos + w) rest → Accepts p data pos (it :: rest)
  | id {pos it rest} {w : Nat} : it.kind = "APPEND_ID_ITEM".toList → itemLength it = some (w : Int) →
      ItemMatches p data pos w it → Accepts p data (pos + w) rest → Accepts p data pos (it :: rest)

/-- The data have the number in these bits, read in this byte order with the data type for `t`. -/
def HasIn (ds : List Def) (data : List UInt8) (pos w : Nat) (little : Bool) (t : AType) (x : Num) : Prop :=
  ∃ n, itemBits data pos w little = some n ∧ IsNumber ds w t x n

/-- The data have all values that clauses fix, in the byte order of their members. -/
def CarriesIn (ds : List Def) (data : List UInt8) (ls : List (List Member)) : Prop :=
  ∀ path m pos w, LeafAt ds ls path m pos w → ∀ v, FixedTo path v →
    HasIn ds data pos w (isLittle m) m.type (leafNum v)

/-- The BOOLEANs without fixed value are FALSE. -/
def FalseIn (ds : List Def) (data : List UInt8) (ls : List (List Member)) : Prop :=
  ∀ path m pos w, LeafAt ds ls path m pos w → IsBoolean ds m.type → (∀ v, ¬ FixedTo path v) →
    HasIn ds data pos w (isLittle m) m.type (.int 0)

/-- The leaf can be compared: it is no array, and either an integer, enumeration or BOOLEAN fixed to integers or, for
BOOLEAN only, TRUE and FALSE, or a real fixed to finite numbers. -/
structure MatchableIn (ds : List Def) (path : List Member) (m : Member) : Prop where
  single : ∀ e len, m.type ≠ .arr e len
  value : ∀ v, FixedTo path v → Suits ds m v
  number : ((ItemType ds m.type "UINT".toList ∨ ItemType ds m.type "INT".toList) ∧
      ∀ v, FixedTo path v → ∀ x, v ≠ .flt x) ∨
    (ItemType ds m.type "FLOAT".toList ∧ ∀ v, FixedTo path v → ∃ q, ratOf (leafNum v) = some q)

/-- Little endian leaves that are compared are whole bytes, the only ones for which `itemBits` says how COSMOS reads
them. -/
def WholeBytes (ds : List Def) (ls : List (List Member)) : Prop :=
  ∀ path m pos w, LeafAt ds ls path m pos w → isLittle m = true →
    (∃ v, FixedTo path v) ∨ IsBoolean ds m.type → pos % 8 = 0 ∧ w % 8 = 0

/-- Some bytes are the number and the same in both orders. -/
def SameReversed (ds : List Def) (w : Nat) (t : AType) (x : Num) : Prop :=
  ∃ bs : List UInt8, 8 * bs.length = w ∧ bs.reverse = bs ∧ IsNumber ds w t x (readBE bs)

/-- Every fixed leaf can have its value and is marked as little endian exactly if the byte order is, unless the bytes of
its value are the same in both orders. -/
def MarkedExact (ds : List Def) (en : Endian) (ls : List (List Member)) : Prop :=
  ∀ path m pos w, LeafAt ds ls path m pos w → ∀ v, FixedTo path v →
    ((isLittle m = true ↔ en = .little) ∧ CanHold ds w m.type (leafNum v)) ∨ SameReversed ds w m.type (leafNum v)

/-- The leaf is an INTEGER, or a REAL fixed to a finite number other than zero. -/
def FileLeafIn (ds : List Def) (m : Member) (v : Leaf) : Prop :=
  (∃ lo hi, Elementary ds m.type (intType lo hi)) ∨
  ((∃ lo hi : Rat, Elementary ds m.type (realType (.flt lo) (.flt hi))) ∧
    (m.type.name = "REAL" ∨ m.type.name = "Float" ∨ m.type.name = "Double") ∧
    ∃ q, ratOf (leafNum v) = some q ∧ q ≠ 0)

/-- Condition on a sequence for its binary file to be compared with its packet: the leaves that its clause `x` fixes are
the first ones, in the order of the clause, and numbers. It has no BOOLEAN or nested array, and no
other clause reaches its members. -/
structure NumbersFirst (ds : List Def) (ms : List Member) (x : Member × Comps) (pre post : List (List Member)) : Prop where
  flat : ∀ path ∈ pre ++ post, ∀ m, path.getLast? = some m → FlatMember ds m
  leaves : Leaves ds ms (pre ++ post)
  clear : ∀ path ∈ pre ++ post, Clear ds path
  matchable : ∀ path ∈ pre, ∀ m, path.getLast? = some m → MatchableIn ds path m
  first : ∀ fixed, Fixes ds x.1.type.name x.2 fixed →
    All2 (fun path f => path.getLast? = some f.1 ∧ FixedTo path f.2 ∧ FileLeafIn ds f.1 f.2) pre fixed
  rest : ∀ path ∈ post, ∀ v, ¬ FixedTo path v
  noBoolean : ∀ path ∈ pre ++ post, ∀ m, path.getLast? = some m → ¬ IsBoolean ds m.type

end Apg.Spec
