import Verif.Spec.CosmosData

/-!
# Specification of how COSMOS reads integers in either byte order
-/

namespace Apg.Spec

/-- The member is marked as little endian in its comment. -/
def isLittle (m : Member) : Bool :=
  match m.comment with
  | some c => c.little
  | none => false

/-- The number in the `w` bits from bit `pos` on. Little endian numbers are whole bytes, the first one the least
significant; other little endian items are not covered. -/
def itemBits (data : List UInt8) (pos w : Nat) (little : Bool) : Option Nat :=
  if little then
    if pos % 8 = 0 ∧ w % 8 = 0 ∧ pos + w ≤ 8 * data.length then
      some (readBytes .little ((data.drop (pos / 8)).take (w / 8)))
    else none
  else bitsAt data pos w

/-- The integer an item has in the data when it starts at bit `pos`. -/
def itemValue (data : List UInt8) (pos w : Nat) (little : Bool) (type : List Char) : Option Int :=
  if type = "UINT".toList then (itemBits data pos w little).map fun n : Nat => (n : Int)
  else if type = "INT".toList then (itemBits data pos w little).map fun n : Nat => signedValue w n
  else none

/-- COSMOS takes the data for the packet with these items, the first of which starts at bit `pos`: all ID items have
their values in the data, read in the byte order of the item. Only integers are covered. -/
inductive Taken (data : List UInt8) : Nat → List CosmosItem → Prop
  | nil {pos} : Taken data pos []
  | other {pos it rest} {w : Nat} : it.kind ≠ "APPEND_ID_ITEM".toList → itemLength it = some (w : Int) →
      Taken data (pos + w) rest → Taken data pos (it :: rest)
  | id {pos it rest} {w : Nat} {v : Int} : it.kind = "APPEND_ID_ITEM".toList →
      itemLength it = some (w : Int) → idNumber it.value = some v → itemValue data pos w it.little it.type = some v →
      Taken data (pos + w) rest → Taken data pos (it :: rest)

/-- The leaf can be compared: it is no array, an integer, enumeration or BOOLEAN, and the values it is fixed to
are integers or, for BOOLEAN only, TRUE and FALSE. -/
structure Comparable' (ds : List Def) (path : List Member) (m : Member) : Prop where
  single : ∀ e len, m.type ≠ .arr e len
  integer : ItemType ds m.type "UINT".toList ∨ ItemType ds m.type "INT".toList
  value : ∀ v, FixedTo path v → Suits ds m v ∧ ∀ x, v ≠ .flt x

/-- The bytes of the integer, in two's complement with `w` bits, are the same in both orders. -/
def BothWays (w : Nat) (i : Int) : Prop :=
  ∃ bs : List UInt8, 8 * bs.length = w ∧ bs.reverse = bs ∧ (readBE bs : Int) = i % 2 ^ w

/-- Every fixed leaf is marked as little endian exactly if the byte order is, unless its bytes are the same in both
orders. -/
def Marked (ds : List Def) (en : Endian) (ls : List (List Member)) : Prop :=
  ∀ path m pos w, LeafAt ds ls path m pos w → ∀ v i, FixedTo path v → leafNum v = .int i →
    (isLittle m = true ↔ en = .little) ∨ BothWays w i

/-- Condition on a sequence for its binary file to be compared with its packet: the leaves that its clause `x`
fixes are the first ones, in the order of the clause, and INTEGERs. It has no BOOLEAN, nested array or array
of sequences, and no other clause reaches its members. -/
structure IntegersFirst (ds : List Def) (ms : List Member) (x : Member × Comps) (pre post : List (List Member)) : Prop where
  flat : ∀ m, Reached ds ms m → FlatMember ds m
  leaves : Leaves ds ms (pre ++ post)
  clear : ∀ path ∈ pre ++ post, Clear ds path
  comparable : ∀ path ∈ pre, ∀ m, path.getLast? = some m → Comparable' ds path m
  first : ∀ fixed, Fixes ds x.1.type.name x.2 fixed →
    All2 (fun path f => path.getLast? = some f.1 ∧ FixedTo path f.2 ∧
      ∃ lo hi, Elementary ds f.1.type (intType lo hi)) pre fixed
  rest : ∀ path ∈ post, ∀ v, ¬ FixedTo path v
  noBoolean : ∀ path ∈ pre ++ post, ∀ m, path.getLast? = some m → ¬ IsBoolean ds m.type

end Apg.Spec
