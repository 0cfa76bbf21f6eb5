import Verif.Spec.Cosmos
import Verif.Spec.Binary

/-!
# Specification of what COSMOS does with received data
-/

namespace Apg.Spec

/-! ### Data types -/

/-- The COSMOS data type for a built-in type; an array has that of its elements. -/
inductive DataType : AType → List Char → Prop
  | bool : DataType (.plain "BOOLEAN" none none) "UINT".toList
  | natural {lo hi} : 0 ≤ lo → DataType (intType lo hi) "UINT".toList
  | negative {lo hi} : lo < 0 → DataType (intType lo hi) "INT".toList
  | real {lo hi} : DataType (realType lo hi) "FLOAT".toList
  | single : DataType (.plain "Float" none none) "FLOAT".toList
  | double : DataType (.plain "Double" none none) "FLOAT".toList
  | string {n len} : DataType (.str n len) "STRING".toList
  | array {e len w} : DataType e w → DataType (.arr e len) w

/-- The COSMOS data type for the type of a leaf: of a built-in type, of the name of one, or of an
enumeration. -/
inductive ItemType (ds : List Def) : AType → List Char → Prop
  | builtIn {t w} : (∀ d ∈ ds, ¬ UsesName t d.name) → DataType t w → ItemType ds t w
  | named {t n c t' w} : UsesName t n → Def.simple n c t' ∈ ds → DataType t' w → ItemType ds t w
  | enum {t n c its} : UsesName t n → Def.enum n c its ∈ ds → ItemType ds t "UINT".toList

/-! ### Lengths -/

/-- The type has a SIZE below zero. -/
inductive NegativeSize : AType → Prop
  | string {n len} : len < 0 → NegativeSize (.str n len)
  | array {e len} : len < 0 → NegativeSize (.arr e len)
  | elem {e len} : NegativeSize e → NegativeSize (.arr e len)

/-- No SIZE is below zero. -/
def NaturalSizes (ds : List Def) : Prop :=
  ∀ d ∈ ds, (∀ m ∈ d.members, ¬ NegativeSize m.type) ∧ ∀ n c t, d = .simple n c t → ¬ NegativeSize t

/-! ### Received data -/

/-- The number in the `w` bits from bit `pos` on, the most significant bit of the first byte being
bit 0, if there are so many. -/
def bitsAt (data : List UInt8) (pos w : Nat) : Option Nat :=
  if pos + w ≤ 8 * data.length then
    some (readBE data / 2 ^ (8 * data.length - (pos + w)) % 2 ^ w)
  else none

/-- The number that `w` bits are in two's complement. -/
def signedValue (w n : Nat) : Int := if 2 * n < 2 ^ w then n else (n : Int) - 2 ^ w

/-- The integer an item has in the data when it starts at bit `pos`. -/
def fieldValue (data : List UInt8) (pos w : Nat) (type : List Char) : Option Int :=
  if type = "UINT".toList then (bitsAt data pos w).map fun n : Nat => (n : Int)
  else if type = "INT".toList then (bitsAt data pos w).map fun n : Nat => signedValue w n
  else none

/-- The value of an ID item as COSMOS reads it: decimal, or hexadecimal after 0x. -/
def idNumber : List (List Char) → Option Int
  | [w] => if w.take 2 = "0x".toList then (readNat 16 (w.drop 2)).map fun n : Nat => (n : Int) else readInt w
  | _ => none

/-- COSMOS takes the data for the packet with these items, the first of which starts at bit
`pos`: all ID items have their values in the data. Only big endian integers are covered. -/
inductive Identified (data : List UInt8) : Nat → List CosmosItem → Prop
  | nil {pos} : Identified data pos []
  | other {pos it rest} {w : Nat} : it.kind ≠ "APPEND_ID_ITEM".toList → itemLength it = some (w : Int) →
      Identified data (pos + w) rest → Identified data pos (it :: rest)
  | id {pos it rest} {w : Nat} {v : Int} : it.kind = "APPEND_ID_ITEM".toList → it.little = false →
      itemLength it = some (w : Int) → idNumber it.value = some v → fieldValue data pos w it.type = some v →
      Identified data (pos + w) rest → Identified data pos (it :: rest)

/-! ### Messages in data -/

/-- The leaf member `m` at the end of `path` has the `w` bits from bit `pos` on when the leaves
follow each other without gaps. -/
inductive LeafAt (ds : List Def) : List (List Member) → List Member → Member → Nat → Nat → Prop
  | here {path rest m} {w : Nat} : path.getLast? = some m → Size ds (.members [m]) w →
      LeafAt ds (path :: rest) path m 0 w
  | later {first rest path m' m pos w} {a : Nat} : first.getLast? = some m' → Size ds (.members [m']) a →
      LeafAt ds rest path m pos w → LeafAt ds (first :: rest) path m (a + pos) w

/-- The data have the integer `i` in these bits, read with the data type for `t`. -/
def HasValue (ds : List Def) (data : List UInt8) (pos w : Nat) (t : AType) (i : Int) : Prop :=
  ∃ n, bitsAt data pos w = some n ∧
    ((ItemType ds t "UINT".toList ∧ i = n) ∨ (ItemType ds t "INT".toList ∧ i = signedValue w n))

/-- The data have all values that clauses fix. -/
def Carries (ds : List Def) (data : List UInt8) (ls : List (List Member)) : Prop :=
  ∀ path m pos w, LeafAt ds ls path m pos w → ∀ v, FixedTo path v →
    ∃ i, leafNum v = .int i ∧ HasValue ds data pos w m.type i

/-- The BOOLEAN leaves that no clause fixes are FALSE in the data. -/
def OthersFalse (ds : List Def) (data : List UInt8) (ls : List (List Member)) : Prop :=
  ∀ path m pos w, LeafAt ds ls path m pos w → IsBoolean ds m.type → (∀ v, ¬ FixedTo path v) →
    HasValue ds data pos w m.type 0

/-- The messages have leaves in the same bits that are read in the same way and fixed to
different values. -/
def FixedApart (ds : List Def) (ls ls' : List (List Member)) : Prop :=
  ∃ path m path' m' pos w ty v v', LeafAt ds ls path m pos w ∧ LeafAt ds ls' path' m' pos w ∧
    ItemType ds m.type ty ∧ ItemType ds m'.type ty ∧ FixedTo path v ∧ FixedTo path' v' ∧ leafNum v ≠ leafNum v'

/-- The leaf can be compared: it is no array, a big endian integer, enumeration or BOOLEAN, and the values
it is fixed to are integers or, for BOOLEAN only, TRUE and FALSE. -/
structure Comparable (ds : List Def) (path : List Member) (m : Member) : Prop where
  single : ∀ e len, m.type ≠ .arr e len
  integer : ItemType ds m.type "UINT".toList ∨ ItemType ds m.type "INT".toList
  big : ∀ c, m.comment = some c → c.little = false
  value : ∀ v, FixedTo path v → Suits ds m v ∧ ∀ x, v ≠ .flt x

end Apg.Spec
