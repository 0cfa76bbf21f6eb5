import Verif.Spec.CFields
import Verif.Spec.Cosmos
import Verif.Spec.MsgId

/-!
# Specification of widths that the generated formats share
-/

namespace Apg.Spec

/-- The signed types of stdint.h and their widths. -/
inductive StdSInt : Nat → List Char → Prop
  | w8 : StdSInt 8 "int8_t".toList
  | w16 : StdSInt 16 "int16_t".toList
  | w32 : StdSInt 32 "int32_t".toList
  | w64 : StdSInt 64 "int64_t".toList

/-- Number of bits of the integer types that fields are declared with. -/
inductive Storage : List Char → Nat → Prop
  | unsigned {ct w} : StdUInt w ct → Storage ct w
  | signed {ct w} : StdSInt w ct → Storage ct w
  | long : Storage "unsigned long long".toList 64

/-- Number of bits of a field of a packed struct, by its C type and bit-field suffix; int, float
and double have 32, 32 and 64 bits. A bit-field cannot be wider than its type. -/
inductive FieldBits : List Char → List Char → Int → Prop
  | bitField {ct sfx} {w : Nat} : BitSuffix w sfx → (∀ s, Storage ct s → w ≤ s) → FieldBits ct sfx w
  | unsigned {ct} {w : Nat} : StdUInt w ct → FieldBits ct [] w
  | signed {ct} {w : Nat} : StdSInt w ct → FieldBits ct [] w
  | int : FieldBits "int".toList [] 32
  | single : FieldBits "float".toList [] 32
  | double : FieldBits "double".toList [] 64

/-- Width of a numeric type: an unsigned range below 2^64, a signed range of 32 bits, a REAL. -/
inductive ScalarWidth : AType → Int → Prop
  | unsigned {lo hi w} : 0 ≤ lo → hi < 2 ^ 64 → LeafSize (intType lo hi) w → ScalarWidth (intType lo hi) w
  | signed {lo hi} : lo < 0 → LeafSize (intType lo hi) 32 → ScalarWidth (intType lo hi) 32
  | real {lo hi w} : LeafSize (realType lo hi) w → ScalarWidth (realType lo hi) w

/-- Width of a leaf type: of a numeric type, of BOOLEAN, or of the name of an enumeration that is
not called like a smaller type of stdint.h, of a numeric type, or of a type of stdint.h that is defined with the range of that type. -/
inductive Width (ds : List Def) : AType → Int → Prop
  | scalar {t w} : ScalarWidth t w → Width ds t w
  | bool : Width ds (.plain "BOOLEAN" none none) 1
  | enum {n c its} {w : Nat} : Def.enum n c its ∈ ds → LeastForItems w its →
      (∀ ct s, Posix n ct → Storage ct s → w ≤ s) → Width ds (.plain n none none) w
  | alias {n c t w} : Def.simple n c t ∈ ds → (∀ ct, ¬ Posix n ct) → ScalarWidth t w →
      Width ds (.plain n none none) w
  | posix {n c t ct w} : Def.simple n c t ∈ ds → Posix n ct → FieldBits ct [] w → LeafSize t w →
      Width ds (.plain n none none) w

/-- A type is numeric or an enumeration, directly or by definition. -/
def Numeric (ds : List Def) (t : AType) : Prop :=
  (∃ lo hi, t = intType lo hi) ∨ (∃ lo hi, t = realType lo hi) ∨
  ∃ n, t = .plain n none none ∧ ((∃ c its, Def.enum n c its ∈ ds) ∨
    (∃ c lo hi, Def.simple n c (intType lo hi) ∈ ds) ∨ ∃ c lo hi, Def.simple n c (realType lo hi) ∈ ds)

/-- The clause has the clause `h` on a member called `primary`, reached by the keys. -/
inductive HeaderIn : Comps → List String → Comps → Prop
  | here {h r} : HeaderIn (.node "primary" h r) ["primary"] h
  | inside {k c r ks h} : k ≠ "primary" → HeaderIn c ks h → HeaderIn (.node k c r) (k :: ks) h
  | afterLeaf {k v r ks h} : HeaderIn r ks h → HeaderIn (.leaf k v r) ks h
  | afterNode {k c r ks h} : HeaderIn r ks h → HeaderIn (.node k c r) ks h

/-- The application id of the primary header that the member `k` reaches by the keys `ks` is the
last member of the path. -/
def ApidPath (k : Member) (ks : List String) (path : List Member) : Prop :=
  ∃ pre rest, path = pre ++ k :: rest ∧
    rest.map (·.key) = ks ++ ["packet-identification", "application-process-identifier"]

end Apg.Spec
