import Verif.Spec.Agreement
import Verif.Spec.CReader
import Verif.Spec.CScope

/-!
# Specification of the layout of messages in C and in COSMOS

Positions count bits from the start of the message, the most significant bit of a byte first. This is how GCC
numbers the bits of a packed struct on a big-endian target, and how COSMOS numbers those of big-endian items.
-/

namespace Apg.Spec

/-- A leaf of a struct: the names of the fields it is reached by, its first bit, its number of bits, its type. -/
structure Slot where
  path : List (List Char)
  pos : Int
  bits : Int
  type : List (List Char)
  deriving DecidableEq

/-- The first byte boundary at or after the bit `p`. -/
def nextByte (p : Int) : Int := (p + 7) / 8 * 8

/-- Number of bits of a value of an elementary C type. -/
inductive TypeBits : List Char → Int → Prop
  | unsigned {ct} {w : Nat} : StdUInt w ct → TypeBits ct w
  | signed {ct} {w : Nat} : StdSInt w ct → TypeBits ct w
  | int : TypeBits "int".toList 32
  | single : TypeBits "float".toList 32
  | double : TypeBits "double".toList 64
  | char : TypeBits "char".toList 8

/-- Number of elements of an array with the dimensions; one for no array. -/
def elements : List Int → Int
  | [] => 1
  | n :: r => n * elements r

/-- Layout of the fields of a packed struct, the first of which comes at the bit `p` or later: its leaves, and the
bit after the last field. A bit-field takes the next bits. All other fields start at a byte boundary. A nested struct
ends at a byte boundary; its own layout does not depend on where it starts, because it starts at a byte boundary.
Arrays of structs are left out. -/
inductive Placed (decls : List CDecl) : List CField → Int → List Slot → Int → Prop
  | nil {p} : Placed decls [] p [] p
  | bits {f fs p w ss e} : f.width = some w → 0 < w → Placed decls fs (p + w) ss e →
      Placed decls (f :: fs) p (⟨[f.name], p, w, f.type⟩ :: ss) e
  | whole {f fs p ct w ss e} : f.width = none → f.type = [ct] → TypeBits ct w →
      Placed decls fs (nextByte p + w * elements f.dims) ss e →
      Placed decls (f :: fs) p (⟨[f.name], nextByte p, w * elements f.dims, f.type⟩ :: ss) e
  | struct {f fs p n inner ss q ss' e} : f.width = none → f.type = [n] → f.dims = [] →
      CDecl.struct n inner ∈ decls → Placed decls inner (nextByte p) ss q → Placed decls fs (nextByte q) ss' e →
      Placed decls (f :: fs) p (ss.map (fun s => { s with path := f.name :: s.path }) ++ ss') e

/-- The items of a packet, which COSMOS places one after the other from the bit `p` on, have the names, first bits and
lengths of the leaves of a struct; the bit after the last item is `e`. -/
inductive SamePlaces : Int → List Slot → List CosmosItem → Int → Prop
  | nil {p} : SamePlaces p [] [] p
  | cons {p s ss it its w e} {k : String} : it.name = k.toList → s.path.getLast? = some (ident k) →
      itemLength it = some w → s.pos = p → s.bits = w → SamePlaces (p + w) ss its e →
      SamePlaces p (s :: ss) (it :: its) e

/-- Struct and packet have the same layout and the same number of bytes. -/
def SameLayout (slots : List Slot) (e : Int) (items : List CosmosItem) : Prop :=
  SamePlaces 0 slots items (nextByte e)

/-! ### Messages -/

/-- Number of bits of a leaf type that C and COSMOS agree on: those of C44, strings, and arrays of the types of
stdint.h. -/
inductive LeafBits (ds : List Def) : AType → Int → Prop
  | number {t w} : Width ds t w → 0 < w → LeafBits ds t w
  | string {n len} : n = "IA5String" ∨ n = "NumericString" → 0 < len → LeafBits ds (.str n len) (8 * len)
  | array {n c t ct w len} : Def.simple n c t ∈ ds → Posix n ct → FieldBits ct [] w → LeafSize t w → 0 < len →
      LeafBits ds (.arr (.plain n none none) len) (w * len)

/-- The members of a message, at all depths, are such leaves, or sequences and not arrays of sequences. -/
def Agreed (ds : List Def) (ms : List Member) : Prop :=
  ∀ m, Reached ds ms m → (∃ w, LeafBits ds m.type w) ∨ ∃ n inner, m.type = .plain n none none ∧ IsSequence ds n inner

/-- An unsigned range that has not the width of a type of stdint.h. -/
def OddRange (t : AType) : Prop :=
  ∃ (lo hi : Int) (w : Int), t = intType lo hi ∧ 0 ≤ lo ∧ LeafSize t w ∧ w ∉ [8, 16, 32, 64]

/-- A type that need not start at a byte boundary in C: BOOLEAN, an enumeration, an odd range. -/
inductive InBits (ds : List Def) : AType → Prop
  | bool : InBits ds (.plain "BOOLEAN" none none)
  | enum {n c its} : Def.enum n c its ∈ ds → InBits ds (.plain n none none)
  | range {t} : OddRange t → InBits ds t
  | named {n c t} : Def.simple n c t ∈ ds → (∀ ct, ¬ Posix n ct) → OddRange t → InBits ds (.plain n none none)

/-- If the members follow one another without gaps from the bit `p` to the bit before `e`, then all that must start
or end at a byte boundary in C does so. -/
inductive Gapless (ds : List Def) : List Member → Int → Int → Prop
  | nil {p} : Gapless ds [] p p
  | bits {m ms p w e} : InBits ds m.type → LeafBits ds m.type w → Gapless ds ms (p + w) e → Gapless ds (m :: ms) p e
  | whole {m ms p w e} : ¬ InBits ds m.type → LeafBits ds m.type w → p % 8 = 0 → Gapless ds ms (p + w) e →
      Gapless ds (m :: ms) p e
  | seq {m ms n inner p q e} : m.type = .plain n none none → IsSequence ds n inner → p % 8 = 0 →
      Gapless ds inner p q → q % 8 = 0 → Gapless ds ms q e → Gapless ds (m :: ms) p e

end Apg.Spec
