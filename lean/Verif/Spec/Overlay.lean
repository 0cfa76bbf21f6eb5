import Verif.Spec.Layout
import Verif.Spec.Binary

/-!
# Specification of reading a binary file through a struct
-/

namespace Apg.Spec

/-- The bytes a leaf of a struct has in the data. -/
def slotBytes (bytes : List UInt8) (s : Slot) : List UInt8 :=
  (bytes.drop (s.pos / 8).toNat).take (s.bits / 8).toNat

/-- The bytes of the leaf are whole bytes of the data. -/
def InData (bytes : List UInt8) (s : Slot) : Prop :=
  s.pos % 8 = 0 ∧ s.bits % 8 = 0 ∧ 0 ≤ s.pos ∧ s.pos + s.bits ≤ 8 * bytes.length

/-- A C program for a target with the byte order finds the value in the leaf of the struct laid over the data. -/
inductive Finds (en : Endian) (bytes : List UInt8) (s : Slot) (v : Leaf) : Prop
  | unsigned {ct} {w : Nat} : InData bytes s → s.type = [ct] → StdUInt w ct → s.bits = w →
      leafNum v = .int (readUnsigned en (slotBytes bytes s)) → Finds en bytes s v
  | signed {ct} {w : Nat} : InData bytes s → s.type = [ct] → (StdSInt w ct ∨ ct = "int".toList ∧ w = 32) →
      s.bits = w → leafNum v = .int (readSigned en (slotBytes bytes s)) → Finds en bytes s v
  | single : InData bytes s → s.type = ["float".toList] → s.bits = 32 → RealBlock 8 23 en v (slotBytes bytes s) →
      Finds en bytes s v
  | double : InData bytes s → s.type = ["double".toList] → s.bits = 64 → RealBlock 11 52 en v (slotBytes bytes s) →
      Finds en bytes s v

/-- The leaf is an INTEGER or REAL, possibly under a name. -/
def NumberLeaf (ds : List Def) (m : Member) : Prop :=
  (∃ lo hi, Elementary ds m.type (intType lo hi)) ∨
  (m.type.name = "REAL" ∨ m.type.name = "Float" ∨ m.type.name = "Double") ∧
    ∃ lo hi, Elementary ds m.type (realType lo hi)

end Apg.Spec
