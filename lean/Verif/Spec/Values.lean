import Verif.Spec.Binary
import Verif.Spec.CInit
import Verif.Spec.Cosmos

/-!
# Specification of the numbers that the outputs give to fixed members
-/

namespace Apg.Spec

/-- The values of a C initialiser, each with the names of the fields that lead to it. -/
def initLeaves : Init → List (List (List Char) × List Char)
  | .nil => []
  | .value n t r => ([n], t) :: initLeaves r
  | .group n i r => (initLeaves i).map (fun x => (n :: x.1, x.2)) ++ initLeaves r

/-- The fields lead from the sequence called `n` to the member. -/
inductive Leads (ds : List Def) : String → List (List Char) → Member → Prop
  | here {n ms m} : IsSequence ds n ms → m ∈ ms → Leads ds n [ident m.key] m
  | into {n ms m t r k} : IsSequence ds n ms → m ∈ ms → UsesName m.type t → Leads ds t r k →
      Leads ds n (ident m.key :: r) k

/-- The text of a number: an integer, or a float as Python prints it. -/
inductive NumText (p : Printer) : List Char → Num → Prop
  | int {t i} : readInt t = some i → NumText p t (.int i)
  | float {x} : isFloat x → NumText p (p.float x) x

/-- The words of a number in a COSMOS item: its text, or `0x` and hexadecimal digits. -/
inductive WordText (p : Printer) : List (List Char) → Num → Prop
  | num {t x} : NumText p t x → WordText p [t] x
  | hex {w} {n : Nat} : readNat 16 w = some n → WordText p ["0x".toList ++ w] (.int n)

/-- Read with the type of the member, the bytes are the number: exactly for an INTEGER, the nearest number of the
format for a REAL, which is exact for integers that are not too large. -/
def HoldsNumber (ds : List Def) (en : Endian) (m : Member) (blk : List UInt8) (x : Num) : Prop :=
  (∀ lo hi, Elementary ds m.type (.plain "INTEGER" (some (.int lo)) (some (.int hi))) →
    x = .int (if lo < 0 then readSigned en blk else readUnsigned en blk)) ∧
  ∀ lo hi, m.type.name = "REAL" ∨ m.type.name = "Float" ∨ m.type.name = "Double" →
    Elementary ds m.type (.plain "REAL" (some lo) (some hi)) →
    blk.length = 4 ∧ RealBlock 8 23 en (.flt x) blk ∨ blk.length = 8 ∧ RealBlock 11 52 en (.flt x) blk

/-- One of the variables has the type of the sequence `n`, and its initialiser sets the member `key` to `i`. -/
def InitialisedTo (vars : List (List Char)) (n key : String) (i : Init) : Prop :=
  ∃ body, ident n ++ ' ' :: lowerFirst (ident n) ++ " = {".toList ++ body ++ "};\n".toList ∈ vars ∧
    readInit body = some (.group (ident key) i .nil)

end Apg.Spec
