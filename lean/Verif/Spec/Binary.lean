import Verif.Spec.Header
import Verif.Spec.Sizes
import Verif.Spec.Bundle
import Verif.Spec.CInit
import Verif.Model.Struct

/-!
# Specification of the binary files of generate-binary
-/

namespace Apg.Spec

/-! ### Reading bytes -/

/-- The number written by bytes, most significant first. -/
def readBE (bs : List UInt8) : Nat := bs.foldl (fun a b => a * 256 + b.toNat) 0

/-- The number written by bytes in either order. -/
def readBytes : Endian → List UInt8 → Nat
  | .big, bs => readBE bs
  | .little, bs => readBE bs.reverse

/-- The bytes as an unsigned number. -/
def readUnsigned (e : Endian) (bs : List UInt8) : Int := readBytes e bs

/-- The bytes as a two's complement number. -/
def readSigned (e : Endian) (bs : List UInt8) : Int :=
  let n : Int := readBytes e bs
  if 2 * n < 2 ^ (8 * bs.length) then n else n - 2 ^ (8 * bs.length)

/-- Read fields one after the other, given for each whether it is signed and its length in
bytes; nothing may be left over. -/
def readInts (e : Endian) : List (Bool × Nat) → List UInt8 → Option (List Int)
  | [], [] => some []
  | [], _ => none
  | (signed, len) :: rest, bs =>
    if bs.length < len then none
    else (readInts e rest (bs.drop len)).map fun r =>
      (if signed then readSigned e (bs.take len) else readUnsigned e (bs.take len)) :: r

/-- IEEE 754: the number with the given bits in the format with `eb` exponent bits and `fb`
fraction bits. Infinities and NaNs have no value. -/
def ieee (eb fb : Nat) (n : Nat) : Option Rat :=
  let negative := n / 2 ^ (eb + fb) % 2 = 1
  let exp := n / 2 ^ fb % 2 ^ eb
  let frac := n % 2 ^ fb
  let bias := 2 ^ (eb - 1) - 1
  let magnitude : Rat :=
    if exp = 0 then (frac : Rat) / (2 ^ (bias + fb - 1) : Nat)
    else (((2 ^ fb + frac) * 2 ^ (exp - 1) : Nat) : Rat) / (2 ^ (bias + fb - 1) : Nat)
  if exp = 2 ^ eb - 1 then none else some (if negative then -magnitude else magnitude)

/-- Distance of two numbers. -/
def dist (x y : Rat) : Rat := if x ≤ y then y - x else x - y

/-- `n` are the bits of a number nearest to `x`; of two nearest numbers the one with even
bits. -/
def Nearest (eb fb : Nat) (x : Rat) (n : Nat) : Prop :=
  n < 2 ^ (1 + eb + fb) ∧
  ∃ y, ieee eb fb n = some y ∧ ∀ k z, ieee eb fb k = some z →
    dist x y ≤ dist x z ∧ (dist x y = dist x z → z = y ∨ n % 2 = 0)

/-! ### Clauses -/

/-- The clause on the sequence called `n` fixes the members to the values, in this order. -/
inductive Fixes (ds : List Def) : String → Comps → List (Member × Leaf) → Prop
  | nil {n} : Fixes ds n .nil []
  | leaf {n ms m v rest l} : IsSequence ds n ms → m ∈ ms → Fixes ds n rest l →
      Fixes ds n (.leaf m.key v rest) ((m, v) :: l)
  | node {n ms m t inner rest l l'} : IsSequence ds n ms → m ∈ ms → UsesName m.type t →
      Fixes ds t inner l → Fixes ds n rest l' →
      Fixes ds n (.node m.key inner rest) (l ++ l')

/-- `t'` is the built-in type behind `t`: `t` itself, or what its name is defined to be. -/
inductive Elementary (ds : List Def) : AType → AType → Prop
  | direct {n lo hi} : (∀ d ∈ ds, d.name ≠ n) → Elementary ds (.plain n lo hi) (.plain n lo hi)
  | named {n c lo hi n' lo' hi'} : Def.simple n c (.plain n' lo' hi') ∈ ds →
      Elementary ds (.plain n lo hi) (.plain n' lo' hi')

/-- The members with a WITH COMPONENTS clause and their clauses. -/
def fixedMembers : Def → List (Member × Comps)
  | .seq _ _ ms => ms.filterMap fun m => m.comps.map fun c => (m, c)
  | _ => []

/-- Path of the binary file of a sequence. -/
def binPath (out : List Char) (d : Def) : List Char :=
  inDir out (lowerFirst (ident d.name) ++ ".bin".toList)

/-- The file holds the bytes. -/
def HasBytes (fs : Files) (path : List Char) (bs : List UInt8) : Prop :=
  fs path = some (bs.map .inr)

/-- A binary file. -/
def IsBin (path : List Char) : Prop := ∃ stem, path = stem ++ ".bin".toList

/-! ### Blocks -/

/-- The bytes of a real in the format with `eb` and `fb` bits: those of the nearest number;
integers of at most `fb + 1` bits and other integers that the format has are exact. -/
def RealBlock (eb fb : Nat) (en : Endian) (v : Leaf) (bs : List UInt8) : Prop :=
  (∀ q, v = .flt (.flt q) → Nearest eb fb q (readBytes en bs)) ∧
  (∀ i : Int, leafNum v = .int i → i.natAbs < 2 ^ (fb + 1) →
    ieee eb fb (readBytes en bs) = some (i : Rat)) ∧
  ∀ (i : Int) (k : Nat), leafNum v = .int i → ieee eb fb k = some (i : Rat) →
    ieee eb fb (readBytes en bs) = some (i : Rat)

/-- The bytes are one block per value fixed by the clause on the member, in their order. -/
def Blocks (ds : List Def) (x : Member × Comps) (P : Member × Leaf → List UInt8 → Prop)
    (bytes : List UInt8) : Prop :=
  ∃ fixed blocks, Fixes ds x.1.type.name x.2 fixed ∧ All2 P fixed blocks ∧ bytes = blocks.flatten

/-- The block is as long as the type of the member is wide. -/
def HasWidth (ds : List Def) (f : Member × Leaf) (block : List UInt8) : Prop :=
  ∀ w, Size ds (.members [f.1]) w → 8 * block.length = w

/-- Read with the INTEGER type of the member, the block is the value. -/
def ReadsAs (ds : List Def) (en : Endian) (f : Member × Leaf) (block : List UInt8) : Prop :=
  ∀ lo hi, Elementary ds f.1.type (.plain "INTEGER" (some (.int lo)) (some (.int hi))) →
    leafNum f.2 = .int (if lo < 0 then readSigned en block else readUnsigned en block)

/-- The member is an INTEGER of so many bytes, signed or not. -/
def IntField (ds : List Def) (m : Member) (signed : Bool) (len : Nat) : Prop :=
  ∃ lo hi, Elementary ds m.type (.plain "INTEGER" (some (.int lo)) (some (.int hi))) ∧
    LeafSize (.plain "INTEGER" (some (.int lo)) (some (.int hi))) (8 * len) ∧
    (signed = true ↔ lo < 0)

end Apg.Spec
