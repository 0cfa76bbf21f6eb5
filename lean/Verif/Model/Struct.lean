import Verif.Model.Size

/-!
# Python `struct.pack` for the formats used by the binary generator
-/

namespace Apg

/-- The `size` low bytes of a number, most significant first. -/
def bytesBE : Nat → Nat → List UInt8
  | 0, _ => []
  | size + 1, n => bytesBE size (n / 256) ++ [UInt8.ofNat (n % 256)]

/-- Number of bits of a natural number. -/
def natBits (n : Nat) : Nat := if n = 0 then 0 else Nat.log2 n + 1

/-- IEEE 754 binary format: precision in bits, exponent of the smallest positive
number (negated), number of exponent bits. -/
structure FloatFmt where
  prec : Nat
  minExp : Nat
  expBits : Nat

/-- binary32, format code `f`. -/
def binary32 : FloatFmt := ⟨24, 149, 8⟩
/-- binary64, format code `d` and Python's own `float`. -/
def binary64 : FloatFmt := ⟨53, 1074, 11⟩

/-- The bit pattern of infinity (without sign). -/
def FloatFmt.infBits (f : FloatFmt) : Nat := (2 ^ f.expBits - 1) * 2 ^ (f.prec - 1)

/-- `n / d` rounded to the nearest integer, ties to even. -/
def divRound (n d : Nat) : Nat :=
  let q := n / d
  let r := n % d
  if 2 * r < d then q else if d < 2 * r then q + 1 else q + q % 2

/-- Bit pattern (without sign) of the number nearest to `n / d`; patterns of at least
`infBits` stand for overflow. -/
def FloatFmt.encode (f : FloatFmt) (n d : Nat) : Nat :=
  let x := n * 2 ^ f.minExp
  let s := natBits (x / d) - f.prec
  s * 2 ^ (f.prec - 1) + divRound x (d * 2 ^ s)

/-- The value of a finite bit pattern (without sign), in units of the smallest
positive number. -/
def FloatFmt.units (f : FloatFmt) (b : Nat) : Nat :=
  let e := b / 2 ^ (f.prec - 1)
  let m := b % 2 ^ (f.prec - 1)
  if e = 0 then m else (2 ^ (f.prec - 1) + m) * 2 ^ (e - 1)

/-- Bits of the whole encoding: sign, then pattern. -/
def FloatFmt.withSign (f : FloatFmt) (neg : Bool) (b : Nat) : Nat :=
  if neg then 2 ^ (f.expBits + f.prec - 1) + b else b

/-- Packing of a finite rational or an infinity; a finite value that rounds to
infinity is an `OverflowError`. The sign of a zero is lost because `Num` has no
negative zero. -/
def FloatFmt.pack (f : FloatFmt) : Num → Except Err Nat
  | .inf neg => .ok (f.withSign neg f.infBits)
  | .flt q =>
    let b := f.encode q.num.natAbs q.den
    if f.infBits ≤ b then .error .overflow else .ok (f.withSign (q < 0) b)
  | .int i =>
    let b := f.encode i.natAbs 1
    if f.infBits ≤ b then .error .overflow else .ok (f.withSign (i < 0) b)

/-- `float(i)` as done for an `int` argument of `f` and `d`: the nearest double, or
`struct.error` when it is too large. -/
def intToDouble (i : Int) : Except Err Num :=
  let b := binary64.encode i.natAbs 1
  if binary64.infBits ≤ b then .error .structError
  else
    let u : Rat := (binary64.units b : Nat)
    let q := u / ((2 ^ binary64.minExp : Nat) : Rat)
    .ok (.flt (if i < 0 then -q else q))

/-- The integer a value denotes for an integer format; floats are refused. -/
def packInt : Leaf → Except Err Int
  | .int i => .ok i
  | .bool b => .ok (if b then 1 else 0)
  | .flt (.int i) => .ok i
  | .flt _ => .error .structError

/-- The float a value denotes for `f` and `d`. -/
def packFloat : Leaf → Except Err Num
  | .int i => intToDouble i
  | .bool b => intToDouble (if b then 1 else 0)
  | .flt (.int i) => intToDouble i
  | .flt x => .ok x

/-- `struct.pack(">" + FORMAT[c][size], v)` (`binary/generator.py:36-64,289-295`). -/
def packBE (c : CType) (size : Int) (v : Leaf) : Except Err (List UInt8) :=
  match c with
  | .uint =>
    if size = 1 ∨ size = 2 ∨ size = 4 ∨ size = 8 then
      packInt v >>= fun i =>
      if 0 ≤ i ∧ i < 2 ^ (8 * size.toNat) then .ok (bytesBE size.toNat i.toNat)
      else .error .structError
    else .error .keyError
  | .int =>
    if size = 1 ∨ size = 2 ∨ size = 4 ∨ size = 8 then
      packInt v >>= fun i =>
      if -(2 ^ (8 * size.toNat - 1)) ≤ i ∧ i < 2 ^ (8 * size.toNat - 1) then
        .ok (bytesBE size.toNat (i % 2 ^ (8 * size.toNat)).toNat)
      else .error .structError
    else .error .keyError
  | .float =>
    if size = 4 then
      packFloat v >>= fun x => binary32.pack x >>= fun b => .ok (bytesBE 4 b)
    else .error .keyError
  | .double =>
    if size = 8 then
      packFloat v >>= fun x => binary64.pack x >>= fun b => .ok (bytesBE 8 b)
    else .error .keyError
  | _ => .error .keyError

/-- The two byte orders (`binary/generator.py:35`). -/
inductive Endian where
  | big | little
  deriving DecidableEq, Repr

/-- `struct.pack` with a byte order: `<` reverses the bytes of `>`. A missing order
(`None`) is a `KeyError` (`binary/generator.py:291`), raised after the look-up of the
format and before packing. -/
def structPack (e : Option Endian) (c : CType) (size : Int) (v : Leaf) : Except Err (List UInt8) :=
  match e with
  | none => .error .keyError
  | some .big => packBE c size v
  | some .little => packBE c size v >>= fun b => .ok b.reverse

end Apg
