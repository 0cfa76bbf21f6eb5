import Verif.Model.Ast

/-!
# `asn1_parser/utils/size.py`
-/

namespace Apg

/-- `size.py:26-32` -/
inductive CType where
  | bool | uint | int | string | float | double
  deriving DecidableEq, Repr

/-- `FLOAT_MAX = 3.4e38` (`size.py:7`): the exact value of that double. -/
def floatMax : Rat := (339999999999999996123846586046231871488 : Int)
/-- `FLOAT_MIN = -3.4e38` (`size.py:6`). -/
def floatMin : Rat := (-339999999999999996123846586046231871488 : Int)
/-- `DOUBLE_MAX = sys.float_info.max` (`size.py:9`), i.e. `(2^53-1)*2^971`. -/
def doubleMax : Rat := (((2 ^ 53 - 1) * 2 ^ 971 : Int) : Rat)
/-- `DOUBLE_MIN = -sys.float_info.max` (`size.py:8`). -/
def doubleMin : Rat := ((-((2 ^ 53 - 1) * 2 ^ 971) : Int) : Rat)

/-- `ASN1_POSIX_RANGE` (`size.py:12-23`), as a dictionary look-up. -/
def posixRange : String → Option (Num × Num)
  | "Int8-t" => some (.int (-(2 ^ 7)), .int (2 ^ 7 - 1))
  | "Int16-t" => some (.int (-(2 ^ 15)), .int (2 ^ 15 - 1))
  | "Int32-t" => some (.int (-(2 ^ 31)), .int (2 ^ 31 - 1))
  | "Int64-t" => some (.int (-(2 ^ 63)), .int (2 ^ 63 - 1))
  | "Uint8-t" => some (.int 0, .int (2 ^ 8 - 1))
  | "Uint16-t" => some (.int 0, .int (2 ^ 16 - 1))
  | "Uint32-t" => some (.int 0, .int (2 ^ 32 - 1))
  | "Uint64-t" => some (.int 0, .int (2 ^ 64 - 1))
  | "Float" => some (.flt floatMin, .flt floatMax)
  | "Double" => some (.flt doubleMin, .flt doubleMax)
  | _ => none

/-- Python `int.bit_length()`: the number of bits of the absolute value. -/
def bitLength (n : Int) : Nat :=
  if n.natAbs = 0 then 0 else Nat.log2 n.natAbs + 1

/-- The chain of range tests for `A_INT` (`size.py:49-72`). -/
def intBits (b e : Int) : Except Err Int :=
  if b ≥ -(2 ^ 7) ∧ e ≤ 2 ^ 7 - 1 then .ok 8
  else if b ≥ -(2 ^ 15) ∧ e ≤ 2 ^ 15 - 1 then .ok 16
  else if b ≥ -(2 ^ 31) ∧ e ≤ 2 ^ 31 - 1 then .ok 32
  else if b ≥ -(2 ^ 63) ∧ e ≤ 2 ^ 63 - 1 then .ok 64
  else .error .valueError

/-- `get_bit_size` (`size.py:35-83`). The `assert isinstance(.., int)` lines are
`Err.assertion`; a bound that is `None` fails them too. -/
def getBitSize (c : CType) (lo hi : Option Num) : Except Err Int :=
  match c with
  | .bool => .ok 1
  | .uint =>
    match hi with
    | some (.int e) => .ok (bitLength e)
    | _ => .error .assertion
  | .int =>
    match lo, hi with
    | some (.int b), some (.int e) => intBits b e
    | _, _ => .error .assertion
  | .float => .ok 32
  | .double => .ok 64
  | .string =>
    match hi with
    | some (.int e) => .ok (e * 8)
    | _ => .error .assertion

/-- `bit_to_bytes` (`size.py:86-91`). `int(bits / 8)` goes through a float; it is
exact below 2^56 bits, which is taken for granted here. -/
def bitToBytes (bits : Int) : Except Err Int :=
  if bits % 8 ≠ 0 then .error .valueError else .ok (bits / 8)

end Apg
