import Verif.Spec.MsgId

/-!
# Specification of message ids by their bits
-/

namespace Apg.Spec

/-- Bit `i` of an integer, negative ones as infinite two's complement: integer division
rounds down. -/
def IntBit (x : Int) (i : Nat) : Prop := x / 2 ^ i % 2 = 1

/-- Position of the lowest bit of a header field in the first 16 bits of a packet. -/
inductive FieldAt : String → Nat → Prop
  | version : FieldAt "packet-version-number" 13
  | type : FieldAt "packet-type-is-cmd" 12
  | flag : FieldAt "sec-hdr-flag-is-present" 11
  | apid : FieldAt "application-process-identifier" 0

/-- The integer of a fixed value; TRUE is 1 and FALSE is 0. -/
inductive IntOf : Leaf → Int → Prop
  | int (i : Int) : IntOf (.int i) i
  | true : IntOf (.bool true) 1
  | false : IntOf (.bool false) 0

/-- A fixed value puts the integer `y` into the message id. -/
def Puts (kv : String × Leaf) (y : Int) : Prop := ∃ s x, FieldAt kv.1 s ∧ IntOf kv.2 x ∧ y = x * 2 ^ s

end Apg.Spec
