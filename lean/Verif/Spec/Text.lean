import Verif.Model.Ast

/-!
# Reading numbers
-/

namespace Apg.Spec

/-- Value of a digit `0`-`9`, `A`-`F`. -/
def digitVal (c : Char) : Option Nat :=
  if '0' ≤ c ∧ c ≤ '9' then some (c.toNat - '0'.toNat)
  else if 'A' ≤ c ∧ c ≤ 'F' then some (c.toNat - 'A'.toNat + 10)
  else none

/-- Continue reading digits in base `b`. -/
def readFrom (b : Nat) : Nat → List Char → Option Nat
  | n, [] => some n
  | n, c :: cs =>
    match digitVal c with
    | some d => if d < b then readFrom b (n * b + d) cs else none
    | none => none

/-- Read a non-empty sequence of digits in base `b`. -/
def readNat (b : Nat) (t : List Char) : Option Nat :=
  if t = [] then none else readFrom b 0 t

/-- Read a decimal number. A leading zero is refused: in C, it makes the number an octal one. -/
def readDec (t : List Char) : Option Nat :=
  if t.head? = some '0' ∧ t ≠ ['0'] then none else readNat 10 t

/-- Read a decimal integer. -/
def readInt : List Char → Option Int
  | '-' :: t => (readDec t).map (fun n : Nat => -(n : Int))
  | t => (readDec t).map (fun n : Nat => (n : Int))

end Apg.Spec
