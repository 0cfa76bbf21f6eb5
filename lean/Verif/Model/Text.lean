import Verif.Model.Ast

/-!
# Text primitives: Python number printing, `utils/string.py`, names of `c_printer.py`
-/

namespace Apg

/-- Text is a list of characters. -/
abbrev Text := List Char

/-- Digit characters of Python number printing, upper case as in format code `X`. -/
def digitChar (d : Nat) : Char :=
  match d with
  | 0 => '0' | 1 => '1' | 2 => '2' | 3 => '3' | 4 => '4' | 5 => '5' | 6 => '6' | 7 => '7'
  | 8 => '8' | 9 => '9' | 10 => 'A' | 11 => 'B' | 12 => 'C' | 13 => 'D' | 14 => 'E' | _ => 'F'

/-- Digits of a natural number in base `b`, most significant first. -/
def digits (b n : Nat) : Text :=
  if _h : n < b ∨ b < 2 then [digitChar n]
  else digits b (n / b) ++ [digitChar (n % b)]
termination_by n
decreasing_by
  have : b ≤ n ∧ 2 ≤ b := by omega
  exact Nat.div_lt_self (by omega) (by omega)

/-- Python `str(i)` of an `int`. -/
def intText (i : Int) : Text :=
  if i < 0 then '-' :: digits 10 i.natAbs else digits 10 i.natAbs

/-- Left padding with zeros to a width. -/
def padZero (w : Nat) (t : Text) : Text := List.replicate (w - t.length) '0' ++ t

/-- Python `f"{i:0wX}"`: the sign counts for the width and precedes the zeros. -/
def hexText (w : Nat) (i : Int) : Text :=
  if i < 0 then '-' :: padZero (w - 1) (digits 16 i.natAbs) else padZero w (digits 16 i.natAbs)

/-- Printing of Python objects that is not defined here: `repr` of floats and
`str` of a `WithComponents` object (which contains object addresses). Theorems
quantify over all such functions. -/
structure Printer where
  /-- `str(x)` of a `float` -/
  float : Num → Text
  /-- `str(w)` of a `WithComponents` object -/
  object : Comps → Text

/-- `str(x)` of a number. -/
def Printer.num (p : Printer) : Num → Text
  | .int i => intText i
  | x => p.float x

/-- `str(v)` of a fixed value. -/
def Printer.leaf (p : Printer) : Leaf → Text
  | .int i => intText i
  | .flt x => p.num x
  | .bool true => "True".toList
  | .bool false => "False".toList

/-- `lowerize` (`utils/string.py:1-2`). `str.lower` of one character; every name it
is applied to starts with an ASCII letter, for which `Char.toLower` agrees. -/
def lowerize : Text → Text
  | [] => []
  | c :: cs => c.toLower :: cs

/-- `str.upper` on names: ASCII letters are raised, digits of any script, `-` and `_`
are unchanged by Python too. -/
def upper (t : Text) : Text := t.map Char.toUpper

/-- `s.replace(a, b)` for single characters. -/
def replaceChar (a b : Char) (t : Text) : Text := t.map (fun c => if c = a then b else c)

/-- `CPrinter.asn1_to_c_style_naming` (`c_printer.py:50-55`) on text. -/
def cNameText (t : Text) : Text :=
  if t = "IA5String".toList ∨ t = "NumericString".toList then "char".toList
  else replaceChar '-' '_' t

/-- `CPrinter.asn1_to_c_style_naming` on a name. -/
def cName (s : String) : Text := cNameText s.toList

/-- `str.rstrip()` on text whose only white space is blanks: `str` of every `cgen`
object strips each generated line. -/
def rstrip (t : Text) : Text := (t.reverse.dropWhile (· = ' ')).reverse

/-- Python bitwise `|` on integers of any sign (infinite two's complement). -/
def intOr : Int → Int → Int
  | .ofNat m, .ofNat n => .ofNat (m ||| n)
  | .ofNat m, .negSucc n => .negSucc (n ^^^ (n &&& m))
  | .negSucc m, .ofNat n => .negSucc (m ^^^ (m &&& n))
  | .negSucc m, .negSucc n => .negSucc (m &&& n)

/-- `txt.split(",")` (`cli_arg_parser.py:5-7`). -/
def splitComma : Text → List Text
  | [] => [[]]
  | c :: cs =>
    match splitComma cs with
    | [] => [[c]]
    | t :: ts => if c = ',' then [] :: t :: ts else (c :: t) :: ts

end Apg
