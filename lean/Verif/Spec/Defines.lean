import Verif.Model.Cfs
import Verif.Spec.Files
import Verif.Spec.Printer

/-!
# Specification of the macros of a cFS message id header
-/

namespace Apg.Spec

/-- What a WITH COMPONENTS clause fixes: a CCSDS primary header as a whole, or the value
of one member. -/
inductive Fixed where
  | header (c : Comps)
  | value (key : String) (v : Leaf)

/-- The fixed values of a clause in order; the clause of a member called `primary` counts
as one value. -/
def fixedOf : Comps → List Fixed
  | .nil => []
  | .leaf k v r => .value k v :: fixedOf r
  | .node k c r => (if k = "primary" then [.header c] else fixedOf c) ++ fixedOf r

/-- The fixed values of a member. -/
def fixedOfMember (m : Member) : List Fixed :=
  match m.comps with
  | none => []
  | some c => fixedOf c

/-- The fixed values of a definition, with its name. -/
def fixedOfDef : Def → List (String × Fixed)
  | .seq n _ ms => ms.flatMap fun m => (fixedOfMember m).map (Prod.mk n)
  | _ => []

/-- The macro for a fixed value of sequence `n`. -/
def macroName (n : String) : Fixed → List Char
  | .header _ => raise (ident n) ++ "_MID".toList
  | .value k _ => raise (ident n) ++ '_' :: raise (ident k)

/-- `t` is the text of a value. -/
def ValueText (p : Printer) : Leaf → List Char → Prop
  | .int i, t => readInt t = some i
  | .bool b, t => t = (if b then "true" else "false").toList
  | .flt (.int i), t => readInt t = some i
  | .flt x, t => t = p.float x

/-- `t` is the text of the value of a macro. -/
def FixedText (p : Printer) : Fixed → List Char → Prop
  | .header c, t => ∃ id h, msgId c = .ok id ∧ t = "0x".toList ++ h ∧
      (∀ n : Nat, id = n → readNat 16 h = some n) ∧ ∀ c ∈ h, c = '-' ∨ (digitVal c).isSome
  | .value _ v, t => ValueText p v t

/-- `line` is the `#define` line for a fixed value, possibly with an empty line. -/
def DefineLine (p : Printer) (x : String × Fixed) (line : List Char) : Prop :=
  ∃ t nl, line = "#define ".toList ++ macroName x.1 x.2 ++ " (".toList ++ t ++ ')' :: nl ∧
    FixedText p x.2 t ∧ (nl = ['\n'] ∨ nl = ['\n', '\n'])

/-- The lines of a text. -/
def linesOf : List Char → List (List Char)
  | [] => [[]]
  | c :: t =>
    if c = '\n' then [] :: linesOf t
    else match linesOf t with
      | [] => [[c]]
      | l :: ls => (c :: l) :: ls

/-- The macro defined with a value by a line, and its value. -/
def lineMacro (l : List Char) : Option (List Char × List Char) :=
  if "#define ".toList.isPrefixOf l then
    let r := l.drop 8
    let s := r.takeWhile (· ≠ ' ')
    if s.length < r.length then some (s, r.drop (s.length + 1)) else none
  else none

/-- The macros defined with a value in a text, and their values. -/
def definedMacros (t : List Char) : List (List Char × List Char) := (linesOf t).filterMap lineMacro

/-- The macros defined with a value in a file, and their values. -/
def macrosIn (fs : Files) (path : List Char) : List (List Char × List Char) :=
  match fs path with
  | none => []
  | some c => definedMacros (c.filterMap fun x => x.getLeft?)

/-- A macro for a fixed value. -/
def MacroOf (p : Printer) (x : String × Fixed) (y : List Char × List Char) : Prop :=
  y.1 = macroName x.1 x.2 ∧ ∃ t, y.2 = '(' :: t ++ [')'] ∧ FixedText p x.2 t

/-- Name of a fixed value within its sequence. -/
def Fixed.key : Fixed → String
  | .header _ => "mid"
  | .value k _ => k

end Apg.Spec
