import Verif.Model.Builder
import Verif.Model.Struct
import Verif.Model.Text

/-!
# Reading ASN.1 text: `asn1/grammar.py` as textX and Arpeggio run it, and `asn1/parser.py`

textX turns each rule of the grammar into a parsing expression. A function here takes the
text that is left and gives the result with the text left after it, or `none` for "no
match". A sequence that fails starts again where it began, the first alternative that
matches is taken, and repetitions take as many items as match. Outside of the rules marked
`noskipws` white space is skipped before every literal and regular expression. The marker
also holds for the rules used inside a rule that has it.
-/

namespace Apg.Parse

/-- The white space Arpeggio skips (`DEFAULT_WS`). -/
def isWs (c : Char) : Bool := c == ' ' || c == '\t' || c == '\n' || c == '\r'

/-- Skipping of white space before a literal or a regular expression. -/
def skipWs (t : Text) : Text := t.dropWhile isWs

/-- A literal in a rule with `noskipws`. -/
def lit : Text → Text → Option Text
  | [], t => some t
  | c :: cs, d :: t => if c = d then lit cs t else none
  | _ :: _, [] => none

/-- A literal. -/
def tok (s t : Text) : Option Text := lit s (skipWs t)

/-! ### Regular expressions -/

/-- First code points of the blocks of ten decimal digits that Python's `\d` matches
(Unicode 14, category `Nd`). -/
def digitStarts : List Nat :=
  [48, 1632, 1776, 1984, 2406, 2534, 2662, 2790, 2918, 3046, 3174, 3302, 3430, 3558, 3664,
   3792, 3872, 4160, 4240, 6112, 6160, 6470, 6608, 6784, 6800, 6992, 7088, 7232, 7248, 42528,
   43216, 43264, 43472, 43504, 43600, 44016, 65296, 66720, 68912, 69734, 69872, 69942, 70096,
   70384, 70736, 70864, 71248, 71360, 71472, 71904, 72016, 72784, 73040, 73120, 92768, 92864,
   93008, 120782, 120792, 120802, 120812, 120822, 123200, 123632, 125264, 130032]

/-- `\d`, with the value of the digit. -/
def uniDigit (c : Char) : Option Nat :=
  (digitStarts.find? fun s => s ≤ c.toNat && c.toNat < s + 10).map fun s => c.toNat - s

/-- `[a-z\d]` -/
def isNameChar (c : Char) : Bool := ('a' ≤ c && c ≤ 'z') || (uniDigit c).isSome

/-- `[a-z\d]*(-[a-z\d]+)*`: what it matches and what is left. -/
def nameRest : Text → Text × Text
  | [] => ([], [])
  | [c] => if isNameChar c then ([c], []) else ([], [c])
  | c :: d :: t =>
    if isNameChar c then
      let r := nameRest (d :: t)
      (c :: r.1, r.2)
    else if c = '-' && isNameChar d then
      let r := nameRest t
      (c :: d :: r.1, r.2)
    else ([], c :: d :: t)

/-- `NameLower` (`grammar.py:27-29`) in a rule with `noskipws`. -/
def nameLower : Text → Option (String × Text)
  | [] => none
  | c :: t =>
    if 'a' ≤ c && c ≤ 'z' then
      let r := nameRest t
      some (String.ofList (c :: r.1), r.2)
    else none

/-- `NameCapital` (`grammar.py:31-33`) in a rule with `noskipws`. -/
def nameCapital : Text → Option (String × Text)
  | [] => none
  | c :: t =>
    if 'A' ≤ c && c ≤ 'Z' then
      let r := nameRest t
      some (String.ofList (c :: r.1), r.2)
    else none

/-- An optional sign of a number: is it a minus. -/
def sign : Text → Bool × Text
  | '-' :: t => (true, t)
  | '+' :: t => (false, t)
  | t => (false, t)

/-- A run of digits `d`: their values and what is left. -/
def digitRun (d : Char → Option Nat) : Text → List Nat × Text
  | [] => ([], [])
  | c :: t =>
    match d c with
    | some v => let r := digitRun d t; (v :: r.1, r.2)
    | none => ([], c :: t)

/-- `[0-9]` -/
def asciiDigit (c : Char) : Option Nat :=
  if '0' ≤ c && c ≤ '9' then some (c.toNat - '0'.toNat) else none

/-- The number written by decimal digits. -/
def ofDigits (ds : List Nat) : Nat := ds.foldl (fun n d => n * 10 + d) 0

/-- textX `INT`: `[-+]?[0-9]+\b`. The test for the end of the word is left out: in the
grammar every number is followed by a literal that is not a letter, digit or `_`. The limit
of CPython on the number of digits is left out as well. -/
def intLit (t : Text) : Option (Int × Text) :=
  let s := sign t
  let r := digitRun asciiDigit s.2
  if r.1 = [] then none
  else
    let n : Int := (ofDigits r.1 : Nat)
    some (if s.1 then -n else n, r.2)

/-- `[eE][+-]?\d+` -/
def exponent : Text → Option (Int × Text)
  | [] => none
  | c :: t =>
    if c = 'e' || c = 'E' then
      let s := sign t
      let r := digitRun uniDigit s.2
      if r.1 = [] then none
      else
        let n : Int := (ofDigits r.1 : Nat)
        some (if s.1 then -n else n, r.2)
    else none

/-- Python `float` of the decimal `± m * 10 ^ e`: the nearest double. -/
def decimalFloat (neg : Bool) (m : Nat) (e : Int) : Num :=
  let b := binary64.encode (m * 10 ^ e.toNat) (10 ^ (-e).toNat)
  if binary64.infBits ≤ b then .inf neg
  else
    let u : Rat := (binary64.units b : Nat)
    let q := u / ((2 ^ binary64.minExp : Nat) : Rat)
    .flt (if neg then -q else q)

/-- An optional exponent; without one it is 0. -/
def exponentOpt (t : Text) : Int × Text := (exponent t).getD (0, t)

/-- textX `STRICTFLOAT`:
`[+-]?(\d+\.\d*([eE][+-]?\d+)?|\.\d+([eE][+-]?\d+)?|\d+[eE][+-]?\d+)(?<=[\w\.])(?![\w\.])`.
The last test is left out, because a literal that starts with `)` or a blank follows. -/
def floatLit (t : Text) : Option (Num × Text) :=
  let s := sign t
  let r := digitRun uniDigit s.2
  match r.2 with
  | '.' :: u =>
    let f := digitRun uniDigit u
    if r.1 = [] && f.1 = [] then none
    else
      let e := exponentOpt f.2
      some (decimalFloat s.1 (ofDigits (r.1 ++ f.1)) (e.1 - f.1.length), e.2)
  | u =>
    if r.1 = [] then none
    else (exponent u).map fun e => (decimalFloat s.1 (ofDigits r.1) e.1, e.2)

/-! ### Comments -/

/-- The character class of the unit (`grammar.py:22`). -/
def isUnitChar (c : Char) : Bool :=
  c == '%' || ('A' ≤ c && c ≤ 'Z') || ('a' ≤ c && c ≤ 'z') || (uniDigit c).isSome ||
  c == '/' || c == '^'

/-- The character class of the comment text (`grammar.py:24`). It contains the range from
blank to `_`. -/
def isCommentChar (c : Char) : Bool := (' ' ≤ c && c ≤ '_') || ('a' ≤ c && c ≤ 'z')

/-- `(' ')*` -/
def blanks (t : Text) : Text := t.dropWhile (· == ' ')

/-- `('[' unit=/…/ ']')?` (`grammar.py:22`). -/
def unitOpt (t : Text) : Text × Text :=
  ((lit ['['] t).bind fun u =>
    let r := u.takeWhile isUnitChar
    if r = [] then none else (lit [']'] (u.dropWhile isUnitChar)).map fun v => (r, v)).getD ([], t)

/-- `(comment=/…+$/)?` (`grammar.py:24`): the longest run of the class, if it ends at the end
of a line (Arpeggio compiles with `re.MULTILINE`) or of the text. -/
def commentText (t : Text) : Text × Text :=
  match t.dropWhile isCommentChar with
  | [] => (t, [])
  | c :: u => if c = '\n' then (t.takeWhile isCommentChar, c :: u) else ([], t)

/-- `Asn1Comment` (`grammar.py:16-25`). -/
def commentRule (t : Text) : Option (Comment × Text) :=
  (lit "--".toList (blanks t)).map fun t =>
    let t := blanks t
    let l := lit "ENDIANNESS(LITTLE)".toList t
    let u := unitOpt (blanks (l.getD t))
    let c := commentText (blanks u.2)
    (⟨String.ofList c.1, String.ofList u.1, l.isSome⟩, c.2)

/-- `(comment=Asn1Comment)?` -/
def commentOpt (t : Text) : Option Comment × Text :=
  match commentRule t with
  | some r => (some r.1, r.2)
  | none => (none, t)

/-! ### Types -/

/-- `('(' begin=INT '..' end=INT ')')?` (`grammar.py:56`), all in a rule with `noskipws`. -/
def intRange (t : Text) : Option ((Int × Int) × Text) := do
  let t ← lit ['('] t
  let b ← intLit t
  let t ← lit "..".toList b.2
  let e ← intLit t
  let t ← lit [')'] e.2
  pure ((b.1, e.1), t)

/-- `('(' begin=STRICTFLOAT ' .. ' end=STRICTFLOAT ')')?` (`grammar.py:55`). -/
def floatRange (t : Text) : Option ((Num × Num) × Text) := do
  let t ← lit ['('] t
  let b ← floatLit t
  let t ← lit " .. ".toList b.2
  let e ← floatLit t
  let t ← lit [')'] e.2
  pure ((b.1, e.1), t)

/-- `' ' type_name='REAL' (…)?` -/
def realType (t : Text) : Option (AType × Text) :=
  (lit " REAL".toList t).map fun t =>
    match floatRange t with
    | some r => (.plain "REAL" (some r.1.1) (some r.1.2), r.2)
    | none => (.plain "REAL" none none, t)

/-- `' ' type_name='INTEGER' (…)?` -/
def integerType (t : Text) : Option (AType × Text) :=
  (lit " INTEGER".toList t).map fun t =>
    match intRange t with
    | some r => (.plain "INTEGER" (some (.int r.1.1)) (some (.int r.1.2)), r.2)
    | none => (.plain "INTEGER" none none, t)

/-- `' ' type_name='NULL'` and `' ' type_name='BOOLEAN'` -/
def keywordType (k : String) (t : Text) : Option (AType × Text) :=
  (lit (' ' :: k.toList) t).map fun t => (.plain k none none, t)

/-- `' ' type_name=Asn1String` (`grammar.py:138-141`) for one of the two names. -/
def stringType (k : String) (t : Text) : Option (AType × Text) := do
  let t ← lit (' ' :: k.toList) t
  let t ← lit " (SIZE (".toList t
  let n ← intLit t
  let t ← lit "))".toList n.2
  pure (.str k n.1, t)

/-- `' ' type_name=Array` (`grammar.py:133-135`), given the parser of types. -/
def arrayType (type : Text → Option (AType × Text)) (t : Text) : Option (AType × Text) := do
  let t ← lit " SEQUENCE (SIZE (".toList t
  let n ← intLit t
  let t ← lit ")) OF".toList n.2
  let e ← type t
  pure (.arr e.1 n.1, e.2)

/-- `' ' type_name=NameCapital` -/
def namedType (t : Text) : Option (AType × Text) := do
  let t ← lit [' '] t
  let n ← nameCapital t
  pure (.plain n.1 none none, n.2)

/-- `Asn1Type` (`grammar.py:54-62`). The fuel bounds the nesting of arrays; every level
takes a character, so the length of the text is enough. Python's recursion limit is not
modelled. -/
def typeRule : Nat → Text → Option (AType × Text)
  | 0, _ => none
  | fuel + 1, t =>
    (realType t).or <| (integerType t).or <| (keywordType "NULL" t).or <|
    (keywordType "BOOLEAN" t).or <| (stringType "IA5String" t).or <|
    (stringType "NumericString" t).or <| (arrayType (typeRule fuel) t).or <| namedType t

/-- `Asn1Type` with enough fuel. -/
def typeOf (t : Text) : Option (AType × Text) := typeRule (t.length + 1) t

/-! ### Repetitions -/

/-- `p*`; the fuel is the number of items at most, of which every one takes a character. -/
def many {α : Type} (p : Text → Option (α × Text)) : Nat → Text → List α × Text
  | 0, t => ([], t)
  | fuel + 1, t =>
    match p t with
    | none => ([], t)
    | some r => let s := many p fuel r.2; (r.1 :: s.1, s.2)

/-- `p*` with enough fuel. -/
def star {α : Type} (p : Text → Option (α × Text)) (t : Text) : List α × Text :=
  many p t.length t

/-- `(x=A)* x=B`, the shape of all lists with a comma after every item but the last. -/
def items {α : Type} (p q : Text → Option (α × Text)) (t : Text) : Option (List α × Text) := do
  let l := star p t
  let r ← q l.2
  pure (l.1 ++ [r.1], r.2)

/-! ### WITH COMPONENTS -/

/-- A comment that is in no node of the tree but is still checked by `check_comment`, with
whether its parent has a key. -/
abbrev SideComment := Bool × Comment

/-- Comments of a parent. -/
def sides (parentHasKey : Bool) (c : Option Comment) : List SideComment :=
  c.toList.map fun c => (parentHasKey, c)

/-- The value of a component: a fixed value or an inner clause. -/
abbrev CompValue := Leaf ⊕ Comps

/-- One component (`grammar.py:95-113`): key, value, and the comments that are read. -/
structure CompItem where
  key : String
  value : CompValue
  side : List SideComment

/-- The components as a clause. -/
def toComps : List CompItem → Comps
  | [] => .nil
  | ⟨k, .inl v, _⟩ :: l => .leaf k v (toComps l)
  | ⟨k, .inr c, _⟩ :: l => .node k c (toComps l)

/-- `'(' value=… ')'` -/
def inParens {α : Type} (p : Text → Option (α × Text)) (t : Text) : Option (α × Text) := do
  let t ← tok ['('] t
  let v ← p (skipWs t)
  let t ← tok [')'] v.2
  pure (v.1, t)

/-- A literal as a value; `str_to_bool` (`processor.py:158-164`) makes it a boolean. -/
def boolLit (k : Text) (b : Bool) (t : Text) : Option (Leaf × Text) :=
  (lit k t).map fun t => (.bool b, t)

/-- The five alternatives for the value of a component (`grammar.py:96-102,106-112`). -/
def compValue (clause : Text → Option ((Comps × List SideComment) × Text)) (t : Text) :
    Option ((CompValue × List SideComment) × Text) :=
  ((inParens (fun t => (intLit t).map fun r => (Leaf.int r.1, r.2)) t).or <|
    (inParens (fun t => (floatLit t).map fun r => (Leaf.flt r.1, r.2)) t).or <|
    (inParens (boolLit "TRUE".toList true) t).or <|
    (inParens (boolLit "FALSE".toList false) t)).map (fun r => ((.inl r.1, []), r.2))
  |>.or <| (clause t).map fun r => ((.inr r.1.1, r.1.2), r.2)

/-- `ComponentsItemNotLast` (`grammar.py:95-103`). -/
def compItemNotLast (clause : Text → Option ((Comps × List SideComment) × Text)) (t : Text) :
    Option (CompItem × Text) := do
  let k ← nameLower (skipWs t)
  let v ← compValue clause k.2
  let t ← tok [','] v.2
  let c := commentOpt t
  pure (⟨k.1, v.1.1, v.1.2 ++ sides true c.1⟩, c.2)

/-- `ComponentsItemLast` (`grammar.py:105-113`). -/
def compItemLast (clause : Text → Option ((Comps × List SideComment) × Text)) (t : Text) :
    Option (CompItem × Text) := do
  let k ← nameLower (skipWs t)
  let v ← compValue clause k.2
  let c := commentOpt v.2
  pure (⟨k.1, v.1.1, v.1.2 ++ sides true c.1⟩, c.2)

/-- `WithComponents` (`grammar.py:88-93`). The fuel bounds the nesting of clauses. -/
def withComponents : Nat → Text → Option ((Comps × List SideComment) × Text)
  | 0, _ => none
  | fuel + 1, t => do
    let t ← tok "(WITH COMPONENTS {".toList t
    let c := commentOpt t
    let l ← items (compItemNotLast (withComponents fuel)) (compItemLast (withComponents fuel)) c.2
    let t ← tok "})".toList l.2
    pure ((toComps l.1, sides false c.1 ++ l.1.flatMap (·.side)), t)

/-- `WithComponents` with enough fuel. -/
def clauseOf (t : Text) : Option ((Comps × List SideComment) × Text) :=
  withComponents (t.length + 1) t

/-! ### Members -/

/-- A node together with comments below it that the tree does not keep. -/
abbrev WithSide (α : Type) := α × List SideComment

/-- `KeyTypePairNotLast` (`grammar.py:64-77`), first alternative. -/
def memberComma (t : Text) : Option (WithSide Member × Text) := do
  let k ← nameLower (skipWs t)
  let y ← typeOf k.2
  let t ← tok [','] y.2
  let c := commentOpt t
  pure ((⟨k.1, y.1, c.1, none⟩, []), c.2)

/-- `KeyTypePairNotLast` (`grammar.py:64-77`), second alternative. -/
def memberClauseComma (t : Text) : Option (WithSide Member × Text) := do
  let k ← nameLower (skipWs t)
  let y ← typeOf k.2
  let c := commentOpt y.2
  let w ← clauseOf c.2
  let t ← tok [','] w.2
  pure ((⟨k.1, y.1, c.1, some w.1.1⟩, w.1.2), t)

/-- `KeyTypePairNotLast` (`grammar.py:64-77`). -/
def memberNotLast (t : Text) : Option (WithSide Member × Text) :=
  (memberComma t).or (memberClauseComma t)

/-- `KeyTypePairLast` (`grammar.py:79-86`). -/
def memberLast (t : Text) : Option (WithSide Member × Text) := do
  let k ← nameLower (skipWs t)
  let y ← typeOf k.2
  let c := commentOpt y.2
  match clauseOf c.2 with
  | some w => pure ((⟨k.1, y.1, c.1, some w.1.1⟩, w.1.2), w.2)
  | none => pure ((⟨k.1, y.1, c.1, none⟩, []), c.2)

/-! ### Definitions -/

/-- `Choice` and `Sequence` (`grammar.py:115-127`): the part they share. -/
def memberBlock (open' : Text) (t : Text) :
    Option ((String × Option Comment × List (WithSide Member)) × Text) := do
  let n ← nameCapital (skipWs t)
  let t ← tok open' n.2
  let c := commentOpt t
  let l ← items memberNotLast memberLast c.2
  let t ← tok ['}'] l.2
  pure ((n.1, c.1, l.1), t)

/-- The comments of members that the tree does not keep. -/
def memberSides (l : List (WithSide Member)) : List SideComment := l.flatMap (·.2)

/-- `Choice` (`grammar.py:115-120`). -/
def choiceDef (t : Text) : Option (WithSide Def × Text) :=
  (memberBlock "::= CHOICE {".toList t).map fun r =>
    ((.choice r.1.1 r.1.2.1 (r.1.2.2.map (·.1)), memberSides r.1.2.2), r.2)

/-- `Sequence` (`grammar.py:122-127`). -/
def sequenceDef (t : Text) : Option (WithSide Def × Text) :=
  (memberBlock "::= SEQUENCE {".toList t).map fun r =>
    ((.seq r.1.1 r.1.2.1 (r.1.2.2.map (·.1)), memberSides r.1.2.2), r.2)

/-- `('(' pos=INT ')')?`; the attribute is 0 when it is not written. -/
def posOpt (t : Text) : Int × Text := (inParens intLit t).getD (0, t)

/-- `EnumeratedItemNotLast` (`grammar.py:46-48`). -/
def enumItemNotLast (t : Text) : Option (EnumItem × Text) := do
  let k ← nameLower (skipWs t)
  let p := posOpt k.2
  let t ← tok [','] p.2
  let c := commentOpt t
  pure (⟨k.1, p.1, c.1⟩, c.2)

/-- `EnumeratedItemLast` (`grammar.py:50-52`). -/
def enumItemLast (t : Text) : Option (EnumItem × Text) := do
  let k ← nameLower (skipWs t)
  let p := posOpt k.2
  let c := commentOpt p.2
  pure (⟨k.1, p.1, c.1⟩, c.2)

/-- `Enumerated` (`grammar.py:39-44`). -/
def enumeratedDef (t : Text) : Option (WithSide Def × Text) := do
  let n ← nameCapital (skipWs t)
  let t ← tok "::= ENUMERATED {".toList n.2
  let c := commentOpt t
  let l ← items enumItemNotLast enumItemLast c.2
  let t ← tok ['}'] l.2
  pure ((.enum n.1 c.1 l.1, []), t)

/-- `SimpleDefinition` (`grammar.py:129-131`). -/
def simpleDef (t : Text) : Option (WithSide Def × Text) := do
  let n ← nameCapital (skipWs t)
  let t ← tok "::=".toList n.2
  let y ← typeOf t
  let c := commentOpt y.2
  pure ((.simple n.1 c.1 y.1, []), c.2)

/-- `Definitions` (`grammar.py:35-37`). -/
def definition (t : Text) : Option (WithSide Def × Text) :=
  (choiceDef t).or <| (enumeratedDef t).or <| (sequenceDef t).or <| simpleDef t

/-! ### Modules -/

/-- `p+` -/
def plus {α : Type} (p : Text → Option (α × Text)) (t : Text) : Option (List α × Text) := do
  let r ← p t
  let l := star p r.2
  pure (r.1 :: l.1, l.2)

/-- `, NameCapital`; a comma that no name follows is given back. -/
def commaCapital (t : Text) : Option (String × Text) := do
  let t ← tok [','] t
  nameCapital (skipWs t)

/-- `ImportItem` (`grammar.py:10-14`). -/
def importItem (t : Text) : Option (WithSide ImportItem × Text) := do
  let n ← nameCapital (skipWs t)
  let l := star commaCapital n.2
  let t ← tok "FROM Module-".toList l.2
  let m ← nameLower (skipWs t)
  let c := commentOpt m.2
  pure ((⟨n.1 :: l.1, m.1⟩, sides false c.1), c.2)

/-- `('IMPORTS' import_items+=ImportItem ';' (comment_import=Asn1Comment)?)?`
(`grammar.py:5`). -/
def importClause (t : Text) : Option ((List (WithSide ImportItem) × Option Comment) × Text) := do
  let t ← tok "IMPORTS".toList t
  let l ← plus importItem t
  let t ← tok [';'] l.2
  let c := commentOpt t
  pure ((l.1, c.1), c.2)

/-- `Asn1Module` (`grammar.py:2-8`), then the end of the text. -/
def parseModule (t : Text) : Option (WithSide Module) := do
  let t ← tok "Module-".toList t
  let n ← nameLower (skipWs t)
  let t ← tok "DEFINITIONS AUTOMATIC TAGS ::= BEGIN".toList n.2
  let c := commentOpt t
  let i := (importClause c.2).getD (([], none), c.2)
  let l ← plus definition i.2
  let t ← tok "END".toList l.2
  if skipWs t = [] then
    pure (⟨n.1, c.1, i.1.2, i.1.1.map (·.1), l.1.map (·.1)⟩,
      i.1.1.flatMap (·.2) ++ l.1.flatMap (·.2))
  else none

end Apg.Parse

/-! ### `asn1/parser.py` -/

namespace Apg

open Parse

/-- `check_comment` on the comments that the tree does not keep. -/
def checkSides : List SideComment → Except Err Unit
  | [] => .ok ()
  | (k, c) :: l => checkComment k c >>= fun _ => checkSides l

/-- `parse_from_text` (`parser.py:92-105`): textX reads the text, then the processors run.
The order in which textX runs them only decides which of several errors is raised. -/
def readModule (t : Text) : Except Err Module :=
  match parseModule t with
  | none => .error .textxSyntax
  | some r => checkSides r.2 >>= fun _ => processModule r.1

/-- `parse_from_text_multimodule` (`parser.py:107-117`). -/
def readModules : List Text → Except Err (List Module)
  | [] => .ok []
  | t :: ts => readModule t >>= fun m => readModules ts >>= fun ms => .ok (m :: ms)

/-- `build_from_cfs_config`, `build_from_c_config`, `build_from_binary_config`
(`asn1_bundle_builder.py:50-59,75-98`) on the texts of the input files, which
`parse_from_files` (`parser.py:79-90`) reads. -/
def buildConfig (ts : List Text) (cfg : List String) : Except Err Bundle := do
  let ms ← readModules ts
  validateUniqueModuleNames ms cfg
  let b ← build ms
  validateBundle b
  checkMissingModules cfg b
  pure b

/-- `build_from_cosmos_config` and `build_from_texts`
(`asn1_bundle_builder.py:62-72,101-111`) on texts. -/
def buildTexts (ts : List Text) : Except Err Bundle := do
  let ms ← readModules ts
  let b ← build ms
  validateBundle b
  pure b

end Apg
