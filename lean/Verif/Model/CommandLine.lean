import Verif.Model.Program

/-!
# `cli/cli_arg_parser.py` with argparse: from the words of the command line to a run

`cli_arg_parser.py:5-153` and `main.py:35-83`. argparse is modelled by what `parse_args` of the standard library
does on the options declared there: classification of words (`_parse_optional`, `_get_option_tuples`), consumption
of options and of the one group of positional arguments (`consume_optional`, `consume_positionals`), checks of
choices and required arguments. Whenever argparse ends the program itself, with a usage error or the help text, the
model gives `none`.
-/

namespace Apg

/-- What argparse takes a word for (`ArgumentParser._parse_optional`). -/
inductive Word where
  | argument
  | option (name : Text) (value : Option Text)
  | exit
  deriving DecidableEq

/-- `-\d+` or `-\d*\.\d+` (`ArgumentParser._negative_number_matcher`). -/
def negativeNumber : Text → Bool
  | '-' :: t =>
    (t ≠ [] && t.all (fun c => (Parse.uniDigit c).isSome)) ||
      (match t.dropWhile (fun c => (Parse.uniDigit c).isSome) with
        | '.' :: r => r ≠ [] && r.all (fun c => (Parse.uniDigit c).isSome)
        | _ => false)
  | _ => false

/-- The word before and after the first `=`. -/
def splitEq (t : Text) : Text × Option Text :=
  match t.dropWhile (· ≠ '=') with
  | [] => (t, none)
  | _ :: v => (t.takeWhile (· ≠ '='), some v)

/-- `_parse_optional` and `_get_option_tuples` for a parser with the options `-h`, `--help` and those in `names`. -/
def wordKind (names : List Text) (t : Text) : Word :=
  if t.head? ≠ some '-' ∨ t = ['-'] then .argument
  else if names.contains t then .option t none
  else
    let s := splitEq t
    if s.2 ≠ none ∧ names.contains s.1 then .option s.1 s.2
    else if "-h".toList.isPrefixOf t then .exit
    else
      match (if "--".toList.isPrefixOf t then ("--help".toList :: names).filter (s.1.isPrefixOf ·) else []) with
      | [n] => if n = "--help".toList then .exit else .option n s.2
      | _ :: _ :: _ => .exit
      | [] => if negativeNumber t || t.contains ' ' then .argument else .exit

/-- `_parse_known_args` for options with one value and one positional argument of one or more words: the words of
the positional argument and the values of the options in order. The words after `--` are positional. A second group
of positional arguments and unknown options are left over, which `parse_args` refuses. -/
def scan (names : List Text) : List Text → List Text → List (Text × Text) → Bool → Option (List Text × List (Text × Text))
  | [], ps, vs, _ => if ps = [] then none else some (ps, vs)
  | w :: ws, ps, vs, closed =>
    if w = "--".toList then
      if closed || (ps ++ ws).isEmpty then none else some (ps ++ ws, vs)
    else
      match wordKind names w with
      | .argument => if closed then none else scan names ws (ps ++ [w]) vs false
      | .option n (some v) => scan names ws ps (vs ++ [(n, v)]) (!ps.isEmpty)
      | .option n none =>
        match ws with
        | v :: ws' =>
          if v ≠ "--".toList ∧ wordKind names v = .argument then scan names ws' ps (vs ++ [(n, v)]) (!ps.isEmpty)
          else none
        | [] => none
      | .exit => none

/-- The value of an option after all of `vs` are stored: that of its last occurrence. -/
def stored (vs : List (Text × Text)) (n : Text) : Option Text :=
  (vs.reverse.find? (fun x => x.1 == n)).map (·.2)

/-- Options of generate-cosmos (`cli_arg_parser.py:20-59`). -/
def cosmosNames : List Text :=
  ["--asn1-module".toList, "--asn1-messages".toList, "--output-file-name".toList, "--output-dir".toList]

/-- Options of generate-cfs and generate-c (`cli_arg_parser.py:62-115`). -/
def cNames : List Text := ["--asn1-modules".toList, "--output-dir".toList]

/-- Options of generate-binary (`cli_arg_parser.py:118-151`). -/
def binaryNames : List Text := ["--asn1-modules".toList, "--output-dir".toList, "--endianness".toList]

/-- `choices` of `--endianness` (`cli_arg_parser.py:145-149`). -/
def endianOf (v : Text) : Option Endian :=
  if v = "little-endian".toList then some .little
  else if v = "big-endian".toList then some .big
  else none

/-- The parsed command line: input paths and the rest (`cli_arg_parser.py:10-153`). -/
def parseArgs : List Text → Option (List Text × Args)
  | [] => none
  | cmd :: ws =>
    if cmd = "generate-cosmos".toList then do
      let (ps, vs) ← scan cosmosNames ws [] [] false
      let m ← stored vs "--asn1-module".toList
      let ms ← stored vs "--asn1-messages".toList
      let target ← stored vs "--output-file-name".toList
      some (ps, .cosmos m ms target ((stored vs "--output-dir".toList).getD "output/cosmos".toList))
    else if cmd = "generate-cfs".toList then do
      let (ps, vs) ← scan cNames ws [] [] false
      let ms ← stored vs "--asn1-modules".toList
      some (ps, .cfs ms ((stored vs "--output-dir".toList).getD "output/cfs".toList))
    else if cmd = "generate-c".toList then do
      let (ps, vs) ← scan cNames ws [] [] false
      let ms ← stored vs "--asn1-modules".toList
      some (ps, .c ms ((stored vs "--output-dir".toList).getD "output/c".toList))
    else if cmd = "generate-binary".toList then do
      let (ps, vs) ← scan binaryNames ws [] [] false
      let ms ← stored vs "--asn1-modules".toList
      if (vs.filter (fun x => x.1 == "--endianness".toList)).all (fun x => (endianOf x.2).isSome) then
        some (ps, .binary ms ((stored vs "--output-dir".toList).getD "output/binary".toList)
          ((stored vs "--endianness".toList).bind endianOf))
      else none
    else none

/-- Text of a file (`open(path, "r", encoding="utf8")`, `parser.py:87`). Bytes of files written in binary mode are
not decoded: such a file is treated like a missing one, which is an error as well. -/
def textOf (c : Content) : Option Text :=
  c.mapM fun
    | .inl ch => some ch
    | .inr _ => none

/-- The program as called from a shell, in a directory with the files `fs`. `none` if argparse ends it. -/
def commandLine (fuel : Nat) (p : Printer) (fs : Files) (argv : List Text) : Option Run :=
  (parseArgs argv).map fun a => program fuel p (a.1.map fun path => (fs path).bind textOf) a.2

end Apg
