import Verif.Model.Cfs
import Verif.Model.CGen
import Verif.Model.Binary
import Verif.Model.Cosmos

/-!
# `main.py` and the part of `cli/cli_arg_parser.py` after argparse
-/

namespace Apg

/-- The names given to an option whose value is a comma separated list
(`cli_arg_parser.py:5-7`). -/
def nameList (arg : Text) : List String := (splitComma arg).map String.ofList

/-- A parsed command line (`cli_arg_parser.py:10-153`); input paths are replaced by the
modules read from them. Option values are the strings of the command line. -/
inductive Args where
  | cosmos (asn1Module asn1Messages outputFileName outputDir : Text)
  | cfs (asn1Modules outputDir : Text)
  | c (asn1Modules outputDir : Text)
  | binary (asn1Modules outputDir : Text) (endianness : Option Endian)

/-- `main` (`main.py:35-83`) with the configuration objects of
`cli_arg_parser.py:156-272`. -/
def runMain (fuel : Nat) (p : Printer) (raw : List Module) : Args → Run
  | .cosmos m ms target out => runCosmos fuel p raw (String.ofList m) (nameList ms) target out
  | .cfs ms out => runCfs fuel p raw (nameList ms) out
  | .c ms out => runC fuel p raw (nameList ms) out
  | .binary ms out e => runBinary fuel e raw (nameList ms) out

end Apg
