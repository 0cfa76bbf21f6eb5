import Verif.Model.Main
import Verif.Model.Parser

/-!
# The whole program: from the texts of the input files to the files it writes

`parser.py:79-117` and `main.py:35-83`.
-/

namespace Apg

/-- A file opened in text mode: `\r\n` and `\r` are read as `\n` (universal newlines of
Python's `open`). Decoding UTF-8 is not modelled, files hold characters. -/
def universalNewlines : Text → Text
  | '\r' :: '\n' :: t => '\n' :: universalNewlines t
  | c :: t => (if c = '\r' then '\n' else c) :: universalNewlines t
  | [] => []

/-- `parse_from_files` (`parser.py:79-90`) up to the call of the parser; a path that does not
exist is given as `none`. -/
def readFiles : List (Option Text) → Except Err (List Text)
  | [] => .ok []
  | none :: _ => .error .assertion
  | some t :: fs => readFiles fs >>= fun ts => .ok (universalNewlines t :: ts)

/-- A run after the bundle is built. -/
def runBuilt (r : Except Err Bundle) (gen : Bundle → Run) : Run :=
  match r with
  | .error e => ⟨[], .error e⟩
  | .ok b => gen b

/-- `main` (`main.py:35-83`) with the configuration objects of
`cli_arg_parser.py:156-272`; `files` are the contents of the input files. -/
def program (fuel : Nat) (p : Printer) (files : List (Option Text)) : Args → Run
  | .cosmos m ms target out =>
    runBuilt (readFiles files >>= buildTexts)
      (fun b => generateCosmos fuel p b (String.ofList m) (nameList ms) target out)
  | .cfs ms out =>
    runBuilt (readFiles files >>= fun ts => buildConfig ts (nameList ms))
      (fun b => generate fuel (cfsBackend p out b) out b)
  | .c ms out =>
    runBuilt (readFiles files >>= fun ts => buildConfig ts (nameList ms))
      (fun b => generate fuel (cBackend p out b) out b)
  | .binary ms out e =>
    runBuilt (readFiles files >>= fun ts => buildConfig ts (nameList ms))
      (fun b => generate fuel (binBackend fuel e out b) out b)

end Apg
