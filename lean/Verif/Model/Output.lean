import Verif.Model.CMap
import Verif.Model.Sorter

/-!
# `asn1_parser/c_printer.py` and the file system effects of a run
-/

namespace Apg

/-- What a file holds: characters written in text mode (UTF-8 encoding is not
modelled) or bytes written in binary mode. -/
abbrev Content := List (Char ⊕ UInt8)

/-- Content written in text mode. -/
def textContent (t : Text) : Content := t.map .inl

/-- Content written in binary mode. -/
def byteContent (bs : List (List UInt8)) : Content := bs.flatten.map .inr

/-- Effects on the file system: `mkdir(parents=True, exist_ok=True)`, a file opened
with mode `w`/`wb` and written, a file opened with mode `a` and written. Errors of
the operating system are not modelled. -/
inductive FileOp where
  | mkdir (path : Text)
  | write (path : Text) (c : Content)
  | append (path : Text) (c : Content)
  deriving DecidableEq

/-- The files below the working directory. -/
abbrev Files := Text → Option Content

/-- Effect of one operation on the files. -/
def FileOp.apply (fs : Files) : FileOp → Files
  | .mkdir _ => fs
  | .write p c => fun q => if q = p then some c else fs q
  | .append p c => fun q => if q = p then some ((fs p).getD [] ++ c) else fs q

/-- A run of a command: the file operations in order and how it ended. -/
structure Run where
  ops : List FileOp
  result : Except Err Unit

/-- The files after a run. -/
def Run.apply (r : Run) (fs : Files) : Files := r.ops.foldl FileOp.apply fs

/-- `os.path.join(a, b)` (POSIX). -/
def joinPath (a b : Text) : Text :=
  if b.head? = some '/' then b
  else if a = [] ∨ a.getLast? = some '/' then a ++ b
  else a ++ '/' :: b

/-- `HeaderType` (`c_printer.py:10-14`). -/
inductive HeaderType where
  | stored | msg | msgids | storedBinary
  deriving DecidableEq, Repr

/-- The guard symbol (`c_printer.py:31-34`). -/
def guardSymbol (filename : Text) : Text :=
  "ASN1_PARSER_".toList ++ upper (replaceChar '.' '_' (cNameText filename)) ++ "_INCLUDED".toList

/-- `generate_cfs_circular_import_guard(.., opening=True)` (`c_printer.py:28-36`). -/
def guardOpen (filename : Text) : Text :=
  "#ifndef ".toList ++ guardSymbol filename ++ "\n#define ".toList ++ guardSymbol filename ++ ['\n']

/-- `generate_cfs_circular_import_guard(.., opening=False)` (`c_printer.py:37`). -/
def guardClose (filename : Text) : Text :=
  "#endif // ".toList ++ guardSymbol filename ++ ['\n']

/-- `generate_cfs_header` (`c_printer.py:39-48`). -/
def fileHeader (doc : Text) : Text :=
  "/*\nThis file was autogenerated from ASN.1 model.".toList ++
    (if doc = [] then [] else "\n\n".toList ++ doc) ++ "\n*/\n".toList

/-- Text of the header file (`c_printer.py:66-146`). -/
def headerText (ty : HeaderType) (filenameH : Text) (cd : CData) : Text :=
  guardOpen filenameH ++ ['\n'] ++
  fileHeader (if ty = .msgids then [] else cd.headerComment) ++ ['\n'] ++
  (if ty = .msgids then []
    else (if cd.stdbool then "#include <stdbool.h>\n".toList else []) ++
      (if cd.stdint then "#include <stdint.h>\n".toList else []) ++
      cd.includes.flatMap (fun i => i ++ ['\n'])) ++
  (if ty = .msgids ∧ cd.defines ≠ [] then cd.defines.flatMap (fun d => d ++ ['\n']) ++ ['\n']
    else []) ++
  (if ty = .msgids then [] else '\n' :: cd.data.flatMap (fun d => d ++ "\n\n".toList)) ++
  (if ty = .stored ∧ cd.predefs ≠ [] then cd.predefs.flatMap (fun d => d ++ ['\n']) ++ ['\n']
    else []) ++
  guardClose filenameH

/-- Text of the C file (`c_printer.py:156-167`). -/
def sourceText (cd : CData) : Text :=
  fileHeader cd.headerComment ++ ['\n'] ++
  (if cd.initInclude = [] then [] else cd.initInclude ++ "\n\n".toList) ++
  cd.inits.flatten

/-- `print_to_file` (`c_printer.py:57-180`). -/
def printToFile (cd : CData) (filename out : Text) (ty : HeaderType) : List FileOp :=
  .write (joinPath out (filename ++ ".h".toList))
      (textContent (headerText ty (filename ++ ".h".toList) cd)) ::
  (if ty = .stored then
    [.write (joinPath out (filename ++ ".c".toList)) (textContent (sourceText cd))]
   else if ty = .storedBinary then
    cd.bins.map fun b => .write (joinPath out (b.1 ++ ".bin".toList)) (byteContent b.2)
   else [])

/-- The simple definitions of a list (`cfs/generator.py:73-77,92-96`). -/
def simpleDefs (ds : List Def) : List Def := ds.filter Def.isSimple

/-- `simple_definition_list` (`cfs/generator.py:70-78,92-97`, same in the other two
generators): those of the module, then those of the directly imported modules. -/
def simpleList (bm : BMod) : List Def :=
  simpleDefs bm.mod.defs ++ bm.imported.flatMap (fun m => simpleDefs m.defs)

/-- The include lines before the definitions (`cfs/generator.py:62-88`,
`c/generator.py:43-69`, `binary/generator.py:88-114`); `fileOf` gives the included
file of an imported module. -/
def importIncludes (fileOf : String → Text) (m : Module) : List Text :=
  (match m.commentImport with
    | none => []
    | some c => [lineComment c.text.toList]) ++
  m.imports.map fun i => "#include \"".toList ++ fileOf i.module ++ ['"']

/-- `file_documentation` (`cfs/generator.py:146-149`). -/
def headerDoc (m : Module) : Text :=
  match m.comment with
  | none => []
  | some c => c.text.toList

/-- The part in which the three generators differ: file names of includes, the note
on simple definitions, the `WITH COMPONENTS` handler and the files printed. -/
structure Backend where
  includeFile : String → Text
  note : String → AType → Except Err (List Text)
  handler : Handler
  print : Module → CData → List FileOp

/-- Body of the loop over the sorted definitions (`cfs/generator.py:100-142`,
`c/generator.py:80-105`, `binary/generator.py:125-151`). -/
def convertDef (be : Backend) (ds simple : List Def) (mod : Module) (cd : CData) :
    Def → Except Err CData
  | .simple n _ t =>
    be.note n t >>= fun notes => .ok { cd with includes := cd.includes ++ notes }
  | .seq n c ms =>
    convertSequence be.handler ds simple mod n c ms >>= fun e => .ok (cd.extend e)
  | .enum n c its => .ok (cd.extend (convertEnum n c its))
  | .choice n c ms => .ok (cd.extend (convertChoice n c ms))

/-- The loop over the sorted definitions. -/
def convertDefs (be : Backend) (ds simple : List Def) (mod : Module) :
    CData → List Def → Except Err CData
  | cd, [] => .ok cd
  | cd, d :: rest => convertDef be ds simple mod cd d >>= fun cd' => convertDefs be ds simple mod cd' rest

/-- All data of a module (`cfs/generator.py:60-149`). -/
def moduleData (fuel : Nat) (be : Backend) (ds : List Def) (bm : BMod) : Except Err CData :=
  match sortDefs fuel bm.mod with
  | none => .error .running
  | some sorted =>
    convertDefs be ds (simpleList bm) bm.mod { includes := importIncludes be.includeFile bm.mod } sorted
      >>= fun cd => .ok { cd with headerComment := headerDoc bm.mod }

/-- The loop over the ordered modules (`cfs/generator.py:59-167`): files of earlier
modules are on disk when a later module fails. -/
def runModules (fuel : Nat) (be : Backend) (ds : List Def) : List BMod → Run
  | [] => ⟨[], .ok ()⟩
  | bm :: rest =>
    match moduleData fuel be ds bm with
    | .error e => ⟨[], .error e⟩
    | .ok cd =>
      let r := runModules fuel be ds rest
      ⟨be.print bm.mod cd ++ r.ops, r.result⟩

/-- The module objects of the ordered list, with their imported modules. -/
def orderedMods (b : Bundle) (ms : List Module) : List BMod :=
  ms.filterMap fun m => b.mods.find? (fun bm => bm.mod = m)

/-- `generate_cfs`, `generate_c`, `generate_binary` after their back ends
(`cfs/generator.py:50-167`, `c/generator.py:30-118`, `binary/generator.py:74-164`). The
directory is made unless it exists; making it again changes nothing. -/
def generate (fuel : Nat) (be : Backend) (out : Text) (b : Bundle) : Run :=
  match orderModules fuel b.modules with
  | none => ⟨[.mkdir out], .error .running⟩
  | some ms =>
    let r := runModules fuel be b.defs (orderedMods b ms)
    ⟨.mkdir out :: r.ops, r.result⟩

/-- `main` for these three commands (`main.py:49-81`): a refused input ends the run
before anything is written. -/
def runCommand (fuel : Nat) (mk : Bundle → Backend) (raw : List Module) (cfg : List String)
    (out : Text) : Run :=
  match buildFromConfig raw cfg with
  | .error e => ⟨[], .error e⟩
  | .ok b => generate fuel (mk b) out b

end Apg
