import Verif.Model.Output
import Verif.Model.Sorter

/-!
# `asn1_parser/generators/cfs/generator.py`
-/

namespace Apg

/-- A value of a component item: fixed value or inner clause. -/
inductive CVal where
  | leaf (v : Leaf)
  | node (c : Comps)
  deriving DecidableEq, Repr

/-- `inner_value << k`: floats and `WithComponents` objects do not support it; `bool`
is an `int`. -/
def shiftLeft (v : CVal) (k : Nat) : Except Err Int :=
  match v with
  | .leaf (.int i) => .ok (i * 2 ^ k)
  | .leaf (.bool b) => .ok ((if b then 1 else 0) * 2 ^ k)
  | _ => .error .typeError

/-- Body of the inner loop of `_ccsds_primary_header_to_msg_id`
(`cfs/generator.py:176-211`). -/
def msgIdStep (id : Int) (key : String) (v : CVal) : Except Err Int :=
  if key = "packet-version-number" then shiftLeft v (16 - 3) >>= fun s => .ok (intOr id s)
  else if key = "packet-type-is-cmd" then shiftLeft v (16 - 3 - 1) >>= fun s => .ok (intOr id s)
  else if key = "sec-hdr-flag-is-present" then
    shiftLeft v (16 - 3 - 1 - 1) >>= fun s => .ok (intOr id s)
  else if key = "application-process-identifier" then
    shiftLeft v (16 - 3 - 1 - 1 - 11) >>= fun s => .ok (intOr id s)
  else .error .exception

/-- The inner loop (`cfs/generator.py:176-211`). -/
def msgIdInner (id : Int) : Comps → Except Err Int
  | .nil => .ok id
  | .leaf k v rest => msgIdStep id k (.leaf v) >>= fun id' => msgIdInner id' rest
  | .node k c rest => msgIdStep id k (.node c) >>= fun id' => msgIdInner id' rest

/-- The outer loop (`cfs/generator.py:172-213`); a fixed value has no
`get_components`. -/
def msgIdOuter (id : Int) : Comps → Except Err Int
  | .nil => .ok id
  | .leaf k _ _ => if k = "packet-identification" then .error .attributeError else .error .exception
  | .node k c rest =>
    if k = "packet-identification" then msgIdInner id c >>= fun id' => msgIdOuter id' rest
    else .error .exception

/-- `_ccsds_primary_header_to_msg_id` (`cfs/generator.py:169-215`). -/
def msgId (c : Comps) : Except Err Int := msgIdOuter 0 c

/-- A `#define` line; `nl` is the extra newline of `cfs/generator.py:256`. -/
structure Define where
  symbol : Text
  value : Text
  nl : Bool
  deriving DecidableEq, Repr

/-- `str(cgen.Define(symbol, value))`, possibly with a newline. -/
def Define.text (d : Define) : Text :=
  "#define ".toList ++ d.symbol ++ ' ' :: d.value ++ (if d.nl then ['\n'] else [])

/-- `str(value)` with booleans in C spelling (`cfs/generator.py:241-242,253`). -/
def cfsValue (p : Printer) : Leaf → Text
  | .bool true => "true".toList
  | .bool false => "false".toList
  | v => p.leaf v

/-- `_process_with_components` (`cfs/generator.py:217-258`). -/
def cfsDefines (p : Printer) (seqName : Text) : Comps → Except Err (List Define)
  | .nil => .ok []
  | .leaf k v rest =>
    cfsDefines p seqName rest >>= fun r =>
    .ok (⟨upper (seqName ++ '_' :: cName k), '(' :: cfsValue p v ++ [')'], true⟩ :: r)
  | .node k c rest =>
    (if k = "primary" then
        msgId c >>= fun id =>
        .ok [⟨upper seqName ++ "_MID".toList, "(0x".toList ++ hexText 4 id ++ [')'], false⟩]
      else cfsDefines p seqName c) >>= fun d =>
    cfsDefines p seqName rest >>= fun r => .ok (d ++ r)

/-- `_with_components_handling` (`cfs/generator.py:260-277`). -/
def cfsHandler (p : Printer) : Handler := fun seqName m _ =>
  match m.comps with
  | none => .ok {}
  | some c => cfsDefines p seqName c >>= fun ds => .ok { defines := ds.map Define.text }

/-- `get_msg_filename` (`cfs/generator.py:36-40`). -/
def msgFilename (name : String) : Text := cName name ++ "_msg".toList

/-- `get_msgids_filename` (`cfs/generator.py:42-47`). -/
def msgidsFilename (name : String) : Text := cName name ++ "_msgids".toList

/-- `", ".join(l)`. -/
def joinComma : List Text → Text
  | [] => []
  | [t] => t
  | t :: ts => t ++ ", ".toList ++ joinComma ts

/-- The note on a simple definition that is used (`cfs/generator.py:103-124`). -/
def cfsNote (b : Bundle) (name : String) (t : AType) : Except Err (List Text) :=
  match b.uses.find? (fun u => u.1 = name) with
  | none => .ok []
  | some u =>
    unresolvedSizeBits t >>= fun size =>
    .ok ["// NOTE: The simple type '".toList ++ name.toList ++ "' has been generated to a C ".toList ++
      (if size = 8 ∨ size = 16 ∨ size = 32 ∨ size = 64 then "builtin".toList else "bitfield".toList) ++
      " type and is used directly in ".toList ++
      joinComma ((u.2.mergeSort (fun a b => decide (a ≤ b))).map
        fun n => '\'' :: n.toList ++ ['\''])]

/-- The cFS back end (`cfs/generator.py:49-167`). -/
def cfsBackend (p : Printer) (out : Text) (b : Bundle) : Backend where
  includeFile n := msgFilename n ++ ".h".toList
  note := cfsNote b
  handler := cfsHandler p
  print m cd := printToFile cd (msgFilename m.name) out .msg ++
    printToFile cd (msgidsFilename m.name) out .msgids

/-- `generate-cfs` (`main.py:49-59`). -/
def runCfs (fuel : Nat) (p : Printer) (raw : List Module) (cfg : List String) (out : Text) : Run :=
  runCommand fuel (cfsBackend p out) raw cfg out

end Apg
