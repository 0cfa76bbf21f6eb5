import Verif.Model.Builder
import Verif.Model.Text

/-!
# `asn1_parser/generators/generator.py` and `asn1_parser/c_data.py`
-/

namespace Apg

/-- `_POSIX_DEFINED_TYPES` (`generator.py:24-28`): `ASN1_POSIX_RANGE` without `Float`
and `Double`, lower case, `-` replaced. -/
def posixCTypes : List Text :=
  ["int8_t".toList, "int16_t".toList, "int32_t".toList, "int64_t".toList,
   "uint8_t".toList, "uint16_t".toList, "uint32_t".toList, "uint64_t".toList]

/-- `c_type.value.lower()` (`size.py:26-32`, `generator.py:69`). -/
def CType.text : CType → Text
  | .bool => "bool".toList
  | .uint => "uint".toList
  | .int => "int".toList
  | .string => "string".toList
  | .float => "float".toList
  | .double => "double".toList

/-- `mod % 1 == 0` for `mod = math.log(n, 2)`: `n` is a power of two. `math.log(n, 2)`
is a float; it is exact on powers of two below 2^29 and never integral on other
numbers of that size, which covers every bit size that can occur. -/
def isPow2 (n : Nat) : Bool := 2 ^ Nat.log2 n == n

/-- The `while` loop looking for the storage size (`generator.py:64-68`), with
fuel. -/
def nextSize : Nat → Nat → Option Nat
  | 0, _ => none
  | fuel + 1, n => if isPow2 n && 3 ≤ Nat.log2 n then some n else nextSize fuel (n + 1)

/-- Result of `_map_simple_types_to_c`: bit-field suffix, C type,
`is_stdbool_needed`, `is_stdint_needed`. -/
structure Mapped where
  bits : Text
  ctype : Text
  stdbool : Bool
  stdint : Bool
  deriving DecidableEq, Repr

/-- First branch of `_map_simple_types_to_c` (`generator.py:48-79`), for INTEGER, REAL
and simple definitions. `math.log(0, 2)` is a `ValueError`. -/
def mapNumeric (t : AType) : Except Err Mapped :=
  match t.cType with
  | none => .error .notImplemented
  | some c =>
    getBitSize c t.lo t.hi >>= fun size =>
    let bits : Text :=
      if c = .uint ∧ ¬ (size = 8 ∨ size = 16 ∨ size = 32 ∨ size = 64) then
        " : ".toList ++ intText size
      else []
    if size ≤ 0 then .error .valueError
    else
      match nextSize (size.toNat + 8) size.toNat with
      | none => .error .running
      | some next =>
        if c = .uint then
          let cand := "uint".toList ++ digits 10 next ++ "_t".toList
          if posixCTypes.contains cand then .ok ⟨bits, cand, false, true⟩
          else .ok ⟨bits, "unsigned long long".toList, false, false⟩
        else .ok ⟨bits, c.text, false, false⟩

/-- `_map_simple_types_to_c` (`generator.py:31-91`) on a simple definition of type
`t`. -/
def mapSimpleDef (t : AType) : Except Err Mapped := mapNumeric t

/-- `_map_simple_types_to_c` (`generator.py:31-91`) on a sequence member; `ds` are the
definitions of the bundle, through which `_resolve_types` has set the type. -/
def mapMember (ds : List Def) (t : AType) : Except Err Mapped :=
  let n := cName t.name
  if n = "INTEGER".toList ∨ n = "REAL".toList then mapNumeric t
  else if n = "BOOLEAN".toList then .ok ⟨" : 1".toList, "uint8_t".toList, false, true⟩
  else
    match resolveType ds t with
    | some (.enum _ _ items) =>
      enumSizeBits items >>= fun size => .ok ⟨" : ".toList ++ intText size, n, false, false⟩
    | _ => .ok ⟨[], n, false, false⟩

/-- A line of a generated struct, as built with `cgen` (`generator.py:125,168-183`). -/
inductive CLine where
  | comment (t : Text)
  | value (ctype name : Text)
  | array (ctype name : Text) (len : Int)
  deriving DecidableEq, Repr

/-- `CData` (`c_data.py:4-118`). -/
structure CData where
  data : List Text := []
  defines : List Text := []
  includes : List Text := []
  inits : List Text := []
  predefs : List Text := []
  initInclude : Text := []
  stdbool : Bool := false
  stdint : Bool := false
  headerComment : Text := []
  bins : List (Text × List (List UInt8)) := []
  deriving DecidableEq

/-- Dictionary assignment `d[k] = v` on an association list in insertion order. -/
def dictSet {α : Type} (d : List (Text × α)) (k : Text) (v : α) : List (Text × α) :=
  match d with
  | [] => [(k, v)]
  | (k', v') :: rest => if k' = k then (k', v) :: rest else (k', v') :: dictSet rest k v

/-- `dict.update` (`c_data.py:87`). -/
def dictUpdate {α : Type} (d e : List (Text × α)) : List (Text × α) :=
  e.foldl (fun d kv => dictSet d kv.1 kv.2) d

/-- `extend_with_cdata` (`c_data.py:76-87`). -/
def CData.extend (a b : CData) : CData :=
  { a with
    data := a.data ++ b.data
    defines := a.defines ++ b.defines
    includes := a.includes ++ b.includes
    inits := a.inits ++ b.inits
    predefs := a.predefs ++ b.predefs
    initInclude := b.initInclude
    stdbool := a.stdbool || b.stdbool
    stdint := a.stdint || b.stdint
    bins := dictUpdate a.bins b.bins }

/-- `"[" + unit + "] " + comment` with empty parts left out
(`generator.py:113-124,225-237,278-289`). -/
def commentText (c : Comment) : Text :=
  (if c.unit.toList = [] then [] else '[' :: c.unit.toList ++ "] ".toList) ++ c.text.toList

/-- The comment lines before a member (`generator.py:112-125`). -/
def commentLines (m : Member) : List CLine :=
  match m.comment with
  | none => []
  | some c => [.comment (commentText c)]

/-- Type names mapped first by `_map_simple_types_to_c`, then lowered when standard,
then replaced by the first simple definition of the same C name
(`generator.py:127-157`). The result is the final bit suffix, C type and flags. -/
def fieldType (ds simple : List Def) (t : AType) : Except Err Mapped :=
  mapMember ds t >>= fun m =>
  let std := posixCTypes.contains (lowerize m.ctype)
  let ct := if std then lowerize m.ctype else m.ctype
  match simple.find? (fun d => d.isSimple && cName d.name == ct) with
  | some (.simple _ _ st) =>
    mapSimpleDef st >>= fun m' =>
      .ok ⟨m'.bits, m'.ctype, m.stdbool || m'.stdbool, m.stdint || std || m'.stdint⟩
  | _ => .ok ⟨m.bits, ct, m.stdbool, m.stdint || std⟩

/-- The struct line of a member (`generator.py:159-183`). -/
def fieldLine (m : Member) (f : Mapped) : CLine :=
  let key := cName m.key ++ f.bits
  match m.type with
  | .arr _ len => .array f.ctype key len
  | .str _ len => .array f.ctype key len
  | .plain .. => .value f.ctype key

/-- Handler for `WITH COMPONENTS` members, supplied by each generator
(`generator.py:319-328`): C name of the sequence, the member, the module. -/
abbrev Handler := Text → Member → Module → Except Err CData

/-- The loop over the members (`generator.py:111-195`). Returns the struct lines and
the collected data. -/
def convertMembers (h : Handler) (ds simple : List Def) (mod : Module) (cn : Text) :
    List Member → CData → Except Err (List CLine × CData)
  | [], cd => .ok ([], cd)
  | m :: ms, cd =>
    fieldType ds simple m.type >>= fun f =>
    let cd := { cd with stdbool := cd.stdbool || f.stdbool, stdint := cd.stdint || f.stdint }
    (match m.comps with
      | none => .ok cd
      | some _ => h cn m mod >>= fun e => .ok (cd.extend e)) >>= fun cd =>
    convertMembers h ds simple mod cn ms cd >>= fun r =>
    .ok (commentLines m ++ fieldLine m f :: r.1, r.2)

/-- Text of a struct line as printed by `cgen` (`cgen.LineComment`, `cgen.Value`,
`cgen.ArrayOf`), calibrated on the expected outputs in `tests/`. -/
def CLine.text : CLine → Text
  | .comment t => rstrip ("  // ".toList ++ t) ++ ['\n']
  | .value ct n => "  ".toList ++ ct ++ ' ' :: n ++ ";\n".toList
  | .array ct n len => "  ".toList ++ ct ++ ' ' :: n ++ '[' :: intText len ++ "];\n".toList

/-- `str(cgen.LineComment(text))`. -/
def lineComment (t : Text) : Text := rstrip ("// ".toList ++ t)

/-- `str(cgen.Comment(text))`. -/
def blockComment (t : Text) : Text := "/* ".toList ++ t ++ " */".toList

/-- Leading comment of a definition (`generator.py:103-107,216-220,265-269`). -/
def defComment (c : Option Comment) : Text :=
  match c with
  | none => []
  | some c => if c.text.toList = [] then [] else blockComment c.text.toList ++ ['\n']

/-- `str(cgen.Typedef(cgen.Struct("", lines, name)))` with the packed attribute
(`generator.py:196-207`, `cfs/generator.py:22-23`). -/
def structText (lines : List CLine) (name : Text) : Text :=
  "typedef struct\n{\n".toList ++ lines.flatMap CLine.text ++
    "} __attribute__((packed)) ".toList ++ name ++ [';']

/-- `_convert_sequence_to_c` (`generator.py:93-209`). With no member the variable
`definition_type_name_c` is unbound; the grammar excludes that. -/
def convertSequence (h : Handler) (ds simple : List Def) (mod : Module) (name : String)
    (c : Option Comment) (ms : List Member) : Except Err CData :=
  convertMembers h ds simple mod (cName name) ms {} >>= fun r =>
  .ok { r.2 with data := r.2.data ++ [defComment c ++ structText r.1 (cName name)] }

/-- One enumerator line (`generator.py:223-249`). -/
def enumLine (it : EnumItem) : Text :=
  "  ".toList ++ cName it.key ++ " = ".toList ++ intText it.pos ++ [','] ++
    (match it.comment with
      | none => []
      | some c => "     ".toList ++ lineComment (commentText c)) ++ ['\n']

/-- `_convert_enumerated_to_c` (`generator.py:211-258`). -/
def convertEnum (name : String) (c : Option Comment) (its : List EnumItem) : CData :=
  { data := [defComment c ++ "typedef enum {\n".toList ++ its.flatMap enumLine ++
      "} __attribute__((packed)) ".toList ++ cName name ++ [';']] }

/-- One union line (`generator.py:276-306`). -/
def choiceLine (m : Member) : Text :=
  "  ".toList ++ cName m.type.name ++ ' ' :: cName m.key ++ [';'] ++
    (match m.comment with
      | none => []
      | some c => "     ".toList ++ lineComment (commentText c))

/-- `_convert_choice_to_c` (`generator.py:260-317`). -/
def convertChoice (name : String) (c : Option Comment) (ms : List Member) : CData :=
  { data := [defComment c ++ "union ".toList ++ cName name ++ " {\n".toList ++
      ms.flatMap choiceLine ++ "} ".toList ++ lowerize (cName name) ++ [';']]
    stdint := ms.any (fun m => posixCTypes.contains m.type.name.toList) }

end Apg
