import Verif.Model.Size

/-!
# `asn1_parser/asn1/processor.py`: object and model processors
-/

namespace Apg

/-- `type_name.startswith(p)`. -/
def startsWith (s p : String) : Bool := p.toList.isPrefixOf s.toList

/-- The classification part of `asn1_type` (`processor.py:178-214`), in terms of
the reported type name, the bounds and whether the type is an `Asn1String`. -/
def classify (name : String) (lo hi : Option Num) (isStr : Bool) :
    Except Err (Option CType) :=
  if (posixRange name).isSome then
    if startsWith name "Uint" then .ok (some .uint)
    else if startsWith name "Int" then .ok (some .int)
    else if name = "Float" then .ok (some .float)
    else if name = "Double" then .ok (some .double)
    else .ok none
  else
    match lo, hi with
    | some b, some e =>
      if name = "INTEGER" then
        if Num.le (.int 0) b then .ok (some .uint) else .ok (some .int)
      else if name = "REAL" then
        if Num.le (.flt floatMin) b && Num.le e (.flt floatMax) then .ok (some .float)
        else if Num.le (.flt doubleMin) b && Num.le e (.flt doubleMax) then .ok (some .double)
        else .error .floatingPoint
      else if name = "BOOLEAN" then .ok (some .bool)
      else if isStr then .ok (some .string)
      else .ok none
    | _, _ =>
      if name = "BOOLEAN" then .ok (some .bool)
      else if isStr then .ok (some .string)
      else .ok none

/-- `asn1_type` (`processor.py:167-214`) for one `Asn1Type` object: the range
check (170-174), then the classification. The result is what `set_c_type` stores;
nothing else ever writes it, so it is a function of the type. -/
def asn1Type (t : AType) : Except Err (Option CType) :=
  let isStr := match t with | .str .. => true | _ => false
  match t.lo, t.hi with
  | some b, some e =>
    if Num.lt e b then .error .valueError else classify t.name t.lo t.hi isStr
  | _, _ => classify t.name t.lo t.hi isStr

/-- `get_c_type()` of a type that went through `asn1_type`. -/
def AType.cType (t : AType) : Option CType :=
  match asn1Type t with
  | .ok c => c
  | .error _ => none

/-- textX runs the `Asn1Type` processor on every `Asn1Type` object, also on the
element types of arrays (`parser.py:70`). -/
def checkTypeObj : AType → Except Err Unit
  | .arr e l => do
    checkTypeObj e
    let _ ← asn1Type (.arr e l)
    pure ()
  | t => do
    let _ ← asn1Type t
    pure ()

/-- `check_posix` (`processor.py:217-234`). -/
def checkPosix (name : String) (t : AType) : Except Err Unit :=
  match posixRange name with
  | none => .ok ()
  | some (b, e) =>
    match t.lo, t.hi with
    | some lo, some hi =>
      if Num.eq b lo && Num.eq e hi then .ok () else .error .consistency
    | _, _ => .error .consistency

/-- `null_exception_catch` on a member (`processor.py:237-250`). -/
def nullCheckMember (m : Member) : Except Err Unit :=
  if m.type.name = "NULL" then .error .consistency else .ok ()

/-- `null_exception_catch` on a simple definition (`processor.py:237-253`). -/
def nullCheckSimple (name : String) (t : AType) : Except Err Unit :=
  if t.name = "NULL" then .error .consistency else checkPosix name t

/-- Python list index with negative indices: `l[pos]` on a list of length `n`. -/
def pyIndex (n : Nat) (pos : Int) : Option Nat :=
  if 0 ≤ pos ∧ pos < n then some pos.toNat
  else if -(n : Int) ≤ pos ∧ pos < 0 then some (n + pos).toNat
  else none

/-- The slot-filling loop of `check_enumerated` (`processor.py:286-292`):
`ordered_enums[pos]` must exist and be `None`. -/
def fillSlots : List (Option EnumItem) → List EnumItem → Except Err (List (Option EnumItem))
  | slots, [] => .ok slots
  | slots, it :: rest =>
    match pyIndex slots.length it.pos with
    | none => .error .indexError
    | some i =>
      match slots[i]? with
      | some none => fillSlots (slots.set i (some it)) rest
      | _ => .error .indexError

/-- Renumbering when the positions sum to zero (`processor.py:273-278`). -/
def renumberFrom : Nat → List EnumItem → List EnumItem
  | _, [] => []
  | k, it :: rest => { it with pos := k } :: renumberFrom (k + 1) rest

/-- `check_enumerated` (`processor.py:271-293`). The result is the new item list;
a slot left empty would stay `None` in Python and is kept as `none`. -/
def checkEnumerated (items : List EnumItem) : Except Err (List (Option EnumItem)) :=
  let posSum := (items.map (·.pos)).sum
  if posSum = 0 then .ok ((renumberFrom 0 items).map some)
  else if posSum ≠ ((List.range items.length).map (fun (i : Nat) => (i : Int))).sum then
    .error .indexError
  else fillSlots (List.replicate items.length none) items

/-- `needle in haystack` for text (`str.find(..) > -1`). -/
def containsText (needle : List Char) : List Char → Bool
  | [] => needle.isEmpty
  | c :: cs => needle.isPrefixOf (c :: cs) || containsText needle cs

/-- `check_comment` (`processor.py:256-268`). Only members, enumeration items and
component items have a key; for other parents `get_key` raises
`AttributeError`. -/
def checkComment (parentHasKey : Bool) (c : Comment) : Except Err Unit :=
  if c.text.toList = [] then .ok ()
  else if containsText ['['] c.text.toList || containsText [']'] c.text.toList
      || containsText ['-', '-'] c.text.toList then
    if parentHasKey then .error .textxSyntax else .error .attributeError
  else .ok ()

/-- Comment check on an optional comment. -/
def checkCommentOpt (parentHasKey : Bool) : Option Comment → Except Err Unit
  | none => .ok ()
  | some c => checkComment parentHasKey c

/-- All object processors on a member (`parser.py:67-77`). textX calls them
bottom-up; the order only decides which of several errors is reported. -/
def processMember (m : Member) : Except Err Unit := do
  checkTypeObj m.type
  checkCommentOpt true m.comment
  nullCheckMember m

/-- All members of a list, in order. -/
def processMembers : List Member → Except Err Unit
  | [] => .ok ()
  | m :: ms => do
    processMember m
    processMembers ms

/-- Comments of enumeration items. -/
def processEnumComments : List EnumItem → Except Err Unit
  | [] => .ok ()
  | it :: its => do
    checkCommentOpt true it.comment
    processEnumComments its

/-- All object processors on a definition; enumerations get their items
replaced by the normalised ones. -/
def processDef : Def → Except Err Def
  | .seq n c ms => do
    checkCommentOpt false c
    processMembers ms
    pure (.seq n c ms)
  | .choice n c ms => do
    checkCommentOpt false c
    processMembers ms
    pure (.choice n c ms)
  | .enum n c its => do
    checkCommentOpt false c
    processEnumComments its
    let slots ← checkEnumerated its
    pure (.enum n c (slots.filterMap id))
  | .simple n c t => do
    checkTypeObj t
    checkCommentOpt false c
    nullCheckSimple n t
    pure (.simple n c t)

/-- Object processors on all definitions of a module. -/
def processDefs : List Def → Except Err (List Def)
  | [] => .ok []
  | d :: ds => do
    let d' ← processDef d
    let ds' ← processDefs ds
    pure (d' :: ds')

/-- `_check_types_once_defined` (`processor.py:41-55`): names assumed known. -/
def knownTypes (m : Module) : List String :=
  predefined ++ m.imports.flatMap (·.defs) ++ m.defs.map Def.name

/-- `model_processor_check_used_types_defined` (`processor.py:58-81`). -/
def checkUsedTypes (m : Module) : Except Err Unit :=
  if m.defs.all (fun d => d.members.all (fun k => (knownTypes m).contains k.type.name)) then
    .ok ()
  else .error .consistency

/-- What `Asn1Parser.parse_from_text(.., True)` does after textX has built the
tree (`parser.py:93-105`): object processors, then the model processor. -/
def processModule (m : Module) : Except Err Module := do
  checkCommentOpt false m.comment
  checkCommentOpt false m.commentImport
  let ds ← processDefs m.defs
  let m' := { m with defs := ds }
  checkUsedTypes m'
  pure m'

/-- `parse_from_text_multimodule` (`parser.py:107-117`). -/
def processModules : List Module → Except Err (List Module)
  | [] => .ok []
  | m :: ms => do
    let m' ← processModule m
    let ms' ← processModules ms
    pure (m' :: ms')

/-- The members of the sequences named `n`: the list `sequence` of
`processor.py:117-119`. -/
def seqsNamed (ds : List Def) (n : String) : List (List Member) :=
  ds.filterMap fun
    | .seq m _ ms => if m = n then some ms else none
    | _ => none

/-- `[s.get_asn_type().get_type_name() for s in seq if s.get_key() == key][0]`
(`processor.py:135-139`). -/
def memberTypeName (ms : List Member) (key : String) : Option String :=
  (ms.find? (fun m => m.key = key)).map (·.type.name)

/-- `_check_with_component` (`processor.py:102-150`) for a clause on a member of
type `typeName`, looking at all definitions `ds`. -/
def checkWithComponent (ds : List Def) (typeName : String) (cs : Comps) : Except Err Unit :=
  match seqsNamed ds typeName with
  | [ms] => go ms cs
  | _ => if predefined.contains typeName then .ok () else .error .consistency
where
  /-- the loop over the items of the clause (`processor.py:123-146`) -/
  go (ms : List Member) : Comps → Except Err Unit
    | .nil => .ok ()
    | .leaf k _ rest =>
      if ms.any (fun m => m.key = k) then go ms rest else .error .consistency
    | .node k inner rest =>
      match memberTypeName ms k with
      | none => .error .consistency
      | some tn =>
        (match seqsNamed ds tn with
          | [ms'] => go ms' inner
          | _ => if predefined.contains tn then .ok () else .error .consistency) >>=
        fun _ => go ms rest

/-- `model_processor_check_used_components_defined` (`processor.py:84-99`) over a
list of definitions: only members of sequences are looked at. -/
def checkComponents (ds : List Def) : Except Err Unit :=
  outer ds
where
  /-- loop over the members of one sequence -/
  inner : List Member → Except Err Unit
    | [] => .ok ()
    | m :: ms =>
      (match m.comps with
        | none => .ok ()
        | some cs => checkWithComponent ds m.type.name cs) >>=
      fun _ => inner ms
  /-- loop over the definitions -/
  outer : List Def → Except Err Unit
    | [] => .ok ()
    | .seq _ _ ms :: rest => do
      inner ms
      outer rest
    | _ :: rest => outer rest

end Apg
