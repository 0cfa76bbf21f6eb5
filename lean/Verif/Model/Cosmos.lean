import Verif.Model.Output

/-!
# `asn1_parser/generators/cosmos/generator.py`, `telemetry.py`, `templates.py`
-/

namespace Apg

/-- The value found for a member in the enclosing clause: the empty string, a fixed
value or an inner clause (`cosmos/generator.py:135-149`). -/
inductive Specific where
  | empty
  | leaf (v : Leaf)
  | node (c : Comps)
  deriving DecidableEq, Repr

/-- List concatenation of clauses. -/
def Comps.append : Comps → Comps → Comps
  | .nil, d => d
  | .leaf k v r, d => .leaf k v (r.append d)
  | .node k c r, d => .node k c (r.append d)

/-- `[c.get_value() for c in with_comp if c.get_key() == item_name]`
(`cosmos/generator.py:138-142`). -/
def Comps.values (key : String) : Comps → List Specific
  | .nil => []
  | .leaf k v r => if k = key then .leaf v :: r.values key else r.values key
  | .node k c r => if k = key then .node c :: r.values key else r.values key

/-- `specific_value` (`cosmos/generator.py:135-144`). -/
def specificValue (withComp : Comps) (key : String) : Specific :=
  match withComp.values key with
  | [v] => v
  | _ => .empty

/-- The lists of components of the members, which the generator changes in place
(`cosmos/generator.py:149`): the current list of member number `i` of the sequence of
that name, `none` without `WITH COMPONENTS`. The generator only ever extends the
member's own list, which is a plain value here: it could only be read through
another reference if a type contained itself, and then the recursion never ends. -/
abbrev Store := String → Nat → Option Comps

/-- Replace one list. -/
def Store.set (s : Store) (n : String) (i : Nat) (c : Comps) : Store :=
  fun m j => if m = n ∧ j = i then some c else s m j

/-- The lists as parsed. -/
def initialStore (ds : List Def) : Store := fun n i =>
  match lastDef ds n with
  | some (.seq _ _ ms) => (ms[i]?).bind (·.comps)
  | _ => none

/-- `TelemetryEntry` (`telemetry.py:19-42`); the range is its begin and end. -/
structure Entry where
  name : Text
  bits : Int
  ctype : CType
  specific : Text
  comment : Text
  unit : Text
  range : Option (Num × Num)
  states : List Text
  isArray : Bool
  little : Bool
  deriving DecidableEq

/-- The module object of an imported module: the last of its name, as in the
dictionary it was taken from. -/
def lastBMod : List BMod → String → Option BMod
  | [], _ => none
  | m :: ms, n =>
    match lastBMod ms n with
    | some r => some r
    | none => if m.mod.name = n then some m else none

/-- Remove later copies. `list(set(..))` compares objects; in an accepted bundle two
definitions with the same name are the same object. -/
def dedup (ds : List Def) : List Def :=
  ds.foldr (fun d r => if r.contains d then r else d :: r) []

/-- The search in a list of imported modules, flattened
(`cosmos/generator.py:258-266`). `rec` is the search in one module. -/
def collectDefs (rec : BMod → Except Err (List Def)) (b : Bundle) : List Module → Except Err (List Def)
  | [] => .ok []
  | m :: ms =>
    (match lastBMod b.mods m.name with
      | none => .ok []
      | some bm => rec bm) >>= fun a =>
    collectDefs rec b ms >>= fun r => .ok (a ++ r)

/-- `_get_definitions_recurs` (`cosmos/generator.py:248-276`); fuel is the recursion
depth. -/
def defsRecurs (b : Bundle) (name : String) : Nat → BMod → Except Err (List Def)
  | 0, _ => .error .recursion
  | fuel + 1, bm =>
    collectDefs (defsRecurs b name fuel) b bm.imported >>= fun r =>
    .ok (dedup ((bm.mod.defs ++ r).filter (fun d => d.name = name)))

/-- `_get_definition` (`cosmos/generator.py:278-294`). -/
def getDefinition (b : Bundle) (fuel : Nat) (name : String) (bm : BMod) : Except Err Def :=
  defsRecurs b name fuel bm >>= fun ds =>
  match ds with
  | [d] => .ok d
  | _ => .error .consistency

/-- `_range_subrange_data_type` (`cosmos/generator.py:296-310`); comparing `None` is a
`TypeError`. -/
def subrange (c : CType) (lo hi : Option Num) : Except Err (Option (Num × Num)) :=
  match c with
  | .float =>
    match lo, hi with
    | some b, some e =>
      if Num.lt (.flt floatMin) b || Num.lt e (.flt floatMax) then .ok (some (b, e)) else .ok none
    | _, _ => .error .typeError
  | .double =>
    match lo, hi with
    | some b, some e =>
      if Num.lt (.flt doubleMin) b || Num.lt e (.flt doubleMax) then .ok (some (b, e)) else .ok none
    | _, _ => .error .typeError
  | _ => .ok none

/-- Printing of the specific value (`cosmos/generator.py:217-223`). -/
def specificText (p : Printer) (m : Member) (bits : Int) (s : Specific) : Except Err Text :=
  match m.type with
  | .arr _ len => .ok (intText (len * bits))
  | _ =>
    if m.key = "application-process-identifier" then
      match s with
      | .leaf (.int i) => .ok ("0x".toList ++ hexText 2 i)
      | .leaf (.bool b) => .ok ("0x".toList ++ hexText 2 (if b then 1 else 0))
      | .node _ => .error .typeError
      | _ => .error .valueError
    else
      match s with
      | .empty => .ok []
      | .leaf v => .ok (p.leaf v)
      | .node c => .ok (p.object c)

/-- How a member is to be treated, after looking at its type
(`cosmos/generator.py:160-204`): an item with C type, bounds and states, or a
definition to descend into. -/
inductive Shape where
  | item (c : Option CType) (lo hi : Option Num) (states : List Text)
  | inner (d : Def)

/-- The case distinction on the type of a member (`cosmos/generator.py:160-204`). -/
def shapeOf (b : Bundle) (fuel : Nat) (bm : BMod) (t : AType) : Except Err Shape :=
  let n := t.name
  if n = "INTEGER" ∨ n = "REAL" then .ok (.item t.cType t.lo t.hi [])
  else if n = "BOOLEAN" then .ok (.item t.cType t.lo t.hi ["False".toList, "True".toList])
  else
    match t with
    | .str _ len => .ok (.item t.cType t.lo (some (.int len)) [])
    | _ =>
      getDefinition b fuel n bm >>= fun d =>
      match d with
      | .simple _ _ st => .ok (.item st.cType st.lo st.hi [])
      | .enum _ _ its =>
        .ok (.item (some .uint) (some (.int 0)) (some (.int ((its.length : Int) - 1)))
          (its.map (·.key.toList)))
      | d => .ok (.inner d)

/-- Building an entry (`cosmos/generator.py:151-158,206-238`). -/
def makeEntry (p : Printer) (m : Member) (s : Specific) (c : Option CType) (lo hi : Option Num)
    (states : List Text) : Except Err Entry :=
  match c with
  | none => .error .notImplemented
  | some c =>
    getBitSize c lo hi >>= fun bits =>
    subrange c lo hi >>= fun range =>
    specificText p m bits s >>= fun spec =>
    .ok { name := m.key.toList, bits := bits, ctype := c, specific := spec
          comment := match m.comment with | none => [] | some c => c.text.toList
          unit := match m.comment with | none => [] | some c => c.unit.toList
          range := range, states := states
          isArray := match m.type with | .arr .. => true | _ => false
          little := match m.comment with | none => false | some c => c.little }

/-- The components for the members of a member: its own list extended by the inner clause
(`cosmos/generator.py:131-134,145-149`). -/
def innerComps (own : Option Comps) : Specific → Comps
  | .node c => (own.getD .nil).append c
  | _ => own.getD .nil

/-- The lists after that: a list that exists is extended in place
(`cosmos/generator.py:145-149`). -/
def extendStore (st : Store) (seq : String) (i : Nat) : Specific → Store
  | .node c =>
    match st seq i with
    | some o => st.set seq i (o.append c)
    | none => st
  | _ => st

/-- The members of a sequence from number `i` on (`cosmos/generator.py:128-238`).
`rec` is `_create_telemetry_item_data` on inner definitions. -/
def entriesFrom (p : Printer) (b : Bundle) (fuel : Nat) (bm : BMod)
    (rec : Store → Def → Comps → Except Err (List Entry × Store)) (seq : String) (withComp : Comps) :
    Store → Nat → List Member → Except Err (List Entry × Store)
  | st, _, [] => .ok ([], st)
  | st, i, m :: ms =>
    let spec := specificValue withComp m.key
    let comps := innerComps (st seq i) spec
    let st := extendStore st seq i spec
    shapeOf b fuel bm m.type >>= fun shape =>
    (match shape with
      | .item c lo hi states =>
        makeEntry p m spec c lo hi states >>= fun e => .ok ([e], st)
      | .inner d => rec st d comps) >>= fun r =>
    entriesFrom p b fuel bm rec seq withComp r.2 (i + 1) ms >>= fun r' =>
    .ok (r.1 ++ r'.1, r'.2)

/-- `_create_telemetry_item_data` (`cosmos/generator.py:118-246`); the second fuel is
the recursion depth. -/
def telemetry (p : Printer) (b : Bundle) (fuel : Nat) (bm : BMod) :
    Nat → Store → Def → Comps → Except Err (List Entry × Store)
  | 0, _, _, _ => .error .recursion
  | depth + 1, st, .seq n _ ms, withComp =>
    entriesFrom p b fuel bm (telemetry p b fuel bm depth) n withComp st 0 ms
  | _ + 1, _, .choice .., _ => .error .notImplemented
  | _ + 1, _, _, _ => .error .exception

/-! ## `templates.py` -/

/-- `"{:ns}".format(t)`: padded on the right. -/
def padRight (n : Nat) (t : Text) : Text := t ++ List.replicate (n - t.length) ' '

/-- `"{:>ns}".format(t)`: padded on the left. -/
def padLeft (n : Nat) (t : Text) : Text := List.replicate (n - t.length) ' ' ++ t

/-- `t.replace(" \n", "\n")`. -/
def dropTrailingSpace : Text → Text
  | ' ' :: '\n' :: r => '\n' :: dropTrailingSpace r
  | c :: r => c :: dropTrailingSpace r
  | [] => []

/-- The three item kinds. -/
inductive ItemKind where
  | array | id | plain
  deriving DecidableEq, Repr

/-- Type text, value text and kind of an item (`templates.py:59-76`). -/
def itemFields (e : Entry) : Text × Text × ItemKind :=
  let spec := if e.ctype = .bool then (if e.specific = "True".toList then ['1'] else ['0'])
    else e.specific
  let ty := match e.ctype with
    | .bool => "UINT".toList
    | .double => "FLOAT".toList
    | .uint => "UINT".toList
    | .int => "INT".toList
    | .string => "STRING".toList
    | .float => "FLOAT".toList
  (ty, spec, if e.isArray then .array else if spec ≠ [] then .id else .plain)

/-- Text of the item kind (`templates.py:71-76`). -/
def ItemKind.text : ItemKind → Text
  | .array => "APPEND_ARRAY_ITEM".toList
  | .id => "APPEND_ID_ITEM".toList
  | .plain => "APPEND_ITEM".toList

/-- The item line (`templates.py:10-25,78-88`). -/
def itemLine (e : Entry) : Text :=
  let f := itemFields e
  dropTrailingSpace ("    ".toList ++ padRight 19 f.2.2.text ++ ' ' :: padRight 31 e.name ++
    ' ' :: padLeft 7 (intText e.bits) ++ ' ' :: padRight 7 f.1 ++ ' ' :: padLeft 7 f.2.1 ++
    " \"".toList ++ e.comment ++ "\" ".toList ++
    (if e.little then "LITTLE_ENDIAN".toList else []) ++ ['\n'])

/-- The state lines, numbered from `i` (`templates.py:26,90-94`). -/
def stateLines : Nat → List Text → Text
  | _, [] => []
  | i, s :: rest => "        STATE ".toList ++ padRight 31 s ++ ' ' :: digits 10 i ++ '\n' ::
      stateLines (i + 1) rest

/-- The limits line (`templates.py:27-31,96-103`). -/
def limitsLine (p : Printer) (r : Num × Num) : Text :=
  "        LIMITS DEFAULT 5 ENABLED ".toList ++ p.num r.1 ++ ' ' :: p.num r.1 ++ ' ' :: p.num r.2 ++
    ' ' :: p.num r.2 ++ ['\n']

/-- All lines of one item (`templates.py:46-106`). -/
def entryText (p : Printer) (e : Entry) : Text :=
  itemLine e ++ stateLines 0 e.states ++
  (match e.range with | none => [] | some r => limitsLine p r) ++
  (if e.unit = [] then [] else "        UNITS ".toList ++ e.unit ++ ' ' :: e.unit ++ ['\n'])

/-- `cosmos_telemetry` (`templates.py:35-108`). -/
def packetText (p : Printer) (target comment name : Text) (es : List Entry) : Text :=
  "TELEMETRY ".toList ++ target ++ ' ' :: name ++ " BIG_ENDIAN \"".toList ++ comment ++
    "\"\n".toList ++ es.flatMap (entryText p)

/-! ## `generate_cosmos` -/

/-- The loop over the requested messages (`cosmos/generator.py:69-99`). -/
def packets (p : Printer) (b : Bundle) (fuel : Nat) (bm : BMod) (target : Text) :
    Store → List String → Except Err (List Text)
  | _, [] => .ok []
  | st, n :: ns =>
    match lastDef bm.mod.defs n with
    | none => .error .keyError
    | some d =>
      telemetry p b fuel bm fuel st d .nil >>= fun r =>
      packets p b fuel bm target r.2 ns >>= fun rest =>
      .ok (packetText p target (match d.comment with | none => [] | some c => c.text.toList)
        d.name.toList r.1 :: rest)

/-- The text added to the file (`cosmos/generator.py:111-116`). -/
def cosmosText (pkts : List Text) : Text :=
  "# This file was autogenerated from ASN.1 model.\n".toList ++ pkts.flatMap (fun t => '\n' :: t)

/-- `os.path.dirname` is only used to make the directory. -/
def dirName (p : Text) : Text := (p.reverse.dropWhile (· ≠ '/')).reverse

/-- `generate_cosmos` (`cosmos/generator.py:43-116`) with the assertion of
`get_module` (`asn1_bundle.py:16-21`). Without the module the set of definitions is
empty. -/
def generateCosmos (fuel : Nat) (p : Printer) (b : Bundle) (module : String)
    (messages : List String) (target out : Text) : Run :=
  let path := joinPath out (target ++ ".txt".toList)
  let finish (pkts : List Text) : Run :=
    ⟨[.mkdir (dirName path), .append path (textContent (cosmosText pkts))], .ok ()⟩
  if b.mods = [] then ⟨[], .error .assertion⟩ else
  match b.getModule module with
  | none => if messages = [] then finish [] else ⟨[], .error .exception⟩
  | some bm =>
    if messages.any (fun n => !(bm.mod.defs.map Def.name).contains n) then ⟨[], .error .exception⟩
    else
      match packets p b fuel bm target (initialStore b.defs) messages with
      | .error e => ⟨[], .error e⟩
      | .ok pkts => finish pkts

/-- `generate-cosmos` (`main.py:45-48`). -/
def runCosmos (fuel : Nat) (p : Printer) (raw : List Module) (module : String)
    (messages : List String) (target out : Text) : Run :=
  match buildFromTexts raw with
  | .error e => ⟨[], .error e⟩
  | .ok b => generateCosmos fuel p b module messages target out

end Apg
