import Verif.Model.Builder

/-!
# What error messages name

The functions of `Verif.Model.Processor` and `Verif.Model.Builder` once more, with the names and numbers that
are put into the error messages. The wording is dropped. Names that come from a Python `set` are a list
here, and Python may print them in any order.
-/

namespace Apg

/-- The exceptions with what their messages name. -/
inductive Message where
  /-- `end: … is less then begin: …` (`processor.py:174`) -/
  | inverted (lo hi : Num)
  /-- `… or … are out of double range` (`processor.py:205-207`) -/
  | notDouble (lo hi : Option Num)
  /-- `Range [… - …] doesn't match …` (`processor.py:231-234`) -/
  | standardRange (lo hi : Option Num) (name : String)
  /-- `Unexpected type: NULL` (`processor.py:244-250`) -/
  | null
  /-- `Comment for … contains an invalid sign …` (`processor.py:265-268`) -/
  | comment (key : String) (sign : List Char) (text : String)
  /-- Python's message that there is no `get_key` (`processor.py:263`) -/
  | noKey
  /-- `Some indices are not present, multiple times or out of bounds` (`processor.py:280-282`) -/
  | indices
  /-- Python's message for `ordered_enums[pos]` (`processor.py:289`) -/
  | indexOut
  /-- `index … is defined multiple times` (`processor.py:292`) -/
  | indexTwice (pos : Int)
  /-- `Type … used in … is not defined` (`processor.py:79-81`) -/
  | undefinedType (type module : String)
  /-- `The modules … are found multiple times in the bundle` (`asn1_bundle_builder.py:185-194`) -/
  | readTwice (modules : List String)
  /-- `The modules … are found multiple times in the --asn1-modules …` (`asn1_bundle_builder.py:204-215`) -/
  | namedTwice (modules : List String)
  /-- `Module … uses undeclared dependencies …` (`asn1_bundle_builder.py:135-138`) -/
  | dependencies (module : String) (missing : List String)
  /-- `Error parsing …: Imports … From … not found.` (`asn1_bundle_validator.py:59-63`) -/
  | imports (module : String) (undefined : List String) (source : String)
  /-- `… in … is not a valid key` (`processor.py:128-131`) -/
  | key (key definition : String)
  /-- `used type … in … is not defined` (`processor.py:148-150`) -/
  | usedType (type definition : String)
  /-- `The type … was already defined in … and …` (`asn1_bundle_validator.py:88-99`) -/
  | typeTwice (type first second : String)
  /-- `Modules … were found in bundle, but were not found in the --asn1-modules …` (`asn1_bundle_validator.py:117-130`) -/
  | notNamed (modules : List String)
  /-- `Modules … were found in the --asn1-modules …, but were not found in the bundle` (`asn1_bundle_validator.py:131-147`) -/
  | notRead (modules : List String)
  deriving DecidableEq, Repr

/-- The class of the exception. -/
def Message.err : Message → Err
  | .inverted .. => .valueError
  | .notDouble .. => .floatingPoint
  | .standardRange .. => .consistency
  | .null => .consistency
  | .comment .. => .textxSyntax
  | .noKey => .attributeError
  | .indices => .indexError
  | .indexOut => .indexError
  | .indexTwice _ => .indexError
  | .undefinedType .. => .consistency
  | .readTwice _ => .consistency
  | .namedTwice _ => .consistency
  | .dependencies .. => .syntaxError
  | .imports .. => .consistency
  | .key .. => .consistency
  | .usedType .. => .consistency
  | .typeTwice .. => .consistency
  | .notNamed _ => .consistency
  | .notRead _ => .consistency

/-- The classification part of `asn1_type` (`processor.py:178-214`); its only error is the one of lines
205-207. -/
def classifyR (name : String) (lo hi : Option Num) (isStr : Bool) : Except Message (Option CType) :=
  match classify name lo hi isStr with
  | .ok c => .ok c
  | .error _ => .error (.notDouble lo hi)

/-- `asn1_type` (`processor.py:167-214`), see `asn1Type`. -/
def asn1TypeR (t : AType) : Except Message (Option CType) :=
  let isStr := match t with | .str .. => true | _ => false
  match t.lo, t.hi with
  | some b, some e =>
    if Num.lt e b then .error (.inverted b e) else classifyR t.name t.lo t.hi isStr
  | _, _ => classifyR t.name t.lo t.hi isStr

/-- See `checkTypeObj` (`parser.py:70`). -/
def checkTypeObjR : AType → Except Message Unit
  | .arr e l => do
    checkTypeObjR e
    let _ ← asn1TypeR (.arr e l)
    pure ()
  | t => do
    let _ ← asn1TypeR t
    pure ()

/-- `check_posix` (`processor.py:217-234`). -/
def checkPosixR (name : String) (t : AType) : Except Message Unit :=
  match posixRange name with
  | none => .ok ()
  | some (b, e) =>
    match t.lo, t.hi with
    | some lo, some hi =>
      if Num.eq b lo && Num.eq e hi then .ok () else .error (.standardRange (some lo) (some hi) name)
    | lo, hi => .error (.standardRange lo hi name)

/-- `null_exception_catch` on a member (`processor.py:237-250`). -/
def nullCheckMemberR (m : Member) : Except Message Unit :=
  if m.type.name = "NULL" then .error .null else .ok ()

/-- `null_exception_catch` on a simple definition (`processor.py:237-253`). -/
def nullCheckSimpleR (name : String) (t : AType) : Except Message Unit :=
  if t.name = "NULL" then .error .null else checkPosixR name t

/-- The slot-filling loop of `check_enumerated` (`processor.py:286-292`). -/
def fillSlotsR : List (Option EnumItem) → List EnumItem → Except Message (List (Option EnumItem))
  | slots, [] => .ok slots
  | slots, it :: rest =>
    match pyIndex slots.length it.pos with
    | none => .error .indexOut
    | some i =>
      match slots[i]? with
      | some none => fillSlotsR (slots.set i (some it)) rest
      | _ => .error (.indexTwice it.pos)

/-- `check_enumerated` (`processor.py:271-293`). -/
def checkEnumeratedR (items : List EnumItem) : Except Message (List (Option EnumItem)) :=
  let posSum := (items.map (·.pos)).sum
  if posSum = 0 then .ok ((renumberFrom 0 items).map some)
  else if posSum ≠ ((List.range items.length).map (fun (i : Nat) => (i : Int))).sum then
    .error .indices
  else fillSlotsR (List.replicate items.length none) items

/-- `check_comment` (`processor.py:256-268`): the first sign of the list that occurs is reported. `key` is the
key of the parent, if it has one. -/
def checkCommentR (key : Option String) (c : Comment) : Except Message Unit :=
  if c.text.toList = [] then .ok ()
  else match [['['], [']'], ['-', '-']].find? fun s => containsText s c.text.toList with
    | none => .ok ()
    | some s =>
      match key with
      | some k => .error (.comment k s c.text)
      | none => .error .noKey

/-- Comment check on an optional comment. -/
def checkCommentOptR (key : Option String) : Option Comment → Except Message Unit
  | none => .ok ()
  | some c => checkCommentR key c

/-- All object processors on a member (`parser.py:67-77`), in the order of `processMember`. -/
def processMemberR (m : Member) : Except Message Unit := do
  checkTypeObjR m.type
  checkCommentOptR (some m.key) m.comment
  nullCheckMemberR m

/-- All members of a list, in order. -/
def processMembersR : List Member → Except Message Unit
  | [] => .ok ()
  | m :: ms => do
    processMemberR m
    processMembersR ms

/-- Comments of enumeration items. -/
def processEnumCommentsR : List EnumItem → Except Message Unit
  | [] => .ok ()
  | it :: its => do
    checkCommentOptR (some it.key) it.comment
    processEnumCommentsR its

/-- All object processors on a definition, in the order of `processDef`. -/
def processDefR : Def → Except Message Def
  | .seq n c ms => do
    checkCommentOptR none c
    processMembersR ms
    pure (.seq n c ms)
  | .choice n c ms => do
    checkCommentOptR none c
    processMembersR ms
    pure (.choice n c ms)
  | .enum n c its => do
    checkCommentOptR none c
    processEnumCommentsR its
    let slots ← checkEnumeratedR its
    pure (.enum n c (slots.filterMap id))
  | .simple n c t => do
    checkTypeObjR t
    checkCommentOptR none c
    nullCheckSimpleR n t
    pure (.simple n c t)

/-- Object processors on all definitions of a module. -/
def processDefsR : List Def → Except Message (List Def)
  | [] => .ok []
  | d :: ds => do
    let d' ← processDefR d
    let ds' ← processDefsR ds
    pure (d' :: ds')

/-- `model_processor_check_used_types_defined` (`processor.py:58-81`): the first member whose type is not known. -/
def checkUsedTypesR (m : Module) : Except Message Unit :=
  match (m.defs.flatMap Def.members).find? fun k => !(knownTypes m).contains k.type.name with
  | none => .ok ()
  | some k => .error (.undefinedType k.type.name m.name)

/-- See `processModule` (`parser.py:93-105`). -/
def processModuleR (m : Module) : Except Message Module := do
  checkCommentOptR none m.comment
  checkCommentOptR none m.commentImport
  let ds ← processDefsR m.defs
  let m' := { m with defs := ds }
  checkUsedTypesR m'
  pure m'

/-- `parse_from_text_multimodule` (`parser.py:107-117`). -/
def processModulesR : List Module → Except Message (List Module)
  | [] => .ok []
  | m :: ms => do
    let m' ← processModuleR m
    let ms' ← processModulesR ms
    pure (m' :: ms')

/-- `_filter_dependencies` and `_resolve_dependencies` (`asn1_bundle_builder.py:114-140`). As in `resolveDeps`, modules
are visited in the order of the list; Python visits a name that several modules share where it occurs first. -/
def resolveDepsR (all : List Module) : List Module → Except Message (List BMod)
  | [] => .ok []
  | m :: rest =>
    if rest.any (fun r => r.name = m.name) then do
      let tl ← resolveDepsR all rest
      pure (⟨m, []⟩ :: tl)
    else
      let missing := ((m.imports.map (·.module)).filter fun n => !(all.map (·.name)).contains n).eraseDups
      if missing ≠ [] then .error (.dependencies m.name missing)
      else do
        let tl ← resolveDepsR all rest
        pure (⟨m, m.imports.filterMap (fun i => lastNamed all i.module)⟩ :: tl)

/-- `ASN1BundleBuilder.build` (`asn1_bundle_builder.py:27-47`). -/
def buildR (ms : List Module) : Except Message Bundle := do
  let mods ← resolveDepsR ms ms
  pure { mods := mods, uses := simpleUses ms }

/-- `duplicate_modules` (`asn1_bundle_builder.py:177-184,196-203`). -/
def duplicates (l : List String) : List String := (l.filter fun n => l.count n > 1).eraseDups

/-- `_validate_unique_module_names` (`asn1_bundle_builder.py:163-218`): the second message replaces the first. -/
def validateUniqueModuleNamesR (ms : List Module) (cfg : List String) : Except Message Unit :=
  if duplicates cfg ≠ [] then .error (.namedTwice (duplicates cfg))
  else if duplicates (ms.map (·.name)) ≠ [] then .error (.readTwice (duplicates (ms.map (·.name))))
  else .ok ()

/-- The check of the imports from one module (`asn1_bundle_validator.py:44-63`). -/
def checkImportR (b : BMod) (im : Module) : Except Message Unit :=
  let types := (b.mod.imports.filter (fun i => i.module = im.name)).flatMap (·.defs)
  let undefined := (types.filter fun n => !(im.defs.map Def.name).contains n).eraseDups
  if undefined ≠ [] then .error (.imports b.mod.name undefined im.name) else .ok ()

/-- The loop over the imported modules (`asn1_bundle_validator.py:43-63`). -/
def checkImportsR (b : BMod) : List Module → Except Message Unit
  | [] => .ok ()
  | im :: rest => do
    checkImportR b im
    checkImportsR b rest

/-- The loop over all modules (`asn1_bundle_validator.py:41-63`). -/
def checkAllImportsR : List BMod → Except Message Unit
  | [] => .ok ()
  | b :: rest => do
    checkImportsR b b.imported
    checkAllImportsR rest

/-- `_check_with_component` (`processor.py:102-150`) for a clause in the definition `d`. -/
def checkWithComponentR (ds : List Def) (d : String) (typeName : String) (cs : Comps) : Except Message Unit :=
  match seqsNamed ds typeName with
  | [ms] => go ms cs
  | _ => if predefined.contains typeName then .ok () else .error (.usedType typeName d)
where
  /-- the loop over the items of the clause (`processor.py:123-146`) -/
  go (ms : List Member) : Comps → Except Message Unit
    | .nil => .ok ()
    | .leaf k _ rest =>
      if ms.any (fun m => m.key = k) then go ms rest else .error (.key k d)
    | .node k inner rest =>
      match memberTypeName ms k with
      | none => .error (.key k d)
      | some tn =>
        (match seqsNamed ds tn with
          | [ms'] => go ms' inner
          | _ => if predefined.contains tn then .ok () else .error (.usedType tn d)) >>=
        fun _ => go ms rest

/-- `model_processor_check_used_components_defined` (`processor.py:84-99`). -/
def checkComponentsR (ds : List Def) : Except Message Unit :=
  outer ds
where
  /-- loop over the members of one sequence -/
  inner (d : String) : List Member → Except Message Unit
    | [] => .ok ()
    | m :: ms =>
      (match m.comps with
        | none => .ok ()
        | some cs => checkWithComponentR ds d m.type.name cs) >>=
      fun _ => inner d ms
  /-- loop over the definitions -/
  outer : List Def → Except Message Unit
    | [] => .ok ()
    | .seq n _ ms :: rest => do
      inner n ms
      outer rest
    | _ :: rest => outer rest

/-- `_check_bundle_for_duplicate_definitions` (`asn1_bundle_validator.py:76-102`) on the definitions, each with the
name of its module. `already_defined` is an association list. -/
def checkDuplicatesR (already : List (String × String)) : List (String × Def) → Except Message Unit
  | [] => .ok ()
  | (m, d) :: ds =>
    match already.lookup d.name with
    | some m' => .error (.typeTwice d.name m' m)
    | none => checkDuplicatesR ((d.name, m) :: already) ds

/-- The definitions of a bundle, each with the name of its module. -/
def placedDefs (ms : List Module) : List (String × Def) := ms.flatMap fun m => m.defs.map fun d => (m.name, d)

/-- `validate_bundle` (`asn1_bundle_validator.py:35-37`). -/
def validateBundleR (b : Bundle) : Except Message Unit := do
  checkAllImportsR b.mods
  checkComponentsR b.defs
  checkDuplicatesR [] (placedDefs b.modules)

/-- `check_missing_modules` (`asn1_bundle_validator.py:105-156`): the second message replaces the first. -/
def checkMissingModulesR (cfg : List String) (b : Bundle) : Except Message Unit :=
  let names := b.modules.map (·.name)
  let notNamed := (names.filter fun n => !cfg.contains n).eraseDups
  let notRead := (cfg.filter fun n => !names.contains n).eraseDups
  if notRead ≠ [] then .error (.notRead notRead)
  else if notNamed ≠ [] then .error (.notNamed notNamed)
  else .ok ()

/-- See `buildFromConfig` (`asn1_bundle_builder.py:50-59,75-98`). -/
def buildFromConfigR (raw : List Module) (cfg : List String) : Except Message Bundle := do
  let ms ← processModulesR raw
  validateUniqueModuleNamesR ms cfg
  let b ← buildR ms
  validateBundleR b
  checkMissingModulesR cfg b
  pure b

/-- See `buildFromTexts` (`asn1_bundle_builder.py:62-72,101-111`). -/
def buildFromTextsR (raw : List Module) : Except Message Bundle := do
  let ms ← processModulesR raw
  let b ← buildR ms
  validateBundleR b
  pure b

/-- What `main` prints (`main.py:50-80`): only an `ASN1ConsistencyError` raised while the bundle is built is caught. -/
def printedMessage (raw : List Module) (cfg : List String) : Option Message :=
  match buildFromConfigR raw cfg with
  | .ok _ => none
  | .error m => if m.err = .consistency then some m else none

end Apg
