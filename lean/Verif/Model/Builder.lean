import Verif.Model.Processor

/-!
# `asn1_parser/asn1/asn1_bundle_builder.py`, `asn1_bundle.py` and
`asn1/validation/asn1_bundle_validator.py`
-/

namespace Apg

/-- Dictionary look-up in `asn_models` (`asn1_bundle_builder.py:28,122`): the last
module of that name. -/
def lastNamed : List Module → String → Option Module
  | [], _ => none
  | m :: ms, n =>
    match lastNamed ms n with
    | some r => some r
    | none => if m.name = n then some m else none

/-- Dictionary look-up in `all_definitions`
(`asn1_bundle_builder.py:149-152`): the last definition of that name. -/
def lastDef : List Def → String → Option Def
  | [], _ => none
  | d :: ds, n =>
    match lastDef ds n with
    | some r => some r
    | none => if d.name = n then some d else none

/-- A module of a bundle together with its `_imported_modules`. -/
structure BMod where
  mod : Module
  imported : List Module
  deriving DecidableEq, Repr

/-- `_filter_dependencies` and `_resolve_dependencies`
(`asn1_bundle_builder.py:114-140`). A module that is overwritten in the
dictionary by a later one of the same name keeps an empty list of imported
modules. -/
def resolveDeps (all : List Module) : List Module → Except Err (List BMod)
  | [] => .ok []
  | m :: rest =>
    if rest.any (fun r => r.name = m.name) then do
      let tl ← resolveDeps all rest
      pure (⟨m, []⟩ :: tl)
    else if m.imports.any (fun i => (lastNamed all i.module).isNone) then
      .error .syntaxError
    else do
      let tl ← resolveDeps all rest
      pure (⟨m, m.imports.filterMap (fun i => lastNamed all i.module)⟩ :: tl)

/-- `_parse_for_simple_defs` (`asn1_bundle_builder.py:221-240`). A Python `set`; here
a list that may repeat names, as adding to a set twice changes nothing. -/
def simpleDefsUsed (m : Module) : List String :=
  m.defs.flatMap fun d =>
    d.members.filterMap fun k =>
      if k.comps.isNone && !predefined.contains k.type.name then some k.type.name else none

/-- One step of the loop over `simple_defs_used_in_module`
(`asn1_bundle_builder.py:36-41`): a new key gets an empty set, then the module
name is added to the set. A dictionary of sets is an association list of lists. -/
def addUse : List (String × List String) → String → String → List (String × List String)
  | [], t, mod => [(t, [mod])]
  | (t', s) :: rest, t, mod =>
    if t' = t then (t', if s.contains mod then s else s ++ [mod]) :: rest
    else (t', s) :: addUse rest t mod

/-- `bundle_simple_defs_used` after the loop over all modules
(`asn1_bundle_builder.py:29-41`). -/
def simpleUses (ms : List Module) : List (String × List String) :=
  ms.foldl (fun acc m => (simpleDefsUsed m).foldl (fun acc t => addUse acc t m.name) acc) []

/-- `ASN1Bundle` (`asn1_bundle.py:7-34`). -/
structure Bundle where
  mods : List BMod
  uses : List (String × List String)
  deriving DecidableEq, Repr

/-- `ASN1Bundle.get_modules` -/
def Bundle.modules (b : Bundle) : List Module := b.mods.map (·.mod)

/-- All definitions of the bundle. -/
def Bundle.defs (b : Bundle) : List Def := allDefs b.modules

/-- `ASN1BundleBuilder.build` (`asn1_bundle_builder.py:27-47`). The effect of
`_resolve_types` is represented by `Bundle.resolve` below. -/
def build (ms : List Module) : Except Err Bundle := do
  let mods ← resolveDeps ms ms
  pure { mods := mods, uses := simpleUses ms }

/-- The object stored by `_resolve_types` (`asn1_bundle_builder.py:143-160`) in the
type of a sequence member: only types that are plain names are touched
(`typ.get_type() is None`), and the definition found is the last of that name in
the bundle. Members of sequences whose name is defined again later would be left
untouched; such bundles are rejected by every command before types are used. -/
def resolveType (ds : List Def) : AType → Option Def
  | .plain n _ _ => lastDef ds n
  | _ => none

/-- Duplicate test of `_validate_unique_module_names`: is there a name with
count > 1 (`asn1_bundle_builder.py:177-184,196-203`). -/
def hasDuplicate (l : List String) : Bool := l.any (fun n => l.count n > 1)

/-- `_validate_unique_module_names` (`asn1_bundle_builder.py:163-218`): an error
message is set, and raised, iff one of the two lists has a duplicate. -/
def validateUniqueModuleNames (ms : List Module) (cfg : List String) : Except Err Unit :=
  if hasDuplicate (ms.map (·.name)) || hasDuplicate cfg then .error .consistency else .ok ()

/-- The import half of `_check_imported_types_and_check_components`
(`asn1_bundle_validator.py:41-63`) for one module. -/
def importsDefined (b : BMod) : Bool :=
  b.imported.all fun im =>
    (b.mod.imports.filter (fun i => i.module = im.name)).all fun i =>
      i.defs.all fun n => (im.defs.map Def.name).contains n

/-- `_check_imported_types_and_check_components`
(`asn1_bundle_validator.py:40-73`). -/
def checkImportsAndComponents (b : Bundle) : Except Err Unit :=
  if b.mods.all importsDefined then checkComponents b.defs else .error .consistency

/-- `_check_bundle_for_duplicate_definitions` (`asn1_bundle_validator.py:76-102`):
`already_defined` grows along the definitions of all modules. -/
def checkDuplicates (already : List String) : List Def → Except Err Unit
  | [] => .ok ()
  | d :: ds =>
    if already.contains d.name then .error .consistency
    else checkDuplicates (d.name :: already) ds

/-- `validate_bundle` (`asn1_bundle_validator.py:35-37`). -/
def validateBundle (b : Bundle) : Except Err Unit := do
  checkImportsAndComponents b
  checkDuplicates [] b.defs

/-- `check_missing_modules` (`asn1_bundle_validator.py:105-156`). -/
def checkMissingModules (cfg : List String) (b : Bundle) : Except Err Unit :=
  let names := b.modules.map (·.name)
  if names.any (fun n => !cfg.contains n) || cfg.any (fun n => !names.contains n) then
    .error .consistency
  else .ok ()

/-- `build_from_cfs_config`, `build_from_c_config`, `build_from_binary_config`
(`asn1_bundle_builder.py:50-59,75-98`) on the parsed trees `raw`, with
`cfg` the names given by `--asn1-modules`. -/
def buildFromConfig (raw : List Module) (cfg : List String) : Except Err Bundle := do
  let ms ← processModules raw
  validateUniqueModuleNames ms cfg
  let b ← build ms
  validateBundle b
  checkMissingModules cfg b
  pure b

/-- `build_from_cosmos_config` and `build_from_texts`
(`asn1_bundle_builder.py:62-72,101-111`). -/
def buildFromTexts (raw : List Module) : Except Err Bundle := do
  let ms ← processModules raw
  let b ← build ms
  validateBundle b
  pure b

/-- `ASN1Bundle.get_module` (`asn1_bundle.py:16-21`): the first module of that
name. -/
def Bundle.getModule (b : Bundle) (n : String) : Option BMod :=
  b.mods.find? (fun m => m.mod.name = n)

/-! ## Sizes: `get_size_bits` -/

/-- `Enumerated.get_size_bits` (`enumerated.py:34-40`); `max([])` is a
`ValueError`. -/
def enumSizeBits (items : List EnumItem) : Except Err Int :=
  match (items.map (·.pos)).max? with
  | none => .error .valueError
  | some m => .ok (bitLength m)

/-- `Asn1Type.get_size_bits` without a resolved type
(`asn1_type.py:87-98`): arrays and strings answer for themselves
(`array.py:21-23`, `asn1_string.py:22-23`), otherwise the `c_type` decides. -/
def unresolvedSizeBits (t : AType) : Except Err Int :=
  match t with
  | .str _ len => .ok (len * 8)
  | .arr _ len => .ok (len * 8)
  | .plain .. =>
    match t.cType with
    | some c => getBitSize c t.lo t.hi
    | none => .error .notImplemented

/-- The summing loop of `Sequence.get_size_bits` (`sequence.py:36-41`), where each
member asks its type (`key_type_pair.py:55-59`): the resolved definition if there
is one. `rec` is `get_size_bits` of definitions. -/
def sumSizes (rec : Def → Except Err Int) (ds : List Def) : List Member → Except Err Int
  | [] => .ok 0
  | m :: ms =>
    (match resolveType ds m.type with
      | some d => rec d
      | none => unresolvedSizeBits m.type) >>= fun a =>
    sumSizes rec ds ms >>= fun r => pure (a + r)

/-- `get_size_bits` of a definition (`sequence.py:32-41`,
`simple_definition.py:33-37`, `enumerated.py:34-40`). `Choice` has no such method
(`AttributeError`). Types of simple definitions are never resolved. The fuel is
the recursion depth; running out of it is Python's `RecursionError`. -/
def sizeDef (ds : List Def) : Nat → Def → Except Err Int
  | 0, _ => .error .recursion
  | fuel + 1, .seq _ _ ms => sumSizes (sizeDef ds fuel) ds ms
  | _ + 1, .enum _ _ items => enumSizeBits items
  | _ + 1, .simple _ _ t => unresolvedSizeBits t
  | _ + 1, .choice .. => .error .attributeError

/-- `KeyTypePair.get_size_bits` of a sequence member
(`key_type_pair.py:55-59`). -/
def sizeMember (ds : List Def) (fuel : Nat) (m : Member) : Except Err Int :=
  match resolveType ds m.type with
  | some d => sizeDef ds fuel d
  | none => unresolvedSizeBits m.type

end Apg
