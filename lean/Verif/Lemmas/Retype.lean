import Verif.Lemmas.BareBuild
import Verif.Lemmas.SizeSpec

/-!
# Bundles of modules with other ranges
-/

namespace Apg

open Spec

/-- Other bounds for types with a name and bounds. -/
abbrev Ranges := String → Option Num → Option Num → Option Num × Option Num

/-- A type with other bounds. -/
def rerange (g : Ranges) : AType → AType
  | .plain n lo hi => .plain n (g n lo hi).1 (g n lo hi).2
  | .str n l => .str n l
  | .arr e l => .arr (rerange g e) l

/-- A member with other bounds. -/
def retypeMember (g : Ranges) (m : Member) : Member := { m with type := rerange g m.type }

/-- A definition with other bounds; a definition with a standard name keeps its bounds. -/
def retypeDef (g : Ranges) : Def → Def
  | .seq n c ms => .seq n c (ms.map (retypeMember g))
  | .choice n c ms => .choice n c (ms.map (retypeMember g))
  | .enum n c its => .enum n c its
  | .simple n c t => .simple n c (if (posixRange n).isSome then t else rerange g t)

/-- A module with other bounds. -/
def retypeMod (g : Ranges) (m : Module) : Module := { m with defs := m.defs.map (retypeDef g) }

/-- A module of a bundle with other bounds. -/
def retypeBMod (g : Ranges) (m : BMod) : BMod := ⟨retypeMod g m.mod, m.imported.map (retypeMod g)⟩

/-- A bundle with other bounds. -/
def retypeBundle (g : Ranges) (b : Bundle) : Bundle := { b with mods := b.mods.map (retypeBMod g) }

/-- The other bounds give the same classification and the same width. -/
structure Keeps (g : Ranges) : Prop where
  kind : ∀ n lo hi, asn1Type (.plain n (g n lo hi).1 (g n lo hi).2) = asn1Type (.plain n lo hi)
  size : ∀ n lo hi c, (AType.plain n lo hi).cType = some c →
    getBitSize c (g n lo hi).1 (g n lo hi).2 = getBitSize c lo hi

variable {g : Ranges}

theorem retype_name (t : AType) : (rerange g t).name = t.name := by
  induction t with
  | plain n lo hi => rfl
  | str n l => rfl
  | arr e l ih => exact ih

theorem asn1Type_retype (hk : Keeps g) (t : AType) : asn1Type (rerange g t) = asn1Type t := by
  cases t with
  | plain n lo hi => exact hk.kind n lo hi
  | str n l => rfl
  | arr e l =>
    have e' : (rerange g (.arr e l)).name = (AType.arr e l).name := retype_name _
    unfold asn1Type
    rw [e']
    rfl

theorem cType_retype (hk : Keeps g) (t : AType) : (rerange g t).cType = t.cType := by
  unfold AType.cType
  rw [asn1Type_retype hk]

theorem getBitSize_retype (hk : Keeps g) {t : AType} {c : CType} (h : t.cType = some c) :
    getBitSize c (rerange g t).lo (rerange g t).hi = getBitSize c t.lo t.hi := by
  cases t with
  | plain n lo hi => exact hk.size n lo hi c h
  | str n l => rfl
  | arr e l => rfl

theorem checkTypeObj_retype (hk : Keeps g) (t : AType) : checkTypeObj (rerange g t) = checkTypeObj t := by
  induction t with
  | plain n lo hi => 
    have := asn1Type_retype hk (.plain n lo hi)
    simp only [rerange] at this
    simp only [rerange, checkTypeObj, this]
  | str n l => rfl
  | arr e l ih =>
    have := asn1Type_retype hk (.arr e l)
    simp only [rerange] at this
    simp only [rerange, checkTypeObj, this, ih]

theorem unresolvedSizeBits_retype (hk : Keeps g) (t : AType) : unresolvedSizeBits (rerange g t) = unresolvedSizeBits t := by
  have hc := cType_retype hk t
  cases t with
  | plain n lo hi =>
    unfold unresolvedSizeBits
    simp only [rerange] at hc ⊢
    rw [hc]
    cases h : (AType.plain n lo hi).cType with
    | none => rfl
    | some c => exact hk.size n lo hi c h
  | str n l => rfl
  | arr e l => rfl

theorem retypeDef_name (d : Def) : (retypeDef g d).name = d.name := by cases d <;> rfl

theorem retypeDef_members (d : Def) : (retypeDef g d).members = d.members.map (retypeMember g) := by cases d <;> rfl

theorem retypeMember_name (m : Member) : (retypeMember g m).type.name = m.type.name := retype_name m.type

/-! ### Processing -/

theorem processMembers_retype (hk : Keeps g) (ms : List Member) :
    processMembers (ms.map (retypeMember g)) = processMembers ms := by
  induction ms with
  | nil => rfl
  | cons m ms ih =>
    rw [List.map_cons, processMembers, processMembers, ih]
    have e : processMember (retypeMember g m) = processMember m := by
      unfold processMember nullCheckMember
      rw [retypeMember_name]
      show (checkTypeObj (rerange g m.type) >>= _) = _
      rw [checkTypeObj_retype hk]
      rfl
    rw [e]

theorem processDef_retype (hk : Keeps g) (d : Def) : processDef (retypeDef g d) = (processDef d).map (retypeDef g) := by
  cases d with
  | seq n c ms =>
    simp only [retypeDef, processDef]
    rw [processMembers_retype hk]
    cases checkCommentOpt false c <;> cases processMembers ms <;> rfl
  | choice n c ms =>
    simp only [retypeDef, processDef]
    rw [processMembers_retype hk]
    cases checkCommentOpt false c <;> cases processMembers ms <;> rfl
  | enum n c its =>
    simp only [retypeDef, processDef]
    cases checkCommentOpt false c <;> cases processEnumComments its <;> cases checkEnumerated its <;> rfl
  | simple n c t =>
    simp only [retypeDef, processDef]
    have e1 : checkTypeObj (if (posixRange n).isSome then t else rerange g t) = checkTypeObj t := by
      split
      · rfl
      · exact checkTypeObj_retype hk t
    have e2 : nullCheckSimple n (if (posixRange n).isSome then t else rerange g t) = nullCheckSimple n t := by
      split
      · rfl
      · rename_i h
        unfold nullCheckSimple checkPosix
        rw [retype_name]
        have : posixRange n = none := by simpa using h
        rw [this]
    rw [e1, e2]
    cases checkTypeObj t <;> cases checkCommentOpt false c <;> cases nullCheckSimple n t <;> rfl

theorem processDefs_retype (hk : Keeps g) (ds : List Def) :
    processDefs (ds.map (retypeDef g)) = (processDefs ds).map (List.map (retypeDef g)) := by
  induction ds with
  | nil => rfl
  | cons d ds ih =>
    rw [List.map_cons, processDefs, processDefs, processDef_retype hk, ih]
    cases processDef d with
    | error e => rfl
    | ok d => cases processDefs ds <;> rfl

theorem map_retypeDef_name (ds : List Def) : (ds.map (retypeDef g)).map Def.name = ds.map Def.name := by
  rw [List.map_map]
  exact List.map_congr_left fun d _ => retypeDef_name d

theorem knownTypes_retype (m : Module) : knownTypes ((retypeMod g) m) = knownTypes m := by
  simp only [knownTypes, retypeMod, map_retypeDef_name]

theorem checkUsedTypes_retype (m : Module) : checkUsedTypes (retypeMod g m) = checkUsedTypes m := by
  unfold checkUsedTypes
  rw [knownTypes_retype]
  congr 1
  simp only [retypeMod, List.all_map, eq_iff_iff, Bool.coe_iff_coe]
  congr 1
  funext d
  simp only [Function.comp_apply, retypeDef_members, List.all_map]
  congr 1
  funext k
  simp only [Function.comp_apply, retypeMember_name]

theorem processModule_retype (hk : Keeps g) (m : Module) :
    processModule (retypeMod g m) = (processModule m).map (retypeMod g) := by
  unfold processModule
  show (checkCommentOpt false m.comment >>= fun _ => checkCommentOpt false m.commentImport >>= fun _ =>
    processDefs (m.defs.map (retypeDef g)) >>= fun ds =>
    checkUsedTypes { retypeMod g m with defs := ds } >>= fun _ => pure { retypeMod g m with defs := ds }) = _
  rw [processDefs_retype hk]
  cases checkCommentOpt false m.comment with
  | error e => rfl
  | ok u =>
    cases checkCommentOpt false m.commentImport with
    | error e => rfl
    | ok u =>
      cases processDefs m.defs with
      | error e => rfl
      | ok ds =>
        show (checkUsedTypes (retypeMod g { m with defs := ds }) >>= fun _ => pure (retypeMod g { m with defs := ds })) =
          (checkUsedTypes { m with defs := ds } >>= fun _ => pure { m with defs := ds }).map (retypeMod g)
        rw [checkUsedTypes_retype]
        cases checkUsedTypes { m with defs := ds } <;> rfl

theorem processModules_retype (hk : Keeps g) (ms : List Module) :
    processModules (ms.map (retypeMod g)) = (processModules ms).map (List.map (retypeMod g)) := by
  induction ms with
  | nil => rfl
  | cons m ms ih =>
    rw [List.map_cons, processModules, processModules, processModule_retype hk, ih]
    cases processModule m with
    | error e => rfl
    | ok d => cases processModules ms <;> rfl

/-! ### Bundles -/

theorem lastNamed_retype (ms : List Module) (n : String) :
    lastNamed (ms.map (retypeMod g)) n = (lastNamed ms n).map (retypeMod g) := by
  induction ms with
  | nil => rfl
  | cons m ms ih =>
    rw [List.map_cons, lastNamed, lastNamed, ih]
    cases lastNamed ms n with
    | some r => rfl
    | none =>
      show (if m.name = n then _ else _) = Option.map (retypeMod g) (if m.name = n then _ else _)
      split <;> rfl

theorem lastDef_retype (ds : List Def) (n : String) :
    lastDef (ds.map (retypeDef g)) n = (lastDef ds n).map (retypeDef g) := by
  induction ds with
  | nil => rfl
  | cons d ds ih =>
    rw [List.map_cons, lastDef, lastDef, ih, retypeDef_name]
    cases lastDef ds n with
    | some r => rfl
    | none =>
      simp only [Option.map_none]
      split <;> rfl

theorem resolveDeps_retype (all ms : List Module) :
    resolveDeps (all.map (retypeMod g)) (ms.map (retypeMod g)) = (resolveDeps all ms).map (List.map (retypeBMod g)) := by
  induction ms with
  | nil => rfl
  | cons m ms ih =>
    rw [List.map_cons, resolveDeps, resolveDeps, ih]
    have e1 : (ms.map (retypeMod g)).any (fun r => decide (r.name = ((retypeMod g) m).name)) =
        ms.any (fun r => decide (r.name = m.name)) := by
      rw [List.any_map]; rfl
    have e2 : ((retypeMod g) m).imports.any (fun i => (lastNamed (all.map (retypeMod g)) i.module).isNone) =
        m.imports.any (fun i => (lastNamed all i.module).isNone) := by
      show m.imports.any _ = _
      congr 1
      funext i
      rw [lastNamed_retype, Option.isNone_map]
    rw [e1, e2]
    split
    · cases resolveDeps all ms <;> rfl
    · split
      · rfl
      · cases resolveDeps all ms with
        | error e => rfl
        | ok r =>
          show Except.ok (_ :: _) = Except.ok (_ :: _)
          congr 2
          unfold retypeBMod
          congr 1
          show m.imports.filterMap _ = _
          rw [List.map_filterMap]
          congr 1
          funext i
          exact lastNamed_retype all i.module

theorem simpleDefsUsed_retype (m : Module) : simpleDefsUsed (retypeMod g m) = simpleDefsUsed m := by
  unfold simpleDefsUsed retypeMod
  simp only [List.flatMap_map, retypeDef_members, List.filterMap_map]
  have e : ((fun k : Member => if (k.comps.isNone && !predefined.contains k.type.name) = true then some k.type.name else none) ∘
      retypeMember g) =
      fun k : Member => if (k.comps.isNone && !predefined.contains k.type.name) = true then some k.type.name else none := by
    funext k
    simp only [Function.comp_apply, retypeMember_name]
    rfl
  rw [e]

theorem simpleUses_retype (ms : List Module) : simpleUses (ms.map (retypeMod g)) = simpleUses ms := by
  unfold simpleUses
  rw [List.foldl_map]
  congr 1
  funext acc m
  rw [simpleDefsUsed_retype]
  rfl

theorem build_retype (ms : List Module) : build (ms.map (retypeMod g)) = (build ms).map (retypeBundle g) := by
  unfold build
  rw [resolveDeps_retype, simpleUses_retype]
  cases resolveDeps ms ms <;> rfl

theorem retypeBundle_modules (b : Bundle) : ((retypeBundle g) b).modules = b.modules.map (retypeMod g) := by
  unfold Bundle.modules retypeBundle
  simp only [List.map_map]
  rfl

theorem allDefs_retype (ms : List Module) : allDefs (ms.map (retypeMod g)) = (allDefs ms).map (retypeDef g) := by
  unfold allDefs
  rw [List.flatMap_map, List.map_flatMap]
  rfl

theorem retypeBundle_defs (b : Bundle) : ((retypeBundle g) b).defs = b.defs.map (retypeDef g) := by
  unfold Bundle.defs
  rw [retypeBundle_modules, allDefs_retype]

theorem map_retypeMod_name (ms : List Module) : (ms.map (retypeMod g)).map (·.name) = ms.map (·.name) := by
  rw [List.map_map]; rfl

/-! ### Validation -/

theorem seqsNamed_retype (ds : List Def) (n : String) :
    seqsNamed (ds.map (retypeDef g)) n = (seqsNamed ds n).map (List.map (retypeMember g)) := by
  unfold seqsNamed
  rw [List.filterMap_map, List.map_filterMap]
  congr 1
  funext d
  cases d <;> simp only [Function.comp_apply, retypeDef, Option.map_none]
  split <;> rfl

theorem memberTypeName_retype (ms : List Member) (k : String) :
    memberTypeName (ms.map (retypeMember g)) k = memberTypeName ms k := by
  unfold memberTypeName
  rw [List.find?_map, Option.map_map]
  have e : ((fun x : Member => x.type.name) ∘ retypeMember g) = fun x : Member => x.type.name := by
    funext k
    exact retypeMember_name k
  rw [e]
  rfl

theorem checkGo_retype (ds : List Def) (cs : Comps) : ∀ ms : List Member,
    checkWithComponent.go (ds.map (retypeDef g)) (ms.map (retypeMember g)) cs = checkWithComponent.go ds ms cs := by
  induction cs with
  | nil => intro ms; rfl
  | leaf k v r ih =>
    intro ms
    rw [checkWithComponent.go, checkWithComponent.go, ih, List.any_map]
    rfl
  | node k c r ihc ih =>
    intro ms
    rw [checkWithComponent.go, checkWithComponent.go, memberTypeName_retype, ih]
    cases memberTypeName ms k with
    | none => rfl
    | some tn =>
      simp only [seqsNamed_retype]
      congr 1
      match seqsNamed ds tn with
      | [] => rfl
      | [ms'] => exact ihc ms'
      | _ :: _ :: _ => rfl

theorem checkWithComponent_retype (ds : List Def) (t : String) (cs : Comps) :
    checkWithComponent (ds.map (retypeDef g)) t cs = checkWithComponent ds t cs := by
  unfold checkWithComponent
  rw [seqsNamed_retype]
  match seqsNamed ds t with
  | [] => rfl
  | [ms'] => exact checkGo_retype ds cs ms'
  | _ :: _ :: _ => rfl

theorem checkInner_retype (ds : List Def) (ms : List Member) :
    checkComponents.inner (ds.map (retypeDef g)) (ms.map (retypeMember g)) = checkComponents.inner ds ms := by
  induction ms with
  | nil => rfl
  | cons m ms ih =>
    rw [List.map_cons, checkComponents.inner, checkComponents.inner, ih]
    congr 1
    rw [retypeMember_name]
    show (match m.comps with | none => _ | some cs => checkWithComponent (ds.map (retypeDef g)) m.type.name cs) = _
    cases m.comps with
    | none => rfl
    | some cs => exact checkWithComponent_retype ds _ cs

theorem checkOuter_retype (ds es : List Def) :
    checkComponents.outer (ds.map (retypeDef g)) (es.map (retypeDef g)) = checkComponents.outer ds es := by
  induction es with
  | nil => rfl
  | cons d es ih =>
    cases d <;> simp only [List.map_cons, retypeDef, checkComponents.outer, ih, checkInner_retype]

theorem checkComponents_retype (ds : List Def) : checkComponents (ds.map (retypeDef g)) = checkComponents ds :=
  checkOuter_retype ds ds

theorem checkDuplicates_retype (ds : List Def) : ∀ l, checkDuplicates l (ds.map (retypeDef g)) = checkDuplicates l ds := by
  induction ds with
  | nil => intro l; rfl
  | cons d ds ih => intro l; simp only [List.map_cons, checkDuplicates, retypeDef_name, ih]

theorem importsDefined_retype (b : BMod) : importsDefined ((retypeBMod g) b) = importsDefined b := by
  unfold importsDefined retypeBMod
  simp only [List.all_map]
  congr 1
  funext im
  simp only [Function.comp_apply, retypeMod, map_retypeDef_name]
  rfl

theorem validateBundle_retype (b : Bundle) : validateBundle ((retypeBundle g) b) = validateBundle b := by
  unfold validateBundle checkImportsAndComponents
  rw [retypeBundle_defs, checkComponents_retype, checkDuplicates_retype]
  have : ((retypeBundle g) b).mods.all importsDefined = b.mods.all importsDefined := by
    show (b.mods.map (retypeBMod g)).all importsDefined = _
    rw [List.all_map]
    congr 1
    funext m
    exact importsDefined_retype m
  rw [this]

theorem buildFromTexts_retype (hk : Keeps g) (raw : List Module) :
    buildFromTexts (raw.map (retypeMod g)) = (buildFromTexts raw).map (retypeBundle g) := by
  unfold buildFromTexts
  rw [processModules_retype hk]
  cases processModules raw with
  | error e => rfl
  | ok ms =>
    show (build (ms.map (retypeMod g)) >>= fun b => _) = (build ms >>= fun b => _).map _
    rw [build_retype]
    cases build ms with
    | error e => rfl
    | ok b =>
      show (validateBundle ((retypeBundle g) b) >>= fun _ => _) = (validateBundle b >>= fun _ => _).map _
      rw [validateBundle_retype]
      cases validateBundle b <;> rfl

theorem checkMissing_retype (cfg : List String) (b : Bundle) :
    checkMissingModules cfg ((retypeBundle g) b) = checkMissingModules cfg b := by
  unfold checkMissingModules
  rw [retypeBundle_modules, map_retypeMod_name]

theorem buildFromConfig_retype (hk : Keeps g) (raw : List Module) (cfg : List String) :
    buildFromConfig (raw.map (retypeMod g)) cfg = (buildFromConfig raw cfg).map (retypeBundle g) := by
  unfold buildFromConfig
  rw [processModules_retype hk]
  cases processModules raw with
  | error e => rfl
  | ok ms =>
    show (validateUniqueModuleNames (ms.map (retypeMod g)) cfg >>= fun _ => build (ms.map (retypeMod g)) >>= fun b => _) =
      (validateUniqueModuleNames ms cfg >>= fun _ => build ms >>= fun b => _).map _
    have : validateUniqueModuleNames (ms.map (retypeMod g)) cfg = validateUniqueModuleNames ms cfg := by
      unfold validateUniqueModuleNames; rw [map_retypeMod_name]
    rw [this, build_retype]
    cases validateUniqueModuleNames ms cfg with
    | error e => rfl
    | ok u =>
      cases build ms with
      | error e => rfl
      | ok b =>
        show (validateBundle ((retypeBundle g) b) >>= fun _ => checkMissingModules cfg ((retypeBundle g) b) >>= fun _ => _) =
          (validateBundle b >>= fun _ => checkMissingModules cfg b >>= fun _ => _).map _
        rw [validateBundle_retype, checkMissing_retype]
        cases validateBundle b with
        | error e => rfl
        | ok u => cases checkMissingModules cfg b <;> rfl


end Apg
