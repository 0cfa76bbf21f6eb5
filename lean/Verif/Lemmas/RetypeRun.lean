import Verif.Lemmas.RetypeOrder
import Verif.Lemmas.BareRun

/-!
# Runs with other ranges
-/

namespace Apg
open Spec

variable {g : Ranges}

theorem fieldLine_retype (m : Member) (f : Mapped) : fieldLine (retypeMember g m) f = fieldLine m f := by
  unfold fieldLine retypeMember
  cases m.type <;> rfl

/-- The handler does not look at bounds. -/
def Boundless (g : Ranges) (h h' : Handler) (mod : Module) : Prop :=
  ∀ cn m, h' cn (retypeMember g m) (retypeMod g mod) = h cn m mod

theorem convertMembers_retype (hk : Keeps g) {h h' : Handler} {mod : Module} (hh : Boundless g h h' mod) (ds simple : List Def)
    (cn : Text) (ms : List Member) : ∀ cd : CData,
    convertMembers h' (ds.map (retypeDef g)) (simple.map (retypeDef g)) (retypeMod g mod) cn (ms.map (retypeMember g)) cd =
      convertMembers h ds simple mod cn ms cd := by
  induction ms with
  | nil => intro cd; rfl
  | cons m ms ih =>
    intro cd
    rw [List.map_cons, convertMembers, convertMembers]
    have e : fieldType (ds.map (retypeDef g)) (simple.map (retypeDef g)) (retypeMember g m).type = fieldType ds simple m.type :=
      fieldType_retype hk ds simple m.type
    have ec : (retypeMember g m).comps = m.comps := rfl
    have el : commentLines (retypeMember g m) = commentLines m := rfl
    simp only [e, ec, el, fieldLine_retype, hh cn m, ih]

/-- Back ends that differ only in bounds. -/
structure BoundlessBackend (g : Ranges) (be be' : Backend) (mod : Module) : Prop where
  note : ∀ n t, be'.note n (if (posixRange n).isSome then t else rerange g t) = be.note n t
  includeFile : be'.includeFile = be.includeFile
  handler : Boundless g be.handler be'.handler mod
  print : be'.print (retypeMod g mod) = be.print mod

theorem choiceLine_retype (m : Member) : choiceLine (retypeMember g m) = choiceLine m := by
  unfold choiceLine
  rw [retypeMember_name]
  rfl

theorem convertChoice_retype (n : String) (c : Option Comment) (ms : List Member) :
    convertChoice n c (ms.map (retypeMember g)) = convertChoice n c ms := by
  unfold convertChoice
  simp only [List.any_map, List.flatMap_map, choiceLine_retype]
  have e : ((fun m : Member => posixCTypes.contains m.type.name.toList) ∘ retypeMember g) =
      fun m : Member => posixCTypes.contains m.type.name.toList := by
    funext m
    simp only [Function.comp_apply, retypeMember_name]
  rw [e]

theorem convertDef_retype (hk : Keeps g) {be be' : Backend} {mod : Module} (hb : BoundlessBackend g be be' mod)
    (ds simple : List Def) (cd : CData) (d : Def) :
    convertDef be' (ds.map (retypeDef g)) (simple.map (retypeDef g)) (retypeMod g mod) cd (retypeDef g d) =
      convertDef be ds simple mod cd d := by
  cases d with
  | simple n c t => simp only [retypeDef, convertDef, hb.note]
  | seq n c ms => simp only [retypeDef, convertDef, convertSequence, convertMembers_retype hk hb.handler]
  | enum n c its => rfl
  | choice n c ms => simp only [retypeDef, convertDef, convertChoice_retype]

theorem convertDefs_retype (hk : Keeps g) {be be' : Backend} {mod : Module} (hb : BoundlessBackend g be be' mod)
    (ds simple : List Def) (es : List Def) : ∀ cd : CData,
    convertDefs be' (ds.map (retypeDef g)) (simple.map (retypeDef g)) (retypeMod g mod) cd (es.map (retypeDef g)) =
      convertDefs be ds simple mod cd es := by
  induction es with
  | nil => intro cd; rfl
  | cons d es ih =>
    intro cd
    simp only [List.map_cons, convertDefs, convertDef_retype hk hb, ih]

theorem moduleData_retype (hk : Keeps g) {be be' : Backend} {bm : BMod} (hb : BoundlessBackend g be be' bm.mod) (fuel : Nat)
    (ds : List Def) : moduleData fuel be' (ds.map (retypeDef g)) (retypeBMod g bm) = moduleData fuel be ds bm := by
  unfold moduleData
  have hs : sortDefs fuel (retypeBMod g bm).mod = (sortDefs fuel bm.mod).map (List.map (retypeDef g)) := sortDefs_retype fuel bm.mod
  rw [hs, simpleList_retype]
  cases sortDefs fuel bm.mod with
  | none => rfl
  | some sorted =>
    simp only [Option.map_some]
    have e : (retypeBMod g bm).mod = retypeMod g bm.mod := rfl
    rw [e, convertDefs_retype hk hb, hb.includeFile]
    rfl

theorem runModules_retype (hk : Keeps g) {be be' : Backend} (fuel : Nat) (ds : List Def) (bms : List BMod)
    (hb : ∀ bm ∈ bms, BoundlessBackend g be be' bm.mod) :
    runModules fuel be' (ds.map (retypeDef g)) (bms.map (retypeBMod g)) = runModules fuel be ds bms := by
  induction bms with
  | nil => rfl
  | cons bm bms ih =>
    rw [List.map_cons, runModules, runModules, moduleData_retype hk (hb bm (by simp)),
      ih fun x hx => hb x (by simp [hx])]
    have e : be'.print (retypeBMod g bm).mod = be.print bm.mod := (hb bm (by simp)).print
    rw [e]

theorem runCommand_retype (hk : Keeps g) {mk : Bundle → Backend} (raw : List Module) (fuel : Nat) (cfg : List String) (out : Text)
    (hb : ∀ b, ∀ m ∈ b.modules, BoundlessBackend g (mk b) (mk (retypeBundle g b)) m) :
    runCommand fuel mk (raw.map (retypeMod g)) cfg out = runCommand fuel mk raw cfg out := by
  unfold runCommand
  rw [buildFromConfig_retype hk]
  cases hbb : buildFromConfig raw cfg with
  | error e => rfl
  | ok b =>
    simp only [Except.map, generate, retypeBundle_modules, orderModules_retype]
    cases ho : orderModules fuel b.modules with
    | none => rfl
    | some ms =>
      have hn := config_names_nodup hbb
      have hperm : ms.Perm b.modules := (orderLoop_spec b.modules fuel _ ms ⟨rfl, hn⟩ ⟨by simp, by simp, by simp⟩ ho).1
      simp only [Option.map_some]
      rw [orderedMods_retype hn fun m hm => hperm.mem_iff.1 hm, retypeBundle_defs]
      have hmem : ∀ bm ∈ orderedMods b ms, bm.mod ∈ b.modules := by
        intro bm hbm
        obtain ⟨m, _, hm⟩ := List.mem_filterMap.1 hbm
        exact List.mem_map.2 ⟨bm, List.mem_of_find?_eq_some hm, rfl⟩
      rw [runModules_retype hk fuel b.defs (orderedMods b ms) fun bm hbm => hb b _ (hmem bm hbm)]

theorem runCfs_retype (hk : Keeps g) (raw : List Module) (fuel : Nat) (p : Printer) (cfg : List String) (out : Text) :
    runCfs fuel p (raw.map (retypeMod g)) cfg out = runCfs fuel p raw cfg out := by
  refine runCommand_retype hk raw fuel cfg out fun b m _ => ⟨fun n t => ?_, rfl, fun cn m => rfl, rfl⟩
  show cfsNote (retypeBundle g b) n _ = cfsNote b n t
  unfold cfsNote
  rw [simpleSize_retype hk]
  rfl

theorem runC_retype (hk : Keeps g) (raw : List Module) (fuel : Nat) (p : Printer) (cfg : List String) (out : Text) :
    runC fuel p (raw.map (retypeMod g)) cfg out = runC fuel p raw cfg out :=
  runCommand_retype hk raw fuel cfg out fun _ _ _ => ⟨fun _ _ => rfl, rfl, fun _ _ => rfl, rfl⟩

theorem runBinary_retype (hk : Keeps g) (raw : List Module) (fuel : Nat) (e : Option Endian) (cfg : List String) (out : Text) :
    runBinary fuel e (raw.map (retypeMod g)) cfg out = runBinary fuel e raw cfg out := by
  refine runCommand_retype hk raw fuel cfg out fun b m _ => ⟨fun n t => rfl, rfl, fun cn k => ?_, rfl⟩
  show binHandler (retypeBundle g b).defs fuel e cn (retypeMember g k) (retypeMod g m) = binHandler b.defs fuel e cn k m
  unfold binHandler
  rw [retypeBundle_defs, retypeMember_name]
  have ec : (retypeMember g k).comps = k.comps := rfl
  have ed : (retypeMod g m).defs = m.defs.map (retypeDef g) := rfl
  rw [ec, ed, binDefs_retype hk]

end Apg
