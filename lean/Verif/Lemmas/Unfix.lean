import Verif.Spec.Unfixed
import Verif.Lemmas.Shuffle
import Verif.Lemmas.BareOrder

/-!
# Bundles of modules without clauses
-/

namespace Apg

open Spec

theorem unfixedDef_name (d : Def) : (unfixedDef d).name = d.name := by cases d <;> rfl

theorem unfixedDef_members (d : Def) : (unfixedDef d).members = d.members.map unfixedMember ∨
    (unfixedDef d).members = d.members := by
  cases d
  · exact .inl rfl
  all_goals exact .inr rfl

/-! ### Processing -/

theorem processMembers_unfixed (ms : List Member) : processMembers (ms.map unfixedMember) = processMembers ms := by
  induction ms with
  | nil => rfl
  | cons m ms ih =>
    rw [List.map_cons, processMembers, processMembers, ih]
    rfl

theorem processDef_unfixed (d : Def) : processDef (unfixedDef d) = (processDef d).map unfixedDef := by
  cases d with
  | seq n c ms =>
    simp only [unfixedDef, processDef]
    rw [processMembers_unfixed]
    cases checkCommentOpt false c <;> cases processMembers ms <;> rfl
  | choice n c ms =>
    simp only [unfixedDef, processDef]
    cases checkCommentOpt false c <;> cases processMembers ms <;> rfl
  | enum n c its =>
    simp only [unfixedDef, processDef]
    cases checkCommentOpt false c <;> cases processEnumComments its <;> cases checkEnumerated its <;> rfl
  | simple n c t =>
    simp only [unfixedDef, processDef]
    cases checkTypeObj t <;> cases checkCommentOpt false c <;> cases nullCheckSimple n t <;> rfl

theorem processDefs_unfixed (ds : List Def) :
    processDefs (ds.map unfixedDef) = (processDefs ds).map (List.map unfixedDef) := by
  induction ds with
  | nil => rfl
  | cons d ds ih =>
    rw [List.map_cons, processDefs, processDefs, processDef_unfixed, ih]
    cases processDef d with
    | error e => rfl
    | ok d => cases processDefs ds <;> rfl

theorem map_unfixedDef_name (ds : List Def) : (ds.map unfixedDef).map Def.name = ds.map Def.name := by
  rw [List.map_map]
  exact List.map_congr_left fun d _ => unfixedDef_name d

theorem knownTypes_unfixed (m : Module) : knownTypes (unfixed m) = knownTypes m := by
  simp only [knownTypes, unfixed, map_unfixedDef_name]

theorem checkUsedTypes_unfixed (m : Module) : checkUsedTypes (unfixed m) = checkUsedTypes m := by
  unfold checkUsedTypes
  rw [knownTypes_unfixed]
  congr 1
  simp only [unfixed, List.all_map, eq_iff_iff, Bool.coe_iff_coe]
  congr 1
  funext d
  simp only [Function.comp_apply]
  rcases unfixedDef_members d with h | h
  · rw [h, List.all_map]
    rfl
  · rw [h]

theorem processModule_unfixed (m : Module) : processModule (unfixed m) = (processModule m).map unfixed := by
  unfold processModule
  show (checkCommentOpt false m.comment >>= fun _ => checkCommentOpt false m.commentImport >>= fun _ =>
    processDefs (m.defs.map unfixedDef) >>= fun ds =>
    checkUsedTypes { unfixed m with defs := ds } >>= fun _ => pure { unfixed m with defs := ds }) = _
  rw [processDefs_unfixed]
  cases checkCommentOpt false m.comment with
  | error e => rfl
  | ok u =>
    cases checkCommentOpt false m.commentImport with
    | error e => rfl
    | ok u =>
      cases processDefs m.defs with
      | error e => rfl
      | ok ds =>
        show (checkUsedTypes (unfixed { m with defs := ds }) >>= fun _ => pure (unfixed { m with defs := ds })) =
          (checkUsedTypes { m with defs := ds } >>= fun _ => pure { m with defs := ds }).map unfixed
        rw [checkUsedTypes_unfixed]
        cases checkUsedTypes { m with defs := ds } <;> rfl

theorem processModules_unfixed (ms : List Module) :
    processModules (ms.map unfixed) = (processModules ms).map (List.map unfixed) := by
  induction ms with
  | nil => rfl
  | cons m ms ih =>
    rw [List.map_cons, processModules, processModules, processModule_unfixed, ih]
    cases processModule m with
    | error e => rfl
    | ok d => cases processModules ms <;> rfl

/-! ### Bundles -/

/-- A module of a bundle without clauses. -/
def unfixedBMod (m : BMod) : BMod := ⟨unfixed m.mod, m.imported.map unfixed⟩

/-- A bundle without clauses. -/
def unfixedBundle (b : Bundle) : Bundle := ⟨b.mods.map unfixedBMod, simpleUses (b.modules.map unfixed)⟩

theorem lastNamed_unfixed (ms : List Module) (n : String) :
    lastNamed (ms.map unfixed) n = (lastNamed ms n).map unfixed := by
  induction ms with
  | nil => rfl
  | cons m ms ih =>
    rw [List.map_cons, lastNamed, lastNamed, ih]
    cases lastNamed ms n with
    | some r => rfl
    | none =>
      show (if m.name = n then _ else _) = Option.map unfixed (if m.name = n then _ else _)
      split <;> rfl

theorem lastDef_unfixed (ds : List Def) (n : String) :
    lastDef (ds.map unfixedDef) n = (lastDef ds n).map unfixedDef := by
  induction ds with
  | nil => rfl
  | cons d ds ih =>
    rw [List.map_cons, lastDef, lastDef, ih, unfixedDef_name]
    cases lastDef ds n with
    | some r => rfl
    | none =>
      simp only [Option.map_none]
      split <;> rfl

theorem resolveDeps_unfixed (all ms : List Module) :
    resolveDeps (all.map unfixed) (ms.map unfixed) = (resolveDeps all ms).map (List.map unfixedBMod) := by
  induction ms with
  | nil => rfl
  | cons m ms ih =>
    rw [List.map_cons, resolveDeps, resolveDeps, ih]
    have e1 : (ms.map unfixed).any (fun r => decide (r.name = (unfixed m).name)) =
        ms.any (fun r => decide (r.name = m.name)) := by
      rw [List.any_map]; rfl
    have e2 : (unfixed m).imports.any (fun i => (lastNamed (all.map unfixed) i.module).isNone) =
        m.imports.any (fun i => (lastNamed all i.module).isNone) := by
      show m.imports.any _ = _
      congr 1
      funext i
      rw [lastNamed_unfixed, Option.isNone_map]
    rw [e1, e2]
    split
    · cases resolveDeps all ms <;> rfl
    · split
      · rfl
      · cases resolveDeps all ms with
        | error e => rfl
        | ok r =>
          show Except.ok (_ :: _) = Except.ok (_ :: _)
          congr 2
          unfold unfixedBMod
          congr 1
          show m.imports.filterMap _ = _
          rw [List.map_filterMap]
          congr 1
          funext i
          exact lastNamed_unfixed all i.module

theorem build_unfixed {ms : List Module} {b : Bundle} (h : build ms = .ok b) :
    build (ms.map unfixed) = .ok (unfixedBundle b) := by
  unfold build at h ⊢
  rw [resolveDeps_unfixed]
  cases hr : resolveDeps ms ms with
  | error e => rw [hr] at h; cases h
  | ok r =>
    rw [hr] at h
    cases h
    have : r.map (·.mod) = ms := resolveDeps_mods hr
    show Except.ok _ = Except.ok _
    unfold unfixedBundle Bundle.modules
    rw [this]

theorem unfixedBundle_modules (b : Bundle) : (unfixedBundle b).modules = b.modules.map unfixed := by
  unfold Bundle.modules unfixedBundle
  simp only [List.map_map]
  rfl

theorem allDefs_unfixed (ms : List Module) : allDefs (ms.map unfixed) = (allDefs ms).map unfixedDef := by
  unfold allDefs
  rw [List.flatMap_map, List.map_flatMap]
  rfl

theorem unfixedBundle_defs (b : Bundle) : (unfixedBundle b).defs = b.defs.map unfixedDef := by
  unfold Bundle.defs
  rw [unfixedBundle_modules, allDefs_unfixed]

theorem map_unfixed_name (ms : List Module) : (ms.map unfixed).map (·.name) = ms.map (·.name) := by
  rw [List.map_map]; rfl

/-! ### Validation -/

theorem checkDuplicates_unfixed (ds : List Def) : ∀ l, checkDuplicates l (ds.map unfixedDef) = checkDuplicates l ds := by
  induction ds with
  | nil => intro l; rfl
  | cons d ds ih => intro l; simp only [List.map_cons, checkDuplicates, unfixedDef_name, ih]

theorem importsDefined_unfixed (b : BMod) : importsDefined (unfixedBMod b) = importsDefined b := by
  unfold importsDefined unfixedBMod
  simp only [List.all_map]
  congr 1
  funext im
  simp only [Function.comp_apply, unfixed, map_unfixedDef_name]
  rfl

theorem checkComponents_unfixed (ds : List Def) : checkComponents (ds.map unfixedDef) = .ok () := by
  rw [checkComponents_ok]
  intro n c ms hd m hm cs hcs
  obtain ⟨d, hd, he⟩ := List.mem_map.1 hd
  cases d with
  | seq n' c' ms' =>
    simp only [unfixedDef, Def.seq.injEq] at he
    obtain ⟨_, _, rfl⟩ := he
    obtain ⟨m', _, rfl⟩ := List.mem_map.1 hm
    cases hcs
  | _ => cases he

theorem validateBundle_unfixed {b : Bundle} (h : validateBundle b = .ok ()) :
    validateBundle (unfixedBundle b) = .ok () := by
  unfold validateBundle checkImportsAndComponents at h ⊢
  rw [unfixedBundle_defs, checkComponents_unfixed, checkDuplicates_unfixed]
  have e : (unfixedBundle b).mods.all importsDefined = b.mods.all importsDefined := by
    show (b.mods.map unfixedBMod).all importsDefined = _
    rw [List.all_map]
    congr 1
    funext m
    exact importsDefined_unfixed m
  rw [e]
  split at h
  · rename_i hi
    rw [if_pos hi]
    cases hc : checkComponents b.defs with
    | error e => rw [hc] at h; cases h
    | ok u => rw [hc] at h; exact h
  · cases h

theorem buildFromTexts_unfixed {raw : List Module} {b : Bundle} (h : buildFromTexts raw = .ok b) :
    buildFromTexts (raw.map unfixed) = .ok (unfixedBundle b) := by
  obtain ⟨ms, h1, h2, h3⟩ := buildFromTexts_ok.1 h
  exact buildFromTexts_ok.2 ⟨ms.map unfixed, by rw [processModules_unfixed, h1]; rfl, build_unfixed h2,
    validateBundle_unfixed h3⟩

theorem buildFromConfig_unfixed {raw : List Module} {cfg : List String} {b : Bundle} (h : buildFromConfig raw cfg = .ok b) :
    buildFromConfig (raw.map unfixed) cfg = .ok (unfixedBundle b) := by
  unfold buildFromConfig at h ⊢
  rw [processModules_unfixed]
  cases hp : processModules raw with
  | error e => rw [hp] at h; cases h
  | ok ms =>
    rw [hp] at h
    simp only [Except.map, bind, Except.bind] at h ⊢
    have e1 : validateUniqueModuleNames (ms.map unfixed) cfg = validateUniqueModuleNames ms cfg := by
      unfold validateUniqueModuleNames; rw [map_unfixed_name]
    rw [e1]
    cases hu : validateUniqueModuleNames ms cfg with
    | error e => rw [hu] at h; cases h
    | ok u =>
      rw [hu] at h
      simp only at h ⊢
      cases hb : build ms with
      | error e => rw [hb] at h; cases h
      | ok b' =>
        rw [hb] at h
        rw [build_unfixed hb]
        simp only at h ⊢
        cases hv : validateBundle b' with
        | error e => rw [hv] at h; cases h
        | ok u =>
          rw [hv] at h
          rw [validateBundle_unfixed hv]
          have e2 : checkMissingModules cfg (unfixedBundle b') = checkMissingModules cfg b' := by
            unfold checkMissingModules
            rw [unfixedBundle_modules, map_unfixed_name]
          rw [e2]
          simp only at h ⊢
          cases hm : checkMissingModules cfg b' with
          | error e => rw [hm] at h; cases h
          | ok u => rw [hm] at h; cases h; rfl

end Apg
