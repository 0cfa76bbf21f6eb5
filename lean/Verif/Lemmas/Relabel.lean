import Verif.Spec.Relabel
import Verif.Lemmas.BareBuild
import Verif.Lemmas.Rename

/-!
# Bundles of modules with renamed members and items
-/

namespace Apg

open Spec

variable {κ ι : String → String}

theorem Spec.Relabelling.iff (h : Relabelling κ ι) {a b : String} : κ a = κ b ↔ a = b := ⟨h.members a b, fun e => e ▸ rfl⟩

theorem Spec.Relabelling.fixed (h : Relabelling κ ι) {a r : String} (hr : r ∈ headerKeys) : κ a = r ↔ a = r :=
  ⟨fun e => h.members _ _ (e.trans (h.headers r hr).symm), fun e => e ▸ h.headers r hr⟩

/-! ### Different things stay different -/

theorem relabelComps_inj (h : Relabelling κ ι) : ∀ {c d : Comps}, relabelComps κ c = relabelComps κ d → c = d := by
  intro c
  induction c with
  | nil => intro d he; cases d <;> simp only [relabelComps, reduceCtorEq] at he; rfl
  | leaf k v r ih =>
    intro d he
    cases d <;> simp only [relabelComps, reduceCtorEq, Comps.leaf.injEq] at he
    rw [h.members _ _ he.1, he.2.1, ih he.2.2]
  | node k c r ihc ih =>
    intro d he
    cases d <;> simp only [relabelComps, reduceCtorEq, Comps.node.injEq] at he
    rw [h.members _ _ he.1, ihc he.2.1, ih he.2.2]

theorem relabelMember_inj (h : Relabelling κ ι) {m k : Member} (he : relabelMember κ m = relabelMember κ k) : m = k := by
  obtain ⟨a, t, c, w⟩ := m
  obtain ⟨a', t', c', w'⟩ := k
  simp only [relabelMember, Member.mk.injEq] at he
  obtain ⟨h1, h2, h3, h4⟩ := he
  have hw : w = w' := by
    cases w <;> cases w' <;> simp only [Option.map_none, Option.map_some, reduceCtorEq, Option.some.injEq] at h4 ⊢
    exact relabelComps_inj h h4
  rw [h.members _ _ h1, h2, h3, hw]

theorem relabelEnumItem_inj (h : Relabelling κ ι) {m k : EnumItem} (he : relabelEnumItem ι m = relabelEnumItem ι k) : m = k := by
  cases m
  cases k
  simp only [relabelEnumItem, EnumItem.mk.injEq] at he
  rw [h.items _ _ he.1, he.2.1, he.2.2]

theorem relabelDef_inj (h : Relabelling κ ι) {d e : Def} (he : relabelDef κ ι d = relabelDef κ ι e) : d = e := by
  have hm := @map_inj _ _ (relabelMember κ) fun a b => relabelMember_inj h
  have hi := @map_inj _ _ (relabelEnumItem ι) fun a b => relabelEnumItem_inj h
  cases d <;> cases e <;> simp only [relabelDef, reduceCtorEq, Def.seq.injEq, Def.choice.injEq, Def.enum.injEq,
    Def.simple.injEq] at he
  · rw [he.1, he.2.1, hm he.2.2]
  · rw [he.1, he.2.1, hm he.2.2]
  · rw [he.1, he.2.1, hi he.2.2]
  · rw [he.1, he.2.1, he.2.2]

theorem relabelModule_inj (h : Relabelling κ ι) {m k : Module} (he : relabelModule κ ι m = relabelModule κ ι k) : m = k := by
  cases m
  cases k
  simp only [relabelModule, Module.mk.injEq] at he
  obtain ⟨h1, h2, h3, h4, h5⟩ := he
  rw [h1, h2, h3, h4, map_inj (fun a b => relabelDef_inj h) h5]

/-! ### Processing -/

theorem processMembers_relabel (ms : List Member) : processMembers (ms.map (relabelMember κ)) = processMembers ms := by
  induction ms with
  | nil => rfl
  | cons m ms ih => rw [List.map_cons, processMembers, processMembers, ih]; rfl

theorem processEnumComments_relabel (its : List EnumItem) :
    processEnumComments (its.map (relabelEnumItem ι)) = processEnumComments its := by
  induction its with
  | nil => rfl
  | cons it its ih => rw [List.map_cons, processEnumComments, processEnumComments, ih]; rfl

theorem renumberFrom_relabel (k : Nat) (its : List EnumItem) :
    renumberFrom k (its.map (relabelEnumItem ι)) = (renumberFrom k its).map (relabelEnumItem ι) := by
  induction its generalizing k with
  | nil => rfl
  | cons it its ih => simp only [List.map_cons, renumberFrom, ih]; rfl

theorem fillSlots_relabel (its : List EnumItem) : ∀ slots : List (Option EnumItem),
    fillSlots (slots.map (Option.map (relabelEnumItem ι))) (its.map (relabelEnumItem ι)) =
      (fillSlots slots its).map (List.map (Option.map (relabelEnumItem ι))) := by
  induction its with
  | nil => intro slots; rfl
  | cons it its ih =>
    intro slots
    rw [List.map_cons, fillSlots, fillSlots]
    show (match pyIndex (slots.map (Option.map (relabelEnumItem ι))).length it.pos with | none => _ | some i => _) = _
    rw [List.length_map]
    cases pyIndex slots.length it.pos with
    | none => rfl
    | some i =>
      simp only [List.getElem?_map]
      cases hs : slots[i]? with
      | none => rfl
      | some x =>
        cases x with
        | some y => rfl
        | none =>
          have := ih (slots.set i (some it))
          rw [List.map_set] at this
          exact this

theorem checkEnumerated_relabel (its : List EnumItem) : checkEnumerated (its.map (relabelEnumItem ι)) =
    (checkEnumerated its).map (List.map (Option.map (relabelEnumItem ι))) := by
  have e : (its.map (relabelEnumItem ι)).map (·.pos) = its.map (·.pos) := by
    rw [List.map_map]; rfl
  unfold checkEnumerated
  simp only [e, List.length_map]
  split
  · rw [renumberFrom_relabel]; simp [List.map_map, Function.comp_def, Except.map]
  · split
    · rfl
    · have := fillSlots_relabel (ι := ι) its (List.replicate its.length none)
      rwa [List.map_replicate] at this

theorem filterMap_relabel (slots : List (Option EnumItem)) :
    (slots.map (Option.map (relabelEnumItem ι))).filterMap id = (slots.filterMap id).map (relabelEnumItem ι) := by
  induction slots with
  | nil => rfl
  | cons s slots ih => cases s <;> simp [ih]

theorem processDef_relabel (d : Def) : processDef (relabelDef κ ι d) = (processDef d).map (relabelDef κ ι) := by
  cases d with
  | seq n c ms =>
    simp only [relabelDef, processDef, processMembers_relabel]
    cases checkCommentOpt false c with
    | error e => rfl
    | ok u => cases processMembers ms <;> rfl
  | choice n c ms =>
    simp only [relabelDef, processDef, processMembers_relabel]
    cases checkCommentOpt false c with
    | error e => rfl
    | ok u => cases processMembers ms <;> rfl
  | enum n c its =>
    simp only [relabelDef, processDef, processEnumComments_relabel, checkEnumerated_relabel]
    cases checkCommentOpt false c with
    | error e => rfl
    | ok u =>
      cases processEnumComments its with
      | error e => rfl
      | ok u =>
        cases checkEnumerated its with
        | error e => rfl
        | ok slots => exact congrArg (fun l => Except.ok (Def.enum n c l)) (filterMap_relabel slots)
  | simple n c t =>
    simp only [relabelDef, processDef]
    cases checkTypeObj t with
    | error e => rfl
    | ok u =>
      cases checkCommentOpt false c with
      | error e => rfl
      | ok u => cases nullCheckSimple n t <;> rfl

theorem processDefs_relabel (ds : List Def) :
    processDefs (ds.map (relabelDef κ ι)) = (processDefs ds).map (List.map (relabelDef κ ι)) := by
  induction ds with
  | nil => rfl
  | cons d ds ih =>
    rw [List.map_cons, processDefs, processDefs, processDef_relabel, ih]
    cases processDef d with
    | error e => rfl
    | ok d => cases processDefs ds <;> rfl

theorem relabelDef_name (d : Def) : (relabelDef κ ι d).name = d.name := by cases d <;> rfl

theorem relabelDef_members (d : Def) : (relabelDef κ ι d).members = d.members.map (relabelMember κ) := by
  cases d <;> rfl

theorem relabelDef_comment (d : Def) : (relabelDef κ ι d).comment = d.comment := by cases d <;> rfl

theorem map_relabel_name (ds : List Def) : (ds.map (relabelDef κ ι)).map Def.name = ds.map Def.name := by
  rw [List.map_map]
  exact List.map_congr_left fun d _ => relabelDef_name d

theorem checkUsedTypes_relabel (m : Module) : checkUsedTypes (relabelModule κ ι m) = checkUsedTypes m := by
  have hk : knownTypes (relabelModule κ ι m) = knownTypes m := by
    simp only [knownTypes, relabelModule, map_relabel_name]
  unfold checkUsedTypes
  rw [hk]
  congr 1
  simp only [relabelModule, List.all_map, eq_iff_iff, Bool.coe_iff_coe]
  congr 1
  funext d
  simp only [Function.comp_apply, relabelDef_members, List.all_map]
  rfl

theorem processModule_relabel (m : Module) :
    processModule (relabelModule κ ι m) = (processModule m).map (relabelModule κ ι) := by
  unfold processModule
  show (checkCommentOpt false m.comment >>= fun _ => checkCommentOpt false m.commentImport >>= fun _ =>
    processDefs (m.defs.map (relabelDef κ ι)) >>= fun ds =>
    checkUsedTypes { relabelModule κ ι m with defs := ds } >>= fun _ => pure { relabelModule κ ι m with defs := ds }) = _
  rw [processDefs_relabel]
  cases checkCommentOpt false m.comment with
  | error e => rfl
  | ok u =>
  cases checkCommentOpt false m.commentImport with
  | error e => rfl
  | ok u =>
  cases processDefs m.defs with
  | error e => rfl
  | ok ds =>
    show (checkUsedTypes (relabelModule κ ι { m with defs := ds }) >>= fun _ => pure (relabelModule κ ι { m with defs := ds })) =
      (checkUsedTypes { m with defs := ds } >>= fun _ => pure { m with defs := ds }).map (relabelModule κ ι)
    rw [checkUsedTypes_relabel]
    cases checkUsedTypes { m with defs := ds } <;> rfl

theorem processModules_relabel (ms : List Module) :
    processModules (ms.map (relabelModule κ ι)) = (processModules ms).map (List.map (relabelModule κ ι)) := by
  induction ms with
  | nil => rfl
  | cons m ms ih =>
    rw [List.map_cons, processModules, processModules, processModule_relabel, ih]
    cases processModule m with
    | error e => rfl
    | ok d => cases processModules ms <;> rfl

/-! ### Bundles -/

/-- A module of a bundle with new labels. -/
def relabelBMod (κ ι : String → String) (m : BMod) : BMod :=
  ⟨relabelModule κ ι m.mod, m.imported.map (relabelModule κ ι)⟩

/-- A bundle with new labels. -/
def relabelBundle (κ ι : String → String) (b : Bundle) : Bundle := ⟨b.mods.map (relabelBMod κ ι), b.uses⟩

theorem lastNamed_relabel (ms : List Module) (n : String) :
    lastNamed (ms.map (relabelModule κ ι)) n = (lastNamed ms n).map (relabelModule κ ι) := by
  induction ms with
  | nil => rfl
  | cons m ms ih =>
    rw [List.map_cons, lastNamed, lastNamed, ih]
    cases lastNamed ms n with
    | some r => rfl
    | none =>
      show (if m.name = n then _ else _) = Option.map _ (if m.name = n then _ else _)
      split <;> rfl

theorem lastDef_relabel (ds : List Def) (n : String) :
    lastDef (ds.map (relabelDef κ ι)) n = (lastDef ds n).map (relabelDef κ ι) := by
  induction ds with
  | nil => rfl
  | cons d ds ih =>
    rw [List.map_cons, lastDef, lastDef, ih, relabelDef_name]
    cases lastDef ds n with
    | some r => rfl
    | none =>
      simp only [Option.map_none]
      split <;> rfl

theorem resolveDeps_relabel (all ms : List Module) :
    resolveDeps (all.map (relabelModule κ ι)) (ms.map (relabelModule κ ι)) =
      (resolveDeps all ms).map (List.map (relabelBMod κ ι)) := by
  induction ms with
  | nil => rfl
  | cons m ms ih =>
    rw [List.map_cons, resolveDeps, resolveDeps, ih]
    have e1 : (ms.map (relabelModule κ ι)).any (fun r => decide (r.name = (relabelModule κ ι m).name)) =
        ms.any (fun r => decide (r.name = m.name)) := by
      rw [List.any_map]
      rfl
    have e2 : (relabelModule κ ι m).imports.any (fun i => (lastNamed (all.map (relabelModule κ ι)) i.module).isNone) =
        m.imports.any (fun i => (lastNamed all i.module).isNone) := by
      show m.imports.any _ = _
      congr 1
      funext i
      rw [lastNamed_relabel, Option.isNone_map]
    rw [e1, e2]
    split
    · cases resolveDeps all ms <;> rfl
    · split
      · rfl
      · cases resolveDeps all ms with
        | error e => rfl
        | ok r =>
          show Except.ok (_ :: _) = Except.ok (_ :: _)
          congr 2
          unfold relabelBMod
          congr 1
          show m.imports.filterMap _ = _
          rw [List.map_filterMap]
          congr 1
          funext i
          exact lastNamed_relabel all i.module

theorem simpleDefsUsed_relabel (m : Module) : simpleDefsUsed (relabelModule κ ι m) = simpleDefsUsed m := by
  unfold simpleDefsUsed relabelModule
  simp only [List.flatMap_map, relabelDef_members, List.filterMap_map]
  congr 1
  funext d
  congr 1
  funext k
  show (if (k.comps.map (relabelComps κ)).isNone && !predefined.contains k.type.name then some k.type.name else none) = _
  rw [Option.isNone_map]

theorem simpleUses_relabel (ms : List Module) : simpleUses (ms.map (relabelModule κ ι)) = simpleUses ms := by
  unfold simpleUses
  rw [List.foldl_map]
  simp only [simpleDefsUsed_relabel]
  rfl

theorem build_relabel (ms : List Module) : build (ms.map (relabelModule κ ι)) = (build ms).map (relabelBundle κ ι) := by
  unfold build
  rw [resolveDeps_relabel, simpleUses_relabel]
  cases resolveDeps ms ms <;> rfl

theorem relabelBundle_modules (b : Bundle) : (relabelBundle κ ι b).modules = b.modules.map (relabelModule κ ι) := by
  unfold Bundle.modules relabelBundle
  simp only [List.map_map]
  rfl

theorem relabelBundle_defs (b : Bundle) : (relabelBundle κ ι b).defs = b.defs.map (relabelDef κ ι) := by
  unfold Bundle.defs
  rw [relabelBundle_modules]
  unfold allDefs
  rw [List.flatMap_map, List.map_flatMap]
  rfl

theorem map_relabelModule_name (ms : List Module) : (ms.map (relabelModule κ ι)).map (·.name) = ms.map (·.name) := by
  rw [List.map_map]; rfl

/-! ### Validation -/

theorem seqsNamed_relabel (ds : List Def) (n : String) :
    seqsNamed (ds.map (relabelDef κ ι)) n = (seqsNamed ds n).map (List.map (relabelMember κ)) := by
  unfold seqsNamed
  rw [List.filterMap_map, List.map_filterMap]
  congr 1
  funext d
  cases d <;> simp only [Function.comp_apply, relabelDef, Option.map_none]
  split <;> rfl

theorem memberTypeName_relabel (h : Relabelling κ ι) (ms : List Member) (k : String) :
    memberTypeName (ms.map (relabelMember κ)) (κ k) = memberTypeName ms k := by
  unfold memberTypeName
  rw [List.find?_map, Option.map_map]
  have e : ((fun m : Member => decide (m.key = κ k)) ∘ relabelMember κ) = fun m => decide (m.key = k) := by
    funext m
    exact decide_eq_decide.2 h.iff
  rw [e]
  rfl

theorem checkGo_relabel (h : Relabelling κ ι) (ds : List Def) (cs : Comps) : ∀ ms : List Member,
    checkWithComponent.go (ds.map (relabelDef κ ι)) (ms.map (relabelMember κ)) (relabelComps κ cs) =
      checkWithComponent.go ds ms cs := by
  induction cs with
  | nil => intro ms; rfl
  | leaf k v r ih =>
    intro ms
    have e : (ms.map (relabelMember κ)).any (fun m => decide (m.key = κ k)) = ms.any (fun m => decide (m.key = k)) := by
      rw [List.any_map]
      congr 1
      funext m
      exact decide_eq_decide.2 h.iff
    rw [relabelComps, checkWithComponent.go, checkWithComponent.go, ih, e]
  | node k c r ihc ih =>
    intro ms
    rw [relabelComps, checkWithComponent.go, checkWithComponent.go, memberTypeName_relabel h, ih]
    cases memberTypeName ms k with
    | none => rfl
    | some tn =>
      simp only [seqsNamed_relabel]
      congr 1
      match seqsNamed ds tn with
      | [] => rfl
      | [ms'] => exact ihc ms'
      | _ :: _ :: _ => rfl

theorem checkWithComponent_relabel (h : Relabelling κ ι) (ds : List Def) (t : String) (cs : Comps) :
    checkWithComponent (ds.map (relabelDef κ ι)) t (relabelComps κ cs) = checkWithComponent ds t cs := by
  unfold checkWithComponent
  rw [seqsNamed_relabel]
  match seqsNamed ds t with
  | [] => rfl
  | [ms'] => exact checkGo_relabel h ds cs ms'
  | _ :: _ :: _ => rfl

theorem checkInner_relabel (h : Relabelling κ ι) (ds : List Def) (ms : List Member) :
    checkComponents.inner (ds.map (relabelDef κ ι)) (ms.map (relabelMember κ)) = checkComponents.inner ds ms := by
  induction ms with
  | nil => rfl
  | cons m ms ih =>
    rw [List.map_cons, checkComponents.inner, checkComponents.inner, ih]
    congr 1
    show (match m.comps.map (relabelComps κ) with
      | none => _ | some cs => checkWithComponent (ds.map (relabelDef κ ι)) m.type.name cs) = _
    cases m.comps with
    | none => rfl
    | some cs => exact checkWithComponent_relabel h ds _ cs

theorem checkOuter_relabel (h : Relabelling κ ι) (ds es : List Def) :
    checkComponents.outer (ds.map (relabelDef κ ι)) (es.map (relabelDef κ ι)) = checkComponents.outer ds es := by
  induction es with
  | nil => rfl
  | cons d es ih =>
    cases d <;> simp only [List.map_cons, relabelDef, checkComponents.outer, ih, checkInner_relabel h]

theorem checkDuplicates_relabel (ds : List Def) : ∀ l,
    checkDuplicates l (ds.map (relabelDef κ ι)) = checkDuplicates l ds := by
  induction ds with
  | nil => intro l; rfl
  | cons d ds ih =>
    intro l
    simp only [List.map_cons, checkDuplicates, relabelDef_name, ih]

theorem importsDefined_relabel (b : BMod) : importsDefined (relabelBMod κ ι b) = importsDefined b := by
  unfold importsDefined relabelBMod
  simp only [List.all_map]
  congr 1
  funext im
  simp only [Function.comp_apply, relabelModule, map_relabel_name]
  rfl

theorem validateBundle_relabel (h : Relabelling κ ι) (b : Bundle) :
    validateBundle (relabelBundle κ ι b) = validateBundle b := by
  unfold validateBundle checkImportsAndComponents
  rw [relabelBundle_defs]
  have e1 : checkComponents (b.defs.map (relabelDef κ ι)) = checkComponents b.defs := checkOuter_relabel h b.defs b.defs
  have e2 : checkDuplicates [] (b.defs.map (relabelDef κ ι)) = checkDuplicates [] b.defs := checkDuplicates_relabel b.defs []
  have : (relabelBundle κ ι b).mods.all importsDefined = b.mods.all importsDefined := by
    show (b.mods.map (relabelBMod κ ι)).all importsDefined = _
    rw [List.all_map]
    congr 1
    funext m
    exact importsDefined_relabel m
  rw [this, e1, e2]

theorem buildFromTexts_relabel (h : Relabelling κ ι) (raw : List Module) :
    buildFromTexts (raw.map (relabelModule κ ι)) = (buildFromTexts raw).map (relabelBundle κ ι) := by
  unfold buildFromTexts
  rw [processModules_relabel]
  cases processModules raw with
  | error e => rfl
  | ok ms =>
    show (build (ms.map (relabelModule κ ι)) >>= fun b => _) = (build ms >>= fun b => _).map _
    rw [build_relabel]
    cases build ms with
    | error e => rfl
    | ok b =>
      show (validateBundle (relabelBundle κ ι b) >>= fun _ => _) = (validateBundle b >>= fun _ => _).map _
      rw [validateBundle_relabel h]
      cases validateBundle b <;> rfl

theorem buildFromConfig_relabel (h : Relabelling κ ι) (raw : List Module) (cfg : List String) :
    buildFromConfig (raw.map (relabelModule κ ι)) cfg = (buildFromConfig raw cfg).map (relabelBundle κ ι) := by
  unfold buildFromConfig
  rw [processModules_relabel]
  cases processModules raw with
  | error e => rfl
  | ok ms =>
    show (validateUniqueModuleNames (ms.map (relabelModule κ ι)) cfg >>= fun _ =>
        build (ms.map (relabelModule κ ι)) >>= fun b => _) =
      (validateUniqueModuleNames ms cfg >>= fun _ => build ms >>= fun b => _).map _
    have : validateUniqueModuleNames (ms.map (relabelModule κ ι)) cfg = validateUniqueModuleNames ms cfg := by
      unfold validateUniqueModuleNames
      rw [map_relabelModule_name]
    rw [this, build_relabel]
    cases validateUniqueModuleNames ms cfg with
    | error e => rfl
    | ok u =>
      cases build ms with
      | error e => rfl
      | ok b =>
        have hm : checkMissingModules cfg (relabelBundle κ ι b) = checkMissingModules cfg b := by
          unfold checkMissingModules
          rw [relabelBundle_modules, map_relabelModule_name]
        show (validateBundle (relabelBundle κ ι b) >>= fun _ => checkMissingModules cfg (relabelBundle κ ι b) >>= fun _ => _) =
          (validateBundle b >>= fun _ => checkMissingModules cfg b >>= fun _ => _).map _
        rw [validateBundle_relabel h, hm]
        cases validateBundle b with
        | error e => rfl
        | ok u => cases checkMissingModules cfg b <;> rfl

end Apg
