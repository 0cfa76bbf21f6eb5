import Verif.Lemmas.Bare
import Verif.Spec.Valid

/-!
# Bundles of modules without comments
-/

namespace Apg

open Spec

theorem Except.map_bind {ε α β γ : Type} (f : β → γ) (x : Except ε α) (g : α → Except ε β) :
    (x >>= g).map f = x >>= fun a => (g a).map f := by cases x <;> rfl

theorem Except.bind_map {ε α β γ : Type} (f : α → β) (x : Except ε α) (g : β → Except ε γ) :
    x.map f >>= g = x >>= fun a => g (f a) := by cases x <;> rfl

theorem Except.bind_congr {ε α β : Type} {x : Except ε α} {f g : α → Except ε β} (h : ∀ a, f a = g a) :
    x >>= f = x >>= g := by cases x <;> simp [bind, Except.bind, h]

/-! ### Processing -/

theorem fillSlots_map (its : List EnumItem) : ∀ (slots : List (Option EnumItem)),
    fillSlots (slots.map (Option.map bareItem)) (its.map bareItem) =
      (fillSlots slots its).map (List.map (Option.map bareItem)) := by
  induction its with
  | nil => intro slots; rfl
  | cons it its ih =>
    intro slots
    rw [List.map_cons, fillSlots, fillSlots]
    show (match pyIndex (slots.map (Option.map bareItem)).length it.pos with | none => _ | some i => _) = _
    rw [List.length_map]
    cases pyIndex slots.length it.pos with
    | none => rfl
    | some i =>
      simp only [List.getElem?_map]
      cases hs : slots[i]? with
      | none => rfl
      | some s =>
        cases s with
        | some s => rfl
        | none =>
          have := ih (slots.set i (some it))
          rw [List.map_set] at this
          exact this

theorem checkEnumerated_map (its : List EnumItem) :
    checkEnumerated (its.map bareItem) = (checkEnumerated its).map (List.map (Option.map bareItem)) := by
  have e : (its.map bareItem).map (·.pos) = its.map (·.pos) := by
    rw [List.map_map]; rfl
  unfold checkEnumerated
  simp only [e, List.length_map]
  split
  · rw [renumberFrom_bare]; simp [Except.map, List.map_map, Function.comp_def]
  · split
    · rfl
    · rw [← fillSlots_map, List.map_replicate]; rfl

theorem processMember_eq {m : Member} (h : ∀ c ∈ m.comment, CleanComment c) :
    processMember (bareMember m) = processMember m := by
  unfold processMember
  rw [checkCommentOpt_ok.2 h]
  rfl

theorem processMembers_eq {ms : List Member} (h : ∀ m ∈ ms, ∀ c ∈ m.comment, CleanComment c) :
    processMembers (ms.map bareMember) = processMembers ms := by
  induction ms with
  | nil => rfl
  | cons m ms ih =>
    rw [List.map_cons, processMembers, processMembers, processMember_eq (h m (by simp)),
      ih fun m hm => h m (by simp [hm])]

theorem members_clean {c : Option Comment} {ms : List Member}
    (h : ∀ x ∈ c.toList ++ ms.filterMap (·.comment), CleanComment x) :
    (∀ x ∈ c, CleanComment x) ∧ ∀ m ∈ ms, ∀ x ∈ m.comment, CleanComment x :=
  ⟨fun x hx => h x (by simp [Option.mem_def.1 hx]), fun m hm x hx =>
    h x (List.mem_append.2 (.inr (List.mem_filterMap.2 ⟨m, hm, hx⟩)))⟩

theorem processDef_map {d : Def} (h : ∀ c ∈ commentsOf d, CleanComment c) :
    processDef (bareDef d) = (processDef d).map bareDef := by
  cases d with
  | seq n c ms =>
    obtain ⟨h1, h2⟩ := members_clean h
    simp only [bareDef, processDef]
    rw [processMembers_eq h2, checkCommentOpt_ok.2 h1]
    cases processMembers ms <;> rfl
  | choice n c ms =>
    obtain ⟨h1, h2⟩ := members_clean h
    simp only [bareDef, processDef]
    rw [processMembers_eq h2, checkCommentOpt_ok.2 h1]
    cases processMembers ms <;> rfl
  | enum n c its =>
    have h1 : ∀ x ∈ c, CleanComment x := fun x hx => h x (by simp [commentsOf, Option.mem_def.1 hx])
    have h2 : processEnumComments its = .ok () := by
      rw [processEnumComments_ok]
      intro it hit
      exact checkCommentOpt_ok.2 fun x hx =>
        h x (List.mem_append.2 (.inr (List.mem_filterMap.2 ⟨it, hit, hx⟩)))
    have h3 : processEnumComments (its.map bareItem) = .ok () := by
      rw [processEnumComments_ok]
      intro it hit
      obtain ⟨it', _, rfl⟩ := List.mem_map.1 hit
      rfl
    simp only [bareDef, processDef]
    rw [h2, h3, checkEnumerated_map, checkCommentOpt_ok.2 h1]
    cases checkEnumerated its with
    | error e => rfl
    | ok slots =>
      show Except.ok (Def.enum n none ((slots.map (Option.map bareItem)).filterMap id)) = _
      rw [filterMap_bare]
      rfl
  | simple n c t =>
    have h1 : ∀ x ∈ c, CleanComment x := fun x hx => h x (by simp [commentsOf, Option.mem_def.1 hx])
    simp only [bareDef, processDef]
    rw [checkCommentOpt_ok.2 h1]
    cases checkTypeObj t with
    | error e => rfl
    | ok u => cases nullCheckSimple n t <;> rfl

theorem processDefs_map {ds : List Def} (h : ∀ d ∈ ds, ∀ c ∈ commentsOf d, CleanComment c) :
    processDefs (ds.map bareDef) = (processDefs ds).map (List.map bareDef) := by
  induction ds with
  | nil => rfl
  | cons d ds ih =>
    rw [List.map_cons, processDefs, processDefs, processDef_map (h d (by simp)),
      ih fun d hd => h d (by simp [hd])]
    cases processDef d with
    | error e => rfl
    | ok d => cases processDefs ds <;> rfl

theorem map_bareDef_name (ds : List Def) : (ds.map bareDef).map Def.name = ds.map Def.name := by
  rw [List.map_map]
  exact List.map_congr_left fun d _ => bareDef_name d

theorem knownTypes_bare (m : Module) : knownTypes (bare m) = knownTypes m := by
  simp only [knownTypes, bare, map_bareDef_name]

theorem checkUsedTypes_eq (m : Module) : checkUsedTypes (bare m) = checkUsedTypes m := by
  unfold checkUsedTypes
  rw [knownTypes_bare]
  congr 1
  simp only [bare, List.all_map, eq_iff_iff, Bool.coe_iff_coe]
  congr 1
  funext d
  simp only [Function.comp_apply, bareDef_members, List.all_map]
  rfl

theorem processModule_map {m : Module} (h : CleanComments m) :
    processModule (bare m) = (processModule m).map bare := by
  have h1 : checkCommentOpt false m.comment = .ok () := checkCommentOpt_ok.2 fun x hx => h.1 x (by
    simp [Option.mem_def.1 hx])
  have h2 : checkCommentOpt false m.commentImport = .ok () := checkCommentOpt_ok.2 fun x hx => h.1 x (by
    simp [Option.mem_def.1 hx])
  unfold processModule
  rw [h1, h2]
  show (processDefs (m.defs.map bareDef) >>= fun ds =>
    checkUsedTypes { bare m with defs := ds } >>= fun _ => pure { bare m with defs := ds }) = _
  rw [processDefs_map h.2]
  cases processDefs m.defs with
  | error e => rfl
  | ok ds =>
    show (checkUsedTypes (bare { m with defs := ds }) >>= fun _ => pure (bare { m with defs := ds })) =
      (checkUsedTypes { m with defs := ds } >>= fun _ => pure { m with defs := ds }).map bare
    rw [checkUsedTypes_eq]
    cases checkUsedTypes { m with defs := ds } <;> rfl

theorem processModules_map {ms : List Module} (h : ∀ m ∈ ms, CleanComments m) :
    processModules (ms.map bare) = (processModules ms).map (List.map bare) := by
  induction ms with
  | nil => rfl
  | cons m ms ih =>
    rw [List.map_cons, processModules, processModules, processModule_map (h m (by simp)),
      ih fun d hd => h d (by simp [hd])]
    cases processModule m with
    | error e => rfl
    | ok d => cases processModules ms <;> rfl

/-! ### Bundles -/

/-- A module of a bundle without comments. -/
def bareBMod (m : BMod) : BMod := ⟨bare m.mod, m.imported.map bare⟩

/-- A bundle without comments. -/
def bareBundle (b : Bundle) : Bundle := { b with mods := b.mods.map bareBMod }

theorem lastNamed_bare (ms : List Module) (n : String) :
    lastNamed (ms.map bare) n = (lastNamed ms n).map bare := by
  induction ms with
  | nil => rfl
  | cons m ms ih =>
    rw [List.map_cons, lastNamed, lastNamed, ih]
    cases lastNamed ms n with
    | some r => rfl
    | none =>
      show (if m.name = n then _ else _) = Option.map bare (if m.name = n then _ else _)
      split <;> rfl

theorem lastDef_bare (ds : List Def) (n : String) :
    lastDef (ds.map bareDef) n = (lastDef ds n).map bareDef := by
  induction ds with
  | nil => rfl
  | cons d ds ih =>
    rw [List.map_cons, lastDef, lastDef, ih, bareDef_name]
    cases lastDef ds n with
    | some r => rfl
    | none =>
      simp only [Option.map_none]
      split <;> rfl

theorem resolveDeps_bare (all ms : List Module) :
    resolveDeps (all.map bare) (ms.map bare) = (resolveDeps all ms).map (List.map bareBMod) := by
  induction ms with
  | nil => rfl
  | cons m ms ih =>
    rw [List.map_cons, resolveDeps, resolveDeps, ih]
    have e1 : (ms.map bare).any (fun r => decide (r.name = (bare m).name)) =
        ms.any (fun r => decide (r.name = m.name)) := by
      rw [List.any_map]; rfl
    have e2 : (bare m).imports.any (fun i => (lastNamed (all.map bare) i.module).isNone) =
        m.imports.any (fun i => (lastNamed all i.module).isNone) := by
      show m.imports.any _ = _
      congr 1
      funext i
      rw [lastNamed_bare, Option.isNone_map]
    rw [e1, e2]
    split
    · cases resolveDeps all ms <;> rfl
    · split
      · rfl
      · cases resolveDeps all ms with
        | error e => rfl
        | ok r =>
          show Except.ok (_ :: _) = Except.ok (_ :: _)
          congr 2
          unfold bareBMod
          congr 1
          show m.imports.filterMap _ = _
          rw [List.map_filterMap]
          congr 1
          funext i
          exact lastNamed_bare all i.module

theorem simpleDefsUsed_bare (m : Module) : simpleDefsUsed (bare m) = simpleDefsUsed m := by
  unfold simpleDefsUsed bare
  simp only [List.flatMap_map, bareDef_members, List.filterMap_map]
  rfl

theorem simpleUses_bare (ms : List Module) : simpleUses (ms.map bare) = simpleUses ms := by
  unfold simpleUses
  rw [List.foldl_map]
  congr 1
  funext acc m
  rw [simpleDefsUsed_bare]
  rfl

theorem build_map (ms : List Module) : build (ms.map bare) = (build ms).map bareBundle := by
  unfold build
  rw [resolveDeps_bare, simpleUses_bare]
  cases resolveDeps ms ms <;> rfl

theorem bareBundle_modules (b : Bundle) : (bareBundle b).modules = b.modules.map bare := by
  unfold Bundle.modules bareBundle
  simp only [List.map_map]
  rfl

theorem allDefs_bare (ms : List Module) : allDefs (ms.map bare) = (allDefs ms).map bareDef := by
  unfold allDefs
  rw [List.flatMap_map, List.map_flatMap]
  rfl

theorem bareBundle_defs (b : Bundle) : (bareBundle b).defs = b.defs.map bareDef := by
  unfold Bundle.defs
  rw [bareBundle_modules, allDefs_bare]

theorem map_bare_name (ms : List Module) : (ms.map bare).map (·.name) = ms.map (·.name) := by
  rw [List.map_map]; rfl

/-! ### Validation -/

theorem seqsNamed_bare (ds : List Def) (n : String) :
    seqsNamed (ds.map bareDef) n = (seqsNamed ds n).map (List.map bareMember) := by
  unfold seqsNamed
  rw [List.filterMap_map, List.map_filterMap]
  congr 1
  funext d
  cases d <;> simp only [Function.comp_apply, bareDef, Option.map_none]
  split <;> rfl

theorem memberTypeName_bare (ms : List Member) (k : String) :
    memberTypeName (ms.map bareMember) k = memberTypeName ms k := by
  unfold memberTypeName
  rw [List.find?_map, Option.map_map]
  rfl

theorem checkGo_bare (ds : List Def) (cs : Comps) : ∀ ms : List Member,
    checkWithComponent.go (ds.map bareDef) (ms.map bareMember) cs = checkWithComponent.go ds ms cs := by
  induction cs with
  | nil => intro ms; rfl
  | leaf k v r ih =>
    intro ms
    rw [checkWithComponent.go, checkWithComponent.go, ih, List.any_map]
    rfl
  | node k c r ihc ih =>
    intro ms
    rw [checkWithComponent.go, checkWithComponent.go, memberTypeName_bare, ih]
    cases memberTypeName ms k with
    | none => rfl
    | some tn =>
      simp only [seqsNamed_bare]
      congr 1
      match seqsNamed ds tn with
      | [] => rfl
      | [ms'] => exact ihc ms'
      | _ :: _ :: _ => rfl

theorem checkWithComponent_bare (ds : List Def) (t : String) (cs : Comps) :
    checkWithComponent (ds.map bareDef) t cs = checkWithComponent ds t cs := by
  unfold checkWithComponent
  rw [seqsNamed_bare]
  match seqsNamed ds t with
  | [] => rfl
  | [ms'] => exact checkGo_bare ds cs ms'
  | _ :: _ :: _ => rfl

theorem checkInner_bare (ds : List Def) (ms : List Member) :
    checkComponents.inner (ds.map bareDef) (ms.map bareMember) = checkComponents.inner ds ms := by
  induction ms with
  | nil => rfl
  | cons m ms ih =>
    rw [List.map_cons, checkComponents.inner, checkComponents.inner, ih]
    congr 1
    show (match m.comps with | none => _ | some cs => checkWithComponent (ds.map bareDef) m.type.name cs) = _
    cases m.comps with
    | none => rfl
    | some cs => exact checkWithComponent_bare ds _ cs

theorem checkOuter_bare (ds es : List Def) :
    checkComponents.outer (ds.map bareDef) (es.map bareDef) = checkComponents.outer ds es := by
  induction es with
  | nil => rfl
  | cons d es ih =>
    cases d <;> simp only [List.map_cons, bareDef, checkComponents.outer, ih, checkInner_bare]

theorem checkComponents_bare (ds : List Def) : checkComponents (ds.map bareDef) = checkComponents ds :=
  checkOuter_bare ds ds

theorem checkDuplicates_bare (ds : List Def) : ∀ l, checkDuplicates l (ds.map bareDef) = checkDuplicates l ds := by
  induction ds with
  | nil => intro l; rfl
  | cons d ds ih => intro l; simp only [List.map_cons, checkDuplicates, bareDef_name, ih]

theorem importsDefined_bare (b : BMod) : importsDefined (bareBMod b) = importsDefined b := by
  unfold importsDefined bareBMod
  simp only [List.all_map]
  congr 1
  funext im
  simp only [Function.comp_apply, bare, map_bareDef_name]
  rfl

theorem validateBundle_bare (b : Bundle) : validateBundle (bareBundle b) = validateBundle b := by
  unfold validateBundle checkImportsAndComponents
  rw [bareBundle_defs, checkComponents_bare, checkDuplicates_bare]
  have : (bareBundle b).mods.all importsDefined = b.mods.all importsDefined := by
    show (b.mods.map bareBMod).all importsDefined = _
    rw [List.all_map]
    congr 1
    funext m
    exact importsDefined_bare m
  rw [this]

theorem buildFromTexts_map {raw : List Module} (h : ∀ m ∈ raw, CleanComments m) :
    buildFromTexts (raw.map bare) = (buildFromTexts raw).map bareBundle := by
  unfold buildFromTexts
  rw [processModules_map h]
  cases processModules raw with
  | error e => rfl
  | ok ms =>
    show (build (ms.map bare) >>= fun b => _) = (build ms >>= fun b => _).map _
    rw [build_map]
    cases build ms with
    | error e => rfl
    | ok b =>
      show (validateBundle (bareBundle b) >>= fun _ => _) = (validateBundle b >>= fun _ => _).map _
      rw [validateBundle_bare]
      cases validateBundle b <;> rfl

theorem checkMissing_bare (cfg : List String) (b : Bundle) :
    checkMissingModules cfg (bareBundle b) = checkMissingModules cfg b := by
  unfold checkMissingModules
  rw [bareBundle_modules, map_bare_name]

theorem buildFromConfig_map {raw : List Module} (h : ∀ m ∈ raw, CleanComments m) (cfg : List String) :
    buildFromConfig (raw.map bare) cfg = (buildFromConfig raw cfg).map bareBundle := by
  unfold buildFromConfig
  rw [processModules_map h]
  cases processModules raw with
  | error e => rfl
  | ok ms =>
    show (validateUniqueModuleNames (ms.map bare) cfg >>= fun _ => build (ms.map bare) >>= fun b => _) =
      (validateUniqueModuleNames ms cfg >>= fun _ => build ms >>= fun b => _).map _
    have : validateUniqueModuleNames (ms.map bare) cfg = validateUniqueModuleNames ms cfg := by
      unfold validateUniqueModuleNames; rw [map_bare_name]
    rw [this, build_map]
    cases validateUniqueModuleNames ms cfg with
    | error e => rfl
    | ok u =>
      cases build ms with
      | error e => rfl
      | ok b =>
        show (validateBundle (bareBundle b) >>= fun _ => checkMissingModules cfg (bareBundle b) >>= fun _ => _) =
          (validateBundle b >>= fun _ => checkMissingModules cfg b >>= fun _ => _).map _
        rw [validateBundle_bare, checkMissing_bare]
        cases validateBundle b with
        | error e => rfl
        | ok u => cases checkMissingModules cfg b <;> rfl

/-- A refused comment is the only difference. -/
theorem accepted_clean {ms ms' : List Module} (h : processModules ms = .ok ms') : ∀ m ∈ ms, CleanComments m := by
  induction ms generalizing ms' with
  | nil => intro m hm; cases hm
  | cons m ms ih =>
    simp only [processModules, bind_ok, pure_ok] at h
    obtain ⟨m1, h1, ms1, h2, _⟩ := h
    intro x hx
    rcases List.mem_cons.1 hx with rfl | hx
    · exact processModule_clean h1
    · exact ih h2 x hx

end Apg
