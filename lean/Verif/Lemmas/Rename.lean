import Verif.Spec.Rename
import Verif.Lemmas.BareBuild

/-!
# Bundles of renamed modules
-/

namespace Apg

open Spec

variable {ρ ν : String → String}

theorem Spec.Renaming.iff (h : Renaming ρ ν) {a b : String} : ρ a = ρ b ↔ a = b := ⟨h.types a b, fun e => e ▸ rfl⟩

theorem Spec.Renaming.miff (h : Renaming ρ ν) {a b : String} : ν a = ν b ↔ a = b := ⟨h.modules a b, fun e => e ▸ rfl⟩

theorem Spec.Renaming.fixed (h : Renaming ρ ν) {a r : String} (hr : r ∈ reservedNames) : ρ a = r ↔ a = r :=
  ⟨fun e => h.types _ _ (e.trans (h.reserved r hr).symm), fun e => e ▸ h.reserved r hr⟩

theorem Spec.Renaming.contains (h : Renaming ρ ν) (l : List String) (a : String) : (l.map ρ).contains (ρ a) = l.contains a := by
  rw [Bool.eq_iff_iff, List.contains_iff_mem, List.contains_iff_mem]
  exact ⟨fun hm => by
    obtain ⟨x, hx, he⟩ := List.mem_map.1 hm
    rw [← h.types _ _ he]; exact hx, fun hm => List.mem_map_of_mem hm⟩

theorem Spec.Renaming.mcontains (h : Renaming ρ ν) (l : List String) (a : String) : (l.map ν).contains (ν a) = l.contains a := by
  rw [Bool.eq_iff_iff, List.contains_iff_mem, List.contains_iff_mem]
  exact ⟨fun hm => by
    obtain ⟨x, hx, he⟩ := List.mem_map.1 hm
    rw [← h.modules _ _ he]; exact hx, fun hm => List.mem_map_of_mem hm⟩

theorem Spec.Renaming.predefined (h : Renaming ρ ν) : Apg.predefined.map ρ = Apg.predefined := by
  have : ∀ n ∈ Apg.predefined, n ∈ reservedNames := by decide
  calc Apg.predefined.map ρ = Apg.predefined.map id := List.map_congr_left fun n hn => h.reserved n (this n hn)
    _ = _ := List.map_id _

theorem Spec.Renaming.predefined_contains (h : Renaming ρ ν) (a : String) :
    Apg.predefined.contains (ρ a) = Apg.predefined.contains a := by
  have := h.contains Apg.predefined a
  rwa [h.predefined] at this

theorem posix_reserved {n : String} (h : (posixRange n).isSome) : n ∈ reservedNames := by
  unfold posixRange at h
  split at h <;> first | decide | (exact absurd h (by simp))

theorem posixRange_rename (h : Renaming ρ ν) (n : String) : posixRange (ρ n) = posixRange n := by
  by_cases h1 : n ∈ reservedNames
  · rw [h.reserved n h1]
  · have h2 : ρ n ∉ reservedNames := fun h2 => h1 (((h.fixed h2).1 rfl) ▸ h2)
    have e1 : posixRange n = none := by
      cases e : posixRange n with
      | none => rfl
      | some x => exact absurd (posix_reserved (by rw [e]; rfl)) h1
    have e2 : posixRange (ρ n) = none := by
      cases e : posixRange (ρ n) with
      | none => rfl
      | some x => exact absurd (posix_reserved (by rw [e]; rfl)) h2
    rw [e1, e2]

theorem renameType_name (t : AType) : (renameType ρ t).name = ρ t.name := by
  induction t with
  | plain => rfl
  | str => rfl
  | arr e l ih => exact ih

theorem renameType_lo (t : AType) : (renameType ρ t).lo = t.lo := by cases t <;> rfl
theorem renameType_hi (t : AType) : (renameType ρ t).hi = t.hi := by cases t <;> rfl

theorem renameType_inj (h : Renaming ρ ν) {t u : AType} (he : renameType ρ t = renameType ρ u) : t = u := by
  induction t generalizing u with
  | plain n lo hi => cases u <;> simp_all [renameType]; exact h.types _ _ he.1
  | str n l => cases u <;> simp_all [renameType]; exact h.types _ _ he.1
  | arr e l ih =>
    cases u with
    | arr e' l' =>
      simp only [renameType, AType.arr.injEq] at he
      rw [ih he.1, he.2]
    | plain => cases he
    | str => cases he

theorem classify_rename (h : Renaming ρ ν) (n : String) (lo hi : Option Num) (s : Bool) :
    classify (ρ n) lo hi s = classify n lo hi s := by
  by_cases h1 : n ∈ reservedNames
  · rw [h.reserved n h1]
  · have h2 : ∀ r ∈ reservedNames, ρ n ≠ r ∧ n ≠ r := fun r hr => by
      refine ⟨fun e => h1 ?_, fun e => h1 (e ▸ hr)⟩
      rw [(h.fixed hr).1 e]; exact hr
    unfold classify
    rw [posixRange_rename h]
    have e1 : (posixRange n).isSome = false := by
      cases e : posixRange n with
      | none => rfl
      | some x => exact absurd (posix_reserved (by rw [e]; rfl)) h1
    have i := h2 "INTEGER" (by decide)
    have r := h2 "REAL" (by decide)
    have b := h2 "BOOLEAN" (by decide)
    simp only [e1, i.1, i.2, r.1, r.2, b.1, b.2, if_false, Bool.false_eq_true]

theorem asn1Type_rename (h : Renaming ρ ν) (t : AType) : asn1Type (renameType ρ t) = asn1Type t := by
  unfold asn1Type
  rw [renameType_lo, renameType_hi, renameType_name]
  simp only [classify_rename h]
  cases t <;> rfl

theorem cType_rename (h : Renaming ρ ν) (t : AType) : (renameType ρ t).cType = t.cType := by
  unfold AType.cType
  rw [asn1Type_rename h]

theorem checkTypeObj_rename (h : Renaming ρ ν) (t : AType) : checkTypeObj (renameType ρ t) = checkTypeObj t := by
  induction t with
  | plain n lo hi =>
    have := asn1Type_rename h (.plain n lo hi)
    simp only [renameType] at this ⊢
    simp only [checkTypeObj, this]
  | str n l =>
    have := asn1Type_rename h (.str n l)
    simp only [renameType] at this ⊢
    simp only [checkTypeObj, this]
  | arr e l ih =>
    have := asn1Type_rename h (.arr e l)
    simp only [renameType] at this ⊢
    simp only [checkTypeObj, this, ih]

/-! ### Processing -/

theorem processMember_rename (h : Renaming ρ ν) (m : Member) : processMember (renameMember ρ m) = processMember m := by
  have hn : ρ m.type.name = "NULL" ↔ m.type.name = "NULL" := h.fixed (by decide)
  unfold processMember nullCheckMember renameMember
  simp only [checkTypeObj_rename h, renameType_name, hn]

theorem processMembers_rename (h : Renaming ρ ν) (ms : List Member) :
    processMembers (ms.map (renameMember ρ)) = processMembers ms := by
  induction ms with
  | nil => rfl
  | cons m ms ih => rw [List.map_cons, processMembers, processMembers, processMember_rename h, ih]

theorem nullCheckSimple_rename (h : Renaming ρ ν) (n : String) (t : AType) :
    nullCheckSimple (ρ n) (renameType ρ t) = nullCheckSimple n t := by
  have hn : ρ t.name = "NULL" ↔ t.name = "NULL" := h.fixed (by decide)
  unfold nullCheckSimple checkPosix
  simp only [renameType_name, hn, posixRange_rename h, renameType_lo, renameType_hi]

theorem processDef_rename (h : Renaming ρ ν) (d : Def) :
    processDef (renameDef ρ d) = (processDef d).map (renameDef ρ) := by
  cases d with
  | seq n c ms =>
    simp only [renameDef, processDef, processMembers_rename h]
    cases checkCommentOpt false c with
    | error e => rfl
    | ok u => cases processMembers ms <;> rfl
  | choice n c ms =>
    simp only [renameDef, processDef, processMembers_rename h]
    cases checkCommentOpt false c with
    | error e => rfl
    | ok u => cases processMembers ms <;> rfl
  | enum n c its =>
    simp only [renameDef, processDef]
    cases checkCommentOpt false c with
    | error e => rfl
    | ok u =>
      cases processEnumComments its with
      | error e => rfl
      | ok u => cases checkEnumerated its <;> rfl
  | simple n c t =>
    simp only [renameDef, processDef, checkTypeObj_rename h, nullCheckSimple_rename h]
    cases checkTypeObj t with
    | error e => rfl
    | ok u =>
      cases checkCommentOpt false c with
      | error e => rfl
      | ok u => cases nullCheckSimple n t <;> rfl

theorem processDefs_rename (h : Renaming ρ ν) (ds : List Def) :
    processDefs (ds.map (renameDef ρ)) = (processDefs ds).map (List.map (renameDef ρ)) := by
  induction ds with
  | nil => rfl
  | cons d ds ih =>
    rw [List.map_cons, processDefs, processDefs, processDef_rename h, ih]
    cases processDef d with
    | error e => rfl
    | ok d => cases processDefs ds <;> rfl

theorem renameDef_name (d : Def) : (renameDef ρ d).name = ρ d.name := by cases d <;> rfl

theorem renameDef_members (d : Def) : (renameDef ρ d).members = d.members.map (renameMember ρ) := by
  cases d <;> rfl

theorem renameDef_comment (d : Def) : (renameDef ρ d).comment = d.comment := by cases d <;> rfl

theorem map_rename_name (ds : List Def) : (ds.map (renameDef ρ)).map Def.name = (ds.map Def.name).map ρ := by
  rw [List.map_map, List.map_map]
  exact List.map_congr_left fun d _ => renameDef_name d

theorem map_inj {α β : Type} {f : α → β} (hf : ∀ a b, f a = f b → a = b) : ∀ {l l' : List α}, l.map f = l'.map f → l = l'
  | [], [], _ => rfl
  | [], _ :: _, h => by cases h
  | _ :: _, [], h => by cases h
  | a :: l, b :: l', h => by
    rw [List.map_cons, List.map_cons] at h
    injection h with h1 h2
    rw [hf _ _ h1, map_inj hf h2]

theorem renameMember_inj (h : Renaming ρ ν) {m k : Member} (he : renameMember ρ m = renameMember ρ k) : m = k := by
  cases m
  cases k
  simp only [renameMember, Member.mk.injEq] at he
  obtain ⟨h1, h2, h3, h4⟩ := he
  rw [h1, renameType_inj h h2, h3, h4]

theorem renameDef_inj (h : Renaming ρ ν) {d e : Def} (he : renameDef ρ d = renameDef ρ e) : d = e := by
  have hm := @map_inj _ _ (renameMember ρ) fun a b => renameMember_inj h
  cases d <;> cases e <;> simp only [renameDef, reduceCtorEq, Def.seq.injEq, Def.choice.injEq, Def.enum.injEq,
    Def.simple.injEq] at he
  · rw [h.types _ _ he.1, he.2.1, hm he.2.2]
  · rw [h.types _ _ he.1, he.2.1, hm he.2.2]
  · rw [h.types _ _ he.1, he.2.1, he.2.2]
  · rw [h.types _ _ he.1, he.2.1, renameType_inj h he.2.2]

theorem renameModule_inj (h : Renaming ρ ν) {m k : Module} (he : renameModule ρ ν m = renameModule ρ ν k) : m = k := by
  cases m
  cases k
  simp only [renameModule, Module.mk.injEq] at he
  obtain ⟨h1, h2, h3, h4, h5⟩ := he
  have hi : ∀ a b : ImportItem, (⟨a.defs.map ρ, ν a.module⟩ : ImportItem) = ⟨b.defs.map ρ, ν b.module⟩ → a = b := by
    intro a b hab
    cases a
    cases b
    simp only [ImportItem.mk.injEq] at hab
    rw [map_inj h.types hab.1, h.modules _ _ hab.2]
  rw [h.modules _ _ h1, h2, h3, map_inj hi h4, map_inj (fun a b => renameDef_inj h) h5]

theorem knownTypes_rename (h : Renaming ρ ν) (m : Module) : knownTypes (renameModule ρ ν m) = (knownTypes m).map ρ := by
  simp only [knownTypes, renameModule, map_rename_name, List.map_append, h.predefined, List.flatMap_map, List.map_flatMap]

theorem checkUsedTypes_rename (h : Renaming ρ ν) (m : Module) :
    checkUsedTypes (renameModule ρ ν m) = checkUsedTypes m := by
  unfold checkUsedTypes
  rw [knownTypes_rename h]
  congr 1
  simp only [renameModule, List.all_map, eq_iff_iff, Bool.coe_iff_coe]
  congr 1
  funext d
  simp only [Function.comp_apply, renameDef_members, List.all_map]
  congr 1
  funext k
  show ((knownTypes m).map ρ).contains (renameType ρ k.type).name = _
  rw [renameType_name, h.contains]

theorem processModule_rename (h : Renaming ρ ν) (m : Module) :
    processModule (renameModule ρ ν m) = (processModule m).map (renameModule ρ ν) := by
  unfold processModule
  show (checkCommentOpt false m.comment >>= fun _ => checkCommentOpt false m.commentImport >>= fun _ =>
    processDefs (m.defs.map (renameDef ρ)) >>= fun ds =>
    checkUsedTypes { renameModule ρ ν m with defs := ds } >>= fun _ => pure { renameModule ρ ν m with defs := ds }) = _
  rw [processDefs_rename h]
  cases checkCommentOpt false m.comment with
  | error e => rfl
  | ok u =>
  cases checkCommentOpt false m.commentImport with
  | error e => rfl
  | ok u =>
  cases processDefs m.defs with
  | error e => rfl
  | ok ds =>
    show (checkUsedTypes (renameModule ρ ν { m with defs := ds }) >>= fun _ => pure (renameModule ρ ν { m with defs := ds })) =
      (checkUsedTypes { m with defs := ds } >>= fun _ => pure { m with defs := ds }).map (renameModule ρ ν)
    rw [checkUsedTypes_rename h]
    cases checkUsedTypes { m with defs := ds } <;> rfl

theorem processModules_rename (h : Renaming ρ ν) (ms : List Module) :
    processModules (ms.map (renameModule ρ ν)) = (processModules ms).map (List.map (renameModule ρ ν)) := by
  induction ms with
  | nil => rfl
  | cons m ms ih =>
    rw [List.map_cons, processModules, processModules, processModule_rename h, ih]
    cases processModule m with
    | error e => rfl
    | ok d => cases processModules ms <;> rfl

/-! ### Bundles -/

/-- A renamed module of a bundle. -/
def renameBMod (ρ ν : String → String) (m : BMod) : BMod :=
  ⟨renameModule ρ ν m.mod, m.imported.map (renameModule ρ ν)⟩

/-- A renamed bundle. -/
def renameBundle (ρ ν : String → String) (b : Bundle) : Bundle :=
  ⟨b.mods.map (renameBMod ρ ν), b.uses.map fun u => (ρ u.1, u.2.map ν)⟩

theorem lastNamed_rename (h : Renaming ρ ν) (ms : List Module) (n : String) :
    lastNamed (ms.map (renameModule ρ ν)) (ν n) = (lastNamed ms n).map (renameModule ρ ν) := by
  induction ms with
  | nil => rfl
  | cons m ms ih =>
    rw [List.map_cons, lastNamed, lastNamed, ih]
    cases lastNamed ms n with
    | some r => rfl
    | none =>
      show (if ν m.name = ν n then _ else _) = Option.map _ (if m.name = n then _ else _)
      simp only [h.miff]
      split <;> rfl

theorem lastDef_rename (h : Renaming ρ ν) (ds : List Def) (n : String) :
    lastDef (ds.map (renameDef ρ)) (ρ n) = (lastDef ds n).map (renameDef ρ) := by
  induction ds with
  | nil => rfl
  | cons d ds ih =>
    rw [List.map_cons, lastDef, lastDef, ih, renameDef_name]
    cases lastDef ds n with
    | some r => rfl
    | none =>
      simp only [Option.map_none, h.iff]
      split <;> rfl

theorem resolveDeps_rename (h : Renaming ρ ν) (all ms : List Module) :
    resolveDeps (all.map (renameModule ρ ν)) (ms.map (renameModule ρ ν)) =
      (resolveDeps all ms).map (List.map (renameBMod ρ ν)) := by
  induction ms with
  | nil => rfl
  | cons m ms ih =>
    rw [List.map_cons, resolveDeps, resolveDeps, ih]
    have e1 : (ms.map (renameModule ρ ν)).any (fun r => decide (r.name = (renameModule ρ ν m).name)) =
        ms.any (fun r => decide (r.name = m.name)) := by
      rw [List.any_map]
      congr 1
      funext r
      exact decide_eq_decide.2 h.miff
    have e2 : (renameModule ρ ν m).imports.any (fun i => (lastNamed (all.map (renameModule ρ ν)) i.module).isNone) =
        m.imports.any (fun i => (lastNamed all i.module).isNone) := by
      show (m.imports.map _).any _ = _
      rw [List.any_map]
      congr 1
      funext i
      show (lastNamed (all.map (renameModule ρ ν)) (ν i.module)).isNone = _
      rw [lastNamed_rename h, Option.isNone_map]
    rw [e1, e2]
    split
    · cases resolveDeps all ms <;> rfl
    · split
      · rfl
      · cases resolveDeps all ms with
        | error e => rfl
        | ok r =>
          show Except.ok (_ :: _) = Except.ok (_ :: _)
          congr 2
          unfold renameBMod
          congr 1
          show (m.imports.map _).filterMap _ = _
          rw [List.map_filterMap, List.filterMap_map]
          congr 1
          funext i
          exact lastNamed_rename h all i.module

theorem simpleDefsUsed_rename (h : Renaming ρ ν) (m : Module) :
    simpleDefsUsed (renameModule ρ ν m) = (simpleDefsUsed m).map ρ := by
  unfold simpleDefsUsed renameModule
  simp only [List.flatMap_map, renameDef_members, List.filterMap_map, List.map_flatMap, List.map_filterMap]
  congr 1
  funext d
  congr 1
  funext k
  show (if k.comps.isNone && !predefined.contains (renameType ρ k.type).name then some (renameType ρ k.type).name else none) = _
  rw [renameType_name, h.predefined_contains]
  split <;> rfl

/-- Uses under new names. -/
def renameUse (ρ ν : String → String) (u : String × List String) : String × List String := (ρ u.1, u.2.map ν)

theorem addUse_rename (h : Renaming ρ ν) (us : List (String × List String)) (t n : String) :
    addUse (us.map (renameUse ρ ν)) (ρ t) (ν n) = (addUse us t n).map (renameUse ρ ν) := by
  induction us with
  | nil => rfl
  | cons u us ih =>
    obtain ⟨a, s⟩ := u
    show (if ρ a = ρ t then (ρ a, if (s.map ν).contains (ν n) then s.map ν else s.map ν ++ [ν n]) :: us.map (renameUse ρ ν)
      else (ρ a, s.map ν) :: addUse (us.map (renameUse ρ ν)) (ρ t) (ν n)) = _
    rw [ih, addUse, h.mcontains]
    simp only [h.iff]
    split
    · split
      · rfl
      · simp [renameUse]
    · rfl

theorem addUses_rename (h : Renaming ρ ν) (ts : List String) (n : String) : ∀ us : List (String × List String),
    (ts.map ρ).foldl (fun acc t => addUse acc t (ν n)) (us.map (renameUse ρ ν)) =
      (ts.foldl (fun acc t => addUse acc t n) us).map (renameUse ρ ν) := by
  induction ts with
  | nil => intro us; rfl
  | cons t ts ih => intro us; rw [List.map_cons, List.foldl_cons, List.foldl_cons, addUse_rename h, ih]

theorem simpleUses_rename (h : Renaming ρ ν) (ms : List Module) :
    simpleUses (ms.map (renameModule ρ ν)) = (simpleUses ms).map (renameUse ρ ν) := by
  unfold simpleUses
  have key : ∀ us : List (String × List String),
      (ms.map (renameModule ρ ν)).foldl (fun acc m => (simpleDefsUsed m).foldl (fun acc t => addUse acc t m.name) acc)
        (us.map (renameUse ρ ν)) =
      (ms.foldl (fun acc m => (simpleDefsUsed m).foldl (fun acc t => addUse acc t m.name) acc) us).map (renameUse ρ ν) := by
    induction ms with
    | nil => intro us; rfl
    | cons m ms ih =>
      intro us
      rw [List.map_cons, List.foldl_cons, List.foldl_cons, simpleDefsUsed_rename h]
      show (ms.map (renameModule ρ ν)).foldl _ (((simpleDefsUsed m).map ρ).foldl (fun acc t => addUse acc t (ν m.name)) _) = _
      rw [addUses_rename h, ih]
  exact key []

theorem build_rename (h : Renaming ρ ν) (ms : List Module) :
    build (ms.map (renameModule ρ ν)) = (build ms).map (renameBundle ρ ν) := by
  unfold build
  rw [resolveDeps_rename h, simpleUses_rename h]
  cases resolveDeps ms ms <;> rfl

theorem renameBundle_modules (b : Bundle) : (renameBundle ρ ν b).modules = b.modules.map (renameModule ρ ν) := by
  unfold Bundle.modules renameBundle
  simp only [List.map_map]
  rfl

theorem renameBundle_defs (b : Bundle) : (renameBundle ρ ν b).defs = b.defs.map (renameDef ρ) := by
  unfold Bundle.defs
  rw [renameBundle_modules]
  unfold allDefs
  rw [List.flatMap_map, List.map_flatMap]
  rfl

theorem map_renameModule_name (ms : List Module) :
    (ms.map (renameModule ρ ν)).map (·.name) = (ms.map (·.name)).map ν := by
  rw [List.map_map, List.map_map]; rfl

/-! ### Validation -/

theorem seqsNamed_rename (h : Renaming ρ ν) (ds : List Def) (n : String) :
    seqsNamed (ds.map (renameDef ρ)) (ρ n) = (seqsNamed ds n).map (List.map (renameMember ρ)) := by
  unfold seqsNamed
  rw [List.filterMap_map, List.map_filterMap]
  congr 1
  funext d
  cases d <;> simp only [Function.comp_apply, renameDef, Option.map_none, h.iff]
  split <;> rfl

theorem memberTypeName_rename (ms : List Member) (k : String) :
    memberTypeName (ms.map (renameMember ρ)) k = (memberTypeName ms k).map ρ := by
  unfold memberTypeName
  rw [List.find?_map, Option.map_map, Option.map_map]
  congr 1
  funext m
  exact renameType_name m.type

theorem checkGo_rename (h : Renaming ρ ν) (ds : List Def) (cs : Comps) : ∀ ms : List Member,
    checkWithComponent.go (ds.map (renameDef ρ)) (ms.map (renameMember ρ)) cs = checkWithComponent.go ds ms cs := by
  induction cs with
  | nil => intro ms; rfl
  | leaf k v r ih =>
    intro ms
    rw [checkWithComponent.go, checkWithComponent.go, ih, List.any_map]
    rfl
  | node k c r ihc ih =>
    intro ms
    rw [checkWithComponent.go, checkWithComponent.go, memberTypeName_rename, ih]
    cases memberTypeName ms k with
    | none => rfl
    | some tn =>
      simp only [Option.map_some, seqsNamed_rename h, h.predefined_contains]
      congr 1
      match seqsNamed ds tn with
      | [] => rfl
      | [ms'] => exact ihc ms'
      | _ :: _ :: _ => rfl

theorem checkWithComponent_rename (h : Renaming ρ ν) (ds : List Def) (t : String) (cs : Comps) :
    checkWithComponent (ds.map (renameDef ρ)) (ρ t) cs = checkWithComponent ds t cs := by
  unfold checkWithComponent
  rw [seqsNamed_rename h, h.predefined_contains]
  match seqsNamed ds t with
  | [] => rfl
  | [ms'] => exact checkGo_rename h ds cs ms'
  | _ :: _ :: _ => rfl

theorem checkInner_rename (h : Renaming ρ ν) (ds : List Def) (ms : List Member) :
    checkComponents.inner (ds.map (renameDef ρ)) (ms.map (renameMember ρ)) = checkComponents.inner ds ms := by
  induction ms with
  | nil => rfl
  | cons m ms ih =>
    rw [List.map_cons, checkComponents.inner, checkComponents.inner, ih]
    congr 1
    show (match m.comps with
      | none => _ | some cs => checkWithComponent (ds.map (renameDef ρ)) (renameType ρ m.type).name cs) = _
    cases m.comps with
    | none => rfl
    | some cs =>
      rw [renameType_name]
      exact checkWithComponent_rename h ds _ cs

theorem checkOuter_rename (h : Renaming ρ ν) (ds es : List Def) :
    checkComponents.outer (ds.map (renameDef ρ)) (es.map (renameDef ρ)) = checkComponents.outer ds es := by
  induction es with
  | nil => rfl
  | cons d es ih =>
    cases d <;> simp only [List.map_cons, renameDef, checkComponents.outer, ih, checkInner_rename h]

theorem checkDuplicates_rename (h : Renaming ρ ν) (ds : List Def) : ∀ l,
    checkDuplicates (l.map ρ) (ds.map (renameDef ρ)) = checkDuplicates l ds := by
  induction ds with
  | nil => intro l; rfl
  | cons d ds ih =>
    intro l
    have := ih (d.name :: l)
    rw [List.map_cons] at this
    simp only [List.map_cons, checkDuplicates, renameDef_name, h.contains, this]

theorem importsDefined_rename (h : Renaming ρ ν) (b : BMod) : importsDefined (renameBMod ρ ν b) = importsDefined b := by
  unfold importsDefined renameBMod
  simp only [List.all_map]
  congr 1
  funext im
  simp only [Function.comp_apply, renameModule, map_rename_name, List.filter_map, List.all_map]
  have e : ((fun i : ImportItem => decide (i.module = ν im.name)) ∘ fun i : ImportItem => ⟨i.defs.map ρ, ν i.module⟩) =
      fun i : ImportItem => decide (i.module = im.name) := by
    funext i
    exact decide_eq_decide.2 h.miff
  refine Eq.trans (congrArg (fun p => (b.mod.imports.filter p).all _) e) ?_
  congr 1
  funext i
  simp only [Function.comp_apply, List.all_map]
  congr 1
  funext n
  exact h.contains _ _

theorem validateBundle_rename (h : Renaming ρ ν) (b : Bundle) : validateBundle (renameBundle ρ ν b) = validateBundle b := by
  unfold validateBundle checkImportsAndComponents
  rw [renameBundle_defs]
  have e1 : checkComponents (b.defs.map (renameDef ρ)) = checkComponents b.defs := checkOuter_rename h b.defs b.defs
  have e2 : checkDuplicates [] (b.defs.map (renameDef ρ)) = checkDuplicates [] b.defs := checkDuplicates_rename h b.defs []
  have : (renameBundle ρ ν b).mods.all importsDefined = b.mods.all importsDefined := by
    show (b.mods.map (renameBMod ρ ν)).all importsDefined = _
    rw [List.all_map]
    congr 1
    funext m
    exact importsDefined_rename h m
  rw [this, e1, e2]

theorem buildFromTexts_rename (h : Renaming ρ ν) (raw : List Module) :
    buildFromTexts (raw.map (renameModule ρ ν)) = (buildFromTexts raw).map (renameBundle ρ ν) := by
  unfold buildFromTexts
  rw [processModules_rename h]
  cases processModules raw with
  | error e => rfl
  | ok ms =>
    show (build (ms.map (renameModule ρ ν)) >>= fun b => _) = (build ms >>= fun b => _).map _
    rw [build_rename h]
    cases build ms with
    | error e => rfl
    | ok b =>
      show (validateBundle (renameBundle ρ ν b) >>= fun _ => _) = (validateBundle b >>= fun _ => _).map _
      rw [validateBundle_rename h]
      cases validateBundle b <;> rfl

theorem count_map_inj {f : String → String} (hf : ∀ a b, f a = f b → a = b) (l : List String) (a : String) :
    (l.map f).count (f a) = l.count a := by
  induction l with
  | nil => rfl
  | cons x l ih =>
    rw [List.map_cons, List.count_cons, List.count_cons, ih]
    congr 1
    have : (f x == f a) = (x == a) := by
      rw [Bool.eq_iff_iff, beq_iff_eq, beq_iff_eq]
      exact ⟨hf x a, fun e => e ▸ rfl⟩
    rw [this]

theorem hasDuplicate_rename (h : Renaming ρ ν) (l : List String) : hasDuplicate (l.map ν) = hasDuplicate l := by
  unfold hasDuplicate
  rw [List.any_map]
  congr 1
  funext n
  simp only [Function.comp_apply, count_map_inj h.modules]

theorem checkMissing_rename (h : Renaming ρ ν) (cfg : List String) (b : Bundle) :
    checkMissingModules (cfg.map ν) (renameBundle ρ ν b) = checkMissingModules cfg b := by
  unfold checkMissingModules
  rw [renameBundle_modules, map_renameModule_name]
  simp only [List.any_map]
  have e1 : ((fun n => !(cfg.map ν).contains n) ∘ ν) = fun n => !cfg.contains n := by
    funext n
    simp only [Function.comp_apply, h.mcontains]
  have e2 : ((fun n => !((b.modules.map (·.name)).map ν).contains n) ∘ ν) = fun n => !(b.modules.map (·.name)).contains n := by
    funext n
    simp only [Function.comp_apply, h.mcontains]
  rw [e1, e2]

theorem buildFromConfig_rename (h : Renaming ρ ν) (raw : List Module) (cfg : List String) :
    buildFromConfig (raw.map (renameModule ρ ν)) (cfg.map ν) = (buildFromConfig raw cfg).map (renameBundle ρ ν) := by
  unfold buildFromConfig
  rw [processModules_rename h]
  cases processModules raw with
  | error e => rfl
  | ok ms =>
    show (validateUniqueModuleNames (ms.map (renameModule ρ ν)) (cfg.map ν) >>= fun _ =>
        build (ms.map (renameModule ρ ν)) >>= fun b => _) =
      (validateUniqueModuleNames ms cfg >>= fun _ => build ms >>= fun b => _).map _
    have : validateUniqueModuleNames (ms.map (renameModule ρ ν)) (cfg.map ν) = validateUniqueModuleNames ms cfg := by
      unfold validateUniqueModuleNames
      rw [map_renameModule_name, hasDuplicate_rename h, hasDuplicate_rename h]
    rw [this, build_rename h]
    cases validateUniqueModuleNames ms cfg with
    | error e => rfl
    | ok u =>
      cases build ms with
      | error e => rfl
      | ok b =>
        show (validateBundle (renameBundle ρ ν b) >>= fun _ => checkMissingModules (cfg.map ν) (renameBundle ρ ν b) >>= fun _ => _) =
          (validateBundle b >>= fun _ => checkMissingModules cfg b >>= fun _ => _).map _
        rw [validateBundle_rename h, checkMissing_rename h]
        cases validateBundle b with
        | error e => rfl
        | ok u => cases checkMissingModules cfg b <;> rfl

end Apg
