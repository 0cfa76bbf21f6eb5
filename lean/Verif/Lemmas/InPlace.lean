import Verif.Spec.InPlace
import Verif.Lemmas.UnfixCosmos
import Verif.Lemmas.LocalRun

/-!
# Bundles with simple types in place of their names
-/

namespace Apg

open Spec

variable {σ : String → Option AType}

theorem inPlaceDef_name (d : Def) : (inPlaceDef σ d).name = d.name := by cases d <;> rfl

theorem map_inPlaceDef_name (ds : List Def) : (ds.map (inPlaceDef σ)).map Def.name = ds.map Def.name := by
  rw [List.map_map]
  exact List.map_congr_left fun d _ => inPlaceDef_name d

/-- What is written in place of a name. -/
theorem inPlaceType_cases (σ : String → Option AType) (t : AType) : inPlaceType σ t = t ∨
    ∃ n lo hi t', t = .plain n lo hi ∧ σ n = some t' ∧ inPlaceType σ t = t' := by
  cases t with
  | plain n lo hi =>
    cases h : σ n with
    | none => left; simp [inPlaceType, h]
    | some t' => right; exact ⟨n, lo, hi, t', rfl, h, by simp [inPlaceType, h]⟩
  | str => exact .inl rfl
  | arr => exact .inl rfl

theorem number_name {t : AType} (h : NumberType t) : t.name = "INTEGER" ∨ t.name = "REAL" := by
  obtain ⟨n, lo, hi, rfl, h⟩ := h
  exact h

/-! ### Processing -/

/-- The types given are fit for members. -/
structure Given (σ : String → Option AType) : Prop where
  ok : ∀ n t, σ n = some t → checkTypeObj t = .ok ()
  number : ∀ n t, σ n = some t → NumberType t

theorem processMember_inPlace (hg : Given σ) {m : Member} (h : processMember m = .ok ()) :
    processMember (inPlaceMember σ m) = .ok () := by
  simp only [processMember, bind_unit_ok] at h ⊢
  obtain ⟨h1, h2, h3⟩ := h
  rcases inPlaceType_cases σ m.type with e | ⟨n, lo, hi, t', _, e1, e2⟩
  · simp only [inPlaceMember, nullCheckMember, e] at h3 ⊢
    exact ⟨h1, h2, h3⟩
  · simp only [inPlaceMember, nullCheckMember, e2]
    refine ⟨hg.ok _ _ e1, h2, if_neg fun hn => ?_⟩
    rcases number_name (hg.number _ _ e1) with h | h <;> rw [h] at hn <;> exact absurd hn (by decide)

theorem processMembers_inPlace (hg : Given σ) {ms : List Member} (h : processMembers ms = .ok ()) :
    processMembers (ms.map (inPlaceMember σ)) = .ok () := by
  induction ms with
  | nil => rfl
  | cons m ms ih =>
    simp only [List.map_cons, processMembers, bind_unit_ok] at h ⊢
    exact ⟨processMember_inPlace hg h.1, ih h.2⟩

theorem processDef_inPlace (hg : Given σ) {d d' : Def} (h : processDef d = .ok d') :
    processDef (inPlaceDef σ d) = .ok (inPlaceDef σ d') := by
  cases d with
  | seq n c ms =>
    simp only [processDef, bind_ok, exists_unit, pure_ok] at h
    obtain ⟨h1, h2, rfl⟩ := h
    simp only [inPlaceDef, processDef, h1, processMembers_inPlace hg h2, bind, Except.bind, pure, Except.pure]
  | choice n c ms =>
    simp only [processDef, bind_ok, exists_unit, pure_ok] at h
    obtain ⟨h1, h2, rfl⟩ := h
    simp only [inPlaceDef, processDef, h1, h2, bind, Except.bind, pure, Except.pure]
  | enum n c its =>
    simp only [processDef, bind_ok, exists_unit, pure_ok] at h
    obtain ⟨h1, h2, x, h3, rfl⟩ := h
    simp only [inPlaceDef, processDef, h1, h2, h3, bind, Except.bind, pure, Except.pure]
  | simple n c t =>
    simp only [processDef, bind_ok, exists_unit, pure_ok] at h
    obtain ⟨h1, h2, h3, rfl⟩ := h
    simp only [inPlaceDef, processDef, h1, h2, h3, bind, Except.bind, pure, Except.pure]

theorem knownTypes_inPlace (m : Module) : knownTypes (inPlace σ m) = knownTypes m := by
  simp only [knownTypes, inPlace, map_inPlaceDef_name]

theorem checkUsedTypes_inPlace (hg : Given σ) {m : Module} (h : checkUsedTypes m = .ok ()) :
    checkUsedTypes (inPlace σ m) = .ok () := by
  unfold checkUsedTypes at h ⊢
  rw [knownTypes_inPlace]
  split at h
  · rename_i ha
    refine if_pos ?_
    simp only [List.all_eq_true] at ha ⊢
    intro d hd k hk
    obtain ⟨d0, hd0, rfl⟩ := List.mem_map.1 hd
    cases d0 with
    | seq n c ms =>
      obtain ⟨k0, hk0, rfl⟩ := List.mem_map.1 hk
      have h0 := ha _ hd0 k0 hk0
      rcases inPlaceType_cases σ k0.type with e | ⟨n, lo, hi, t', _, e1, e2⟩
      · simp only [inPlaceMember, e]; exact h0
      · simp only [inPlaceMember, e2]
        rw [List.contains_iff_mem]
        rcases number_name (hg.number _ _ e1) with h | h <;> rw [h] <;> simp [knownTypes, predefined]
    | choice n c ms => exact ha _ hd0 k hk
    | enum => cases hk
    | simple => cases hk
  · cases h

theorem processModule_inPlace (hg : Given σ) {m m' : Module} (h : processModule m = .ok m') :
    processModule (inPlace σ m) = .ok (inPlace σ m') := by
  obtain ⟨h1, h2, ds, h3, rfl, h4⟩ := processModule_ok.1 h
  refine processModule_ok.2 ⟨h1, h2, ds.map (inPlaceDef σ), ?_, rfl, checkUsedTypes_inPlace hg h4⟩
  rw [processDefs_ok] at h3 ⊢
  clear h1 h2 h4 h
  show All2 _ (m.defs.map (inPlaceDef σ)) _
  generalize m.defs = l at h3
  induction h3 with
  | nil => exact .nil
  | cons h _ ih => exact .cons (processDef_inPlace hg h) ih

theorem processModules_inPlace (hg : Given σ) {ms ms' : List Module} (h : processModules ms = .ok ms') :
    processModules (ms.map (inPlace σ)) = .ok (ms'.map (inPlace σ)) := by
  rw [processModules_ok] at h ⊢
  induction h with
  | nil => exact .nil
  | cons h _ ih => exact .cons (processModule_inPlace hg h) ih

/-! ### Bundles -/

/-- A module of a bundle with types in place of names. -/
def inPlaceBMod (σ : String → Option AType) (m : BMod) : BMod := ⟨(inPlace σ) m.mod, m.imported.map (inPlace σ)⟩

/-- A bundle with types in place of names. -/
def inPlaceBundle (σ : String → Option AType) (b : Bundle) : Bundle := ⟨b.mods.map (inPlaceBMod σ), simpleUses (b.modules.map (inPlace σ))⟩

theorem lastNamed_inPlace (ms : List Module) (n : String) :
    lastNamed (ms.map (inPlace σ)) n = (lastNamed ms n).map (inPlace σ) := by
  induction ms with
  | nil => rfl
  | cons m ms ih =>
    rw [List.map_cons, lastNamed, lastNamed, ih]
    cases lastNamed ms n with
    | some r => rfl
    | none =>
      show (if m.name = n then _ else _) = Option.map (inPlace σ) (if m.name = n then _ else _)
      split <;> rfl

theorem lastDef_inPlace (ds : List Def) (n : String) :
    lastDef (ds.map (inPlaceDef σ)) n = (lastDef ds n).map (inPlaceDef σ) := by
  induction ds with
  | nil => rfl
  | cons d ds ih =>
    rw [List.map_cons, lastDef, lastDef, ih, inPlaceDef_name]
    cases lastDef ds n with
    | some r => rfl
    | none =>
      simp only [Option.map_none]
      split <;> rfl

theorem resolveDeps_inPlace (all ms : List Module) :
    resolveDeps (all.map (inPlace σ)) (ms.map (inPlace σ)) = (resolveDeps all ms).map (List.map (inPlaceBMod σ)) := by
  induction ms with
  | nil => rfl
  | cons m ms ih =>
    rw [List.map_cons, resolveDeps, resolveDeps, ih]
    have e1 : (ms.map (inPlace σ)).any (fun r => decide (r.name = ((inPlace σ) m).name)) =
        ms.any (fun r => decide (r.name = m.name)) := by
      rw [List.any_map]; rfl
    have e2 : ((inPlace σ) m).imports.any (fun i => (lastNamed (all.map (inPlace σ)) i.module).isNone) =
        m.imports.any (fun i => (lastNamed all i.module).isNone) := by
      show m.imports.any _ = _
      congr 1
      funext i
      rw [lastNamed_inPlace, Option.isNone_map]
    rw [e1, e2]
    split
    · cases resolveDeps all ms <;> rfl
    · split
      · rfl
      · cases resolveDeps all ms with
        | error e => rfl
        | ok r =>
          show Except.ok (_ :: _) = Except.ok (_ :: _)
          congr 2
          unfold inPlaceBMod
          congr 1
          show m.imports.filterMap _ = _
          rw [List.map_filterMap]
          congr 1
          funext i
          exact lastNamed_inPlace all i.module

theorem build_inPlace {ms : List Module} {b : Bundle} (h : build ms = .ok b) :
    build (ms.map (inPlace σ)) = .ok ((inPlaceBundle σ) b) := by
  unfold build at h ⊢
  rw [resolveDeps_inPlace]
  cases hr : resolveDeps ms ms with
  | error e => rw [hr] at h; cases h
  | ok r =>
    rw [hr] at h
    cases h
    have : r.map (·.mod) = ms := resolveDeps_mods hr
    show Except.ok _ = Except.ok _
    unfold inPlaceBundle Bundle.modules
    rw [this]

theorem inPlaceBundle_modules (b : Bundle) : ((inPlaceBundle σ) b).modules = b.modules.map (inPlace σ) := by
  unfold Bundle.modules inPlaceBundle
  simp only [List.map_map]
  rfl

theorem allDefs_inPlace (ms : List Module) : allDefs (ms.map (inPlace σ)) = (allDefs ms).map (inPlaceDef σ) := by
  unfold allDefs
  rw [List.flatMap_map, List.map_flatMap]
  rfl

theorem inPlaceBundle_defs (b : Bundle) : ((inPlaceBundle σ) b).defs = b.defs.map (inPlaceDef σ) := by
  unfold Bundle.defs
  rw [inPlaceBundle_modules, allDefs_inPlace]

theorem map_inPlace_name (ms : List Module) : (ms.map (inPlace σ)).map (·.name) = ms.map (·.name) := by
  rw [List.map_map]; rfl

/-! ### Validation -/

theorem checkDuplicates_inPlace (ds : List Def) : ∀ l, checkDuplicates l (ds.map (inPlaceDef σ)) = checkDuplicates l ds := by
  induction ds with
  | nil => intro l; rfl
  | cons d ds ih => intro l; simp only [List.map_cons, checkDuplicates, inPlaceDef_name, ih]

theorem importsDefined_inPlace (b : BMod) : importsDefined ((inPlaceBMod σ) b) = importsDefined b := by
  unfold importsDefined inPlaceBMod
  simp only [List.all_map]
  congr 1
  funext im
  simp only [Function.comp_apply, inPlace, map_inPlaceDef_name]
  rfl

theorem seqsNamed_inPlace (ds : List Def) (n : String) :
    seqsNamed (ds.map (inPlaceDef σ)) n = (seqsNamed ds n).map (List.map (inPlaceMember σ)) := by
  unfold seqsNamed
  rw [List.filterMap_map, List.map_filterMap]
  refine filterMap_same fun d _ => ?_
  cases d with
  | seq m c ms =>
    simp only [Function.comp_apply, inPlaceDef]
    split <;> rfl
  | _ => rfl

theorem seqsNamed_none {ds : List Def} {n : String} (h : ∀ d ∈ ds, d.name ≠ n) : seqsNamed ds n = [] := by
  unfold seqsNamed
  rw [List.filterMap_eq_nil_iff]
  intro d hd
  cases d with
  | seq m c ms => exact if_neg (h _ hd)
  | _ => rfl

/-- No definition has the name of a number type. -/
def NumbersFree (ds : List Def) : Prop := ∀ d ∈ ds, d.name ≠ "INTEGER" ∧ d.name ≠ "REAL"

theorem checkOne_inPlace (hg : Given σ) {ds : List Def} (hf : NumbersFree ds) {go go' : List Member → Except Err Unit}
    (hgo : ∀ ms, go ms = .ok () → go' (ms.map (inPlaceMember σ)) = .ok ()) {t : AType}
    (h : (match seqsNamed ds t.name with
      | [ms] => go ms
      | _ => if predefined.contains t.name then .ok () else .error .consistency) = Except.ok ()) :
    (match seqsNamed (ds.map (inPlaceDef σ)) (inPlaceType σ t).name with
      | [ms] => go' ms
      | _ => if predefined.contains (inPlaceType σ t).name then .ok () else .error Err.consistency) = Except.ok () := by
  rcases inPlaceType_cases σ t with e | ⟨n, lo, hi, t', _, e1, e2⟩
  · rw [e, seqsNamed_inPlace]
    match hs : seqsNamed ds t.name with
    | [] => rw [hs] at h; exact h
    | [ms] => rw [hs] at h; exact hgo ms h
    | a :: b :: l => rw [hs] at h; exact h
  · rw [e2, seqsNamed_inPlace]
    have hn : seqsNamed ds t'.name = [] ∧ predefined.contains t'.name = true := by
      rcases number_name (hg.number _ _ e1) with h | h <;> rw [h]
      · exact ⟨seqsNamed_none fun d hd => (hf d hd).1, by decide⟩
      · exact ⟨seqsNamed_none fun d hd => (hf d hd).2, by decide⟩
    rw [hn.1]
    exact if_pos hn.2

theorem find_key_inPlace (ms : List Member) (k : String) :
    (ms.map (inPlaceMember σ)).find? (fun m => m.key = k) = (ms.find? (fun m => m.key = k)).map (inPlaceMember σ) := by
  rw [List.find?_map]
  rfl

theorem checkGo_inPlace (hg : Given σ) {ds : List Def} (hf : NumbersFree ds) (cs : Comps) : ∀ ms,
    checkWithComponent.go ds ms cs = .ok () →
    checkWithComponent.go (ds.map (inPlaceDef σ)) (ms.map (inPlaceMember σ)) cs = .ok () := by
  induction cs with
  | nil => intro ms _; rfl
  | leaf k v rest ih =>
    intro ms h
    rw [checkWithComponent.go] at h ⊢
    have e : (ms.map (inPlaceMember σ)).any (fun m => decide (m.key = k)) = ms.any (fun m => decide (m.key = k)) := by
      rw [List.any_map]; rfl
    rw [e]
    split at h
    · rename_i hk; rw [if_pos hk]; exact ih ms h
    · cases h
  | node k c rest ih1 ih2 =>
    intro ms h
    rw [checkWithComponent.go] at h ⊢
    unfold memberTypeName at h ⊢
    rw [find_key_inPlace]
    cases hfk : ms.find? (fun m => decide (m.key = k)) with
    | none => rw [hfk] at h; cases h
    | some m =>
      rw [hfk] at h
      simp only [Option.map_some, bind_unit_ok] at h ⊢
      exact ⟨checkOne_inPlace hg hf ih1 h.1, ih2 ms h.2⟩

theorem checkComponents_inPlace (hg : Given σ) {ds : List Def} (hf : NumbersFree ds)
    (h : checkComponents ds = .ok ()) : checkComponents (ds.map (inPlaceDef σ)) = .ok () := by
  rw [checkComponents_ok] at h ⊢
  intro n c ms hd m hm cs hcs
  obtain ⟨d, hd0, he⟩ := List.mem_map.1 hd
  cases d with
  | seq n' c' ms' =>
    simp only [inPlaceDef, Def.seq.injEq] at he
    obtain ⟨_, _, rfl⟩ := he
    obtain ⟨m', hm', rfl⟩ := List.mem_map.1 hm
    exact checkOne_inPlace hg hf (checkGo_inPlace hg hf cs) (h n' c' ms' hd0 m' hm' cs hcs)
  | _ => cases he

theorem validateBundle_inPlace (hg : Given σ) {b : Bundle} (hf : NumbersFree b.defs) (h : validateBundle b = .ok ()) :
    validateBundle ((inPlaceBundle σ) b) = .ok () := by
  unfold validateBundle checkImportsAndComponents at h ⊢
  rw [inPlaceBundle_defs, checkDuplicates_inPlace]
  have e : ((inPlaceBundle σ) b).mods.all importsDefined = b.mods.all importsDefined := by
    show (b.mods.map (inPlaceBMod σ)).all importsDefined = _
    rw [List.all_map]
    congr 1
    funext m
    exact importsDefined_inPlace m
  rw [e]
  split at h
  · rename_i hi
    rw [if_pos hi]
    cases hc : checkComponents b.defs with
    | error e => rw [hc] at h; cases h
    | ok u => rw [checkComponents_inPlace hg hf hc]; rw [hc] at h; exact h
  · cases h

theorem buildFromTexts_inPlace (hg : Given σ) {raw : List Module} {b : Bundle} (hf : NumbersFree b.defs)
    (h : buildFromTexts raw = .ok b) : buildFromTexts (raw.map (inPlace σ)) = .ok (inPlaceBundle σ b) := by
  obtain ⟨ms, h1, h2, h3⟩ := buildFromTexts_ok.1 h
  exact buildFromTexts_ok.2 ⟨ms.map (inPlace σ), processModules_inPlace hg h1, build_inPlace h2,
    validateBundle_inPlace hg hf h3⟩

theorem buildFromConfig_inPlace (hg : Given σ) {raw : List Module} {cfg : List String} {b : Bundle}
    (hf : NumbersFree b.defs) (h : buildFromConfig raw cfg = .ok b) :
    buildFromConfig (raw.map (inPlace σ)) cfg = .ok (inPlaceBundle σ b) := by
  unfold buildFromConfig at h ⊢
  simp only [bind_ok, exists_unit, pure_ok] at h ⊢
  obtain ⟨ms, h1, h2, b', h3, h4, h5, rfl⟩ := h
  refine ⟨ms.map (inPlace σ), processModules_inPlace hg h1, ?_, _, build_inPlace h3, validateBundle_inPlace hg hf h4, ?_, rfl⟩
  · unfold validateUniqueModuleNames
    rw [map_inPlace_name]
    exact h2
  · unfold checkMissingModules
    rw [inPlaceBundle_modules, map_inPlace_name]
    exact h5

end Apg
