import Verif.Spec.Report
import Verif.Lemmas.Accept
import Verif.Lemmas.Program

/-!
# Lemmas about error messages
-/

namespace Apg
open Spec

theorem bindR_ok {α β} {x : Except Message α} {f : α → Except Message β} {b : β} :
    (x >>= f) = .ok b ↔ ∃ a, x = .ok a ∧ f a = .ok b := by
  cases x <;> simp [bind, Except.bind]

theorem bindR_error {α β} {x : Except Message α} {f : α → Except Message β} {e : Message} :
    (x >>= f) = .error e ↔ x = .error e ∨ ∃ a, x = .ok a ∧ f a = .error e := by
  cases x <;> simp [bind, Except.bind]

theorem pureR_ok {α} {a b : α} : (pure a : Except Message α) = .ok b ↔ a = b := by
  simp [pure, Except.pure]

theorem pureR_error {α} {a : α} {e : Message} : ¬ (pure a : Except Message α) = .error e := by
  simp [pure, Except.pure]

/-! ### Without messages, it is the other model -/

/-- The two end alike: with the same result, or with an exception of the same class. -/
def Erases {α} (x : Except Message α) (y : Except Err α) : Prop :=
  (∀ a, x = .ok a → y = .ok a) ∧ ∀ m, x = .error m → y = .error m.err

theorem Erases.ok {α} (a : α) : Erases (.ok a) (.ok a) := ⟨fun _ h => by cases h; rfl, fun _ h => by cases h⟩

theorem Erases.pure {α} (a : α) : Erases (Pure.pure a) (Pure.pure a) := Erases.ok a

theorem Erases.error {α} (m : Message) : Erases (α := α) (.error m) (.error m.err) :=
  ⟨fun _ h => (by cases h), fun _ h => by cases h; rfl⟩

theorem Erases.bind {α β} {x : Except Message α} {y : Except Err α} {f : α → Except Message β} {g : α → Except Err β}
    (h : Erases x y) (hf : ∀ a, Erases (f a) (g a)) : Erases (x >>= f) (y >>= g) := by
  cases x with
  | ok a =>
    rw [h.1 a rfl]
    exact hf a
  | error m =>
    rw [h.2 m rfl]
    exact Erases.error m

theorem classify_erases (n : String) (lo hi : Option Num) (s : Bool) : Erases (classifyR n lo hi s) (classify n lo hi s) := by
  unfold classifyR
  cases h : classify n lo hi s with
  | ok c => exact .ok c
  | error e =>
    have : e = .floatingPoint := by
      unfold classify at h
      repeat' split at h
      all_goals first | cases h; rfl | cases h
    subst this
    exact Erases.error _

theorem asn1Type_erases (t : AType) : Erases (asn1TypeR t) (asn1Type t) := by
  unfold asn1TypeR asn1Type
  dsimp only
  cases t.lo with
  | none => exact classify_erases ..
  | some b =>
    cases t.hi with
    | none => exact classify_erases ..
    | some e =>
      dsimp only
      split
      · exact Erases.error _
      · exact classify_erases ..

theorem checkTypeObj_erases (t : AType) : Erases (checkTypeObjR t) (checkTypeObj t) := by
  induction t with
  | arr e l ih => exact ih.bind fun _ => (asn1Type_erases _).bind fun _ => .pure _
  | _ => exact (asn1Type_erases _).bind fun _ => .pure _

theorem checkPosix_erases (n : String) (t : AType) : Erases (checkPosixR n t) (checkPosix n t) := by
  unfold checkPosixR checkPosix
  cases posixRange n with
  | none => exact .ok _
  | some p =>
    obtain ⟨b, e⟩ := p
    dsimp only
    cases t.lo with
    | none => exact Erases.error _
    | some lo =>
      cases t.hi with
      | none => exact Erases.error _
      | some hi =>
        dsimp only
        split
        · exact .ok _
        · exact Erases.error _

theorem nullMember_erases (m : Member) : Erases (nullCheckMemberR m) (nullCheckMember m) := by
  unfold nullCheckMemberR nullCheckMember
  split
  · exact Erases.error _
  · exact .ok _

theorem nullSimple_erases (n : String) (t : AType) : Erases (nullCheckSimpleR n t) (nullCheckSimple n t) := by
  unfold nullCheckSimpleR nullCheckSimple
  split
  · exact Erases.error _
  · exact checkPosix_erases n t

theorem fillSlots_erases (slots : List (Option EnumItem)) (its : List EnumItem) :
    Erases (fillSlotsR slots its) (fillSlots slots its) := by
  induction its generalizing slots with
  | nil => exact .ok _
  | cons it rest ih =>
    unfold fillSlotsR fillSlots
    cases pyIndex slots.length it.pos with
    | none => exact Erases.error _
    | some i =>
      dsimp only
      rcases slots[i]? with _ | _ | x
      · exact Erases.error _
      · exact ih _
      · exact Erases.error _

theorem checkEnumerated_erases (its : List EnumItem) : Erases (checkEnumeratedR its) (checkEnumerated its) := by
  unfold checkEnumeratedR checkEnumerated
  dsimp only
  split
  · exact .ok _
  · split
    · exact Erases.error _
    · exact fillSlots_erases ..

theorem checkComment_erases (k : Option String) (c : Comment) : Erases (checkCommentR k c) (checkComment k.isSome c) := by
  unfold checkCommentR checkComment
  split
  · exact .ok _
  · simp only [List.find?_cons, List.find?_nil]
    cases h1 : containsText ['['] c.text.toList <;> cases h2 : containsText [']'] c.text.toList <;>
      cases h3 : containsText ['-', '-'] c.text.toList <;>
      simp only [Bool.or_true, Bool.or_false, if_true, Bool.false_eq_true, if_false] <;>
      first
      | exact .ok _
      | (cases k with
        | none => exact Erases.error _
        | some k => exact Erases.error _)

theorem checkCommentOpt_erases (k : Option String) (c : Option Comment) :
    Erases (checkCommentOptR k c) (checkCommentOpt k.isSome c) := by
  cases c with
  | none => exact .ok _
  | some c => exact checkComment_erases k c

theorem processMember_erases (m : Member) : Erases (processMemberR m) (processMember m) :=
  (checkTypeObj_erases _).bind fun _ => (checkCommentOpt_erases (some _) _).bind fun _ => nullMember_erases m

theorem processMembers_erases (ms : List Member) : Erases (processMembersR ms) (processMembers ms) := by
  induction ms with
  | nil => exact .ok _
  | cons m ms ih => exact (processMember_erases m).bind fun _ => ih

theorem processEnumComments_erases (its : List EnumItem) : Erases (processEnumCommentsR its) (processEnumComments its) := by
  induction its with
  | nil => exact .ok _
  | cons i its ih => exact (checkCommentOpt_erases (some _) _).bind fun _ => ih

theorem processDef_erases (d : Def) : Erases (processDefR d) (processDef d) := by
  cases d with
  | seq n c ms => exact (checkCommentOpt_erases none c).bind fun _ => (processMembers_erases ms).bind fun _ => .pure _
  | choice n c ms => exact (checkCommentOpt_erases none c).bind fun _ => (processMembers_erases ms).bind fun _ => .pure _
  | enum n c its =>
    exact (checkCommentOpt_erases none c).bind fun _ => (processEnumComments_erases its).bind fun _ =>
      (checkEnumerated_erases its).bind fun _ => .pure _
  | simple n c t =>
    exact (checkTypeObj_erases t).bind fun _ => (checkCommentOpt_erases none c).bind fun _ =>
      (nullSimple_erases n t).bind fun _ => .pure _

theorem processDefs_erases (ds : List Def) : Erases (processDefsR ds) (processDefs ds) := by
  induction ds with
  | nil => exact .ok _
  | cons d ds ih => exact (processDef_erases d).bind fun _ => ih.bind fun _ => .pure _

theorem checkUsedTypes_erases (m : Module) : Erases (checkUsedTypesR m) (checkUsedTypes m) := by
  unfold checkUsedTypesR checkUsedTypes
  cases h : (m.defs.flatMap Def.members).find? fun k => !(knownTypes m).contains k.type.name with
  | none =>
    rw [if_pos]
    · exact .ok _
    · simp only [List.all_eq_true]
      intro d hd k hk
      have := List.find?_eq_none.1 h k (List.mem_flatMap.2 ⟨d, hd, hk⟩)
      simpa using this
  | some k =>
    obtain ⟨d, hd, hk⟩ := List.mem_flatMap.1 (List.mem_of_find?_eq_some h)
    rw [if_neg]
    · exact Erases.error _
    · simp only [List.all_eq_true]
      intro ha
      have h1 := List.find?_some h
      rw [ha d hd k hk] at h1
      cases h1

theorem processModule_erases (m : Module) : Erases (processModuleR m) (processModule m) :=
  (checkCommentOpt_erases none _).bind fun _ => (checkCommentOpt_erases none _).bind fun _ =>
    (processDefs_erases _).bind fun _ => (checkUsedTypes_erases _).bind fun _ => .pure _

theorem processModules_erases (ms : List Module) : Erases (processModulesR ms) (processModules ms) := by
  induction ms with
  | nil => exact .ok _
  | cons m ms ih => exact (processModule_erases m).bind fun _ => ih.bind fun _ => .pure _

theorem eraseDups_nil {l : List String} : l.eraseDups = [] ↔ l = [] := by
  constructor
  · intro h
    cases l with
    | nil => rfl
    | cons a l => rw [List.eraseDups_cons] at h; cases h
  · rintro rfl
    rfl

theorem missing_nil {all : List Module} {l : List ImportItem} :
    ((l.map (·.module)).filter fun n => !(all.map (·.name)).contains n) = [] ↔
      (l.any fun i => (lastNamed all i.module).isNone) = false := by
  rw [List.filter_eq_nil_iff, List.any_eq_false]
  have key : ∀ n, (all.map (·.name)).contains n = true ↔ ¬ (lastNamed all n).isNone = true := by
    intro n
    rw [List.contains_iff_mem]
    constructor
    · intro h hn
      obtain ⟨m, hm, rfl⟩ := List.mem_map.1 h
      exact lastNamed_none (Option.isNone_iff_eq_none.1 hn) m hm rfl
    · intro h
      obtain ⟨m, hm⟩ := Option.ne_none_iff_exists'.1 fun e => h (Option.isNone_iff_eq_none.2 e)
      obtain ⟨h1, rfl⟩ := lastNamed_some hm
      exact List.mem_map_of_mem h1
  constructor
  · intro h i hi
    refine (key _).1 ?_
    simpa using h i.module (List.mem_map_of_mem hi)
  · intro h n hn
    obtain ⟨i, hi, rfl⟩ := List.mem_map.1 hn
    have := (key _).2 (h i hi)
    simp only [this]
    decide

theorem resolveDeps_erases (all ms : List Module) : Erases (resolveDepsR all ms) (resolveDeps all ms) := by
  induction ms with
  | nil => exact .ok _
  | cons m ms ih =>
    unfold resolveDepsR resolveDeps
    split
    · exact ih.bind fun _ => .pure _
    · dsimp only
      cases ha : m.imports.any fun i => (lastNamed all i.module).isNone with
      | false =>
        rw [if_neg (by rw [eraseDups_nil.2 (missing_nil.2 ha)]; simp), if_neg (by simp)]
        exact ih.bind fun _ => .pure _
      | true =>
        have : ¬ ((m.imports.map (·.module)).filter fun n => !(all.map (·.name)).contains n).eraseDups = [] := by
          rw [eraseDups_nil, missing_nil, ha]
          simp
        rw [if_pos this, if_pos rfl]
        exact Erases.error _

theorem build_erases (ms : List Module) : Erases (buildR ms) (build ms) :=
  (resolveDeps_erases ms ms).bind fun _ => .pure _

theorem mem_duplicates {l : List String} {n : String} : n ∈ duplicates l ↔ 2 ≤ l.count n := by
  unfold duplicates
  rw [List.mem_eraseDups, List.mem_filter]
  simp only [gt_iff_lt, decide_eq_true_eq]
  constructor
  · exact fun h => h.2
  · exact fun h => ⟨List.count_pos_iff.1 (by omega), h⟩

theorem hasDuplicate_eq {l : List String} : hasDuplicate l = true ↔ duplicates l ≠ [] := by
  unfold hasDuplicate
  rw [List.any_eq_true]
  constructor
  · rintro ⟨n, _, h⟩ he
    have : n ∈ duplicates l := mem_duplicates.2 (Nat.succ_le_of_lt (by simpa using h))
    rw [he] at this
    cases this
  · intro h
    obtain ⟨n, hn⟩ := List.exists_mem_of_ne_nil _ h
    have := mem_duplicates.1 hn
    exact ⟨n, List.count_pos_iff.1 (by omega), by simpa using Nat.lt_of_succ_le this⟩

theorem unique_erases (ms : List Module) (cfg : List String) :
    Erases (validateUniqueModuleNamesR ms cfg) (validateUniqueModuleNames ms cfg) := by
  unfold validateUniqueModuleNamesR validateUniqueModuleNames
  split
  · rename_i h
    rw [if_pos (by rw [hasDuplicate_eq.2 h]; simp)]
    exact Erases.error _
  · rename_i h
    have h1 : hasDuplicate cfg = false := by
      rw [← Bool.not_eq_true, hasDuplicate_eq]; exact h
    split
    · rename_i h'
      rw [if_pos (by rw [hasDuplicate_eq.2 h']; simp)]
      exact Erases.error _
    · rename_i h'
      have h2 : hasDuplicate (ms.map (·.name)) = false := by
        rw [← Bool.not_eq_true, hasDuplicate_eq]; exact h'
      rw [if_neg (by rw [h1, h2]; simp)]
      exact .ok _

/-- The names that a module imports from `im` and that `im` does not define. -/
def undefinedFrom (b : BMod) (im : Module) : List String :=
  ((b.mod.imports.filter (fun i => i.module = im.name)).flatMap (·.defs)).filter fun n => !(im.defs.map Def.name).contains n

theorem undefinedFrom_nil {b : BMod} {im : Module} : undefinedFrom b im = [] ↔
    ((b.mod.imports.filter (fun i => i.module = im.name)).all fun i =>
      i.defs.all fun n => (im.defs.map Def.name).contains n) = true := by
  unfold undefinedFrom
  rw [List.filter_eq_nil_iff, List.all_eq_true]
  simp only [List.all_eq_true, List.mem_flatMap, Bool.not_eq_true', Bool.not_eq_false]
  constructor
  · exact fun h i hi n hn => h n ⟨i, hi, hn⟩
  · rintro h n ⟨i, hi, hn⟩
    exact h i hi n hn

theorem checkImportR_eq (b : BMod) (im : Module) : checkImportR b im =
    if (undefinedFrom b im).eraseDups ≠ [] then .error (.imports b.mod.name (undefinedFrom b im).eraseDups im.name)
    else .ok () := rfl

theorem checkImportsR_cases (b : BMod) (ims : List Module) :
    (checkImportsR b ims = .ok () ∧ ∀ im ∈ ims, undefinedFrom b im = []) ∨
    ∃ im ∈ ims, undefinedFrom b im ≠ [] ∧
      checkImportsR b ims = .error (.imports b.mod.name (undefinedFrom b im).eraseDups im.name) := by
  induction ims with
  | nil => exact .inl ⟨rfl, by simp⟩
  | cons im ims ih =>
    unfold checkImportsR
    rw [checkImportR_eq]
    by_cases h : (undefinedFrom b im) = []
    · rw [if_neg (by rw [eraseDups_nil.2 h]; simp)]
      rcases ih with ⟨h1, h2⟩ | ⟨im', h1, h2, h3⟩
      · exact .inl ⟨h1, by simpa [h] using h2⟩
      · exact .inr ⟨im', by simp [h1], h2, h3⟩
    · rw [if_pos (by rw [ne_eq, eraseDups_nil]; exact h)]
      exact .inr ⟨im, by simp, h, rfl⟩

theorem checkAllImportsR_cases (bs : List BMod) :
    (checkAllImportsR bs = .ok () ∧ bs.all importsDefined = true) ∨
    ∃ b ∈ bs, ∃ im ∈ b.imported, undefinedFrom b im ≠ [] ∧ bs.all importsDefined = false ∧
      checkAllImportsR bs = .error (.imports b.mod.name (undefinedFrom b im).eraseDups im.name) := by
  induction bs with
  | nil => exact .inl ⟨rfl, rfl⟩
  | cons b bs ih =>
    unfold checkAllImportsR
    rcases checkImportsR_cases b b.imported with ⟨h1, h2⟩ | ⟨im, h1, h2, h3⟩
    · rw [h1]
      have hb : importsDefined b = true := by
        unfold importsDefined
        rw [List.all_eq_true]
        exact fun im him => undefinedFrom_nil.1 (h2 im him)
      rcases ih with ⟨g1, g2⟩ | ⟨b', g1, im, g2, g3, g4, g5⟩
      · exact .inl ⟨g1, by rw [List.all_cons, hb, g2]; rfl⟩
      · exact .inr ⟨b', by simp [g1], im, g2, g3, by rw [List.all_cons, g4, Bool.and_false], g5⟩
    · rw [h3]
      refine .inr ⟨b, by simp, im, h1, h2, ?_, rfl⟩
      have hb : importsDefined b = false := by
        rw [← Bool.not_eq_true]
        intro hb
        unfold importsDefined at hb
        exact h2 (undefinedFrom_nil.2 (List.all_eq_true.1 hb im h1))
      rw [List.all_cons, hb, Bool.false_and]

theorem withGo_erases (ds : List Def) (d : String) (cs : Comps) (ms : List Member) :
    Erases (checkWithComponentR.go ds d ms cs) (checkWithComponent.go ds ms cs) := by
  induction cs generalizing ms with
  | nil => exact .ok _
  | leaf k v rest ih =>
    unfold checkWithComponentR.go checkWithComponent.go
    split
    · exact ih ms
    · exact Erases.error _
  | node k inner rest ih1 ih2 =>
    unfold checkWithComponentR.go checkWithComponent.go
    cases memberTypeName ms k with
    | none => exact Erases.error _
    | some tn =>
      refine Erases.bind ?_ fun _ => ih2 ms
      rcases seqsNamed ds tn with _ | ⟨ms', _ | ⟨x, l⟩⟩
      · dsimp only
        split
        · exact .ok _
        · exact Erases.error _
      · exact ih1 ms'
      · dsimp only
        split
        · exact .ok _
        · exact Erases.error _

theorem with_erases (ds : List Def) (d t : String) (cs : Comps) :
    Erases (checkWithComponentR ds d t cs) (checkWithComponent ds t cs) := by
  unfold checkWithComponentR checkWithComponent
  rcases seqsNamed ds t with _ | ⟨ms', _ | ⟨x, l⟩⟩
  · dsimp only
    split
    · exact .ok _
    · exact Erases.error _
  · exact withGo_erases ds d cs ms'
  · dsimp only
    split
    · exact .ok _
    · exact Erases.error _

theorem componentsInner_erases (ds : List Def) (d : String) (ms : List Member) :
    Erases (checkComponentsR.inner ds d ms) (checkComponents.inner ds ms) := by
  induction ms with
  | nil => exact .ok _
  | cons m ms ih =>
    unfold checkComponentsR.inner checkComponents.inner
    refine Erases.bind ?_ fun _ => ih
    cases m.comps with
    | none => exact .ok _
    | some cs => exact with_erases ..

theorem componentsOuter_erases (ds l : List Def) :
    Erases (checkComponentsR.outer ds l) (checkComponents.outer ds l) := by
  induction l with
  | nil => exact .ok _
  | cons d l ih =>
    cases d with
    | seq n c ms => exact (componentsInner_erases ds _ ms).bind fun _ => ih
    | _ => exact ih

theorem lookup_none {l : List (String × String)} {n : String} : l.lookup n = none ↔ n ∉ l.map (·.1) := by
  rw [List.lookup_eq_none_iff]
  simp only [List.mem_map, not_exists, not_and, bne_iff_ne, ne_eq]
  constructor
  · exact fun h p hp he => h p hp he.symm
  · exact fun h p hp he => h p hp he.symm

theorem duplicates_erases (l : List (String × Def)) (already : List (String × String)) :
    Erases (checkDuplicatesR already l) (checkDuplicates (already.map (·.1)) (l.map (·.2))) := by
  induction l generalizing already with
  | nil => exact .ok _
  | cons x l ih =>
    obtain ⟨m, d⟩ := x
    unfold checkDuplicatesR
    simp only [List.map_cons]
    unfold checkDuplicates
    cases h : already.lookup d.name with
    | none =>
      rw [if_neg (by rw [List.contains_iff_mem]; exact lookup_none.1 h)]
      exact ih ((d.name, _) :: already)
    | some m' =>
      have : d.name ∈ already.map (·.1) := Classical.byContradiction fun hn => by
        rw [lookup_none.2 hn] at h; cases h
      rw [if_pos (List.contains_iff_mem.2 this)]
      exact Erases.error _

theorem placedDefs_defs (ms : List Module) : (placedDefs ms).map (·.2) = allDefs ms := by
  unfold placedDefs allDefs
  rw [List.map_flatMap]
  congr 1
  funext m
  rw [List.map_map]
  exact List.map_id' _

theorem validate_erases (b : Bundle) : Erases (validateBundleR b) (validateBundle b) := by
  unfold validateBundleR validateBundle checkImportsAndComponents
  have hd : Erases (checkDuplicatesR [] (placedDefs b.modules)) (checkDuplicates [] b.defs) := by
    have := duplicates_erases (placedDefs b.modules) []
    rw [placedDefs_defs] at this
    exact this
  rcases checkAllImportsR_cases b.mods with ⟨h1, h2⟩ | ⟨bm, _, im, _, _, h4, h5⟩
  · rw [h1, if_pos h2]
    exact (componentsOuter_erases _ _).bind fun _ => hd
  · rw [h5, if_neg (by rw [h4]; simp)]
    exact Erases.error _

theorem filter_any {l l' : List String} : (l.any fun n => !l'.contains n) = true ↔ (l.filter fun n => !l'.contains n).eraseDups ≠ [] := by
  rw [ne_eq, eraseDups_nil, List.filter_eq_nil_iff, List.any_eq_true]
  constructor
  · rintro ⟨n, hn, h⟩ ha
    exact ha n hn h
  · intro h
    exact Classical.byContradiction fun hn => h fun n hm he => hn ⟨n, hm, he⟩

theorem missing_erases (cfg : List String) (b : Bundle) : Erases (checkMissingModulesR cfg b) (checkMissingModules cfg b) := by
  unfold checkMissingModulesR checkMissingModules
  dsimp only
  split
  · rename_i h
    rw [if_pos (by rw [filter_any.2 h, Bool.or_true])]
    exact Erases.error _
  · rename_i h
    split
    · rename_i h'
      rw [if_pos (by rw [filter_any.2 h', Bool.true_or])]
      exact Erases.error _
    · rename_i h'
      rw [if_neg]
      · exact .ok _
      · rw [Bool.or_eq_true, filter_any, filter_any]
        rintro (h1 | h1)
        · exact h' h1
        · exact h h1

theorem config_erases (raw : List Module) (cfg : List String) : Erases (buildFromConfigR raw cfg) (buildFromConfig raw cfg) :=
  (processModules_erases raw).bind fun ms => (unique_erases ms cfg).bind fun _ => (build_erases ms).bind fun b =>
    (validate_erases b).bind fun _ => (missing_erases cfg b).bind fun _ => .pure _

theorem texts_erases (raw : List Module) : Erases (buildFromTextsR raw) (buildFromTexts raw) :=
  (processModules_erases raw).bind fun ms => (build_erases ms).bind fun b => (validate_erases b).bind fun _ => .pure _

end Apg
