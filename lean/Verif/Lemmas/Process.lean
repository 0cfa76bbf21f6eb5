import Verif.Spec.Lists
import Verif.Model.Builder

/-! Characterisation of the object processors as conjunctions. -/

namespace Apg

theorem bind_ok {α β} {x : Except Err α} {f : α → Except Err β} {b : β} :
    (x >>= f) = .ok b ↔ ∃ a, x = .ok a ∧ f a = .ok b := by
  cases x with
  | error e => simp [bind, Except.bind]
  | ok a => simp [bind, Except.bind]

theorem bind_unit_ok {β} {x : Except Err Unit} {f : Unit → Except Err β} {b : β} :
    (x >>= f) = .ok b ↔ x = .ok () ∧ f () = .ok b := by
  cases x with
  | error e => simp [bind, Except.bind]
  | ok a => simp [bind, Except.bind]

theorem bind_error {α β} {x : Except Err α} {f : α → Except Err β} {e : Err} :
    (x >>= f) = .error e ↔ x = .error e ∨ ∃ a, x = .ok a ∧ f a = .error e := by
  cases x with
  | error e => simp [bind, Except.bind]
  | ok a => simp [bind, Except.bind]

theorem exists_unit {p : Unit → Prop} : (∃ u, p u) ↔ p () :=
  ⟨fun ⟨(), h⟩ => h, fun h => ⟨(), h⟩⟩

theorem pure_ok {α} {a b : α} : (pure a : Except Err α) = .ok b ↔ a = b := by
  simp [pure, Except.pure]

theorem processMembers_ok (ms : List Member) :
    processMembers ms = .ok () ↔ ∀ m ∈ ms, processMember m = .ok () := by
  induction ms with
  | nil => simp [processMembers]
  | cons m ms ih => simp [processMembers, bind_unit_ok, ih]

theorem processMember_ok (m : Member) :
    processMember m = .ok () ↔
      checkTypeObj m.type = .ok () ∧ checkCommentOpt true m.comment = .ok () ∧
      m.type.name ≠ "NULL" := by
  simp only [processMember, bind_unit_ok, nullCheckMember]
  by_cases h : m.type.name = "NULL" <;> simp [h]

/-- What a successful `processDef` says about the definition. -/
theorem processDef_ok {d d' : Def} (h : processDef d = .ok d') :
    d'.name = d.name ∧ d'.members = d.members ∧ d'.comment = d.comment ∧
    (∀ m ∈ d.members, processMember m = .ok ()) ∧
    (∀ n c t, d = .simple n c t → d' = d ∧ checkTypeObj t = .ok () ∧ nullCheckSimple n t = .ok ()) ∧
    (∀ n c ms, d = .seq n c ms → d' = d) ∧
    (∀ n c ms, d = .choice n c ms → d' = d) ∧
    (∀ n c its, d = .enum n c its →
      ∃ slots, checkEnumerated its = .ok slots ∧ d' = .enum n c (slots.filterMap id)) := by
  cases d with
  | seq n c ms =>
    simp only [processDef, bind_unit_ok, pure_ok] at h
    obtain ⟨h1, h2, rfl⟩ := h
    simp [Def.name, Def.members, Def.comment]
    exact (processMembers_ok ms).1 h2
  | choice n c ms =>
    simp only [processDef, bind_unit_ok, pure_ok] at h
    obtain ⟨h1, h2, rfl⟩ := h
    simp [Def.name, Def.members, Def.comment]
    exact (processMembers_ok ms).1 h2
  | enum n c its =>
    simp only [processDef, bind_ok, exists_unit, pure_ok] at h
    obtain ⟨h1, h2, slots, h3, rfl⟩ := h
    simp [Def.name, Def.members, Def.comment, h3]
  | simple n c t =>
    simp only [processDef, bind_ok, exists_unit, pure_ok] at h
    obtain ⟨h1, h2, h3, rfl⟩ := h
    simp [Def.name, Def.members, Def.comment, h1, h3]

/-- The processed definition is a function of the raw one. -/
theorem processDefs_ok {ds ds' : List Def} :
    processDefs ds = .ok ds' ↔ All2 (fun d d' => processDef d = .ok d') ds ds' := by
  induction ds generalizing ds' with
  | nil =>
    simp only [processDefs]
    constructor
    · intro h; cases h; exact .nil
    · intro h; cases h; rfl
  | cons d ds ih =>
    simp only [processDefs, bind_ok, pure_ok]
    constructor
    · rintro ⟨a, ha, b, hb, rfl⟩
      exact .cons ha (ih.1 hb)
    · intro h
      cases h with
      | cons h1 h2 => exact ⟨_, h1, _, ih.2 h2, rfl⟩

theorem checkUsedTypes_ok (m : Module) :
    checkUsedTypes m = .ok () ↔
      ∀ d ∈ m.defs, ∀ k ∈ d.members, k.type.name ∈ knownTypes m := by
  unfold checkUsedTypes
  by_cases h : (m.defs.all fun d => d.members.all fun k => (knownTypes m).contains k.type.name) = true
  · rw [if_pos h]
    simp only [List.all_eq_true, List.contains_iff_mem] at h
    simpa using h
  · rw [if_neg h]
    simp only [List.all_eq_true, List.contains_iff_mem] at h
    simpa using h

theorem processModule_ok {m m' : Module} :
    processModule m = .ok m' ↔
      checkCommentOpt false m.comment = .ok () ∧ checkCommentOpt false m.commentImport = .ok () ∧
      ∃ ds, processDefs m.defs = .ok ds ∧ m' = { m with defs := ds } ∧ checkUsedTypes m' = .ok () := by
  simp only [processModule, bind_ok, exists_unit, pure_ok]
  constructor
  · rintro ⟨h1, h2, ds, h3, h4, rfl⟩; exact ⟨h1, h2, ds, h3, rfl, h4⟩
  · rintro ⟨h1, h2, ds, h3, rfl, h4⟩; exact ⟨h1, h2, ds, h3, h4, rfl⟩

theorem processModules_ok {ms ms' : List Module} :
    processModules ms = .ok ms' ↔ All2 (fun d d' => processModule d = .ok d') ms ms' := by
  induction ms generalizing ms' with
  | nil =>
    simp only [processModules]
    constructor
    · intro h; cases h; exact .nil
    · intro h; cases h; rfl
  | cons d ds ih =>
    simp only [processModules, bind_ok, pure_ok]
    constructor
    · rintro ⟨a, ha, b, hb, rfl⟩
      exact .cons ha (ih.1 hb)
    · intro h
      cases h with
      | cons h1 h2 => exact ⟨_, h1, _, ih.2 h2, rfl⟩

theorem all2_mem_right {α β} {R : α → β → Prop} {l : List α} {l' : List β}
    (h : All2 R l l') {b : β} (hb : b ∈ l') : ∃ a ∈ l, R a b := by
  induction h with
  | nil => cases hb
  | cons h1 _ ih =>
    rcases List.mem_cons.1 hb with rfl | hb
    · exact ⟨_, by simp, h1⟩
    · obtain ⟨a, ha, hr⟩ := ih hb; exact ⟨a, by simp [ha], hr⟩

theorem all2_mem_left {α β} {R : α → β → Prop} {l : List α} {l' : List β}
    (h : All2 R l l') {a : α} (ha : a ∈ l) : ∃ b ∈ l', R a b := by
  induction h with
  | nil => cases ha
  | cons h1 _ ih =>
    rcases List.mem_cons.1 ha with rfl | ha
    · exact ⟨_, by simp, h1⟩
    · obtain ⟨b, hb, hr⟩ := ih ha; exact ⟨b, by simp [hb], hr⟩

theorem all2_map_eq {α β γ} {R : α → β → Prop} {l : List α} {l' : List β}
    (h : All2 R l l') (f : α → γ) (g : β → γ) (hfg : ∀ a b, R a b → g b = f a) :
    l'.map g = l.map f := by
  induction h with
  | nil => rfl
  | cons h1 _ ih => simp [hfg _ _ h1, ih]

theorem all2_perm {α β} {R : α → β → Prop} (hfun : ∀ a b b', R a b → R a b' → b = b')
    {l₁ l₂ : List α} (hp : l₁.Perm l₂) : ∀ {r₁ r₂ : List β},
    All2 R l₁ r₁ → All2 R l₂ r₂ → r₁.Perm r₂ := by
  have huniq : ∀ {l : List α} {r r' : List β}, All2 R l r → All2 R l r' → r = r' := by
    intro l
    induction l with
    | nil => intro r r' h h'; cases h; cases h'; rfl
    | cons a l ih =>
      intro r r' h h'
      cases h with
      | cons h1 h2 => cases h' with
        | cons h3 h4 => rw [hfun _ _ _ h1 h3, ih h2 h4]
  have hex : ∀ {l₁ l₂ : List α}, l₁.Perm l₂ → ∀ {r₁}, All2 R l₁ r₁ → ∃ r₂, All2 R l₂ r₂ ∧ r₁.Perm r₂ := by
    intro l₁ l₂ hp
    induction hp with
    | nil => intro r h; cases h; exact ⟨[], .nil, .refl _⟩
    | cons a _ ih =>
      intro r h
      cases h with
      | cons h1 h2 =>
        obtain ⟨r2, h3, h4⟩ := ih h2
        exact ⟨_, .cons h1 h3, h4.cons _⟩
    | swap a b l =>
      intro r h
      cases h with
      | cons h1 h2 => cases h2 with
        | cons h3 h4 => exact ⟨_, .cons h3 (.cons h1 h4), .swap ..⟩
    | trans _ _ ih1 ih2 =>
      intro r h
      obtain ⟨r2, h3, h4⟩ := ih1 h
      obtain ⟨r3, h5, h6⟩ := ih2 h3
      exact ⟨r3, h5, h4.trans h6⟩
  intro r₁ r₂ h1 h2
  obtain ⟨r, h3, h4⟩ := hex hp h1
  rw [huniq h2 h3]; exact h4

theorem processModule_name {m m' : Module} (h : processModule m = .ok m') :
    m'.name = m.name ∧ m'.imports = m.imports := by
  obtain ⟨_, _, ds, _, rfl, _⟩ := processModule_ok.1 h
  exact ⟨rfl, rfl⟩

theorem processModules_names {ms ms' : List Module} (h : processModules ms = .ok ms') :
    ms'.map (·.name) = ms.map (·.name) :=
  all2_map_eq (processModules_ok.1 h) _ _ fun _ _ h => (processModule_name h).1

/-- Every definition of a processed module comes from a raw one. -/
theorem processModules_def {ms ms' : List Module} (h : processModules ms = .ok ms')
    {m' : Module} (hm : m' ∈ ms') {d' : Def} (hd : d' ∈ m'.defs) :
    ∃ m ∈ ms, ∃ d ∈ m.defs, processDef d = .ok d' := by
  obtain ⟨m, hm0, hmm⟩ := all2_mem_right (processModules_ok.1 h) hm
  obtain ⟨_, _, ds, h1, rfl, _⟩ := processModule_ok.1 hmm
  obtain ⟨d, hd0, hdd⟩ := all2_mem_right (processDefs_ok.1 h1) hd
  exact ⟨m, hm0, d, hd0, hdd⟩

/-! ## The bundle -/

theorem resolveDeps_mods {all ms : List Module} {bs : List BMod}
    (h : resolveDeps all ms = .ok bs) : bs.map (·.mod) = ms := by
  induction ms generalizing bs with
  | nil => simp [resolveDeps] at h; subst h; rfl
  | cons m ms ih =>
    rw [resolveDeps] at h
    split at h
    · simp only [bind_ok, pure_ok] at h
      obtain ⟨tl, htl, rfl⟩ := h
      simp [ih htl]
    · split at h
      · cases h
      · simp only [bind_ok, pure_ok] at h
        obtain ⟨tl, htl, rfl⟩ := h
        simp [ih htl]

theorem build_ok {ms : List Module} {b : Bundle} :
    build ms = .ok b ↔ resolveDeps ms ms = .ok b.mods ∧ b.uses = simpleUses ms := by
  simp only [build, bind_ok, pure_ok]
  constructor
  · rintro ⟨a, ha, rfl⟩; exact ⟨ha, rfl⟩
  · rintro ⟨h1, h2⟩; refine ⟨_, h1, ?_⟩; cases b; simp_all

theorem build_modules {ms : List Module} {b : Bundle} (h : build ms = .ok b) :
    b.modules = ms := resolveDeps_mods (build_ok.1 h).1

/-- Dictionary look-up by module name. -/
theorem lastNamed_some {ms : List Module} {n : String} {m : Module}
    (h : lastNamed ms n = some m) : m ∈ ms ∧ m.name = n := by
  induction ms with
  | nil => simp [lastNamed] at h
  | cons x xs ih =>
    rw [lastNamed] at h
    split at h
    · rename_i r hr
      cases h
      obtain ⟨h1, h2⟩ := ih hr
      exact ⟨by simp [h1], h2⟩
    · split at h
      · cases h; rename_i hx; exact ⟨by simp, hx⟩
      · cases h

theorem lastNamed_none {ms : List Module} {n : String} (h : lastNamed ms n = none) :
    ∀ m ∈ ms, m.name ≠ n := by
  induction ms with
  | nil => simp
  | cons x xs ih =>
    rw [lastNamed] at h
    split at h
    · cases h
    · rename_i hr
      split at h
      · cases h
      · rename_i hx
        intro m hm
        rcases List.mem_cons.1 hm with rfl | hm
        · exact hx
        · exact ih hr m hm

theorem mem_unique_of_nodup_map {α β} {f : α → β} {l : List α} (h : (l.map f).Nodup) {a b : α}
    (ha : a ∈ l) (hb : b ∈ l) (hf : f a = f b) : a = b := by
  induction l with
  | nil => cases ha
  | cons x xs ih =>
    simp only [List.map_cons, List.nodup_cons] at h
    rcases List.mem_cons.1 ha with h1 | ha' <;> rcases List.mem_cons.1 hb with h2 | hb'
    · rw [h1, h2]
    · subst h1; exact absurd (hf ▸ List.mem_map_of_mem hb') h.1
    · subst h2; exact absurd (hf ▸ List.mem_map_of_mem ha') h.1
    · exact ih h.2 ha' hb'

theorem nodup_map_iff {α β} (f : α → β) (l : List α) : (l.map f).Nodup ↔
    ∀ (i j : Nat) (a b : α), l[i]? = some a → l[j]? = some b → f a = f b → i = j := by
  unfold List.Nodup
  rw [List.pairwise_map, List.pairwise_iff_getElem]
  constructor
  · intro h i j a b hi hj hab
    obtain ⟨hi1, rfl⟩ := List.getElem?_eq_some_iff.1 hi
    obtain ⟨hj1, rfl⟩ := List.getElem?_eq_some_iff.1 hj
    rcases Nat.lt_trichotomy i j with hlt | rfl | hlt
    · exact absurd hab (h i j hi1 hj1 hlt)
    · rfl
    · exact absurd hab.symm (h j i hj1 hi1 hlt)
  · intro h i j hi hj hij hab
    have := h i j _ _ (List.getElem?_eq_getElem hi) (List.getElem?_eq_getElem hj) hab
    omega

theorem lastNamed_eq_some_iff {ms : List Module} (hn : (ms.map (·.name)).Nodup) (n : String)
    (m : Module) : lastNamed ms n = some m ↔ m ∈ ms ∧ m.name = n := by
  constructor
  · exact lastNamed_some
  · rintro ⟨h1, h2⟩
    cases h : lastNamed ms n with
    | none => exact absurd h2 (lastNamed_none h m h1)
    | some m' =>
      obtain ⟨h3, h4⟩ := lastNamed_some h
      rw [mem_unique_of_nodup_map hn h3 h1 (h4.trans h2.symm)]

theorem lastDef_some {ds : List Def} {n : String} {d : Def}
    (h : lastDef ds n = some d) : d ∈ ds ∧ d.name = n := by
  induction ds with
  | nil => simp [lastDef] at h
  | cons x xs ih =>
    rw [lastDef] at h
    split at h
    · rename_i r hr
      cases h
      obtain ⟨h1, h2⟩ := ih hr
      exact ⟨by simp [h1], h2⟩
    · split at h
      · cases h; rename_i hx; exact ⟨by simp, hx⟩
      · cases h

theorem lastDef_none {ds : List Def} {n : String} (h : lastDef ds n = none) :
    ∀ d ∈ ds, d.name ≠ n := by
  induction ds with
  | nil => simp
  | cons x xs ih =>
    rw [lastDef] at h
    split at h
    · cases h
    · rename_i hr
      split at h
      · cases h
      · rename_i hx
        intro m hm
        rcases List.mem_cons.1 hm with rfl | hm
        · exact hx
        · exact ih hr m hm

theorem lastDef_eq_some_iff {ds : List Def} (hn : (ds.map Def.name).Nodup) (n : String)
    (d : Def) : lastDef ds n = some d ↔ d ∈ ds ∧ d.name = n := by
  constructor
  · exact lastDef_some
  · rintro ⟨h1, h2⟩
    cases h : lastDef ds n with
    | none => exact absurd h2 (lastDef_none h d h1)
    | some d' =>
      obtain ⟨h3, h4⟩ := lastDef_some h
      rw [mem_unique_of_nodup_map hn h3 h1 (h4.trans h2.symm)]

theorem checkDuplicates_ok (ds : List Def) (already : List String) :
    checkDuplicates already ds = .ok () ↔
      (ds.map Def.name).Nodup ∧ ∀ d ∈ ds, d.name ∉ already := by
  induction ds generalizing already with
  | nil => simp [checkDuplicates]
  | cons d ds ih =>
    rw [checkDuplicates]
    by_cases h : d.name ∈ already
    · simp [h]
    · simp only [List.contains_iff_mem, h, if_false, ih, List.map_cons, List.nodup_cons,
        List.mem_cons, not_or]
      constructor
      · rintro ⟨h1, h2⟩
        refine ⟨⟨?_, h1⟩, ?_⟩
        · intro hm
          obtain ⟨x, hx, he⟩ := List.mem_map.1 hm
          exact (h2 x hx).1 he
        · rintro x (rfl | hx)
          · exact h
          · exact (h2 x hx).2
      · rintro ⟨⟨h1, h2⟩, h3⟩
        refine ⟨h2, fun x hx => ⟨?_, h3 x (Or.inr hx)⟩⟩
        intro he
        exact h1 (he ▸ List.mem_map_of_mem hx)

theorem hasDuplicate_iff (l : List String) : hasDuplicate l = false ↔ l.Nodup := by
  unfold hasDuplicate
  rw [List.nodup_iff_count]
  simp only [List.any_eq_false, decide_eq_true_eq]
  constructor
  · intro h a
    by_cases ha : a ∈ l
    · have := h a ha; omega
    · rw [List.count_eq_zero_of_not_mem ha]; omega
  · intro h a _
    have := h a; omega

theorem validateUnique_ok (ms : List Module) (cfg : List String) :
    validateUniqueModuleNames ms cfg = .ok () ↔ (ms.map (·.name)).Nodup ∧ cfg.Nodup := by
  unfold validateUniqueModuleNames
  rw [← hasDuplicate_iff, ← hasDuplicate_iff]
  cases hasDuplicate (ms.map (·.name)) <;> cases hasDuplicate cfg <;> simp

theorem checkMissing_ok (cfg : List String) (b : Bundle) :
    checkMissingModules cfg b = .ok () ↔ ∀ n, n ∈ cfg ↔ n ∈ b.modules.map (·.name) := by
  unfold checkMissingModules
  simp only
  split
  · rename_i h
    simp only [reduceCtorEq, false_iff]
    intro hall
    simp only [Bool.or_eq_true, List.any_eq_true, Bool.not_eq_true', List.contains_eq_mem,
      decide_eq_false_iff_not] at h
    rcases h with ⟨n, h1, h2⟩ | ⟨n, h1, h2⟩
    · exact h2 ((hall n).2 h1)
    · exact h2 ((hall n).1 h1)
  · rename_i h
    simp only [true_iff]
    simp only [Bool.or_eq_true, List.any_eq_true, Bool.not_eq_true', List.contains_eq_mem,
      decide_eq_false_iff_not, not_or, not_exists, not_and, Classical.not_not] at h
    exact fun n => ⟨h.2 n, h.1 n⟩

theorem validateBundle_ok (b : Bundle) :
    validateBundle b = .ok () ↔
      (∀ m ∈ b.mods, importsDefined m = true) ∧ checkComponents b.defs = .ok () ∧
      (b.defs.map Def.name).Nodup := by
  simp only [validateBundle, bind_unit_ok, checkImportsAndComponents, checkDuplicates_ok]
  by_cases h : b.mods.all importsDefined = true
  · rw [if_pos h]; simp only [List.all_eq_true] at h
    simp
    intro _ _
    exact h
  · rw [if_neg h]; simp only [List.all_eq_true] at h
    simp
    intro h'
    exact absurd h' h

theorem buildFromTexts_ok {raw : List Module} {b : Bundle} :
    buildFromTexts raw = .ok b ↔ ∃ ms, processModules raw = .ok ms ∧ build ms = .ok b ∧
      validateBundle b = .ok () := by
  simp only [buildFromTexts, bind_ok, exists_unit, pure_ok]
  constructor
  · rintro ⟨ms, h1, b', h2, h3, rfl⟩; exact ⟨ms, h1, h2, h3⟩
  · rintro ⟨ms, h1, h2, h3⟩; exact ⟨ms, h1, b, h2, h3, rfl⟩

theorem buildFromConfig_ok {raw : List Module} {cfg : List String} {b : Bundle} :
    buildFromConfig raw cfg = .ok b ↔ ∃ ms, processModules raw = .ok ms ∧
      (ms.map (·.name)).Nodup ∧ cfg.Nodup ∧ build ms = .ok b ∧
      validateBundle b = .ok () ∧ checkMissingModules cfg b = .ok () := by
  simp only [buildFromConfig, bind_ok, exists_unit, pure_ok, validateUnique_ok]
  constructor
  · rintro ⟨ms, h1, ⟨h2, h2'⟩, b', h3, h4, h5, rfl⟩; exact ⟨ms, h1, h2, h2', h3, h4, h5⟩
  · rintro ⟨ms, h1, h2, h2', h3, h4, h5⟩; exact ⟨ms, h1, ⟨h2, h2'⟩, b, h3, h4, h5, rfl⟩

/-- `generate-cfs/c/binary` accept only what `build_from_texts` accepts. -/
theorem buildFromTexts_of_config {raw : List Module} {cfg : List String} {b : Bundle}
    (h : buildFromConfig raw cfg = .ok b) : buildFromTexts raw = .ok b := by
  obtain ⟨ms, h1, _, _, h3, h4, _⟩ := buildFromConfig_ok.1 h
  exact buildFromTexts_ok.2 ⟨ms, h1, h3, h4⟩

/-- Imported modules of a bundle whose module names are distinct. -/
theorem resolveDeps_nodup {all ms : List Module} {bs : List BMod}
    (hn : (ms.map (·.name)).Nodup) :
    resolveDeps all ms = .ok bs ↔
      (∀ m ∈ ms, ∀ i ∈ m.imports, (lastNamed all i.module).isSome) ∧
      bs = ms.map (fun m => ⟨m, m.imports.filterMap (fun i => lastNamed all i.module)⟩) := by
  induction ms generalizing bs with
  | nil =>
    simp [resolveDeps]
  | cons m ms ih =>
    simp only [List.map_cons, List.nodup_cons] at hn
    rw [resolveDeps]
    have h1 : ms.any (fun r => decide (r.name = m.name)) = false := by
      rw [List.any_eq_false]
      intro r hr
      have : r.name ≠ m.name := by
        intro he
        exact hn.1 (he ▸ List.mem_map_of_mem hr)
      simpa using this
    rw [h1]
    simp only [Bool.false_eq_true, if_false]
    by_cases h2 : (m.imports.any fun i => (lastNamed all i.module).isNone) = true
    · rw [if_pos h2]
      simp only [reduceCtorEq, false_iff]
      rintro ⟨h3, _⟩
      obtain ⟨i, hi, hn'⟩ := List.any_eq_true.1 h2
      have := h3 m (by simp) i hi
      cases hl : lastNamed all i.module <;> simp_all
    · rw [if_neg h2]
      simp only [bind_ok, pure_ok]
      have h2' : ∀ i ∈ m.imports, (lastNamed all i.module).isSome := by
        intro i hi
        rw [List.any_eq_true] at h2
        cases hl : lastNamed all i.module with
        | none => exact absurd ⟨i, hi, by simp [hl]⟩ h2
        | some x => rfl
      constructor
      · rintro ⟨tl, htl, rfl⟩
        obtain ⟨h3, h4⟩ := (ih hn.2).1 htl
        refine ⟨?_, by rw [h4]; rfl⟩
        intro x hx
        rcases List.mem_cons.1 hx with rfl | hx
        · exact h2'
        · exact h3 x hx
      · rintro ⟨h3, h4⟩
        refine ⟨_, (ih hn.2).2 ⟨fun x hx => h3 x (by simp [hx]), rfl⟩, ?_⟩
        rw [h4]; rfl

end Apg
