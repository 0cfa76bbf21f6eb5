import Verif.Lemmas.Valid

/-!
# Which lists of modules are accepted
-/

namespace Apg

open Spec

/-- What processing leaves as it is, in a definition. -/
def SameDef (d d' : Def) : Prop :=
  d'.name = d.name ∧ d'.members = d.members ∧ ∀ n c ms, d' = .seq n c ms ↔ d = .seq n c ms

/-- What processing leaves as it is, in a module. -/
def SameModule (m m' : Module) : Prop :=
  m'.name = m.name ∧ m'.imports = m.imports ∧ All2 SameDef m.defs m'.defs

theorem processModules_same {ms ms' : List Module} (h : processModules ms = .ok ms') :
    All2 SameModule ms ms' := by
  have := processModules_ok.1 h
  clear h
  induction this with
  | nil => exact .nil
  | cons h1 _ ih =>
    refine .cons ?_ ih
    obtain ⟨_, _, ds, h, rfl, _⟩ := processModule_ok.1 h1
    exact ⟨rfl, rfl, processDefs_same h⟩

theorem all2_append {α β} {R : α → β → Prop} {l₁ l₂ : List α} {r₁ r₂ : List β} (h₁ : All2 R l₁ r₁)
    (h₂ : All2 R l₂ r₂) : All2 R (l₁ ++ l₂) (r₁ ++ r₂) := by
  induction h₁ with
  | nil => exact h₂
  | cons h _ ih => exact .cons h ih

theorem sameModules_defs {ms ms' : List Module} (h : All2 SameModule ms ms') :
    All2 SameDef (defsOf ms) (defsOf ms') := by
  induction h with
  | nil => exact .nil
  | cons h _ ih => exact all2_append h.2.2 ih

theorem sameDefs_names {ds ds' : List Def} (h : All2 SameDef ds ds') :
    ds'.map Def.name = ds.map Def.name := all2_map_eq h _ _ fun _ _ h => h.1

theorem sameDefs_seq {ds ds' : List Def} (h : All2 SameDef ds ds') (n : String) (c : Option Comment)
    (ms : List Member) : Def.seq n c ms ∈ ds' ↔ Def.seq n c ms ∈ ds := by
  constructor
  · intro hm
    obtain ⟨d, hd, p⟩ := all2_mem_right h hm
    rw [← (p.2.2 n c ms).1 rfl]; exact hd
  · intro hm
    obtain ⟨d, hd, p⟩ := all2_mem_left h hm
    rw [← (p.2.2 n c ms).2 rfl]; exact hd

theorem sameDefs_isSequence {ds ds' : List Def} (h : All2 SameDef ds ds') (n : String) (ms : List Member) :
    IsSequence ds' n ms ↔ IsSequence ds n ms := by
  simp only [IsSequence, sameDefs_seq h]

theorem same_imports {ms ms' : List Module} (h : All2 SameModule ms ms') {m m' : Module}
    (hm : SameModule m m') : ImportsSatisfied ms' m' ↔ ImportsSatisfied ms m := by
  unfold ImportsSatisfied
  rw [hm.2.1]
  constructor
  · intro hh i hi
    obtain ⟨x', hx', e, hall⟩ := hh i hi
    obtain ⟨x, hx, p⟩ := all2_mem_right h hx'
    refine ⟨x, hx, p.1 ▸ e, fun n hn => ?_⟩
    obtain ⟨d', hd', hdn⟩ := hall n hn
    obtain ⟨d, hd, q⟩ := all2_mem_right p.2.2 hd'
    exact ⟨d, hd, q.1 ▸ hdn⟩
  · intro hh i hi
    obtain ⟨x, hx, e, hall⟩ := hh i hi
    obtain ⟨x', hx', p⟩ := all2_mem_left h hx
    refine ⟨x', hx', p.1.trans e, fun n hn => ?_⟩
    obtain ⟨d, hd, hdn⟩ := hall n hn
    obtain ⟨d', hd', q⟩ := all2_mem_left p.2.2 hd
    exact ⟨d', hd', q.1.trans hdn⟩

/-- A bundle is built and its imports are found exactly when they are satisfied. -/
theorem build_imports {ms : List Module} (hn : (ms.map (·.name)).Nodup)
    (h : ∀ m ∈ ms, ImportsSatisfied ms m) :
    ∃ b, build ms = .ok b ∧ ∀ m ∈ b.mods, importsDefined m = true := by
  refine ⟨⟨ms.map (fun m => ⟨m, m.imports.filterMap (fun i => lastNamed ms i.module)⟩), simpleUses ms⟩, ?_, ?_⟩
  · refine build_ok.2 ⟨(resolveDeps_nodup hn).2 ⟨?_, rfl⟩, rfl⟩
    intro m hm i hi
    obtain ⟨m', hm', e, _⟩ := h m hm i hi
    rw [(lastNamed_eq_some_iff hn i.module m').2 ⟨hm', e⟩]
    rfl
  · intro bm hbm
    obtain ⟨m, hm, rfl⟩ := List.mem_map.1 hbm
    unfold importsDefined
    simp only [List.all_eq_true, List.mem_filter, List.contains_iff_mem, List.mem_filterMap,
      decide_eq_true_eq, List.mem_map]
    rintro im ⟨_, _, hl⟩ i ⟨hi, e⟩ n hni
    obtain ⟨m', hm', e', hall⟩ := h m hm i hi
    have : im = m' := mem_unique_of_nodup_map hn (lastNamed_some hl).1 hm' (by rw [e', e])
    subst this
    exact hall n hni

theorem capital_notBuiltIn {n : String} (h : isNameCapital n = true) : ¬ BuiltIn n := by
  rintro (rfl | rfl | rfl | rfl | rfl) <;> revert h <;> decide +kernel

/-- Validation of the modules passes for exactly the acceptable ones. -/
theorem buildFromTexts_iff {raw : List Module} (hg : ∀ m ∈ raw, GrammarModule m)
    (hn : (raw.map (·.name)).Nodup) :
    (∃ b, buildFromTexts raw = .ok b) ↔ Acceptable raw := by
  constructor
  · rintro ⟨b, h⟩
    have himp := C13_imports_distinct raw b hn h
    have hcomp := C15_components_partial raw b h
    obtain ⟨ms, h1, h2, h3⟩ := buildFromTexts_ok.1 h
    have hs := processModules_same h1
    have hd := sameModules_defs hs
    rw [build_modules h2] at himp hcomp
    have hp := (processModules_iff hg).1 ⟨ms, h1⟩
    have hnd := ((validateBundle_ok b).1 h3).2.2
    rw [← defsOf_eq, build_modules h2, sameDefs_names hd] at hnd
    refine ⟨hn, hnd, fun m hm => (hp m hm).1, ?_, fun m hm => (hp m hm).2.2, ?_, ?_⟩
    · intro d hdd
      obtain ⟨m, hm, hdm⟩ := List.mem_flatMap.1 hdd
      exact (hp m hm).2.1 d hdm
    · intro m hm
      obtain ⟨m', hm', p⟩ := all2_mem_left hs hm
      exact (same_imports hs p).1 (himp m' hm')
    · intro n c l hl k hkl cs hcs t ht
      exact (hcomp n c l ((sameDefs_seq hd n c l).2 hl) k hkl cs hcs t ht).mono
        fun n ms => (sameDefs_isSequence hd n ms).1
  · intro h
    obtain ⟨ms, h1⟩ := (processModules_iff hg).2 fun m hm =>
      ⟨h.comments m hm, fun d hd => h.defs d (List.mem_flatMap.2 ⟨m, hm, hd⟩), h.used m hm⟩
    have hs := processModules_same h1
    have hd := sameModules_defs hs
    have hn' : (ms.map (·.name)).Nodup := by rw [processModules_names h1]; exact hn
    obtain ⟨b, hb, himp⟩ := build_imports hn' fun m' hm' => by
      obtain ⟨m, hm, p⟩ := all2_mem_right hs hm'
      exact (same_imports hs p).2 (h.imports m hm)
    refine ⟨b, buildFromTexts_ok.2 ⟨ms, h1, hb, ?_⟩⟩
    have hnd : ((defsOf ms).map Def.name).Nodup := by rw [sameDefs_names hd]; exact h.typeNames
    refine (validateBundle_ok b).2 ⟨himp, ?_, by rw [← defsOf_eq, build_modules hb]; exact hnd⟩
    rw [← defsOf_eq, build_modules hb]
    refine (checkComponents_ok _).2 fun n c l hl k hkl cs hcs => ?_
    have hseq : ∀ n l, IsSequence (defsOf ms) n l → ∃ c, Def.seq n c l ∈ defsOf raw := fun n l hs' =>
      (sameDefs_isSequence hd n l).1 hs'
    refine (addresses_ok hnd ?_ ?_).2
    · intro n l hl
      obtain ⟨c, hc⟩ := hseq n l hl
      obtain ⟨m, hm, hdm⟩ := List.mem_flatMap.1 hc
      exact capital_notBuiltIn ((hg m hm).2.2.1 _ hdm).1
    · exact (h.components n c l ((sameDefs_seq hd n c l).1 hl) k hkl cs hcs _
        ((usesName_iff _ _).2 rfl)).mono fun n ms => (sameDefs_isSequence hd n ms).2

/-- Validation passes for exactly the acceptable modules, given by their names. -/
theorem buildFromConfig_iff {raw : List Module} {cfg : List String} (hg : ∀ m ∈ raw, GrammarModule m) :
    (∃ b, buildFromConfig raw cfg = .ok b) ↔ Acceptable raw ∧ cfg.Perm (raw.map (·.name)) := by
  constructor
  · rintro ⟨b, h⟩
    have hn : (raw.map (·.name)).Nodup := by
      obtain ⟨ms, h1, h2, _⟩ := buildFromConfig_ok.1 h
      rw [processModules_names h1] at h2
      exact h2
    exact ⟨(buildFromTexts_iff hg hn).1 ⟨b, buildFromTexts_of_config h⟩,
      C12_modules_permutation raw cfg b h⟩
  · rintro ⟨h, hp⟩
    obtain ⟨b, hb⟩ := (buildFromTexts_iff hg h.moduleNames).2 h
    obtain ⟨ms, h1, h2, h3⟩ := buildFromTexts_ok.1 hb
    have hn := processModules_names h1
    refine ⟨b, buildFromConfig_ok.2 ⟨ms, h1, by rw [hn]; exact h.moduleNames,
      hp.nodup_iff.2 h.moduleNames, h2, h3, ?_⟩⟩
    rw [checkMissing_ok, build_modules h2, hn]
    exact fun n => hp.mem_iff

theorem sum_zero {l : List Int} (h : ∀ x ∈ l, x = 0) : l.sum = 0 := by
  induction l with
  | nil => rfl
  | cons x l ih =>
    rw [List.sum_cons, h x (List.mem_cons_self ..), ih fun y hy => h y (List.mem_cons_of_mem _ hy)]
    rfl

theorem Spec.SameNum.refl (a : Num) : SameNum a a := ⟨fun _ h => h, fun _ h => h⟩

theorem validDef_acceptable {d : Def} (h : ValidDef d) : AcceptableDef d := by
  obtain ⟨h1, _, h3, h4⟩ := h
  cases d with
  | seq n c ms => exact h1
  | choice n c ms => exact h1
  | enum n c its =>
    rcases h1 with h | h
    · refine .inl (sum_zero ?_)
      intro x hx
      obtain ⟨i, hi, rfl⟩ := List.mem_map.1 hx
      exact h i hi
    · exact .inr h
  | simple n c t =>
    refine ⟨h1, fun b e hs => ?_⟩
    have hi : ∀ x y : Int, StandardRange n (.int x) (.int y) →
        ∃ x' y', (t = realType x' y' ∨ t = .plain "INTEGER" (some x') (some y')) ∧
          SameNum x' (.int x) ∧ SameNum y' (.int y) := by
      intro x y hxy
      obtain ⟨c', hc'⟩ := h3 x y hxy
      cases hc'
      exact ⟨_, _, .inr rfl, .refl _, .refl _⟩
    have hf : ∀ x y : Rat, StandardRange n (.flt x) (.flt y) →
        ∃ x' y', (t = realType x' y' ∨ t = .plain "INTEGER" (some x') (some y')) ∧
          SameNum x' (.flt x) ∧ SameNum y' (.flt y) := by
      intro x y hxy
      obtain ⟨c', hc'⟩ := h4 x y hxy
      cases hc'
      exact ⟨_, _, .inl rfl, .refl _, .refl _⟩
    generalize hb' : b = b' at hs
    generalize he' : e = e' at hs
    cases hs with
    | float => exact hf _ _ .float
    | double => exact hf _ _ .double
    | i8 => exact hi _ _ .i8
    | i16 => exact hi _ _ .i16
    | i32 => exact hi _ _ .i32
    | i64 => exact hi _ _ .i64
    | u8 => exact hi _ _ .u8
    | u16 => exact hi _ _ .u16
    | u32 => exact hi _ _ .u32
    | u64 => exact hi _ _ .u64

theorem valid_acceptable {ms : List Module} (h : Valid ms) : Acceptable ms where
  moduleNames := h.moduleNames
  typeNames := h.typeNames
  comments := h.comments
  defs := fun d hd => validDef_acceptable (h.defs d hd)
  used := h.used
  imports := h.imports
  components := fun _ _ _ hl k hk cs hcs t ht =>
    (h.components _ hl k hk cs hcs t ht).weaken fun _ h => h.elim

end Apg
