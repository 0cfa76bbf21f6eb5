import Verif.Lemmas.Bundle
import Verif.Spec.Valid

/-!
# Properties C10 to C18: accepted bundles
-/

namespace Apg
open Spec

/-! A small bundle used in the examples: `geo` imports `Angle` from `base`. -/

def exBase : Module :=
  { name := "base"
    defs := [.simple "Angle" none (.plain "INTEGER" (some (.int 0)) (some (.int 359)))] }

def exGeo : Module :=
  { name := "geo"
    imports := [⟨["Angle"], "base"⟩]
    defs :=
      [.seq "Point" none [⟨"lat", .plain "Angle" none none, none, none⟩,
                          ⟨"lon", .plain "Angle" none none, none, none⟩],
       .seq "Track" none [⟨"start", .plain "Point" none none, none,
                            some (.leaf "lat" (.int 3) (.leaf "lon" (.int 4) .nil))⟩,
                          ⟨"rest", .arr (.plain "Point" none none) 4, none, none⟩]] }

def exRaw : List Module := [exGeo, exBase]

theorem exRaw_accepted : ∃ b, buildFromConfig exRaw ["base", "geo"] = .ok b := by
  refine ⟨_, (?_ : buildFromConfig exRaw ["base", "geo"] =
    .ok ⟨[⟨exGeo, [exBase]⟩, ⟨exBase, []⟩],
      [("Angle", ["geo"]), ("Point", ["geo"])]⟩)⟩
  decide +kernel

/-- **C10.** The duplicate check accepts a list of definitions iff no two of them
have the same name. -/
theorem C10_duplicates (ds : List Def) :
    checkDuplicates [] ds = .ok () ↔
      ∀ (i j : Nat) (d e : Def), ds[i]? = some d → ds[j]? = some e → d.name = e.name → i = j := by
  rw [checkDuplicates_ok]
  simp only [List.not_mem_nil, not_false_eq_true, implies_true, and_true]
  exact nodup_map_iff _ _

/-- C10 on whole bundles: in an accepted bundle no type name is defined twice. -/
theorem C10_accepted_no_duplicates (raw : List Module) (b : Bundle)
    (h : buildFromTexts raw = .ok b) :
    ∀ (i j : Nat) (d e : Def), (defsOf b.modules)[i]? = some d → (defsOf b.modules)[j]? = some e →
      d.name = e.name → i = j := by
  obtain ⟨ms, _, _, h3⟩ := buildFromTexts_ok.1 h
  simp only [validateBundle, bind_unit_ok] at h3
  exact (C10_duplicates _).1 h3.2

example : checkDuplicates [] [.enum "A" none [], .enum "B" none []] = .ok () := by decide
example : checkDuplicates [] [.enum "A" none [], .enum "A" none []] = .error .consistency := by
  decide

/-- **C11.** The module name check passes iff the module names are pairwise
different and so are the names in `--asn1-modules`. -/
theorem C11_unique_modules (ms : List Module) (cfg : List String) :
    validateUniqueModuleNames ms cfg = .ok () ↔
      (∀ (i j : Nat) (m k : Module), ms[i]? = some m → ms[j]? = some k → m.name = k.name → i = j) ∧
      (∀ (i j : Nat) (n : String), cfg[i]? = some n → cfg[j]? = some n → i = j) := by
  rw [validateUnique_ok, nodup_map_iff]
  have h := nodup_map_iff (fun s : String => s) cfg
  rw [List.map_id'] at h
  rw [h]
  constructor
  · rintro ⟨h1, h2⟩
    exact ⟨h1, fun i j n hi hj => h2 i j n n hi hj rfl⟩
  · rintro ⟨h1, h2⟩
    exact ⟨h1, fun i j n n' hi hj hn => h2 i j n hi (by rw [hn]; exact hj)⟩

example : validateUniqueModuleNames [exGeo, exBase] ["geo", "base"] = .ok () := by decide
example : validateUniqueModuleNames [exGeo, exGeo] ["geo"] = .error .consistency := by decide

/-- **C12.** If generate-cfs, generate-c or generate-binary accepts its input, then
`--asn1-modules` is a permutation of the names of the modules read. -/
theorem C12_modules_permutation (raw : List Module) (cfg : List String) (b : Bundle)
    (h : buildFromConfig raw cfg = .ok b) : cfg.Perm (raw.map (·.name)) := by
  obtain ⟨ms, h1, h2, h3, h4, h5, h6⟩ := buildFromConfig_ok.1 h
  have h7 := (checkMissing_ok cfg b).1 h6
  rw [build_modules h4, processModules_names h1] at h7
  rw [processModules_names h1] at h2
  exact (List.perm_ext_iff_of_nodup h3 h2).2 h7

example : ∃ b, buildFromConfig exRaw ["base", "geo"] = .ok b := exRaw_accepted

/-- C13 for bundles with distinct module names, whatever the command. -/
theorem C13_imports_distinct (raw : List Module) (b : Bundle)
    (hn : (raw.map (·.name)).Nodup) (h : buildFromTexts raw = .ok b) :
    ∀ m ∈ b.modules, ImportsSatisfied b.modules m := by
  obtain ⟨ms, h1, h2, h3⟩ := buildFromTexts_ok.1 h
  have hmods := build_modules h2
  have hn' : (ms.map (·.name)).Nodup := by rw [processModules_names h1]; exact hn
  obtain ⟨h4, h5⟩ := (resolveDeps_nodup hn').1 (build_ok.1 h2).1
  have h6 := ((validateBundle_ok b).1 h3).1
  rw [hmods]
  intro m hm i hi
  have hsome := h4 m hm i hi
  cases hl : lastNamed ms i.module with
  | none => rw [hl] at hsome; cases hsome
  | some m' =>
    obtain ⟨h7, h8⟩ := lastNamed_some hl
    refine ⟨m', h7, h8, ?_⟩
    intro n hni
    have h9 := h6 ⟨m, m.imports.filterMap (fun i => lastNamed ms i.module)⟩ (by
      rw [h5]; exact List.mem_map.2 ⟨m, hm, rfl⟩)
    unfold importsDefined at h9
    simp only [List.all_eq_true, List.mem_filter, List.contains_iff_mem, List.mem_filterMap,
      decide_eq_true_eq, List.mem_map] at h9
    exact h9 m' ⟨i, hi, hl⟩ i ⟨hi, h8.symm⟩ n hni

/-- **C13.** In every bundle accepted by generate-cfs, generate-c or
generate-binary, every IMPORTS clause names a module of the bundle that defines
every type listed. -/
theorem C13_imports (raw : List Module) (cfg : List String) (b : Bundle)
    (h : buildFromConfig raw cfg = .ok b) :
    ∀ m ∈ b.modules, ImportsSatisfied b.modules m := by
  obtain ⟨ms, h1, h2, _⟩ := buildFromConfig_ok.1 h
  rw [processModules_names h1] at h2
  exact C13_imports_distinct raw b h2 (buildFromTexts_of_config h)

/-- The full statement for the remaining command, generate-cosmos, which does not
check that module names are distinct. -/
def C13_cosmos_full : Prop :=
  ∀ raw b, buildFromTexts raw = .ok b → ∀ m ∈ b.modules, ImportsSatisfied b.modules m

/-- It fails: of two modules of the same name only the last one has its imports
checked. -/
theorem C13_cosmos_full_false : ¬ C13_cosmos_full := by
  intro h
  have := h
    [{ name := "a", imports := [⟨["X"], "nowhere"⟩], defs := [.enum "E" none [⟨"e", 0, none⟩]] },
     { name := "a", defs := [.enum "F" none [⟨"f", 0, none⟩]] }]
    ⟨[⟨{ name := "a", imports := [⟨["X"], "nowhere"⟩], defs := [.enum "E" none [⟨"e", 0, none⟩]] }, []⟩,
      ⟨{ name := "a", defs := [.enum "F" none [⟨"f", 0, none⟩]] }, []⟩], []⟩
    (by decide +kernel)
    { name := "a", imports := [⟨["X"], "nowhere"⟩], defs := [.enum "E" none [⟨"e", 0, none⟩]] }
    (by simp [Bundle.modules]) ⟨["X"], "nowhere"⟩ (by simp)
  obtain ⟨m', hm', hn, _⟩ := this
  simp only [Bundle.modules, List.map_cons, List.map_nil, List.mem_cons, List.not_mem_nil,
    or_false] at hm'
  rcases hm' with rfl | rfl <;> revert hn <;> decide

/-- C14 for bundles with distinct module names. -/
theorem C14_used_types_distinct (raw : List Module) (b : Bundle)
    (hn : (raw.map (·.name)).Nodup) (h : buildFromTexts raw = .ok b)
    (m : Module) (hm : m ∈ b.modules) (d : Def) (hd : d ∈ m.defs)
    (k : Member) (hk : k ∈ d.members) (n : String) (hu : UsesName k.type n) :
    BuiltIn n ∨
      (((defsOf b.modules).filter (fun d => d.name = n)).length = 1 ∧
        ∃ m' ∈ b.modules, (m' = m ∨ ImportedFrom m n m') ∧ ∃ d' ∈ m'.defs, d'.name = n) := by
  have himp := C13_imports_distinct raw b hn h m hm
  obtain ⟨ms, h1, h2, h3⟩ := buildFromTexts_ok.1 h
  have hmods := build_modules h2
  have hnd := ((validateBundle_ok b).1 h3).2.2
  rw [hmods] at hm himp ⊢
  obtain ⟨m0, _, hm0⟩ := all2_mem_right (processModules_ok.1 h1) hm
  obtain ⟨_, _, _, _, _, hused⟩ := processModule_ok.1 hm0
  have hkn := (checkUsedTypes_ok m).1 hused d hd k hk
  rw [(usesName_iff _ _).1 hu] at hkn
  simp only [knownTypes, List.mem_append, List.mem_flatMap, List.mem_map] at hkn
  have hdef : (∃ m' ∈ ms, (m' = m ∨ ImportedFrom m n m') ∧ ∃ d' ∈ m'.defs, d'.name = n) →
      ((defsOf ms).filter (fun d => d.name = n)).length = 1 := by
    rintro ⟨m', hm', _, d', hd', hdn⟩
    have hmem : d' ∈ defsOf ms := List.mem_flatMap.2 ⟨m', hm', hd'⟩
    rw [← defsOf_eq, hmods] at hnd
    have h1 : ((defsOf ms).filter (fun d => d.name = n)).length = ((defsOf ms).map Def.name).count n := by
      rw [List.count, List.countP_map, List.countP_eq_length_filter]
      congr 1
    rw [h1]
    have h2 := List.nodup_iff_count.1 hnd n
    have h3 : 0 < ((defsOf ms).map Def.name).count n :=
      List.count_pos_iff.2 (List.mem_map.2 ⟨d', hmem, hdn⟩)
    omega
  rcases hkn with (hb | ⟨i, hi, hni⟩) | ⟨d', hd', hdn⟩
  · exact Or.inl ((builtIn_iff n).2 hb)
  · obtain ⟨m', hm', hn', hall⟩ := himp i hi
    have : ∃ m' ∈ ms, (m' = m ∨ ImportedFrom m n m') ∧ ∃ d' ∈ m'.defs, d'.name = n :=
      ⟨m', hm', Or.inr ⟨i, hi, hn'.symm, hni⟩, hall n hni⟩
    exact Or.inr ⟨hdef this, this⟩
  · have : ∃ m' ∈ ms, (m' = m ∨ ImportedFrom m n m') ∧ ∃ d' ∈ m'.defs, d'.name = n :=
      ⟨m, hm, Or.inl rfl, d', hd', hdn⟩
    exact Or.inr ⟨hdef this, this⟩

/-- **C14.** In a bundle accepted by generate-cfs, generate-c or generate-binary,
the type of every SEQUENCE and CHOICE member (looking through arrays) is built in,
or is defined exactly once in the bundle, in the same module or in a module it is
imported from. -/
theorem C14_used_types (raw : List Module) (cfg : List String) (b : Bundle)
    (h : buildFromConfig raw cfg = .ok b)
    (m : Module) (hm : m ∈ b.modules) (d : Def) (hd : d ∈ m.defs)
    (k : Member) (hk : k ∈ d.members) (n : String) (hu : UsesName k.type n) :
    BuiltIn n ∨
      (((defsOf b.modules).filter (fun d => d.name = n)).length = 1 ∧
        ∃ m' ∈ b.modules, (m' = m ∨ ImportedFrom m n m') ∧ ∃ d' ∈ m'.defs, d'.name = n) := by
  obtain ⟨ms, h1, h2, _⟩ := buildFromConfig_ok.1 h
  rw [processModules_names h1] at h2
  exact C14_used_types_distinct raw b h2 (buildFromTexts_of_config h) m hm d hd k hk n hu

example : exGeo ∈ [exGeo, exBase] ∧
    UsesName (.arr (.plain "Point" none none) 4) "Point" := ⟨by simp, .arr .plain⟩

/-- Full statement of C15: every key of every WITH COMPONENTS clause of a SEQUENCE
or CHOICE member exists, at any depth. -/
def C15_full : Prop :=
  ∀ raw b, buildFromTexts raw = .ok b →
    ∀ d ∈ defsOf b.modules, ∀ k ∈ d.members, ∀ cs, k.comps = some cs →
      ∀ n, UsesName k.type n → Addresses (fun _ => False) (defsOf b.modules) n cs

/-- The code does not satisfy it: clauses on members of built-in type are not
looked at. -/
theorem C15_full_false_builtin : ¬ C15_full := by
  intro h
  have := h
    [{ name := "a", defs := [.seq "S" none
      [⟨"x", .plain "BOOLEAN" none none, none, some (.leaf "nokey" (.int 1) .nil)⟩]] }]
    ⟨[⟨{ name := "a", defs := [.seq "S" none
      [⟨"x", .plain "BOOLEAN" none none, none, some (.leaf "nokey" (.int 1) .nil)⟩]] }, []⟩], []⟩
    (by decide +kernel)
    (.seq "S" none [⟨"x", .plain "BOOLEAN" none none, none, some (.leaf "nokey" (.int 1) .nil)⟩])
    (by simp [Bundle.modules, defsOf]) _ (by simp [Def.members]; rfl) _ rfl "BOOLEAN" .plain
  generalize hcs : Comps.leaf "nokey" (.int 1) .nil = cs at this
  cases this with
  | exempt h => exact h
  | nil h => cases hcs
  | leaf h =>
    obtain ⟨c, hc⟩ := h
    simp [Bundle.modules, defsOf] at hc
  | node => cases hcs

/-- Nor for CHOICE members. -/
theorem C15_full_false_choice : ¬ C15_full := by
  intro h
  have := h
    [{ name := "a", defs := [
      .seq "P" none [⟨"p", .plain "BOOLEAN" none none, none, none⟩],
      .choice "S" none [⟨"x", .plain "P" none none, none, some (.leaf "nokey" (.int 1) .nil)⟩]] }]
    ⟨[⟨{ name := "a", defs := [
      .seq "P" none [⟨"p", .plain "BOOLEAN" none none, none, none⟩],
      .choice "S" none [⟨"x", .plain "P" none none, none, some (.leaf "nokey" (.int 1) .nil)⟩]] }, []⟩], []⟩
    (by decide +kernel)
    (.choice "S" none [⟨"x", .plain "P" none none, none, some (.leaf "nokey" (.int 1) .nil)⟩])
    (by simp [Bundle.modules, defsOf]) _ (by simp [Def.members]; rfl) _ rfl "P" .plain
  generalize hcs : Comps.leaf "nokey" (.int 1) .nil = cs at this
  cases this with
  | exempt h => exact h
  | nil h => cases hcs
  | leaf h hm _ =>
    obtain ⟨c, hc⟩ := h
    simp [Bundle.modules, defsOf] at hc
    rw [hc.2] at hm
    simp at hm
    rw [hm] at hcs
    simp at hcs
  | node => cases hcs

/-- **C15, partial.** Missing: clauses on CHOICE members, and clauses on members of
a built-in type, which the code accepts unseen. For SEQUENCE members every key at
every depth exists in the sequence it constrains. -/
theorem C15_components_partial (raw : List Module) (b : Bundle)
    (h : buildFromTexts raw = .ok b) (n : String) (c : Option Comment) (ms : List Member)
    (hd : Def.seq n c ms ∈ defsOf b.modules) (k : Member) (hk : k ∈ ms) (cs : Comps)
    (hc : k.comps = some cs) (t : String) (ht : UsesName k.type t) :
    Addresses BuiltIn (defsOf b.modules) t cs := by
  obtain ⟨_, _, _, h3⟩ := buildFromTexts_ok.1 h
  have h4 := ((validateBundle_ok b).1 h3).2.1
  rw [(usesName_iff _ _).1 ht |>.symm]
  exact checkWithComponent_addresses ((checkComponents_ok _).1 h4 n c ms hd k hk cs hc)

example : ∃ ms, IsSequence exGeo.defs "Track" ms ∧ ∃ k ∈ ms, k.comps.isSome := by
  refine ⟨_, ⟨none, by simp [exGeo]; rfl⟩, ⟨"start", .plain "Point" none none, none,
    some (.leaf "lat" (.int 3) (.leaf "lon" (.int 4) .nil))⟩, by simp, rfl⟩

/-- **C16.** No accepted bundle contains a member or a simple definition of type
NULL, directly or as the element of an array of any depth. -/
theorem C16_no_null (raw : List Module) (b : Bundle) (h : buildFromTexts raw = .ok b) :
    ∀ d ∈ defsOf b.modules,
      (∀ k ∈ d.members, ¬ ContainsNull k.type) ∧
      (∀ n c t, d = .simple n c t → ¬ ContainsNull t) := by
  obtain ⟨ms, h1, h2, h3⟩ := buildFromTexts_ok.1 h
  rw [build_modules h2]
  intro d hd
  obtain ⟨m, hm, hdm⟩ := List.mem_flatMap.1 hd
  obtain ⟨_, _, d0, _, hd0⟩ := processModules_def h1 hm hdm
  obtain ⟨_, p2, _, p4, p5, p6, p7, p8⟩ := processDef_ok hd0
  constructor
  · intro k hk hnull
    rw [p2] at hk
    exact ((processMember_ok k).1 (p4 k hk)).2.2 (containsNull_name hnull)
  · rintro n c t rfl hnull
    have : ∃ n' c' t', d0 = .simple n' c' t' := by
      cases d0 with
      | simple n' c' t' => exact ⟨n', c', t', rfl⟩
      | seq n' c' ms' => have := p6 n' c' ms' rfl; cases this
      | choice n' c' ms' => have := p7 n' c' ms' rfl; cases this
      | enum n' c' ms' => obtain ⟨_, _, h⟩ := p8 n' c' ms' rfl; cases h
    obtain ⟨n', c', t', rfl⟩ := this
    obtain ⟨q1, q2, q3⟩ := p5 n' c' t' rfl
    cases q1
    unfold nullCheckSimple at q3
    rw [if_pos (containsNull_name hnull)] at q3
    cases q3

example : ContainsNull (.arr (.arr (.plain "NULL" none none) 3) 2) := .elem (.elem .here)

/-- The binding of C17: the member type `n` is bound to the only definition of
that name. -/
theorem C17_unique_binding (raw : List Module) (b : Bundle) (h : buildFromTexts raw = .ok b)
    (n : String) (lo hi : Option Num) (d : Def) :
    resolveType b.defs (.plain n lo hi) = some d ↔
      (d ∈ defsOf b.modules ∧ d.name = n ∧ ∀ e ∈ defsOf b.modules, e.name = n → e = d) := by
  obtain ⟨ms, h1, h2, h3⟩ := buildFromTexts_ok.1 h
  have hnd := ((validateBundle_ok b).1 h3).2.2
  rw [resolveType, lastDef_eq_some_iff hnd, defsOf_eq]
  constructor
  · rintro ⟨p1, p2⟩
    exact ⟨p1, p2, fun e he hen => mem_unique_of_nodup_map hnd he p1 (hen.trans p2.symm)⟩
  · rintro ⟨p1, p2, _⟩
    exact ⟨p1, p2⟩

/-- **C17.** Whatever the order in which the files are given, an accepted build
binds a type name to the same definition. -/
theorem C17_order_independent (raw raw' : List Module) (hp : raw.Perm raw') (b b' : Bundle)
    (h : buildFromTexts raw = .ok b) (h' : buildFromTexts raw' = .ok b') (t : AType) :
    resolveType b.defs t = resolveType b'.defs t := by
  have hmem : ∀ d, d ∈ defsOf b.modules ↔ d ∈ defsOf b'.modules := by
    obtain ⟨ms, h1, h2, h3⟩ := buildFromTexts_ok.1 h
    obtain ⟨ms', h1', h2', h3'⟩ := buildFromTexts_ok.1 h'
    rw [build_modules h2, build_modules h2']
    have : ms.Perm ms' := all2_perm (by
      intro a b c h1 h2; rw [h1] at h2; cases h2; rfl) hp (processModules_ok.1 h1) (processModules_ok.1 h1')
    intro d
    unfold defsOf
    simp only [List.mem_flatMap, this.mem_iff]
  cases t with
  | plain n lo hi =>
    apply Option.ext
    intro d
    rw [C17_unique_binding raw b h, C17_unique_binding raw' b' h', hmem]
    simp only [hmem]
  | str => rfl
  | arr => rfl

example : [exGeo, exBase].Perm [exBase, exGeo] ∧
    resolveType (allDefs [exGeo, exBase]) (.plain "Angle" none none) =
      some (.simple "Angle" none (.plain "INTEGER" (some (.int 0)) (some (.int 359)))) :=
  ⟨.swap .., by decide +kernel⟩

/-- **C18.** The use map records module name `mod` for type `n` exactly when a module
of that name contains a SEQUENCE or CHOICE member of that type without WITH
COMPONENTS, and `n` is not built in; each type and each module is listed once. -/
theorem C18_use_map (ms : List Module) (b : Bundle) (h : build ms = .ok b) :
    (∀ n mod, (∃ s, (n, s) ∈ b.uses ∧ mod ∈ s) ↔
      ∃ m ∈ ms, m.name = mod ∧ UsedPlainly m n ∧ ¬ BuiltIn n) ∧
    (b.uses.map (·.1)).Nodup ∧ ∀ p ∈ b.uses, p.2.Nodup ∧ p.2 ≠ [] := by
  have hu := (build_ok.1 h).2
  rw [hu]
  refine ⟨?_, wf_fold ms [] (by simp [UsesWF])⟩
  intro n mod
  have := recorded_fold ms [] n mod
  unfold Recorded at this
  unfold simpleUses
  rw [this]
  simp only [List.not_mem_nil, false_and, exists_false, or_false, mem_simpleDefsUsed]
  constructor
  · rintro ⟨m, h1, h2, rfl⟩; exact ⟨m, h1, rfl, h2⟩
  · rintro ⟨m, h1, rfl, h2⟩; exact ⟨m, h1, h2, rfl⟩

example : (build exRaw).map (·.uses) = .ok [("Angle", ["geo"]), ("Point", ["geo"])] := by
  decide +kernel

end Apg
