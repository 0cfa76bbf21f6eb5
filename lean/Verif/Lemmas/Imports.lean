import Verif.Lemmas.ShuffleRun
import Verif.Spec.Imports

/-!
# Runs on modules that import the same in another way
-/

namespace Apg
open Spec

/-! ### Results -/

/-- Two results: the same error, or values in relation. -/
inductive EndsAlike {α β : Type} (R : α → β → Prop) : Except Err α → Except Err β → Prop where
  | error (e : Err) : EndsAlike R (.error e) (.error e)
  | ok {a : α} {b : β} (h : R a b) : EndsAlike R (.ok a) (.ok b)

theorem EndsAlike.bind {α β γ δ : Type} {R : α → β → Prop} {S : γ → δ → Prop} {x : Except Err α} {y : Except Err β}
    {f : α → Except Err γ} {g : β → Except Err δ} (h : EndsAlike R x y) (hfg : ∀ a b, x = .ok a → y = .ok b → R a b →
      EndsAlike S (f a) (g b)) : EndsAlike S (x >>= f) (y >>= g) := by
  cases h with
  | error e => exact .error e
  | ok h => exact hfg _ _ rfl rfl h

theorem EndsAlike.same {α : Type} {x y : Except Err α} (h : y = x) : EndsAlike (fun a b => b = a) x y := by
  subst h
  cases y with
  | error e => exact .error e
  | ok a => exact .ok rfl

/-! ### Processing -/

theorem Spec.Reimported.symm {m m' : Module} (h : Reimported m m') : Reimported m' m :=
  ⟨h.name.symm, h.comment.symm, h.commentImport.symm, h.defs.symm, fun f => (h.modules f).symm, fun f n => (h.types f n).symm⟩

theorem mem_imported_names {m : Module} {n : String} : n ∈ m.imports.flatMap (·.defs) ↔ ∃ f, NamesType m f n := by
  rw [List.mem_flatMap]
  constructor
  · rintro ⟨i, hi, hn⟩; exact ⟨i.module, i, hi, rfl, hn⟩
  · rintro ⟨f, i, hi, _, hn⟩; exact ⟨i, hi, hn⟩

theorem imported_names_reimported {m m' : Module} (h : Reimported m m') (n : String) :
    n ∈ m'.imports.flatMap (·.defs) ↔ n ∈ m.imports.flatMap (·.defs) := by
  simp only [mem_imported_names, h.types]

theorem checkUsedTypes_reimported {m m' : Module} (h : Reimported m m') : checkUsedTypes m' = checkUsedTypes m := by
  have : ∀ n, (knownTypes m').contains n = (knownTypes m).contains n := by
    intro n
    rw [Bool.eq_iff_iff, List.contains_iff_mem, List.contains_iff_mem]
    unfold knownTypes
    simp only [List.mem_append, imported_names_reimported h, h.defs]
  unfold checkUsedTypes
  simp only [this, h.defs]

theorem processModule_reimported {m m' : Module} (h : Reimported m m') :
    EndsAlike Reimported (processModule m) (processModule m') := by
  unfold processModule
  rw [h.comment, h.commentImport, h.defs]
  refine (EndsAlike.same rfl).bind fun _ _ _ _ _ => (EndsAlike.same rfl).bind fun _ _ _ _ _ =>
    (EndsAlike.same rfl).bind fun ds ds' _ _ hd => ?_
  subst hd
  have hr : Reimported { m with defs := ds' } { m' with comment := m.comment, commentImport := m.commentImport, defs := ds' } :=
    ⟨h.name, rfl, rfl, rfl, h.modules, h.types⟩
  exact (EndsAlike.same (checkUsedTypes_reimported hr)).bind fun _ _ _ _ _ => .ok hr

theorem processModules_reimported {raw raw' : List Module} (hs : All2 Reimported raw raw') :
    EndsAlike (All2 Reimported) (processModules raw) (processModules raw') := by
  induction hs with
  | nil => exact .ok .nil
  | cons h _ ih =>
    unfold processModules
    exact (processModule_reimported h).bind fun _ _ _ _ h1 => ih.bind fun _ _ _ _ h2 => .ok (.cons h1 h2)

theorem names_reimported {ms ms' : List Module} (hs : All2 Reimported ms ms') : ms'.map (·.name) = ms.map (·.name) := by
  induction hs with
  | nil => rfl
  | cons h _ ih => rw [List.map_cons, List.map_cons, ih, h.name]

theorem lastNamed_reimported {ms ms' : List Module} (hs : All2 Reimported ms ms') (n : String) :
    (lastNamed ms n = none ∧ lastNamed ms' n = none) ∨
    ∃ m m', lastNamed ms n = some m ∧ lastNamed ms' n = some m' ∧ Reimported m m' := by
  induction hs with
  | nil => exact .inl ⟨rfl, rfl⟩
  | @cons a c l l' h _ ih =>
    rw [lastNamed, lastNamed, h.name]
    rcases ih with ⟨h1, h2⟩ | ⟨m, m', h1, h2, h3⟩
    · rw [h1, h2]
      by_cases hn : a.name = n
      · simp only [if_pos hn]; exact .inr ⟨_, _, rfl, rfl, h⟩
      · refine .inl ⟨?_, ?_⟩ <;> exact if_neg hn
    · rw [h1, h2]; exact .inr ⟨_, _, rfl, rfl, h3⟩

/-- Two versions of a module in two bundles. -/
structure ReimportedB (bm bm' : BMod) : Prop where
  mod : Reimported bm.mod bm'.mod
  left : ∀ m ∈ bm.imported, ∃ m' ∈ bm'.imported, Reimported m m'
  right : ∀ m' ∈ bm'.imported, ∃ m ∈ bm.imported, Reimported m m'

theorem mem_found {all : List Module} {is : List ImportItem} {m : Module} :
    m ∈ is.filterMap (fun i => lastNamed all i.module) ↔ ∃ f, (∃ i ∈ is, i.module = f) ∧ lastNamed all f = some m := by
  rw [List.mem_filterMap]
  constructor
  · rintro ⟨i, hi, h⟩; exact ⟨_, ⟨i, hi, rfl⟩, h⟩
  · rintro ⟨f, ⟨i, hi, rfl⟩, h⟩; exact ⟨i, hi, h⟩

theorem resolveDeps_reimported {all all' : List Module} (ha : All2 Reimported all all') {ms ms' : List Module}
    (hs : All2 Reimported ms ms') : EndsAlike (All2 ReimportedB) (resolveDeps all ms) (resolveDeps all' ms') := by
  induction hs with
  | nil => exact .ok .nil
  | @cons m m' l l' h hl ih =>
    have hany : (l'.any fun r => r.name = m'.name) = l.any fun r => r.name = m.name := by
      have : ∀ k : List Module, (k.any fun r => r.name = m.name) = (k.map (·.name)).any fun n => n = m.name := by
        intro k; rw [List.any_map]; rfl
      rw [h.name, this, this, names_reimported hl]
    have hmiss : (m'.imports.any fun i => (lastNamed all' i.module).isNone) =
        m.imports.any fun i => (lastNamed all i.module).isNone := by
      rw [Bool.eq_iff_iff, List.any_eq_true, List.any_eq_true]
      have hiff : ∀ f, (lastNamed all' f).isNone = (lastNamed all f).isNone := by
        intro f
        rcases lastNamed_reimported ha f with ⟨h1, h2⟩ | ⟨x, y, h1, h2, _⟩ <;> rw [h1, h2] <;> rfl
      simp only [hiff]
      constructor
      · rintro ⟨i, hi, hn⟩
        obtain ⟨j, hj, e⟩ := (h.modules i.module).1 ⟨i, hi, rfl⟩
        exact ⟨j, hj, by rw [e]; exact hn⟩
      · rintro ⟨i, hi, hn⟩
        obtain ⟨j, hj, e⟩ := (h.modules i.module).2 ⟨i, hi, rfl⟩
        exact ⟨j, hj, by rw [e]; exact hn⟩
    rw [resolveDeps, resolveDeps, hany, hmiss]
    split
    · exact ih.bind fun _ _ _ _ h2 => .ok (.cons ⟨h, (fun _ hx => by cases hx), (fun _ hx => by cases hx)⟩ h2)
    · split
      · exact .error _
      · refine ih.bind fun _ _ _ _ h2 => .ok (.cons ⟨h, fun x hx => ?_, fun x hx => ?_⟩ h2)
        · obtain ⟨f, hf, hx⟩ := mem_found.1 hx
          rcases lastNamed_reimported ha f with ⟨h1, _⟩ | ⟨y, y', h1, h3, h4⟩
          · rw [h1] at hx; cases hx
          · rw [h1] at hx
            cases hx
            exact ⟨y', mem_found.2 ⟨f, (h.modules f).2 hf, h3⟩, h4⟩
        · obtain ⟨f, hf, hx⟩ := mem_found.1 hx
          rcases lastNamed_reimported ha f with ⟨_, h1⟩ | ⟨y, y', h1, h3, h4⟩
          · rw [h1] at hx; cases hx
          · rw [h3] at hx
            cases hx
            exact ⟨y, mem_found.2 ⟨f, (h.modules f).1 hf, h1⟩, h4⟩

/-- Two bundles of modules that import the same. -/
structure ReimportedBundle (b b' : Bundle) : Prop where
  mods : All2 ReimportedB b.mods b'.mods
  uses : b'.uses = b.uses

theorem simpleUses_reimported {ms ms' : List Module} (hs : All2 Reimported ms ms') : simpleUses ms' = simpleUses ms := by
  have : ∀ acc : List (String × List String),
      ms'.foldl (fun acc m => (simpleDefsUsed m).foldl (fun acc t => addUse acc t m.name) acc) acc =
        ms.foldl (fun acc m => (simpleDefsUsed m).foldl (fun acc t => addUse acc t m.name) acc) acc := by
    induction hs with
    | nil => intro; rfl
    | cons h _ ih =>
      intro acc
      rw [List.foldl_cons, List.foldl_cons, ih]
      unfold simpleDefsUsed
      rw [h.defs, h.name]
  exact this []

theorem build_reimported {ms ms' : List Module} (hs : All2 Reimported ms ms') :
    EndsAlike ReimportedBundle (build ms) (build ms') := by
  unfold build
  exact (resolveDeps_reimported hs hs).bind fun _ _ _ _ h => .ok ⟨h, simpleUses_reimported hs⟩

theorem ReimportedBundle.modules {b b' : Bundle} (h : ReimportedBundle b b') : All2 Reimported b.modules b'.modules := by
  unfold Bundle.modules
  have := h.mods
  generalize b.mods = l at this
  generalize b'.mods = l' at this
  induction this with
  | nil => exact .nil
  | cons h _ ih => exact .cons h.mod ih

theorem ReimportedBundle.defs {b b' : Bundle} (h : ReimportedBundle b b') : b'.defs = b.defs := by
  unfold Bundle.defs allDefs
  have := h.modules
  generalize b.modules = l at this
  generalize b'.modules = l' at this
  induction this with
  | nil => rfl
  | cons h _ ih => rw [List.flatMap_cons, List.flatMap_cons, ih, h.defs]

theorem importsDefined_iff {bm : BMod} : importsDefined bm = true ↔
    ∀ im ∈ bm.imported, ∀ n, NamesType bm.mod im.name n → n ∈ im.defs.map Def.name := by
  unfold importsDefined
  simp only [List.all_eq_true, List.mem_filter, decide_eq_true_eq, List.contains_iff_mem]
  constructor
  · rintro h im him n ⟨i, hi, hf, hn⟩
    exact h im him i ⟨hi, hf⟩ n hn
  · rintro h im him i ⟨hi, hf⟩ n hn
    exact h im him n ⟨i, hi, hf, hn⟩

theorem importsDefined_reimported {bm bm' : BMod} (h : ReimportedB bm bm') : importsDefined bm' = importsDefined bm := by
  rw [Bool.eq_iff_iff, importsDefined_iff, importsDefined_iff]
  constructor
  · intro hd im him n hn
    obtain ⟨im', him', hr⟩ := h.left im him
    have := hd im' him' n (by rw [hr.name]; exact (h.mod.types _ _).2 hn)
    rwa [hr.defs] at this
  · intro hd im' him' n hn
    obtain ⟨im, him, hr⟩ := h.right im' him'
    have := hd im him n (by rw [← hr.name]; exact (h.mod.types _ _).1 hn)
    rwa [hr.defs]

theorem validateBundle_reimported {b b' : Bundle} (h : ReimportedBundle b b') : validateBundle b' = validateBundle b := by
  unfold validateBundle checkImportsAndComponents
  have : b'.mods.all importsDefined = b.mods.all importsDefined := by
    have hm := h.mods
    generalize b.mods = l at hm
    generalize b'.mods = l' at hm
    induction hm with
    | nil => rfl
    | cons h _ ih => rw [List.all_cons, List.all_cons, ih, importsDefined_reimported h]
  rw [this, h.defs]

theorem buildFromTexts_reimported {raw raw' : List Module} (hs : All2 Reimported raw raw') :
    EndsAlike ReimportedBundle (buildFromTexts raw) (buildFromTexts raw') := by
  unfold buildFromTexts
  exact (processModules_reimported hs).bind fun ms ms' _ _ hm => (build_reimported hm).bind fun b b' _ _ hb =>
    (EndsAlike.same (validateBundle_reimported hb)).bind fun _ _ _ _ _ => .ok hb

theorem buildFromConfig_reimported {raw raw' : List Module} (hs : All2 Reimported raw raw') (cfg : List String) :
    EndsAlike ReimportedBundle (buildFromConfig raw cfg) (buildFromConfig raw' cfg) := by
  unfold buildFromConfig
  refine (processModules_reimported hs).bind fun ms ms' _ _ hm => ?_
  have hu : validateUniqueModuleNames ms' cfg = validateUniqueModuleNames ms cfg := by
    unfold validateUniqueModuleNames
    rw [names_reimported hm]
  refine (EndsAlike.same hu).bind fun _ _ _ _ _ => (build_reimported hm).bind fun b b' _ _ hb =>
    (EndsAlike.same (validateBundle_reimported hb)).bind fun _ _ _ _ _ => ?_
  have hc : checkMissingModules cfg b' = checkMissingModules cfg b := by
    unfold checkMissingModules
    rw [names_reimported hb.modules]
  exact (EndsAlike.same hc).bind fun _ _ _ _ _ => .ok hb

/-! ### Order -/

theorem sortPass_same (ds : List Def) : ∀ l l' : List String, (∀ n, n ∈ l' ↔ n ∈ l) →
    (sortPass l' ds).1 = (sortPass l ds).1 ∧ (sortPass l' ds).2.1 = (sortPass l ds).2.1 ∧
      ∀ n, n ∈ (sortPass l' ds).2.2 ↔ n ∈ (sortPass l ds).2.2 := by
  induction ds with
  | nil => intro l l' h; exact ⟨rfl, rfl, h⟩
  | cons d ds ih =>
    intro l l' h
    have hr : d.ready l' = d.ready l := by
      have hc : ∀ n, l'.contains n = l.contains n := by
        intro n; rw [Bool.eq_iff_iff, List.contains_iff_mem, List.contains_iff_mem]; exact h n
      cases d <;> simp only [Def.ready, hc]
    have h1 := ih (l ++ [d.name]) (l' ++ [d.name]) (fun n => by simp only [List.mem_append, h])
    have h2 := ih l l' h
    simp only [sortPass, hr]
    by_cases hc : d.ready l = true
    · simp only [if_pos hc]
      exact ⟨by rw [h1.1], h1.2.1, h1.2.2⟩
    · simp only [if_neg hc]
      exact ⟨h2.1, by rw [h2.2.1], h2.2.2⟩

theorem sortLoop_same (fuel : Nat) : ∀ (l l' : List String) (done todo : List Def), (∀ n, n ∈ l' ↔ n ∈ l) →
    sortLoop fuel l' done todo = sortLoop fuel l done todo := by
  induction fuel with
  | zero => intros; rfl
  | succ fuel ih =>
    intro l l' done todo h
    cases todo with
    | nil => rfl
    | cons d ds =>
      have := sortPass_same (d :: ds) l l' h
      simp only [sortLoop]
      rw [this.1, this.2.1]
      exact ih _ _ _ _ this.2.2

theorem sortDefs_reimported {m m' : Module} (h : Reimported m m') (fuel : Nat) : sortDefs fuel m' = sortDefs fuel m := by
  unfold sortDefs
  rw [h.defs]
  refine sortLoop_same fuel _ _ _ _ fun n => ?_
  unfold sortBase
  simp only [List.mem_append, imported_names_reimported h]

/-- Two states of the loop over modules. -/
structure ReimportedState (s s' : OrderState) : Prop where
  mods : All2 Reimported s.mods s'.mods
  names : s'.names = s.names
  order : All2 Reimported s.order s'.order

theorem importNames_reimported {ms ms' : List Module} (hs : All2 Reimported ms ms') (n : String) :
    n ∈ importNames ms' ↔ n ∈ importNames ms := by
  unfold importNames
  induction hs with
  | nil => exact Iff.rfl
  | @cons m m' l l' h _ ih =>
    rw [List.flatMap_cons, List.flatMap_cons, List.mem_append, List.mem_append, ih]
    have : n ∈ m'.imports.map (·.module) ↔ n ∈ m.imports.map (·.module) := by
      rw [List.mem_map, List.mem_map]
      exact h.modules n
    rw [this]

theorem all2_getElem? {α β : Type} {R : α → β → Prop} {l : List α} {l' : List β} (h : All2 R l l') : ∀ i : Nat,
    (l[i]? = none ∧ l'[i]? = none) ∨ ∃ a b, l[i]? = some a ∧ l'[i]? = some b ∧ R a b := by
  induction h with
  | nil => intro i; exact .inl ⟨rfl, rfl⟩
  | cons h _ ih =>
    intro i
    cases i with
    | zero => exact .inr ⟨_, _, rfl, rfl, h⟩
    | succ i => simpa using ih i

theorem all2_eraseIdx {α β : Type} {R : α → β → Prop} {l : List α} {l' : List β} (h : All2 R l l') : ∀ i,
    All2 R (l.eraseIdx i) (l'.eraseIdx i) := by
  induction h with
  | nil => intro i; exact .nil
  | cons h hl ih =>
    intro i
    cases i with
    | zero => exact hl
    | succ i => exact .cons h (ih i)

theorem orderPass_reimported (i : Nat) (s : OrderState) : ∀ s', ReimportedState s s' →
    ReimportedState (orderPass i s) (orderPass i s') := by
  have hcon : ∀ {s s' : OrderState}, ReimportedState s s' → ∀ n : String,
      (importNames s'.mods).contains n = (importNames s.mods).contains n := by
    intro s s' h n
    rw [Bool.eq_iff_iff, List.contains_iff_mem, List.contains_iff_mem]
    exact importNames_reimported h.mods n
  induction i, s using orderPass.induct with
  | case1 i s hl name hc ih =>
    intro s' h
    have h' : i < s'.names.length := by rw [h.names]; exact hl
    have hget : s'.names[i]'h' = s.names[i] := by simp only [h.names]
    rw [orderPass.eq_def i s, orderPass.eq_def i s', dif_pos hl, dif_pos h']
    simp only [hget]
    rw [if_pos hc, if_pos (by rw [hcon h]; exact hc)]
    exact ih s' h
  | case2 i s hl name hc hm =>
    intro s' h
    have h' : i < s'.names.length := by rw [h.names]; exact hl
    have hget : s'.names[i]'h' = s.names[i] := by simp only [h.names]
    rw [orderPass.eq_def i s, orderPass.eq_def i s', dif_pos hl, dif_pos h']
    simp only [hget]
    rw [if_neg hc, if_neg (by rw [hcon h]; exact hc), hm]
    rcases all2_getElem? h.mods i with ⟨_, e⟩ | ⟨a, _, e, _⟩
    · rw [e]; exact h
    · rw [hm] at e; cases e
  | case3 i s hl name hc m hm ih =>
    intro s' h
    have h' : i < s'.names.length := by rw [h.names]; exact hl
    have hget : s'.names[i]'h' = s.names[i] := by simp only [h.names]
    rw [orderPass.eq_def i s, orderPass.eq_def i s', dif_pos hl, dif_pos h']
    simp only [hget]
    rw [if_neg hc, if_neg (by rw [hcon h]; exact hc), hm]
    rcases all2_getElem? h.mods i with ⟨e, _⟩ | ⟨a, a', e, e', hr⟩
    · rw [hm] at e; cases e
    · rw [hm] at e
      cases e
      rw [e']
      exact ih _ ⟨all2_eraseIdx h.mods i, by simp only [h.names, hr.name], all2_append h.order (.cons hr .nil)⟩
  | case4 i s hl =>
    intro s' h
    rw [orderPass.eq_def i s, orderPass.eq_def i s', dif_neg hl, dif_neg (by rw [h.names]; exact hl)]
    exact h

theorem orderLoop_reimported (fuel : Nat) : ∀ s s' : OrderState, ReimportedState s s' →
    (orderLoop fuel s = none ∧ orderLoop fuel s' = none) ∨
    ∃ ms ms', orderLoop fuel s = some ms ∧ orderLoop fuel s' = some ms' ∧ All2 Reimported ms ms' := by
  induction fuel with
  | zero => intros; exact .inl ⟨rfl, rfl⟩
  | succ fuel ih =>
    intro s s' h
    rw [orderLoop, orderLoop]
    have hm := h.mods
    cases e : s.mods with
    | nil =>
      rw [e] at hm
      cases e' : s'.mods with
      | nil => exact .inr ⟨_, _, rfl, rfl, h.order⟩
      | cons => rw [e'] at hm; cases hm
    | cons a l =>
      rw [e] at hm
      cases e' : s'.mods with
      | nil => rw [e'] at hm; cases hm
      | cons a' l' => exact ih _ _ (orderPass_reimported 0 s s' h)

theorem orderModules_reimported {ms ms' : List Module} (hs : All2 Reimported ms ms') (fuel : Nat) :
    (orderModules fuel ms = none ∧ orderModules fuel ms' = none) ∨
    ∃ o o', orderModules fuel ms = some o ∧ orderModules fuel ms' = some o' ∧ All2 Reimported o o' :=
  orderLoop_reimported fuel _ _ ⟨hs, names_reimported hs, .nil⟩

theorem find_reimported {bs bs' : List BMod} (hs : All2 ReimportedB bs bs') {k k' : List Module}
    (hk : (k.map (·.name)).Nodup) (hk' : (k'.map (·.name)).Nodup) (h1 : ∀ x ∈ bs, x.mod ∈ k) (h2 : ∀ x ∈ bs', x.mod ∈ k')
    {m m' : Module} (hm : Reimported m m') (hmk : m ∈ k) (hmk' : m' ∈ k') :
    (bs.find? (fun x => x.mod = m) = none ∧ bs'.find? (fun x => x.mod = m') = none) ∨
    ∃ x x', bs.find? (fun x => x.mod = m) = some x ∧ bs'.find? (fun x => x.mod = m') = some x' ∧ ReimportedB x x' := by
  induction hs with
  | nil => exact .inl ⟨rfl, rfl⟩
  | @cons a c l l' h _ ih =>
    have hiff : (c.mod = m') ↔ a.mod = m := by
      constructor
      · intro e
        exact mem_unique_of_nodup_map hk (h1 a (List.Mem.head _)) hmk (by rw [← h.mod.name, e, hm.name])
      · intro e
        exact mem_unique_of_nodup_map hk' (h2 c (List.Mem.head _)) hmk' (by rw [h.mod.name, e, hm.name])
    rw [List.find?_cons, List.find?_cons]
    by_cases e : a.mod = m
    · rw [decide_eq_true e, decide_eq_true (hiff.2 e)]
      exact .inr ⟨_, _, rfl, rfl, h⟩
    · rw [decide_eq_false e, decide_eq_false (fun q => e (hiff.1 q))]
      exact ih (fun x hx => h1 x (List.Mem.tail _ hx)) fun x hx => h2 x (List.Mem.tail _ hx)

theorem orderedMods_reimported {b b' : Bundle} (h : ReimportedBundle b b') (hn : (b.modules.map (·.name)).Nodup)
    {o o' : List Module} (ho : All2 Reimported o o') (h1 : ∀ m ∈ o, m ∈ b.modules) (h2 : ∀ m ∈ o', m ∈ b'.modules) :
    All2 ReimportedB (orderedMods b o) (orderedMods b' o') := by
  have hn' : (b'.modules.map (·.name)).Nodup := by rw [names_reimported h.modules]; exact hn
  unfold orderedMods
  induction ho with
  | nil => exact .nil
  | @cons m m' l l' hm _ ih =>
    rw [List.filterMap_cons, List.filterMap_cons]
    have ih := ih (fun x hx => h1 x (List.Mem.tail _ hx)) fun x hx => h2 x (List.Mem.tail _ hx)
    rcases find_reimported h.mods hn hn' (fun x hx => List.mem_map.2 ⟨x, hx, rfl⟩)
        (fun x hx => List.mem_map.2 ⟨x, hx, rfl⟩) hm (h1 m (List.Mem.head _)) (h2 m' (List.Mem.head _)) with
      ⟨e, e'⟩ | ⟨x, x', e, e', hx⟩
    · rw [e, e']; exact ih
    · rw [e, e']; exact .cons hx ih

end Apg
