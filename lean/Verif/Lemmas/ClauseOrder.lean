import Verif.Lemmas.Imports
import Verif.Lemmas.UnfixRun
import Verif.Spec.ClauseOrder

/-!
# Bundles of modules that fix values in another order
-/

namespace Apg
open Spec

/-! ### Clauses -/

theorem Spec.Reordered.refl : ∀ c : Comps, Reordered c c
  | .nil => .nil
  | .leaf k v r => .keep (k := k) (x := .inl v) (Reordered.refl r)
  | .node k c r => .keep (k := k) (x := .inr c) (Reordered.refl r)

theorem Spec.Reordered.symm {c c' : Comps} (h : Reordered c c') : Reordered c' c := by
  induction h with
  | nil => exact .nil
  | keep _ ih => exact .keep ih
  | inner _ ih => exact .inner ih
  | swap => exact .swap
  | trans _ _ ih ih' => exact .trans ih' ih

/-- A relation between clauses that fix the same members. -/
class ClauseRel (R : Comps → Comps → Prop) : Prop where
  refl : ∀ c, R c c
  symm : ∀ {c c'}, R c c' → R c' c
  checks : ∀ ds n {c c'}, R c c' → checkWithComponent ds n c = checkWithComponent ds n c'

variable {R : Comps → Comps → Prop}

theorem Spec.AlteredClause.refl [ClauseRel R] (c : Option Comps) : AlteredClause R c c := by
  cases c with
  | none => exact .none
  | some c => exact .some (ClauseRel.refl c)

theorem Spec.AlteredMember.refl [ClauseRel R] (m : Member) : AlteredMember R m m := ⟨rfl, rfl, rfl, .refl _⟩

theorem reorderedMembers_refl [ClauseRel R] (ms : List Member) : All2 (AlteredMember R) ms ms := by
  induction ms with
  | nil => exact .nil
  | cons m ms ih => exact .cons (.refl m) ih

/-! ### Modules without clauses -/

theorem unfixedMember_reordered {m m' : Member} (h : AlteredMember R m m') : unfixedMember m' = unfixedMember m := by
  unfold unfixedMember
  cases m; cases m'
  simp only [Member.mk.injEq]
  exact ⟨h.key, h.type, h.comment, trivial⟩

theorem unfixedMembers_reordered {ms ms' : List Member} (h : All2 (AlteredMember R) ms ms') :
    ms'.map unfixedMember = ms.map unfixedMember := by
  induction h with
  | nil => rfl
  | cons h _ ih => rw [List.map_cons, List.map_cons, ih, unfixedMember_reordered h]

theorem unfixedDef_reordered {d d' : Def} (h : AlteredDef R d d') : unfixedDef d' = unfixedDef d := by
  cases h with
  | same => rfl
  | seq h => simp only [unfixedDef, unfixedMembers_reordered h]

theorem unfixedDefs_reordered {ds ds' : List Def} (h : All2 (AlteredDef R) ds ds') : ds'.map unfixedDef = ds.map unfixedDef := by
  induction h with
  | nil => rfl
  | cons h _ ih => rw [List.map_cons, List.map_cons, ih, unfixedDef_reordered h]

theorem unfixed_reordered {m m' : Module} (h : AlteredModule R m m') : unfixed m' = unfixed m := by
  cases m; cases m'
  simp only [unfixed, Module.mk.injEq]
  have := unfixedDefs_reordered h.defs
  have h1 := h.name
  have h2 := h.comment
  have h3 := h.commentImport
  have h4 := h.imports
  simp_all

theorem unfixedModules_reordered {ms ms' : List Module} (h : All2 (AlteredModule R) ms ms') :
    ms'.map unfixed = ms.map unfixed := by
  induction h with
  | nil => rfl
  | cons h _ ih => rw [List.map_cons, List.map_cons, ih, unfixed_reordered h]

theorem Spec.AlteredDef.name {d d' : Def} (h : AlteredDef R d d') : d'.name = d.name := by
  cases h <;> rfl

theorem names_reorderedDefs {ds ds' : List Def} (h : All2 (AlteredDef R) ds ds') : ds'.map Def.name = ds.map Def.name := by
  rw [← map_unfixedDef_name, ← map_unfixedDef_name ds, unfixedDefs_reordered h]

/-! ### Processing -/

theorem processMembers_reordered {ms ms' : List Member} (h : All2 (AlteredMember R) ms ms') :
    processMembers ms' = processMembers ms := by
  rw [← processMembers_unfixed, ← processMembers_unfixed ms, unfixedMembers_reordered h]

theorem processDef_reordered {d d' : Def} (h : AlteredDef R d d') : EndsAlike (AlteredDef R) (processDef d) (processDef d') := by
  cases h with
  | same =>
    cases processDef d with
    | error e => exact .error e
    | ok x => exact .ok (.same x)
  | seq h =>
    simp only [processDef, processMembers_reordered h]
    exact (EndsAlike.same rfl).bind fun _ _ _ _ _ => (EndsAlike.same rfl).bind fun _ _ _ _ _ => .ok (.seq h)

theorem processDefs_reordered {ds ds' : List Def} (h : All2 (AlteredDef R) ds ds') :
    EndsAlike (All2 (AlteredDef R)) (processDefs ds) (processDefs ds') := by
  induction h with
  | nil => exact .ok .nil
  | cons h _ ih =>
    unfold processDefs
    exact (processDef_reordered h).bind fun _ _ _ _ h1 => ih.bind fun _ _ _ _ h2 => .ok (.cons h1 h2)

theorem checkUsedTypes_reordered {m m' : Module} (h : AlteredModule R m m') : checkUsedTypes m' = checkUsedTypes m := by
  rw [← checkUsedTypes_unfixed, ← checkUsedTypes_unfixed m, unfixed_reordered h]

theorem processModule_reordered {m m' : Module} (h : AlteredModule R m m') :
    EndsAlike (AlteredModule R) (processModule m) (processModule m') := by
  unfold processModule
  rw [h.comment, h.commentImport]
  refine (EndsAlike.same rfl).bind fun _ _ _ _ _ => (EndsAlike.same rfl).bind fun _ _ _ _ _ =>
    (processDefs_reordered h.defs).bind fun ds ds' _ _ hd => ?_
  have hr : AlteredModule R { m with defs := ds }
      { m' with comment := m.comment, commentImport := m.commentImport, defs := ds' } := ⟨h.name, rfl, rfl, h.imports, hd⟩
  exact (EndsAlike.same (checkUsedTypes_reordered hr)).bind fun _ _ _ _ _ => .ok hr

theorem processModules_reordered {raw raw' : List Module} (hs : All2 (AlteredModule R) raw raw') :
    EndsAlike (All2 (AlteredModule R)) (processModules raw) (processModules raw') := by
  induction hs with
  | nil => exact .ok .nil
  | cons h _ ih =>
    unfold processModules
    exact (processModule_reordered h).bind fun _ _ _ _ h1 => ih.bind fun _ _ _ _ h2 => .ok (.cons h1 h2)

theorem names_reordered {ms ms' : List Module} (hs : All2 (AlteredModule R) ms ms') : ms'.map (·.name) = ms.map (·.name) := by
  rw [← map_unfixed_name, ← map_unfixed_name ms, unfixedModules_reordered hs]

theorem lastNamed_reordered {ms ms' : List Module} (hs : All2 (AlteredModule R) ms ms') (n : String) :
    (lastNamed ms n = none ∧ lastNamed ms' n = none) ∨
    ∃ m m', lastNamed ms n = some m ∧ lastNamed ms' n = some m' ∧ AlteredModule R m m' := by
  induction hs with
  | nil => exact .inl ⟨rfl, rfl⟩
  | @cons a c l l' h _ ih =>
    rw [lastNamed, lastNamed, h.name]
    rcases ih with ⟨h1, h2⟩ | ⟨m, m', h1, h2, h3⟩
    · rw [h1, h2]
      by_cases hn : a.name = n
      · simp only [if_pos hn]; exact .inr ⟨_, _, rfl, rfl, h⟩
      · refine .inl ⟨?_, ?_⟩ <;> exact if_neg hn
    · rw [h1, h2]; exact .inr ⟨_, _, rfl, rfl, h3⟩

/-- Two versions of a module in two bundles. -/
structure AlteredB (R : Comps → Comps → Prop) (bm bm' : BMod) : Prop where
  mod : AlteredModule R bm.mod bm'.mod
  imported : All2 (AlteredModule R) bm.imported bm'.imported

theorem imported_reordered {all all' : List Module} (hs : All2 (AlteredModule R) all all') (is : List ImportItem) :
    All2 (AlteredModule R) (is.filterMap fun i => lastNamed all i.module) (is.filterMap fun i => lastNamed all' i.module) := by
  induction is with
  | nil => exact .nil
  | cons i is ih =>
    rcases lastNamed_reordered hs i.module with ⟨h1, h2⟩ | ⟨m, m', h1, h2, h3⟩
    · rw [List.filterMap_cons_none (by exact h1), List.filterMap_cons_none (by exact h2)]; exact ih
    · rw [List.filterMap_cons_some (by exact h1), List.filterMap_cons_some (by exact h2)]; exact .cons h3 ih

theorem resolveDeps_reordered {all all' : List Module} (ha : All2 (AlteredModule R) all all') {ms ms' : List Module}
    (hs : All2 (AlteredModule R) ms ms') : EndsAlike (All2 (AlteredB R)) (resolveDeps all ms) (resolveDeps all' ms') := by
  induction hs with
  | nil => exact .ok .nil
  | @cons m m' l l' h hl ih =>
    have hany : (l'.any fun r => r.name = m'.name) = l.any fun r => r.name = m.name := by
      have : ∀ k : List Module, (k.any fun r => r.name = m.name) = (k.map (·.name)).any fun n => n = m.name := by
        intro k; rw [List.any_map]; rfl
      rw [h.name, this, this, names_reordered hl]
    have hiff : ∀ f, (lastNamed all' f).isNone = (lastNamed all f).isNone := by
      intro f
      rcases lastNamed_reordered ha f with ⟨h1, h2⟩ | ⟨x, y, h1, h2, _⟩ <;> rw [h1, h2] <;> rfl
    rw [resolveDeps, resolveDeps, hany, h.imports]
    simp only [hiff]
    split
    · exact ih.bind fun _ _ _ _ h2 => .ok (.cons ⟨h, .nil⟩ h2)
    · split
      · exact .error _
      · exact ih.bind fun _ _ _ _ h2 => .ok (.cons ⟨h, imported_reordered ha _⟩ h2)

/-- Two bundles of modules that fix values in another order. -/
structure AlteredBundle (R : Comps → Comps → Prop) (b b' : Bundle) : Prop where
  mods : All2 (AlteredB R) b.mods b'.mods
  uses : b'.uses = b.uses

theorem simpleDefsUsed_reordered {m m' : Module} (h : AlteredModule R m m') : simpleDefsUsed m' = simpleDefsUsed m := by
  have hd := h.defs
  unfold simpleDefsUsed
  generalize m.defs = l at hd
  generalize m'.defs = l' at hd
  induction hd with
  | nil => rfl
  | @cons d d' l l' hd _ ih =>
    rw [List.flatMap_cons, List.flatMap_cons, ih]
    congr 1
    cases hd with
    | same => rfl
    | seq hm =>
      simp only [Def.members]
      induction hm with
      | nil => rfl
      | @cons k k' ks ks' hk _ ih =>
        have e : k'.comps.isNone = k.comps.isNone := by
          have := hk.comps
          generalize k.comps = x at this
          generalize k'.comps = y at this
          cases this <;> rfl
        rw [List.filterMap_cons, List.filterMap_cons, ih, e, hk.type]

theorem simpleUses_reordered {ms ms' : List Module} (hs : All2 (AlteredModule R) ms ms') : simpleUses ms' = simpleUses ms := by
  have : ∀ acc : List (String × List String),
      ms'.foldl (fun acc m => (simpleDefsUsed m).foldl (fun acc t => addUse acc t m.name) acc) acc =
        ms.foldl (fun acc m => (simpleDefsUsed m).foldl (fun acc t => addUse acc t m.name) acc) acc := by
    induction hs with
    | nil => intro; rfl
    | cons h _ ih =>
      intro acc
      rw [List.foldl_cons, List.foldl_cons, ih, simpleDefsUsed_reordered h, h.name]
  exact this []

theorem build_reordered {ms ms' : List Module} (hs : All2 (AlteredModule R) ms ms') :
    EndsAlike (AlteredBundle R) (build ms) (build ms') := by
  unfold build
  exact (resolveDeps_reordered hs hs).bind fun _ _ _ _ h => .ok ⟨h, simpleUses_reordered hs⟩

theorem AlteredBundle.modules {b b' : Bundle} (h : AlteredBundle R b b') : All2 (AlteredModule R) b.modules b'.modules := by
  unfold Bundle.modules
  have := h.mods
  generalize b.mods = l at this
  generalize b'.mods = l' at this
  induction this with
  | nil => exact .nil
  | cons h _ ih => exact .cons h.mod ih

theorem AlteredBundle.defs {b b' : Bundle} (h : AlteredBundle R b b') : All2 (AlteredDef R) b.defs b'.defs := by
  unfold Bundle.defs allDefs
  have := h.modules
  generalize b.modules = l at this
  generalize b'.modules = l' at this
  induction this with
  | nil => exact .nil
  | cons h _ ih => rw [List.flatMap_cons, List.flatMap_cons]; exact all2_append h.defs ih

theorem unfixedBMod_reordered {bm bm' : BMod} (h : AlteredB R bm bm') : unfixedBMod bm' = unfixedBMod bm := by
  unfold unfixedBMod
  rw [unfixed_reordered h.mod, unfixedModules_reordered h.imported]

/-! ### Validation -/

theorem seqsNamed_unfixed (ds : List Def) (n : String) :
    seqsNamed (ds.map unfixedDef) n = (seqsNamed ds n).map (List.map unfixedMember) := by
  unfold seqsNamed
  induction ds with
  | nil => rfl
  | cons d ds ih =>
    rw [List.map_cons, List.filterMap_cons, List.filterMap_cons, ih]
    cases d with
    | seq m c ms =>
      simp only [unfixedDef]
      by_cases h : m = n
      · simp only [if_pos h]; rfl
      · simp only [if_neg h]
    | _ => rfl

theorem memberTypeName_unfixed (ms : List Member) (k : String) :
    memberTypeName (ms.map unfixedMember) k = memberTypeName ms k := by
  unfold memberTypeName
  rw [List.find?_map, Option.map_map]
  rfl

theorem go_unfixed (ds : List Def) (c : Comps) : ∀ ms : List Member,
    checkWithComponent.go (ds.map unfixedDef) (ms.map unfixedMember) c = checkWithComponent.go ds ms c := by
  induction c with
  | nil => intro; rfl
  | leaf k v r ih =>
    intro ms
    simp only [checkWithComponent.go, ih, List.any_map]
    rfl
  | node k c r ihc ih =>
    intro ms
    simp only [checkWithComponent.go, memberTypeName_unfixed, ih]
    cases memberTypeName ms k with
    | none => rfl
    | some tn =>
      simp only [seqsNamed_unfixed]
      match seqsNamed ds tn with
      | [] => rfl
      | [ms'] => simp only [List.map_cons, List.map_nil, ihc]
      | _ :: _ :: _ => rfl

theorem checkWithComponent_unfixed (ds : List Def) (n : String) (c : Comps) :
    checkWithComponent (ds.map unfixedDef) n c = checkWithComponent ds n c := by
  unfold checkWithComponent
  rw [seqsNamed_unfixed]
  match seqsNamed ds n with
  | [] => rfl
  | [ms'] => exact go_unfixed ds c ms'
  | _ :: _ :: _ => rfl

/-- A check that succeeds or finds an inconsistency. -/
def Checks (x : Except Err Unit) : Prop := x = .ok () ∨ x = .error .consistency

theorem Checks.bind {x y : Except Err Unit} (h : Checks x) (h' : Checks y) : Checks (x >>= fun _ => y) := by
  rcases h with rfl | rfl
  · exact h'
  · exact .inr rfl

theorem Checks.eq {x y : Except Err Unit} (h : Checks x) (h' : Checks y) (hi : x = .ok () ↔ y = .ok ()) : x = y := by
  rcases h with rfl | rfl
  · exact (hi.1 rfl).symm
  · rcases h' with rfl | rfl
    · exact hi.2 rfl
    · rfl

theorem checks_go (ds : List Def) (c : Comps) : ∀ ms, Checks (checkWithComponent.go ds ms c) := by
  induction c with
  | nil => intro; exact .inl rfl
  | leaf k v r ih =>
    intro ms
    simp only [checkWithComponent.go]
    split
    · exact ih ms
    · exact .inr rfl
  | node k c r ihc ih =>
    intro ms
    simp only [checkWithComponent.go]
    split
    · exact .inr rfl
    · refine Checks.bind ?_ (ih ms)
      split
      · exact ihc _
      · split
        · exact .inl rfl
        · exact .inr rfl

theorem checks_with (ds : List Def) (n : String) (c : Comps) : Checks (checkWithComponent ds n c) := by
  unfold checkWithComponent
  split
  · exact checks_go ds c _
  · split
    · exact .inl rfl
    · exact .inr rfl

/-- The check of one entry. -/
def goEntry (ds : List Def) (ms : List Member) (k : String) : Leaf ⊕ Comps → Except Err Unit
  | .inl _ => if ms.any (fun m => m.key = k) then .ok () else .error .consistency
  | .inr c =>
    match memberTypeName ms k with
    | none => .error .consistency
    | some tn =>
      match seqsNamed ds tn with
      | [ms'] => checkWithComponent.go ds ms' c
      | _ => if predefined.contains tn then .ok () else .error .consistency

theorem go_entry (ds : List Def) (ms : List Member) (k : String) (x : Leaf ⊕ Comps) (r : Comps) :
    checkWithComponent.go ds ms (entry k x r) = (goEntry ds ms k x >>= fun _ => checkWithComponent.go ds ms r) := by
  cases x with
  | inl v =>
    simp only [entry, goEntry, checkWithComponent.go]
    split <;> rfl
  | inr c =>
    simp only [entry, goEntry, checkWithComponent.go]
    cases memberTypeName ms k <;> rfl

theorem go_reordered (ds : List Def) {c c' : Comps} (h : Reordered c c') : ∀ ms,
    checkWithComponent.go ds ms c = .ok () ↔ checkWithComponent.go ds ms c' = .ok () := by
  induction h with
  | nil => intro; exact .rfl
  | keep _ ih => intro ms; simp only [go_entry, bind_unit_ok, ih ms]
  | @inner k c c' r _ ih =>
    intro ms
    have e1 := go_entry ds ms k (.inr c) r
    have e2 := go_entry ds ms k (.inr c') r
    simp only [entry] at e1 e2
    rw [e1, e2, bind_unit_ok, bind_unit_ok]
    have : goEntry ds ms k (.inr c) = .ok () ↔ goEntry ds ms k (.inr c') = .ok () := by
      simp only [goEntry]
      split
      · exact .rfl
      · split
        · exact ih _
        · exact .rfl
    rw [this]
  | swap => intro ms; simp only [go_entry, bind_unit_ok]; exact and_left_comm
  | trans _ _ ih ih' => intro ms; rw [ih ms, ih' ms]

theorem checkWithComponent_reordered (ds : List Def) (n : String) {c c' : Comps} (h : Reordered c c') :
    checkWithComponent ds n c = checkWithComponent ds n c' := by
  refine (checks_with ds n c).eq (checks_with ds n c') ?_
  unfold checkWithComponent
  split
  · exact go_reordered ds h _
  · exact .rfl

instance : ClauseRel Reordered := ⟨.refl, .symm, fun ds n _ _ h => checkWithComponent_reordered ds n h⟩

theorem checks_components (ds : List Def) : Checks (checkComponents ds) := by
  have hi : ∀ ms, Checks (checkComponents.inner ds ms) := by
    intro ms
    induction ms with
    | nil => exact .inl rfl
    | cons m ms ih =>
      simp only [checkComponents.inner]
      refine Checks.bind ?_ ih
      split
      · exact .inl rfl
      · exact checks_with ds _ _
  unfold checkComponents
  have : ∀ l, Checks (checkComponents.outer ds l) := by
    intro l
    induction l with
    | nil => exact .inl rfl
    | cons d l ih =>
      cases d with
      | seq n c ms => exact (hi ms).bind ih
      | _ => exact ih
  exact this ds

theorem Spec.AlteredMember.symm [ClauseRel R] {m m' : Member} (h : AlteredMember R m m') : AlteredMember R m' m := by
  refine ⟨h.key.symm, h.type.symm, h.comment.symm, ?_⟩
  have := h.comps
  generalize m.comps = x at this
  generalize m'.comps = y at this
  cases this with
  | none => exact .none
  | some h => exact .some (ClauseRel.symm h)

theorem all2_flip {α β : Type} {R : α → β → Prop} {S : β → α → Prop} {l : List α} {l' : List β} (h : All2 R l l')
    (hi : ∀ a c, R a c → S c a) : All2 S l' l := by
  induction h with
  | nil => exact .nil
  | cons h _ ih => exact .cons (hi _ _ h) ih

theorem Spec.AlteredDef.symm [ClauseRel R] {d d' : Def} (h : AlteredDef R d d') : AlteredDef R d' d := by
  cases h with
  | same => exact .same _
  | seq h => exact .seq (all2_flip h fun _ _ => AlteredMember.symm)

theorem Spec.AlteredModule.symm [ClauseRel R] {m m' : Module} (h : AlteredModule R m m') : AlteredModule R m' m :=
  ⟨h.name.symm, h.comment.symm, h.commentImport.symm, h.imports.symm, all2_flip h.defs fun _ _ => AlteredDef.symm⟩

theorem AlteredB.symm [ClauseRel R] {bm bm' : BMod} (h : AlteredB R bm bm') : AlteredB R bm' bm :=
  ⟨h.mod.symm, all2_flip h.imported fun _ _ => AlteredModule.symm⟩

theorem components_reordered [ClauseRel R] {ds ds' : List Def} (h : All2 (AlteredDef R) ds ds') (hc : checkComponents ds = .ok ()) :
    checkComponents ds' = .ok () := by
  rw [checkComponents_ok] at hc ⊢
  intro n c ms' hd' m' hm' cs' hcs'
  obtain ⟨d, hd, hdd⟩ := all2_mem_right h hd'
  obtain ⟨ms, hseq, hms⟩ : ∃ ms, d = .seq n c ms ∧ All2 (AlteredMember R) ms ms' := by
    cases hdd with
    | same => exact ⟨ms', rfl, reorderedMembers_refl _⟩
    | seq h => exact ⟨_, rfl, h⟩
  subst hseq
  obtain ⟨m, hm, hmm⟩ := all2_mem_right hms hm'
  obtain ⟨cs, hcs, hr⟩ : ∃ cs, m.comps = some cs ∧ R cs cs' := by
    have := hmm.comps
    rw [hcs'] at this
    generalize m.comps = x at this
    cases this with
    | some h => exact ⟨_, rfl, h⟩
  have := hc n c ms hd m hm cs hcs
  rw [hmm.type, ← checkWithComponent_unfixed, unfixedDefs_reordered h, checkWithComponent_unfixed,
    ← ClauseRel.checks ds _ hr]
  exact this

theorem checkComponents_reordered [ClauseRel R] {ds ds' : List Def} (h : All2 (AlteredDef R) ds ds') : checkComponents ds' = checkComponents ds :=
  (checks_components ds').eq (checks_components ds)
    ⟨components_reordered (all2_flip h fun _ _ => AlteredDef.symm), components_reordered h⟩

theorem validateBundle_reordered [ClauseRel R] {b b' : Bundle} (h : AlteredBundle R b b') : validateBundle b' = validateBundle b := by
  unfold validateBundle checkImportsAndComponents
  have : b'.mods.all importsDefined = b.mods.all importsDefined := by
    have hm := h.mods
    generalize b.mods = l at hm
    generalize b'.mods = l' at hm
    induction hm with
    | nil => rfl
    | cons h _ ih =>
      rw [List.all_cons, List.all_cons, ih, ← importsDefined_unfixed, unfixedBMod_reordered h, importsDefined_unfixed]
  rw [this, checkComponents_reordered h.defs, ← checkDuplicates_unfixed b'.defs, unfixedDefs_reordered h.defs,
    checkDuplicates_unfixed]

theorem buildFromTexts_reordered [ClauseRel R] {raw raw' : List Module} (hs : All2 (AlteredModule R) raw raw') :
    EndsAlike (AlteredBundle R) (buildFromTexts raw) (buildFromTexts raw') := by
  unfold buildFromTexts
  exact (processModules_reordered hs).bind fun ms ms' _ _ hm => (build_reordered hm).bind fun b b' _ _ hb =>
    (EndsAlike.same (validateBundle_reordered hb)).bind fun _ _ _ _ _ => .ok hb

theorem buildFromConfig_reordered [ClauseRel R] {raw raw' : List Module} (hs : All2 (AlteredModule R) raw raw') (cfg : List String) :
    EndsAlike (AlteredBundle R) (buildFromConfig raw cfg) (buildFromConfig raw' cfg) := by
  unfold buildFromConfig
  refine (processModules_reordered hs).bind fun ms ms' _ _ hm => ?_
  have hu : validateUniqueModuleNames ms' cfg = validateUniqueModuleNames ms cfg := by
    unfold validateUniqueModuleNames
    rw [names_reordered hm]
  refine (EndsAlike.same hu).bind fun _ _ _ _ _ => (build_reordered hm).bind fun b b' _ _ hb =>
    (EndsAlike.same (validateBundle_reordered hb)).bind fun _ _ _ _ _ => ?_
  have hc : checkMissingModules cfg b' = checkMissingModules cfg b := by
    unfold checkMissingModules
    rw [names_reordered hb.modules]
  exact (EndsAlike.same hc).bind fun _ _ _ _ _ => .ok hb

/-! ### Order -/

theorem all2_reordered_of_names {ds ds' l l' : List Def} (h : All2 (AlteredDef R) ds ds') (hn : (ds.map Def.name).Nodup)
    (hl : l'.map Def.name = l.map Def.name) (hm : ∀ d ∈ l, d ∈ ds) (hm' : ∀ d ∈ l', d ∈ ds') : All2 (AlteredDef R) l l' := by
  have hn' : (ds'.map Def.name).Nodup := by rw [names_reorderedDefs h]; exact hn
  induction l generalizing l' with
  | nil => rw [List.map_nil, List.map_eq_nil_iff] at hl; subst hl; exact .nil
  | cons d l ih =>
    cases l' with
    | nil => cases hl
    | cons d' l' =>
      rw [List.map_cons, List.map_cons, List.cons.injEq] at hl
      refine .cons ?_ (ih hl.2 (fun x hx => hm x (by simp [hx])) fun x hx => hm' x (by simp [hx]))
      obtain ⟨e, he, hde⟩ := all2_mem_left h (hm d (by simp))
      have : e = d' := mem_unique_of_nodup_map hn' he (hm' d' (by simp)) (by rw [hde.name, hl.1])
      exact this ▸ hde

theorem sortDefs_reordered {m m' : Module} (h : AlteredModule R m m') (hn : (m.defs.map Def.name).Nodup) (fuel : Nat) :
    (sortDefs fuel m = none ∧ sortDefs fuel m' = none) ∨
    ∃ s s', sortDefs fuel m = some s ∧ sortDefs fuel m' = some s' ∧ All2 (AlteredDef R) s s' := by
  have e := sortDefs_unfixed fuel m
  have e' := sortDefs_unfixed fuel m'
  rw [unfixed_reordered h, e] at e'
  cases hs : sortDefs fuel m with
  | none =>
    cases hs' : sortDefs fuel m' with
    | none => exact .inl ⟨rfl, rfl⟩
    | some s' => rw [hs, hs'] at e'; cases e'
  | some s =>
    cases hs' : sortDefs fuel m' with
    | none => rw [hs, hs'] at e'; cases e'
    | some s' =>
      rw [hs, hs'] at e'
      have e' : s.map unfixedDef = s'.map unfixedDef := Option.some.inj e'
      refine .inr ⟨s, s', rfl, rfl, all2_reordered_of_names h.defs hn ?_ (fun d hd => ?_) fun d hd => ?_⟩
      · rw [← map_unfixedDef_name, ← e', map_unfixedDef_name]
      · exact (sortDefs_spec fuel m s hs).1.mem_iff.1 hd
      · exact (sortDefs_spec fuel m' s' hs').1.mem_iff.1 hd

theorem orderedMods_reordered {b b' : Bundle} (h : AlteredBundle R b b') (hn : (b.modules.map (·.name)).Nodup)
    {o o' : List Module} (ho : o'.map (·.name) = o.map (·.name)) (hm : ∀ m ∈ o, m ∈ b.modules) (hm' : ∀ m ∈ o', m ∈ b'.modules) :
    All2 (AlteredB R) (orderedMods b o) (orderedMods b' o') := by
  have hn' : (b'.modules.map (·.name)).Nodup := by rw [names_reordered h.modules]; exact hn
  unfold orderedMods
  induction o generalizing o' with
  | nil => rw [List.map_nil, List.map_eq_nil_iff] at ho; subst ho; exact .nil
  | cons m o ih =>
    cases o' with
    | nil => cases ho
    | cons m' o' =>
      rw [List.map_cons, List.map_cons, List.cons.injEq] at ho
      have ih := ih ho.2 (fun x hx => hm x (by simp [hx])) fun x hx => hm' x (by simp [hx])
      have key : ∀ {b : Bundle} {m : Module}, (b.modules.map (·.name)).Nodup → m ∈ b.modules →
          ∃ bm ∈ b.mods, bm.mod = m ∧ b.mods.find? (fun bm => bm.mod = m) = some bm := by
        intro b m hn hm
        obtain ⟨bm, hbm, e⟩ := List.mem_map.1 hm
        have : (b.mods.find? (fun bm => bm.mod = m)).isSome := by
          rw [List.find?_isSome]; exact ⟨bm, hbm, decide_eq_true e⟩
        obtain ⟨y, hy⟩ := Option.isSome_iff_exists.1 this
        have hd := List.find?_some hy
        exact ⟨y, List.mem_of_find?_eq_some hy, of_decide_eq_true hd, hy⟩
      obtain ⟨bm, h1, h2, h3⟩ := key hn (hm m (by simp))
      obtain ⟨bm', h1', h2', h3'⟩ := key hn' (hm' m' (by simp))
      rw [List.filterMap_cons_some (by exact h3), List.filterMap_cons_some (by exact h3')]
      refine .cons ?_ ih
      obtain ⟨x, hx, hr⟩ := all2_mem_left h.mods h1
      have hnd : (b'.mods.map fun x => x.mod.name).Nodup := by
        unfold Bundle.modules at hn'
        rwa [List.map_map] at hn'
      have : x = bm' := mem_unique_of_nodup_map hnd hx h1' (by rw [hr.mod.name, h2, h2', ho.1])
      exact this ▸ hr

/-! ### Order of entries -/

abbrev ReorderedClause := AlteredClause Reordered
abbrev ReorderedMember := AlteredMember Reordered
abbrev ReorderedDef := AlteredDef Reordered
abbrev ReorderedB := AlteredB Reordered
abbrev ReorderedBundle := AlteredBundle Reordered

end Apg
