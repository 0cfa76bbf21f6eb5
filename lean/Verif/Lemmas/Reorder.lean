import Verif.Props.Order
import Verif.Props.SizeOf
import Verif.Lemmas.Success
import Verif.Lemmas.CosmosLookup
import Verif.Lemmas.CosmosRun

/-!
# The order of the input files
-/

namespace Apg
open Spec

theorem all2_reorder {α β} {R : α → β → Prop} {l l' : List α} (hp : l.Perm l') :
    ∀ {r : List β}, All2 R l r → ∃ r', All2 R l' r' ∧ r.Perm r' := by
  induction hp with
  | nil => intro r h; exact ⟨r, h, .refl _⟩
  | cons x _ ih =>
    intro r h
    cases h with
    | cons h1 h2 =>
      obtain ⟨r', q1, q2⟩ := ih h2
      exact ⟨_, .cons h1 q1, q2.cons _⟩
  | swap x y l =>
    intro r h
    cases h with
    | cons h1 h2 =>
      cases h2 with
      | cons h2 h3 => exact ⟨_, .cons h2 (.cons h1 h3), .swap ..⟩
  | trans _ _ ih1 ih2 =>
    intro r h
    obtain ⟨r1, q1, q2⟩ := ih1 h
    obtain ⟨r2, q3, q4⟩ := ih2 q1
    exact ⟨r2, q3, q2.trans q4⟩

/-! ### Look-ups -/

theorem lastNamed_perm {ms ms' : List Module} (hp : ms.Perm ms') (hn : (ms.map (·.name)).Nodup) (n : String) :
    lastNamed ms n = lastNamed ms' n := by
  apply Option.ext
  intro m
  rw [lastNamed_eq_some_iff hn, lastNamed_eq_some_iff ((hp.map _).nodup_iff.1 hn), hp.mem_iff]

theorem lastDef_perm {ds ds' : List Def} (hp : ds.Perm ds') (hn : (ds.map Def.name).Nodup) (n : String) :
    lastDef ds n = lastDef ds' n := by
  apply Option.ext
  intro m
  rw [lastDef_eq_some_iff hn, lastDef_eq_some_iff ((hp.map _).nodup_iff.1 hn), hp.mem_iff]

theorem resolveType_perm {ds ds' : List Def} (hp : ds.Perm ds') (hn : (ds.map Def.name).Nodup) (t : AType) :
    resolveType ds t = resolveType ds' t := by
  cases t with
  | plain n lo hi => exact lastDef_perm hp hn n
  | str => rfl
  | arr => rfl

theorem seqsNamed_perm {ds ds' : List Def} (hp : ds.Perm ds') (hn : (ds.map Def.name).Nodup) (n : String) :
    seqsNamed ds n = seqsNamed ds' n := by
  have hshort : ∀ {ds : List Def}, (ds.map Def.name).Nodup → (seqsNamed ds n).length ≤ 1 := by
    intro ds hn
    induction ds with
    | nil => simp [seqsNamed]
    | cons d ds ih =>
      rw [List.map_cons, List.nodup_cons] at hn
      have ih := ih hn.2
      unfold seqsNamed at ih ⊢
      rw [List.filterMap_cons]
      split
      · exact ih
      · rename_i ms hms
        have hd : d.name = n := by
          split at hms
          · rename_i h; simp only [Option.ite_none_right_eq_some] at hms; exact hms.1
          · cases hms
        have : seqsNamed ds n = [] := by
          unfold seqsNamed
          rw [List.filterMap_eq_nil_iff]
          intro e he
          split
          · rename_i m c ms _
            rw [if_neg]
            rintro rfl
            exact hn.1 (hd ▸ List.mem_map.2 ⟨_, he, rfl⟩)
          · rfl
        unfold seqsNamed at this
        rw [this]; simp
  have hperm : (seqsNamed ds n).Perm (seqsNamed ds' n) := hp.filterMap _
  have h1 := hshort hn
  generalize seqsNamed ds n = a at *
  generalize seqsNamed ds' n = c at *
  match a, h1 with
  | [], _ => exact hperm.nil_eq
  | [x], _ => exact (List.perm_singleton.1 hperm.symm).symm

theorem checkWithComponent_congr {ds ds' : List Def} (h : ∀ n, seqsNamed ds n = seqsNamed ds' n) (tn : String)
    (cs : Comps) : checkWithComponent ds tn cs = checkWithComponent ds' tn cs := by
  have hgo : ∀ cs ms, checkWithComponent.go ds ms cs = checkWithComponent.go ds' ms cs := by
    intro cs
    induction cs with
    | nil => intro ms; rfl
    | leaf k v rest ih => intro ms; simp only [checkWithComponent.go, ih]
    | node k c rest ihc ih => intro ms; simp only [checkWithComponent.go, ih, ihc, h]
  unfold checkWithComponent
  simp only [h, hgo]

theorem checkComponents_perm {ds ds' : List Def} (hp : ds.Perm ds') (hn : (ds.map Def.name).Nodup)
    (h : checkComponents ds = .ok ()) : checkComponents ds' = .ok () := by
  rw [checkComponents_ok] at h ⊢
  intro n c ms hm m hmm cs hcs
  rw [← checkWithComponent_congr (seqsNamed_perm hp hn)]
  exact h n c ms (hp.mem_iff.2 hm) m hmm cs hcs

/-! ### Bundles -/

theorem processModules_perm {raw raw' ms : List Module} (hp : raw.Perm raw') (h : processModules raw = .ok ms) :
    ∃ ms', processModules raw' = .ok ms' ∧ ms.Perm ms' := by
  obtain ⟨ms', h1, h2⟩ := all2_reorder hp (processModules_ok.1 h)
  exact ⟨ms', processModules_ok.2 h1, h2⟩

theorem build_perm {ms ms' : List Module} {b : Bundle} (hp : ms.Perm ms') (hn : (ms.map (·.name)).Nodup)
    (h : build ms = .ok b) : ∃ b', build ms' = .ok b' ∧ b.mods.Perm b'.mods := by
  obtain ⟨h1, h2⟩ := build_ok.1 h
  rw [resolveDeps_nodup hn] at h1
  obtain ⟨h3, h4⟩ := h1
  refine ⟨⟨ms'.map (fun m => ⟨m, m.imports.filterMap (fun i => lastNamed ms' i.module)⟩), simpleUses ms'⟩,
    build_ok.2 ⟨(resolveDeps_nodup ((hp.map _).nodup_iff.1 hn)).2 ⟨?_, rfl⟩, rfl⟩, ?_⟩
  · intro m hm i hi
    rw [← lastNamed_perm hp hn]
    exact h3 m (hp.mem_iff.2 hm) i hi
  · rw [h4]
    have : (fun m : Module => (⟨m, m.imports.filterMap (fun i => lastNamed ms' i.module)⟩ : BMod)) =
        fun m => ⟨m, m.imports.filterMap (fun i => lastNamed ms i.module)⟩ := by
      funext m
      simp only [lastNamed_perm hp hn]
    simp only [this]
    exact hp.map _

theorem defs_perm {b b' : Bundle} (h : b.mods.Perm b'.mods) : b.defs.Perm b'.defs := by
  rw [← defsOf_eq, ← defsOf_eq]
  exact (h.map _).flatMap_right _

theorem validate_perm {b b' : Bundle} (h : b.mods.Perm b'.mods) (hv : validateBundle b = .ok ()) :
    validateBundle b' = .ok () := by
  rw [validateBundle_ok] at hv ⊢
  obtain ⟨h1, h2, h3⟩ := hv
  exact ⟨fun m hm => h1 m (h.mem_iff.2 hm), checkComponents_perm (defs_perm h) h3 h2,
    ((defs_perm h).map _).nodup_iff.1 h3⟩

theorem buildFromConfig_perm {raw raw' : List Module} {cfg cfg' : List String} {b : Bundle}
    (hp : raw.Perm raw') (hc : cfg.Perm cfg') (h : buildFromConfig raw cfg = .ok b) :
    ∃ b', buildFromConfig raw' cfg' = .ok b' ∧ b.mods.Perm b'.mods := by
  obtain ⟨ms, h1, h2, h3, h4, h5, h6⟩ := buildFromConfig_ok.1 h
  obtain ⟨ms', q1, q2⟩ := processModules_perm hp h1
  obtain ⟨b', q3, q4⟩ := build_perm q2 h2 h4
  refine ⟨b', buildFromConfig_ok.2 ⟨ms', q1, (q2.map _).nodup_iff.1 h2, hc.nodup_iff.1 h3, q3,
    validate_perm q4 h5, ?_⟩, q4⟩
  rw [checkMissing_ok] at h6 ⊢
  intro n
  rw [← hc.mem_iff, h6 n]
  exact ((q4.map _).map _).mem_iff

theorem buildFromTexts_perm {raw raw' : List Module} {b : Bundle} (hp : raw.Perm raw')
    (hn : (raw.map (·.name)).Nodup) (h : buildFromTexts raw = .ok b) :
    ∃ b', buildFromTexts raw' = .ok b' ∧ b.mods.Perm b'.mods := by
  obtain ⟨ms, h1, h2, h3⟩ := buildFromTexts_ok.1 h
  obtain ⟨ms', q1, q2⟩ := processModules_perm hp h1
  obtain ⟨b', q3, q4⟩ := build_perm q2 (by rw [processModules_names h1]; exact hn) h2
  exact ⟨b', buildFromTexts_ok.2 ⟨ms', q1, q3, validate_perm q4 h3⟩, q4⟩

/-! ### Generation -/

theorem mapMember_congr {ds ds' : List Def} {t : AType} (h : resolveType ds t = resolveType ds' t) :
    mapMember ds t = mapMember ds' t := by
  unfold mapMember
  rw [h]

theorem fieldType_congr {ds ds' : List Def} {t : AType} (h : resolveType ds t = resolveType ds' t)
    (simple : List Def) : fieldType ds simple t = fieldType ds' simple t := by
  unfold fieldType
  rw [mapMember_congr h]

/-- The second function succeeds with the same result wherever the first does. -/
def Extends {α : Type} (x y : Except Err α) : Prop := ∀ v, x = .ok v → y = .ok v

/-- The second back end can do all that the first can do for a module. -/
structure Backend.Extends (be be' : Backend) (mod : Module) : Prop where
  file : be.includeFile = be'.includeFile
  note : ∀ n c t, Def.simple n c t ∈ mod.defs → Apg.Extends (be.note n t) (be'.note n t)
  handler : ∀ n m, Apg.Extends (be.handler n m mod) (be'.handler n m mod)
  print : be.print = be'.print

theorem convertMembers_extends {h h' : Handler} {ds ds' simple : List Def} {mod : Module} {cn : Text}
    (hh : ∀ n m, Extends (h n m mod) (h' n m mod)) :
    ∀ (ms : List Member), (∀ m ∈ ms, resolveType ds m.type = resolveType ds' m.type) → ∀ (cd : CData), Extends (convertMembers h ds simple mod cn ms cd)
      (convertMembers h' ds' simple mod cn ms cd) := by
  intro ms
  induction ms with
  | nil => exact fun _ cd v hv => hv
  | cons m ms ih =>
    intro hr cd v hv
    simp only [convertMembers, bind_ok, ← fieldType_congr (hr m (List.Mem.head _))] at hv ⊢
    obtain ⟨f, h1, cd', h2, r, h3, h4⟩ := hv
    refine ⟨f, h1, cd', ?_, r, ih (fun k hk => hr k (List.Mem.tail _ hk)) _ _ h3, h4⟩
    cases hc : m.comps with
    | none => rw [hc] at h2; exact h2
    | some cs =>
      rw [hc] at h2
      simp only [bind_ok] at h2 ⊢
      obtain ⟨e, h5, h6⟩ := h2
      exact ⟨e, hh _ _ _ h5, h6⟩

theorem convertDefs_extends {be be' : Backend} {ds ds' simple : List Def} {mod : Module}
    (hr : ∀ d ∈ mod.defs, ∀ m ∈ d.members, resolveType ds m.type = resolveType ds' m.type)
    (hb : be.Extends be' mod) :
    ∀ (l : List Def), (∀ d ∈ l, d ∈ mod.defs) → ∀ (cd : CData), Extends (convertDefs be ds simple mod cd l)
      (convertDefs be' ds' simple mod cd l) := by
  intro l
  induction l with
  | nil => exact fun _ cd v hv => hv
  | cons d l ih =>
    intro hl cd v hv
    have hd := hl d (List.Mem.head _)
    simp only [convertDefs, bind_ok] at hv ⊢
    obtain ⟨cd', h1, h2⟩ := hv
    refine ⟨cd', ?_, ih (fun k hk => hl k (List.Mem.tail _ hk)) _ _ h2⟩
    cases d with
    | simple n c t =>
      simp only [convertDef, bind_ok] at h1 ⊢
      obtain ⟨x, h3, h4⟩ := h1
      exact ⟨x, hb.note _ _ _ hd _ h3, h4⟩
    | seq n c ms =>
      simp only [convertDef, convertSequence, bind_ok] at h1 ⊢
      obtain ⟨e, ⟨r, h3, h4⟩, h5⟩ := h1
      exact ⟨e, ⟨r, convertMembers_extends hb.handler _ (hr _ hd) _ _ h3, h4⟩, h5⟩
    | enum n c its => exact h1
    | choice n c ms => exact h1

theorem moduleData_extends {fuel fuel' : Nat} (hf : fuel ≤ fuel') {be be' : Backend} {ds ds' : List Def} {bm : BMod}
    (hr : ∀ d ∈ bm.mod.defs, ∀ m ∈ d.members, resolveType ds m.type = resolveType ds' m.type)
    (hb : be.Extends be' bm.mod) :
    Extends (moduleData fuel be ds bm) (moduleData fuel' be' ds' bm) := by
  intro cd h
  unfold moduleData at h ⊢
  split at h
  · cases h
  · rename_i sorted hs
    have hs' : sortDefs fuel' bm.mod = some sorted := sortLoop_mono fuel fuel' _ _ _ _ hf hs
    rw [hs']
    simp only [bind_ok] at h ⊢
    obtain ⟨cd1, h1, h2⟩ := h
    exact ⟨cd1, by rw [← hb.file]; exact convertDefs_extends hr hb _ (fun d hd => (sortDefs_spec _ _ _ hs).1.mem_iff.1 hd) _ _ h1, h2⟩

theorem zip_writes_perm {P : Module → CData → List (Text × Content)} {l l' : List BMod} {cds cds' : List CData}
    {data : BMod → CData → Prop} (hfun : ∀ bm c c', data bm c → data bm c' → c = c') (hp : l.Perm l')
    (h : All2 data l cds) (h' : All2 data l' cds') :
    ((l.zip cds).flatMap fun x => P x.1.mod x.2).Perm ((l'.zip cds').flatMap fun x => P x.1.mod x.2) := by
  have key : ∀ {l : List BMod} {cds : List CData}, All2 data l cds →
      All2 (fun bm x => x.1 = bm ∧ data bm x.2) l (l.zip cds) := by
    intro l cds h
    induction h with
    | nil => exact .nil
    | cons h _ ih => exact .cons ⟨rfl, h⟩ ih
  refine List.Perm.flatMap_right _ (all2_perm ?_ hp (key h) (key h'))
  rintro bm ⟨x, c⟩ ⟨y, c'⟩ ⟨rfl, h1⟩ ⟨rfl, h2⟩
  exact congrArg (Prod.mk _) (hfun _ _ _ h1 h2)

/-- Runs on the same files in another order. -/
theorem run_reordered {fuel : Nat} {mk mk' : Bundle → Backend} {raw raw' : List Module} {cfg cfg' : List String}
    {out : Text} (hp : raw.Perm raw') (hc : cfg.Perm cfg') {fuel' : Nat}
    (hmk : ∀ b b', buildFromConfig raw cfg = .ok b → buildFromConfig raw' cfg' = .ok b' → b.mods.Perm b'.mods →
      ∀ bm ∈ b.mods, (mk b).Extends (mk' b') bm.mod)
    (h : (runCommand fuel mk raw cfg out).result = .ok ()) (hf : fuel ≤ fuel') (hl : raw.length < fuel') :
    (runCommand fuel' mk' raw' cfg' out).result = .ok () ∧
      (runCommand fuel mk raw cfg out).writes.Perm (runCommand fuel' mk' raw' cfg' out).writes := by
  rcases run_writes fuel mk raw cfg out with ⟨_, hw⟩ | ⟨b, hb, done, cds, hi, hw, hr⟩
  · exact absurd h hw
  obtain ⟨hdone, ho⟩ := hr h
  obtain ⟨b', hb', hperm⟩ := buildFromConfig_perm hp hc hb
  have hbt := buildFromTexts_of_config hb
  have hn := config_names_nodup hb
  have hn' := config_names_nodup hb'
  have hres := resolveType_perm (defs_perm hperm) (accepted_nodup hbt)
  have hext : ∀ bm ∈ b.mods, Extends (moduleData fuel (mk b) b.defs bm) (moduleData fuel' (mk' b') b'.defs bm) :=
    fun bm hbm => moduleData_extends hf (fun _ _ m _ => hres m.type) (hmk b b' hb hb' hperm bm hbm)
  have hall : ∀ bm ∈ b.mods, ∃ cd, moduleData fuel (mk b) b.defs bm = .ok cd := by
    intro bm hbm
    obtain ⟨cd, _, h⟩ := all2_mem_left hi.len (hdone.mem_iff.2 hbm)
    exact ⟨cd, h⟩
  have hlen : b'.modules.length < fuel' := by
    have h1 : b'.modules.length = b.modules.length := by unfold Bundle.modules; simp [hperm.length_eq]
    obtain ⟨ms, q1, _, _, q4, _⟩ := buildFromConfig_ok.1 hb
    rw [h1, build_modules q4, ← (processModules_ok.1 q1).length_eq]
    exact hl
  have horder : ∃ ms, orderModules fuel' b'.modules = some ms := by
    obtain ⟨rank, hrank⟩ := (C21_returns_iff b.modules hn).2.1 ⟨fuel, _, ho⟩
    obtain ⟨ms, hms⟩ := (C21_returns_iff b'.modules hn').1.2 ⟨rank, fun a ha c hc =>
      hrank a ((hperm.map _).mem_iff.2 ha) c ((hperm.map _).mem_iff.2 hc)⟩
    exact ⟨ms, hms fuel' hlen⟩
  have hok : (runCommand fuel' mk' raw' cfg' out).result = .ok () := by
    simp only [runCommand, hb']
    unfold generate
    obtain ⟨ms, hms⟩ := horder
    rw [hms]
    have hpm : ms.Perm b'.modules := (orderLoop_spec b'.modules fuel' _ ms ⟨rfl, hn'⟩
      ⟨by simp, by simp, by simp⟩ hms).1
    obtain ⟨h1, _⟩ := orderedMods_spec hn' hpm
    simp only [runModules_iff]
    intro bm hbm
    have hbm' := hperm.mem_iff.2 (h1.mem_iff.1 hbm)
    obtain ⟨cd, hcd⟩ := hall bm hbm'
    exact ⟨cd, hext bm hbm' cd hcd⟩
  refine ⟨hok, ?_⟩
  rcases run_writes fuel' mk' raw' cfg' out with ⟨_, hw'⟩ | ⟨b2, hb2, done', cds', hi', hw', hr'⟩
  · exact absurd hok hw'
  rw [hb'] at hb2
  cases hb2
  obtain ⟨hdone', _⟩ := hr' hok
  rw [hw, hw']
  have hprint : b.mods ≠ [] → (mk b).print = (mk' b').print := by
    intro hne
    obtain ⟨bm, hbm⟩ := List.exists_mem_of_ne_nil _ hne
    exact (hmk b b' hb hb' hperm bm hbm).print
  have hpd : done.Perm done' := hdone.trans (hperm.trans hdone'.symm)
  by_cases hne : b.mods = []
  · have e1 : done = [] := by rw [hne] at hdone; exact hdone.eq_nil
    have e2 : done' = [] := by rw [e1] at hpd; exact hpd.symm.eq_nil
    rw [e1, e2]
    exact .refl _
  · rw [hprint hne]
    refine zip_writes_perm (P := fun m c => printed ((mk' b').print m c))
      (data := fun bm cd => moduleData fuel' (mk' b') b'.defs bm = .ok cd) ?_ hpd ?_ hi'.len
    · intro bm c c' h1 h2
      rw [h1] at h2; cases h2; rfl
    · exact hi.len.imp_mem fun bm hbm cd hcd => hext bm (hi.sub bm hbm) cd hcd

theorem apply_perm {r r' : Run} (hna : NoAppend r.ops) (hna' : NoAppend r'.ops) (hn : (r.writes.map (·.1)).Nodup)
    (hp : r.writes.Perm r'.writes) (fs : Files) : r'.apply fs = r.apply fs := by
  funext q
  by_cases hq : q ∈ r.writes.map (·.1)
  · obtain ⟨w, hw, rfl⟩ := List.mem_map.1 hq
    rw [apply_get hna hn fs hw, apply_get hna' ((hp.map _).nodup_iff.1 hn) fs (hp.mem_iff.1 hw)]
  · rw [apply_other hna fs hq, apply_other hna' fs fun h => hq ((hp.map _).mem_iff.2 h)]

/-! ### Back ends -/

theorem mergeSort_names {l l' : List String} (hp : l.Perm l') :
    l.mergeSort (fun a b => decide (a ≤ b)) = l'.mergeSort (fun a b => decide (a ≤ b)) := by
  have ht : ∀ a b c : String, decide (a ≤ b) = true → decide (b ≤ c) = true → decide (a ≤ c) = true := by
    intro a b c h1 h2
    simp only [decide_eq_true_eq] at *
    exact String.le_trans h1 h2
  have ho : ∀ a b : String, (decide (a ≤ b) || decide (b ≤ a)) = true := by
    intro a b
    simp only [Bool.or_eq_true, decide_eq_true_eq]
    exact String.le_total a b
  refine List.Perm.eq_of_pairwise (le := fun a b => decide (a ≤ b) = true) ?_ (List.pairwise_mergeSort ht ho _)
    (List.pairwise_mergeSort ht ho _) ?_
  · intro a b _ _ h1 h2
    simp only [decide_eq_true_eq] at h1 h2
    exact String.le_antisymm h1 h2
  · exact (List.mergeSort_perm _ _).trans (hp.trans (List.mergeSort_perm _ _).symm)

/-- Two use maps with the same users of a type. -/
theorem uses_same {u v : List (String × List String)} (u2 : (u.map (·.1)).Nodup)
    (u3 : ∀ p ∈ u, p.2.Nodup ∧ p.2 ≠ []) (v2 : (v.map (·.1)).Nodup) (v3 : ∀ p ∈ v, p.2.Nodup ∧ p.2 ≠ []) {n : String}
    (hiff : ∀ mod, (∃ s, (n, s) ∈ u ∧ mod ∈ s) ↔ ∃ s, (n, s) ∈ v ∧ mod ∈ s) :
    (u.find? (fun u => u.1 = n) = none ∧ v.find? (fun u => u.1 = n) = none) ∨
    ∃ s s', u.find? (fun u => u.1 = n) = some (n, s) ∧ v.find? (fun u => u.1 = n) = some (n, s') ∧ s.Perm s' := by
  have hfind : ∀ {u : List (String × List String)} (_ : (u.map (·.1)).Nodup) {s},
      (n, s) ∈ u → u.find? (fun x => x.1 = n) = some (n, s) := by
    intro u hu s hs
    have h1 : (u.find? (fun x => decide (x.1 = n))).isSome := by
      rw [List.find?_isSome]; exact ⟨_, hs, by simp⟩
    obtain ⟨y, hy⟩ := Option.isSome_iff_exists.1 h1
    have h2 := List.mem_of_find?_eq_some hy
    have h3 := List.find?_some hy
    simp only [decide_eq_true_eq] at h3
    rw [hy, mem_unique_of_nodup_map hu h2 hs h3]
  cases hf : u.find? (fun u => decide (u.1 = n)) with
  | some u =>
    have h2 := List.mem_of_find?_eq_some hf
    have h3 := List.find?_some hf
    simp only [decide_eq_true_eq] at h3
    obtain ⟨k, s⟩ := u
    simp only at h3
    subst h3
    obtain ⟨x, hx⟩ := List.exists_mem_of_ne_nil _ (u3 _ h2).2
    obtain ⟨s', hs', _⟩ := (hiff x).1 ⟨s, h2, hx⟩
    refine .inr ⟨s, s', rfl, hfind v2 hs', ?_⟩
    rw [List.perm_ext_iff_of_nodup (u3 _ h2).1 (v3 _ hs').1]
    intro mod
    constructor
    · intro hm
      obtain ⟨t, ht, hmt⟩ := (hiff mod).1 ⟨s, h2, hm⟩
      have := mem_unique_of_nodup_map v2 ht hs' rfl
      cases this; exact hmt
    · intro hm
      obtain ⟨t, ht, hmt⟩ := (hiff mod).2 ⟨s', hs', hm⟩
      have := mem_unique_of_nodup_map u2 ht h2 rfl
      cases this; exact hmt
  | none =>
    refine .inl ⟨rfl, ?_⟩
    rw [List.find?_eq_none] at hf ⊢
    rintro ⟨k, s⟩ hk hk'
    simp only [decide_eq_true_eq] at hk'
    subst hk'
    obtain ⟨x, hx⟩ := List.exists_mem_of_ne_nil _ (v3 _ hk).2
    obtain ⟨s', hs', _⟩ := (hiff x).2 ⟨s, hk, hx⟩
    exact absurd (by simp) (hf _ hs')

theorem uses_perm {ms ms' : List Module} {b b' : Bundle} (hp : ms.Perm ms') (h : build ms = .ok b)
    (h' : build ms' = .ok b') (n : String) :
    (b.uses.find? (fun u => u.1 = n) = none ∧ b'.uses.find? (fun u => u.1 = n) = none) ∨
    ∃ s s', b.uses.find? (fun u => u.1 = n) = some (n, s) ∧ b'.uses.find? (fun u => u.1 = n) = some (n, s') ∧
      s.Perm s' := by
  obtain ⟨u1, u2, u3⟩ := C18_use_map ms b h
  obtain ⟨v1, v2, v3⟩ := C18_use_map ms' b' h'
  refine uses_same u2 u3 v2 v3 fun mod => ?_
  rw [u1, v1]
  simp only [hp.mem_iff]

section
variable {ds ds' : List Def} {K : Def → Prop}
  (hK : ∀ d, K d → ∀ m ∈ d.members, resolveType ds m.type = resolveType ds' m.type ∧
    ∀ d', resolveType ds m.type = some d' → K d')
include hK

theorem sizeMember_extends {fuel fuel' : Nat} (hf : fuel ≤ fuel') {d : Def} (hd : K d) {m : Member}
    (hm : m ∈ d.members) : Extends (sizeMember ds fuel m) (sizeMember ds' fuel' m) := by
  intro v hv
  obtain ⟨h1, h2⟩ := hK d hd m hm
  unfold sizeMember at hv ⊢
  rw [← h1]
  cases hr : resolveType ds m.type with
  | none => rw [hr] at hv; exact hv
  | some d =>
    rw [hr] at hv
    simp only at hv ⊢
    rw [sizeDef_mono_on hK fuel fuel' d (h2 d hr) hf (by rw [hv]; simp), hv]

theorem binMembers_extends {fuel fuel' : Nat} (hf : fuel ≤ fuel') {d : Def} (hd : K d) (ms : List Member)
    (hms : ∀ m ∈ ms, m ∈ d.members) : Extends (binMembers ds fuel ms) (binMembers ds' fuel' ms) := by
  induction ms with
  | nil => exact fun v hv => hv
  | cons m ms ih =>
    intro v hv
    have ih := ih fun k hk => hms k (List.Mem.tail _ hk)
    unfold binMembers at hv ⊢
    cases hc : m.comps with
    | some cs => rw [hc] at hv; exact ih v hv
    | none =>
      rw [hc] at hv
      simp only [bind_ok] at hv ⊢
      obtain ⟨s, h1, r, h2, h3⟩ := hv
      exact ⟨s, sizeMember_extends hK hf hd (hms m (List.Mem.head _)) s h1, r, ih r h2, h3⟩

theorem binDefs_extends {fuel fuel' : Nat} (hf : fuel ≤ fuel') (l : List Def) (hl : ∀ d ∈ l, K d) :
    Extends (binDefs ds fuel l) (binDefs ds' fuel' l) := by
  induction l with
  | nil => exact fun v hv => hv
  | cons d l ih =>
    intro v hv
    have ih := ih fun k hk => hl k (List.Mem.tail _ hk)
    cases d with
    | seq n c ms =>
      simp only [binDefs, bind_ok] at hv ⊢
      obtain ⟨s, h1, r, h2, h3⟩ := hv
      exact ⟨s, binMembers_extends hK hf (hl _ (List.Mem.head _)) ms (fun m hm => hm) s h1, r, ih r h2, h3⟩
    | choice n c ms => exact ih v hv
    | enum n c its => exact ih v hv
    | simple n c t => exact ih v hv

end

theorem cBackend_extends (p : Printer) (out : Text) (b b' : Bundle) (mod : Module) :
    (cBackend p out b).Extends (cBackend p out b') mod :=
  ⟨rfl, fun _ _ _ _ _ h => h, fun _ _ _ h => h, rfl⟩

theorem cfsBackend_extends (p : Printer) (out : Text) {ms ms' : List Module} {b b' : Bundle} (hp : ms.Perm ms')
    (h : build ms = .ok b) (h' : build ms' = .ok b') (mod : Module) :
    (cfsBackend p out b).Extends (cfsBackend p out b') mod := by
  refine ⟨rfl, ?_, fun _ _ _ h => h, rfl⟩
  intro n _ t _ v hv
  simp only [cfsBackend, cfsNote] at hv ⊢
  rcases uses_perm hp h h' n with ⟨h1, h2⟩ | ⟨s, s', h1, h2, h3⟩
  · rw [h1] at hv; rw [h2]; exact hv
  · rw [h1] at hv
    rw [h2]
    simp only at hv ⊢
    rw [← mergeSort_names h3]
    exact hv

theorem binBackend_extends {fuel fuel' : Nat} (hf : fuel ≤ fuel') (e : Option Endian) (out : Text) {b b' : Bundle}
    {K : Def → Prop} (hK : ∀ d, K d → ∀ m ∈ d.members, resolveType b.defs m.type = resolveType b'.defs m.type ∧
      ∀ d', resolveType b.defs m.type = some d' → K d') {mod : Module} (hm : ∀ d ∈ mod.defs, K d) :
    (binBackend fuel e out b).Extends (binBackend fuel' e out b') mod := by
  refine ⟨rfl, fun _ _ _ _ _ h => h, ?_, rfl⟩
  intro n m v hv
  simp only [binBackend, binHandler] at hv ⊢
  split at hv
  · exact hv
  · simp only [bind_ok] at hv ⊢
    obtain ⟨defs, h1, h2⟩ := hv
    exact ⟨defs, binDefs_extends hK hf _ hm _ h1, h2⟩

/-! ### COSMOS -/

theorem lastBMod_perm {bs bs' : List BMod} (hp : bs.Perm bs') (hn : (bs.map (fun x => x.mod.name)).Nodup)
    (n : String) : lastBMod bs n = lastBMod bs' n := by
  have hn' := (hp.map _).nodup_iff.1 hn
  apply Option.ext
  intro bm
  constructor
  · intro h
    obtain ⟨h1, rfl⟩ := lastBMod_some h
    exact lastBMod_nodup hn' (hp.mem_iff.1 h1)
  · intro h
    obtain ⟨h1, rfl⟩ := lastBMod_some h
    exact lastBMod_nodup hn (hp.mem_iff.2 h1)

theorem getModule_perm {b b' : Bundle} (hp : b.mods.Perm b'.mods) (hn : (b.mods.map (fun x => x.mod.name)).Nodup)
    (n : String) : b.getModule n = b'.getModule n := by
  have hn' := (hp.map _).nodup_iff.1 hn
  have key : ∀ {b : Bundle}, (b.mods.map (fun x => x.mod.name)).Nodup → ∀ bm, bm ∈ b.mods →
      b.getModule bm.mod.name = some bm := by
    intro b hn bm hbm
    have h1 : (b.mods.find? (fun m => decide (m.mod.name = bm.mod.name))).isSome := by
      rw [List.find?_isSome]; exact ⟨_, hbm, by simp⟩
    obtain ⟨y, hy⟩ := Option.isSome_iff_exists.1 h1
    obtain ⟨h2, h3⟩ := getModule_some (b := b) hy
    exact hy.trans (by rw [mem_unique_of_nodup_map hn h2 hbm h3])
  apply Option.ext
  intro bm
  constructor
  · intro h
    obtain ⟨h1, rfl⟩ := getModule_some h
    exact key hn' _ (hp.mem_iff.1 h1)
  · intro h
    obtain ⟨h1, rfl⟩ := getModule_some h
    exact key hn _ (hp.mem_iff.2 h1)

section
variable {b b' : Bundle} (hl : ∀ n, lastBMod b.mods n = lastBMod b'.mods n)
include hl

theorem collectDefs_congr (rec : BMod → Except Err (List Def)) (ms : List Module) :
    collectDefs rec b ms = collectDefs rec b' ms := by
  induction ms with
  | nil => rfl
  | cons m ms ih => simp only [collectDefs, ih, hl]

theorem defsRecurs_congr (name : String) (fuel : Nat) : defsRecurs b name fuel = defsRecurs b' name fuel := by
  induction fuel with
  | zero => rfl
  | succ fuel ih => funext bm; simp only [defsRecurs, ih, collectDefs_congr hl]

theorem shapeOf_congr (fuel : Nat) (bm : BMod) (t : AType) : shapeOf b fuel bm t = shapeOf b' fuel bm t := by
  have : ∀ n, getDefinition b fuel n bm = getDefinition b' fuel n bm := by
    intro n; simp only [getDefinition, defsRecurs_congr hl]
  simp only [shapeOf, this]

theorem entriesFrom_congr (p : Printer) (fuel : Nat) (bm : BMod)
    (rec : Store → Def → Comps → Except Err (List Entry × Store)) (seq : String) (wc : Comps) (ms : List Member) :
    ∀ st i, entriesFrom p b fuel bm rec seq wc st i ms = entriesFrom p b' fuel bm rec seq wc st i ms := by
  induction ms with
  | nil => intros; rfl
  | cons m ms ih => intro st i; simp only [entriesFrom, ih, shapeOf_congr hl]

theorem telemetry_congr (p : Printer) (fuel : Nat) (bm : BMod) (depth : Nat) :
    telemetry p b fuel bm depth = telemetry p b' fuel bm depth := by
  induction depth with
  | zero => rfl
  | succ depth ih =>
    funext st d wc
    cases d with
    | seq n c ms => simp only [telemetry, ih, entriesFrom_congr hl]
    | _ => rfl

theorem packets_congr (p : Printer) (fuel : Nat) (bm : BMod) (target : Text) (ns : List String) :
    ∀ st, packets p b fuel bm target st ns = packets p b' fuel bm target st ns := by
  induction ns with
  | nil => intro; rfl
  | cons n ns ih => intro st; simp only [packets, ih, telemetry_congr hl]

end

theorem initialStore_perm {ds ds' : List Def} (hp : ds.Perm ds') (hn : (ds.map Def.name).Nodup) :
    initialStore ds = initialStore ds' := by
  funext n i
  simp only [initialStore, lastDef_perm hp hn]

theorem generateCosmos_perm (fuel : Nat) (p : Printer) {b b' : Bundle} (hp : b.mods.Perm b'.mods)
    (hn : (b.mods.map (fun x => x.mod.name)).Nodup) (hd : (b.defs.map Def.name).Nodup) (module : String)
    (messages : List String) (target out : Text) :
    generateCosmos fuel p b' module messages target out = generateCosmos fuel p b module messages target out := by
  have he : b'.mods = [] ↔ b.mods = [] := by
    constructor
    · intro h; rw [h] at hp; exact hp.eq_nil
    · intro h; rw [h] at hp; exact hp.nil_eq.symm
  unfold generateCosmos
  simp only [he, getModule_perm hp hn, packets_congr (lastBMod_perm hp hn), initialStore_perm (defs_perm hp) hd]

end Apg
