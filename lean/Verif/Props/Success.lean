import Verif.Lemmas.SuccessBinary
import Verif.Props.Accept
import Verif.Props.Binary

/-!
# Property C57: when generation succeeds
-/

namespace Apg

open Parse Spec

/-! ### Before and after processing -/

/-- What processing leaves as it is, in modules, as far as generation is concerned. -/
structure Agree (ms ms' : List Module) : Prop where
  to : ∀ m ∈ ms, ∃ m' ∈ ms', m'.name = m.name ∧ m'.imports = m.imports ∧
    (∀ d ∈ m.defs, ∃ d' ∈ m'.defs, d'.name = d.name ∧ d'.members = d.members) ∧
    (∀ d' ∈ m'.defs, ∃ d ∈ m.defs, d'.name = d.name ∧ d'.members = d.members)
  seqs : ∀ n c l, Def.seq n c l ∈ defsOf ms → Def.seq n c l ∈ defsOf ms'
  simples : ∀ n c t, Def.simple n c t ∈ defsOf ms → Def.simple n c t ∈ defsOf ms'

theorem uses_iff {d : Def} {n : String} : Uses d n ↔ ∃ k ∈ d.members, UsesName k.type n := by
  constructor
  · exact fun h => h.2
  · intro h
    refine ⟨?_, h⟩
    cases d with
    | seq n c ms => exact Or.inl ⟨_, _, _, rfl⟩
    | choice n c ms => exact Or.inr ⟨_, _, _, rfl⟩
    | enum => obtain ⟨k, hk, _⟩ := h; cases hk
    | simple => obtain ⟨k, hk, _⟩ := h; cases hk

open Classical in
/-- A ranking of one list as a ranking of another, along a relation. -/
theorem rank_transport {α β : Type} (R : α → β → Prop) (l : List α) (rank : α → Nat)
    (huniq : ∀ x ∈ l, ∀ x' ∈ l, ∀ y, R x y → R x' y → x = x') :
    ∃ rank' : β → Nat, ∀ x ∈ l, ∀ y, R x y → rank' y = rank x := by
  refine ⟨fun y => if h : ∃ x, x ∈ l ∧ R x y then rank (choose h) else 0, ?_⟩
  intro x hx y hr
  have h : ∃ x, x ∈ l ∧ R x y := ⟨x, hx, hr⟩
  simp only [dif_pos h]
  obtain ⟨h1, h2⟩ := choose_spec h
  rw [huniq _ h1 x hx y h2 hr]

theorem wellFounded_same {m m' : Module} (hn : (m.defs.map Def.name).Nodup) (hi : m'.imports = m.imports)
    (h1 : ∀ d ∈ m.defs, ∃ d' ∈ m'.defs, d'.name = d.name ∧ d'.members = d.members)
    (h2 : ∀ d' ∈ m'.defs, ∃ d ∈ m.defs, d'.name = d.name ∧ d'.members = d.members)
    (h : ∃ rank, Spec.WellFounded m rank) : ∃ rank, Spec.WellFounded m' rank := by
  obtain ⟨rank, h⟩ := h
  obtain ⟨rank', hr⟩ := rank_transport (fun d d' : Def => d'.name = d.name) m.defs rank
    (fun x hx x' hx' y e e' => mem_unique_of_nodup_map hn hx hx' (by rw [← e, ← e']))
  refine ⟨rank', ?_⟩
  intro d' hd' n hu
  obtain ⟨d, hd, e1, e2⟩ := h2 d' hd'
  have hu' : Uses d n := by rw [uses_iff] at hu ⊢; rwa [e2] at hu
  rcases h d hd n hu' with ho | ⟨e, he, hen, hlt⟩
  · left
    unfold Outside at ho ⊢
    rwa [hi]
  · right
    obtain ⟨e', he', q1, _⟩ := h1 e he
    exact ⟨e', he', q1.trans hen, by rw [hr e he e' q1, hr d hd d' e1]; exact hlt⟩

theorem Generatable.agree {ms ms' : List Module} (hn : (ms.map (·.name)).Nodup)
    (hd : ((defsOf ms).map Def.name).Nodup) (h : Agree ms ms') (h' : Agree ms' ms)
    (hg : Generatable ms) : Generatable ms' := by
  refine ⟨?_, ?_, ?_⟩
  · obtain ⟨rank, hr⟩ := hg.imports
    obtain ⟨rank', hr'⟩ := rank_transport (fun m m' : Module => m'.name = m.name) ms rank
      (fun x hx x' hx' y e e' => mem_unique_of_nodup_map hn hx hx' (by rw [← e, ← e']))
    refine ⟨rank', ?_⟩
    rintro a' ha' c' hc' ⟨it, hit, hm⟩
    obtain ⟨a, ha, a1, a2, _⟩ := h'.to a' ha'
    obtain ⟨c, hc, c1, _⟩ := h'.to c' hc'
    rw [hr' a ha a' a1.symm, hr' c hc c' c1.symm]
    exact hr a ha c hc ⟨it, by rwa [a2], by rw [hm, c1]⟩
  · intro m' hm'
    obtain ⟨m, hm, _, a2, a3, a4⟩ := h'.to m' hm'
    refine wellFounded_same ?_ a2.symm ?_ ?_ (hg.types m hm)
    · obtain ⟨s, t, rfl⟩ := List.append_of_mem hm
      unfold defsOf at hd
      simp only [List.flatMap_append, List.flatMap_cons, List.map_append] at hd
      exact (List.nodup_append.1 (List.nodup_append.1 hd).2.1).1
    · intro d hdm
      obtain ⟨d', q1, q2, q3⟩ := a4 d hdm
      exact ⟨d', q1, q2.symm, q3.symm⟩
    · intro d' hdm
      obtain ⟨d, q1, q2, q3⟩ := a3 d' hdm
      exact ⟨d, q1, q2.symm, q3.symm⟩
  · intro n c l hl k hk
    obtain ⟨g1, g2⟩ := hg.fields n c l (h'.seqs n c l hl) k hk
    exact ⟨g1, fun n hu hp c st hs => g2 n hu hp c st (h'.simples _ _ _ hs)⟩

theorem GeneratableCfs.agree {ms ms' : List Module} (hn : (ms.map (·.name)).Nodup)
    (hd : ((defsOf ms).map Def.name).Nodup) (h : Agree ms ms') (h' : Agree ms' ms)
    (hg : GeneratableCfs ms) : GeneratableCfs ms' := by
  refine ⟨Generatable.agree hn hd h h' hg.toGeneratable, ?_, ?_⟩
  · intro n c l hl
    exact hg.clauses n c l (h'.seqs n c l hl)
  · rintro n c t ht ⟨m', hm', d', hd', k, hk, hu⟩
    refine hg.notes n c t (h'.simples _ _ _ ht) ?_
    obtain ⟨m, hm, _, _, a3, _⟩ := h'.to m' hm'
    obtain ⟨d, q1, _, q3⟩ := a3 d' hd'
    exact ⟨m, hm, d, q1, k, by rwa [q3], hu⟩

theorem accepted_agree {raw : List Module} {b : Bundle} (h : buildFromTexts raw = .ok b) :
    Agree raw b.modules ∧ Agree b.modules raw := by
  obtain ⟨ms, h1, h2, _⟩ := buildFromTexts_ok.1 h
  rw [build_modules h2]
  have hs := processModules_same h1
  have hd := sameModules_defs hs
  have hsimple : ∀ n c t, Def.simple n c t ∈ defsOf raw ↔ Def.simple n c t ∈ defsOf ms := by
    intro n c t
    constructor
    · intro hm
      obtain ⟨m, hm, hdm⟩ := List.mem_flatMap.1 hm
      obtain ⟨m', hm', hp⟩ := all2_mem_left (processModules_ok.1 h1) hm
      obtain ⟨_, _, ds, hds, rfl, _⟩ := processModule_ok.1 hp
      obtain ⟨d', hd', hp'⟩ := all2_mem_left (processDefs_ok.1 hds) hdm
      rw [((processDef_ok hp').2.2.2.2.1 n c t rfl).1] at hd'
      exact List.mem_flatMap.2 ⟨_, hm', hd'⟩
    · intro hm
      obtain ⟨m, hm, hdm⟩ := List.mem_flatMap.1 hm
      obtain ⟨m0, hm0, d0, hd0, hp⟩ := processModules_def h1 hm hdm
      have : d0 = .simple n c t := by
        obtain ⟨_, _, _, _, p5, p6, p7, p8⟩ := processDef_ok hp
        cases d0 with
        | seq => cases p6 _ _ _ rfl
        | choice => cases p7 _ _ _ rfl
        | enum => obtain ⟨_, _, h⟩ := p8 _ _ _ rfl; cases h
        | simple => exact (p5 _ _ _ rfl).1.symm
      subst this
      exact List.mem_flatMap.2 ⟨_, hm0, hd0⟩
  constructor
  · refine ⟨?_, fun n c l => (sameDefs_seq hd n c l).2, fun n c t => (hsimple n c t).1⟩
    intro m hm
    obtain ⟨m', hm', p1, p2, p3⟩ := all2_mem_left hs hm
    refine ⟨m', hm', p1, p2, fun d hdm => ?_, fun d hdm => ?_⟩
    · obtain ⟨d', q, r1, r2, _⟩ := all2_mem_left p3 hdm; exact ⟨d', q, r1, r2⟩
    · obtain ⟨d', q, r1, r2, _⟩ := all2_mem_right p3 hdm; exact ⟨d', q, r1, r2⟩
  · refine ⟨?_, fun n c l => (sameDefs_seq hd n c l).1, fun n c t => (hsimple n c t).2⟩
    intro m hm
    obtain ⟨m', hm', p1, p2, p3⟩ := all2_mem_right hs hm
    refine ⟨m', hm', p1.symm, p2.symm, fun d hdm => ?_, fun d hdm => ?_⟩
    · obtain ⟨d', q, r1, r2, _⟩ := all2_mem_right p3 hdm; exact ⟨d', q, r1.symm, r2.symm⟩
    · obtain ⟨d', q, r1, r2, _⟩ := all2_mem_left p3 hdm; exact ⟨d', q, r1.symm, r2.symm⟩

/-! ### Accepted modules -/

theorem accepted_fieldEnv {raw : List Module} {cfg : List String} {b : Bundle}
    (hg : ∀ m ∈ raw, GrammarModule m) (hb : buildFromConfig raw cfg = .ok b) {bm : BMod}
    (hm : bm ∈ b.mods) : FieldEnv b.defs (simpleList bm) := by
  have hbt := buildFromTexts_of_config hb
  have hgr := accepted_grammar hg hbt
  refine ⟨?_, accepted_nodup hbt, simpleList_sub hb hm, ?_, ?_⟩
  · intro d hd
    have := (hgr d hd).1
    cases d <;> exact this.1
  · intro n c t hd
    obtain ⟨ms, h1, h2, _⟩ := buildFromTexts_ok.1 hbt
    rw [← defsOf_eq] at hd
    have hd' := (accepted_agree hbt).2.simples n c t hd
    obtain ⟨m, hm, hdm⟩ := List.mem_flatMap.1 hd'
    exact (((processModules_iff hg).1 ⟨ms, h1⟩ m hm).2.1 _ hdm).1
  · intro n c its hd
    exact (hgr _ hd).1.2.1

theorem accepted_sound {raw : List Module} {b : Bundle} (hg : ∀ m ∈ raw, GrammarModule m)
    (hbt : buildFromTexts raw = .ok b) {n : String} {c : Option Comment} {l : List Member}
    (hd : Def.seq n c l ∈ b.defs) : ∀ k ∈ l, SoundType k.type := by
  obtain ⟨ms, h1, h2, _⟩ := buildFromTexts_ok.1 hbt
  rw [← defsOf_eq] at hd
  have hd' := (accepted_agree hbt).2.seqs n c l hd
  obtain ⟨m, hm, hdm⟩ := List.mem_flatMap.1 hd'
  exact ((processModules_iff hg).1 ⟨ms, h1⟩ m hm).2.1 _ hdm

/-- Struct fields in an accepted bundle. -/
theorem accepted_field {raw : List Module} {cfg : List String} {b : Bundle}
    (hg : ∀ m ∈ raw, GrammarModule m) (hb : buildFromConfig raw cfg = .ok b) {bm : BMod}
    (hm : bm ∈ b.mods) {n : String} {c : Option Comment} {l : List Member}
    (hd : Def.seq n c l ∈ bm.mod.defs) {k : Member} (hk : k ∈ l) :
    (∃ f, fieldType b.defs (simpleList bm) k.type = .ok f) ↔ Storable b.defs k.type := by
  have hbt := buildFromTexts_of_config hb
  have hdb : Def.seq n c l ∈ b.defs :=
    mem_defs_of_module (List.mem_map.2 ⟨bm, hm, rfl⟩) hd
  refine fieldType_iff (accepted_fieldEnv hg hb hm) (accepted_sound hg hbt hdb k hk) ?_
  intro hcap
  exact (used_simple hb hm hd hk ((usesName_iff _ _).2 rfl) (capital_notBuiltIn hcap)).2

theorem mem_mods {b : Bundle} {d : Def} (h : d ∈ defsOf b.modules) : ∃ bm ∈ b.mods, d ∈ bm.mod.defs := by
  obtain ⟨m, hm, hd⟩ := List.mem_flatMap.1 h
  obtain ⟨bm, hbm, rfl⟩ := List.mem_map.1 hm
  exact ⟨bm, hbm, hd⟩

theorem accepted_moduleNames {raw : List Module} {cfg : List String} {b : Bundle}
    (hb : buildFromConfig raw cfg = .ok b) : (b.modules.map (·.name)).Nodup := by
  obtain ⟨ms, h1, h2, _, h4, _⟩ := buildFromConfig_ok.1 hb
  rw [build_modules h4]; exact h2

/-- Runs on accepted input, for a back end whose notes and clauses succeed under conditions
`N` and `C`. -/
theorem generate_ok_iff {raw : List Module} {cfg : List String} {b : Bundle}
    (hg : ∀ m ∈ raw, GrammarModule m) (hb : buildFromConfig raw cfg = .ok b) {be : Backend} {out : Text}
    {N : Prop} {C : Member → Prop}
    (hN : (∀ n c t, Def.simple n c t ∈ defsOf b.modules → ∃ l, be.note n t = .ok l) ↔ N)
    (hC : ∀ n mod k, (∃ e, memberPart be.handler n mod k = .ok e) ↔ C k) (fuel : Nat) :
    ((generate fuel be out b).result = .ok () → Generatable b.modules ∧ N ∧
      ∀ n c l, Def.seq n c l ∈ defsOf b.modules → ∀ k ∈ l, C k) ∧
    (b.modules.length < fuel → (∀ m ∈ b.modules, m.defs.length < fuel) → Generatable b.modules → N →
      (∀ n c l, Def.seq n c l ∈ defsOf b.modules → ∀ k ∈ l, C k) →
      (generate fuel be out b).result = .ok ()) := by
  have hn := accepted_moduleNames hb
  rw [generate_ends_iff hn]
  constructor
  · rintro ⟨⟨ms, ho⟩, hm⟩
    refine ⟨⟨(C21_returns_iff b.modules hn).2.1 ⟨fuel, ms, ho⟩, ?_, ?_⟩, hN.1 ?_, ?_⟩
    · intro m hmm
      obtain ⟨bm, hbm, rfl⟩ := List.mem_map.1 hmm
      obtain ⟨⟨sorted, hs⟩, _⟩ := hm bm hbm
      exact (C20_returns_iff bm.mod).2.1 ⟨fuel, sorted, hs⟩
    · intro n c l hl k hk
      obtain ⟨bm, hbm, hd⟩ := mem_mods hl
      rw [defsOf_eq]
      exact (accepted_field hg hb hbm hd hk).1 ((hm bm hbm).2.2 n c l hd k hk).1
    · intro n c t hd
      obtain ⟨bm, hbm, hd⟩ := mem_mods hd
      exact (hm bm hbm).2.1 n c t hd
    · intro n c l hl k hk
      obtain ⟨bm, hbm, hd⟩ := mem_mods hl
      exact (hC _ _ _).1 ((hm bm hbm).2.2 n c l hd k hk).2
  · intro hf1 hf2 hgen hN' hC'
    obtain ⟨ms, ho⟩ := (C21_returns_iff b.modules hn).1.2 hgen.imports
    refine ⟨⟨ms, ho fuel hf1⟩, fun bm hbm => ?_⟩
    have hmm : bm.mod ∈ b.modules := List.mem_map.2 ⟨bm, hbm, rfl⟩
    obtain ⟨sorted, hs⟩ := (C20_returns_iff bm.mod).1.2 (hgen.types _ hmm)
    refine ⟨⟨sorted, hs fuel (hf2 _ hmm)⟩, ?_, ?_⟩
    · intro n c t hd
      exact hN.2 hN' n c t (List.mem_flatMap.2 ⟨_, hmm, hd⟩)
    · intro n c l hd k hk
      have hdd : Def.seq n c l ∈ defsOf b.modules := List.mem_flatMap.2 ⟨_, hmm, hd⟩
      refine ⟨(accepted_field hg hb hbm hd hk).2 ?_, (hC _ _ _).2 (hC' n c l hdd k hk)⟩
      rw [← defsOf_eq]
      exact hgen.fields n c l hdd k hk

/-- Fuel for the sorters: more than there are modules, and definitions in a module. -/
def Enough (raw : List Module) (fuel : Nat) : Prop :=
  raw.length < fuel ∧ ∀ m ∈ raw, m.defs.length < fuel

theorem accepted_enough {raw : List Module} {b : Bundle} (h : buildFromTexts raw = .ok b) {fuel : Nat}
    (hf : Enough raw fuel) : b.modules.length < fuel ∧ ∀ m ∈ b.modules, m.defs.length < fuel := by
  obtain ⟨ms, h1, h2, _⟩ := buildFromTexts_ok.1 h
  rw [build_modules h2]
  have hs := processModules_same h1
  refine ⟨?_, fun m hm => ?_⟩
  · rw [← hs.length_eq]; exact hf.1
  · obtain ⟨m', hm', p⟩ := all2_mem_right hs hm
    rw [← p.2.2.length_eq]; exact hf.2 m' hm'

/-! ### C57 -/

theorem le_sum_of_mem {l : List Nat} {n : Nat} (h : n ∈ l) : n ≤ l.sum := by
  induction l with
  | nil => cases h
  | cons x l ih =>
    rw [List.sum_cons]
    rcases List.mem_cons.1 h with rfl | h
    · omega
    · have := ih h; omega

theorem exists_enough (raw : List Module) : ∃ fuel, Enough raw fuel := by
  refine ⟨raw.length + (raw.map (·.defs.length)).sum + 1, by omega, fun m hm => ?_⟩
  have : m.defs.length ≤ (raw.map (·.defs.length)).sum := le_sum_of_mem (List.mem_map.2 ⟨m, hm, rfl⟩)
  omega

/-- **C57, generate-c.** A run succeeds exactly when the modules are acceptable, `--asn1-modules` lists their names, no module imports itself and no type contains
itself, not even in several steps, and a C field can be made for every member of a sequence. -/
theorem C57_generate_c (p : Printer) (raw : List Module) (cfg : List String) (out : Text)
    (hg : ∀ m ∈ raw, GrammarModule m) :
    ((∃ fuel, (runC fuel p raw cfg out).result = .ok ()) ↔
      Acceptable raw ∧ cfg.Perm (raw.map (·.name)) ∧ Generatable raw) ∧
    (Acceptable raw → cfg.Perm (raw.map (·.name)) → Generatable raw →
      ∀ fuel, Enough raw fuel → (runC fuel p raw cfg out).result = .ok ()) := by
  have hback : ∀ b, buildFromConfig raw cfg = .ok b → ∀ fuel,
      ((runC fuel p raw cfg out).result = .ok () → Generatable raw) ∧
      (Enough raw fuel → Acceptable raw → Generatable raw → (runC fuel p raw cfg out).result = .ok ()) := by
    intro b hb fuel
    have hbt := buildFromTexts_of_config hb
    obtain ⟨ha, ha'⟩ := accepted_agree hbt
    have hnd : ((defsOf b.modules).map Def.name).Nodup := by rw [defsOf_eq]; exact accepted_nodup hbt
    obtain ⟨h1, h2⟩ := generate_ok_iff hg hb (be := cBackend p out b) (out := out) (N := True)
      (C := fun _ => True) (by simp [cBackend, cNote])
      (by intro n mod k; simp only [cBackend, memberPart, cHandler, iff_true]
          cases k.comps <;> exact ⟨_, rfl⟩) fuel
    simp only [runC, runCommand, hb]
    refine ⟨fun h => Generatable.agree (accepted_moduleNames hb) hnd ha' ha (h1 h).1, ?_⟩
    intro hf hacc hgen
    obtain ⟨hf1, hf2⟩ := accepted_enough hbt hf
    exact h2 hf1 hf2 (Generatable.agree hacc.moduleNames hacc.typeNames ha ha' hgen) trivial (by simp)
  have hto : Acceptable raw → cfg.Perm (raw.map (·.name)) → Generatable raw →
      ∀ fuel, Enough raw fuel → (runC fuel p raw cfg out).result = .ok () := by
    intro hacc hp hgen fuel hf
    obtain ⟨b, hb⟩ := (C56_exact raw cfg hg).2 ⟨hacc, hp⟩
    exact (hback b hb fuel).2 hf hacc hgen
  refine ⟨⟨?_, ?_⟩, hto⟩
  · rintro ⟨fuel, hr⟩
    cases hb : buildFromConfig raw cfg with
    | error e => simp [runC, runCommand, hb] at hr
    | ok b =>
      obtain ⟨h1, h2⟩ := (C56_exact raw cfg hg).1 ⟨b, hb⟩
      exact ⟨h1, h2, (hback b hb fuel).1 hr⟩
  · rintro ⟨h1, h2, h3⟩
    obtain ⟨fuel, hf⟩ := exists_enough raw
    exact ⟨fuel, hto h1 h2 h3 fuel hf⟩

theorem uses_iff_plain {raw : List Module} {b : Bundle} (hbt : buildFromTexts raw = .ok b) {n : String}
    (hn : ¬ BuiltIn n) : (∃ s, (n, s) ∈ b.uses) ↔ ∃ m ∈ b.modules, UsedPlainly m n := by
  obtain ⟨ms, h1, h2, _⟩ := buildFromTexts_ok.1 hbt
  obtain ⟨u1, _, u3⟩ := C18_use_map ms b h2
  rw [build_modules h2]
  constructor
  · rintro ⟨s, hs⟩
    obtain ⟨x, hx⟩ := List.exists_mem_of_ne_nil _ (u3 _ hs).2
    obtain ⟨m, hm, _, hu, _⟩ := (u1 n x).1 ⟨s, hs, hx⟩
    exact ⟨m, hm, hu⟩
  · rintro ⟨m, hm, hu⟩
    obtain ⟨s, hs, _⟩ := (u1 n m.name).2 ⟨m, hm, rfl, hu, hn⟩
    exact ⟨s, hs⟩

/-- **C57, generate-cfs.** The same with two more conditions: clauses on `primary` consist of
clauses on `packet-identification` with whole numbers for the four header fields, and the
simple definitions that are used have a size. -/
theorem C57_generate_cfs (p : Printer) (raw : List Module) (cfg : List String) (out : Text)
    (hg : ∀ m ∈ raw, GrammarModule m) :
    ((∃ fuel, (runCfs fuel p raw cfg out).result = .ok ()) ↔
      Acceptable raw ∧ cfg.Perm (raw.map (·.name)) ∧ GeneratableCfs raw) ∧
    (Acceptable raw → cfg.Perm (raw.map (·.name)) → GeneratableCfs raw →
      ∀ fuel, Enough raw fuel → (runCfs fuel p raw cfg out).result = .ok ()) := by
  have hback : ∀ b, buildFromConfig raw cfg = .ok b → ∀ fuel,
      ((runCfs fuel p raw cfg out).result = .ok () → GeneratableCfs raw) ∧
      (Enough raw fuel → Acceptable raw → GeneratableCfs raw →
        (runCfs fuel p raw cfg out).result = .ok ()) := by
    intro b hb fuel
    have hbt := buildFromTexts_of_config hb
    obtain ⟨ha, ha'⟩ := accepted_agree hbt
    have hnd : ((defsOf b.modules).map Def.name).Nodup := by rw [defsOf_eq]; exact accepted_nodup hbt
    have hN : (∀ n c t, Def.simple n c t ∈ defsOf b.modules → ∃ l, (cfsBackend p out b).note n t = .ok l) ↔
        ∀ n c t, Def.simple n c t ∈ defsOf b.modules → (∃ m ∈ b.modules, UsedPlainly m n) → Measurable t := by
      refine forall_congr' fun n => forall_congr' fun c => forall_congr' fun t => forall_congr' fun hd => ?_
      obtain ⟨bm, hbm, _⟩ := mem_mods hd
      rw [defsOf_eq] at hd
      have he := accepted_fieldEnv hg hb hbm
      rw [← unresolvedSizeBits_ok (he.sound n c t hd), ← uses_iff_plain hbt (n := n) (capital_notBuiltIn (he.cap _ hd))]
      exact cfsNote_iff
    obtain ⟨h1, h2⟩ := generate_ok_iff hg hb (be := cfsBackend p out b) (out := out)
      (C := fun k => ∀ cs, k.comps = some cs → MessageClause cs) hN
      (fun n mod k => cfsPart_iff p n mod k) fuel
    simp only [runCfs, runCommand, hb]
    refine ⟨fun h => ?_, ?_⟩
    · obtain ⟨q1, q2, q3⟩ := h1 h
      exact GeneratableCfs.agree (accepted_moduleNames hb) hnd ha' ha ⟨q1, q3, q2⟩
    · intro hf hacc hgen
      obtain ⟨hf1, hf2⟩ := accepted_enough hbt hf
      obtain ⟨q1, q2, q3⟩ := GeneratableCfs.agree hacc.moduleNames hacc.typeNames ha ha' hgen
      exact h2 hf1 hf2 q1 q3 q2
  have hto : Acceptable raw → cfg.Perm (raw.map (·.name)) → GeneratableCfs raw →
      ∀ fuel, Enough raw fuel → (runCfs fuel p raw cfg out).result = .ok () := by
    intro hacc hp hgen fuel hf
    obtain ⟨b, hb⟩ := (C56_exact raw cfg hg).2 ⟨hacc, hp⟩
    exact (hback b hb fuel).2 hf hacc hgen
  refine ⟨⟨?_, ?_⟩, hto⟩
  · rintro ⟨fuel, hr⟩
    cases hb : buildFromConfig raw cfg with
    | error e => simp [runCfs, runCommand, hb] at hr
    | ok b =>
      obtain ⟨h1, h2⟩ := (C56_exact raw cfg hg).1 ⟨b, hb⟩
      exact ⟨h1, h2, (hback b hb fuel).1 hr⟩
  · rintro ⟨h1, h2, h3⟩
    obtain ⟨fuel, hf⟩ := exists_enough raw
    exact ⟨fuel, hto h1 h2 h3 fuel hf⟩

/-- The definitions of an accepted bundle, for sizes. -/
theorem accepted_sizeEnv {raw : List Module} {b : Bundle} (hg : ∀ m ∈ raw, GrammarModule m)
    (hbt : buildFromTexts raw = .ok b) : SizeEnv b.defs := by
  refine ⟨accepted_nodup hbt, ?_, fun n c l hd => accepted_sound hg hbt hd, fun n c its hd => ?_⟩
  · intro n c t hd
    obtain ⟨ms, h1, h2, _⟩ := buildFromTexts_ok.1 hbt
    rw [← defsOf_eq] at hd
    have hd' := (accepted_agree hbt).2.simples n c t hd
    obtain ⟨m, hm, hdm⟩ := List.mem_flatMap.1 hd'
    exact (((processModules_iff hg).1 ⟨ms, h1⟩ m hm).2.1 _ hdm).1
  · exact ⟨(accepted_grammar hg hbt _ hd).1.2.1, accepted_positions hbt hd⟩

theorem accepted_alike {raw : List Module} {b : Bundle} (hbt : buildFromTexts raw = .ok b) :
    (Alike (defsOf raw) (defsOf b.modules) ∧ Alike (defsOf b.modules) (defsOf raw)) ∧
      All2 (fun m m' => Alike m.defs m'.defs ∧ Alike m'.defs m.defs) raw b.modules := by
  obtain ⟨ms, h1, h2, _⟩ := buildFromTexts_ok.1 hbt
  rw [build_modules h2]
  exact processedModules_alike h1

theorem nodup_module {ms : List Module} (h : ((defsOf ms).map Def.name).Nodup) {m : Module} (hm : m ∈ ms) :
    (m.defs.map Def.name).Nodup := by
  obtain ⟨s, t, rfl⟩ := List.append_of_mem hm
  unfold defsOf at h
  simp only [List.flatMap_append, List.flatMap_cons, List.map_append] at h
  exact (List.nodup_append.1 (List.nodup_append.1 h).2.1).1

/-- Runs of generate-binary on accepted input. -/
theorem binary_ends {raw : List Module} {cfg : List String} {b : Bundle}
    (hg : ∀ m ∈ raw, GrammarModule m)
    (hb : buildFromConfig raw cfg = .ok b) (e : Option Endian) (out : Text) :
    ((∃ fuel, (generate fuel (binBackend fuel e out b) out b).result = .ok ()) →
      GeneratableBinary b.modules ∧
      (e = none → ∀ n c l, Def.seq n c l ∈ defsOf b.modules → ∀ k ∈ l, k.comps = none)) ∧
    (GeneratableBinary b.modules →
      (e = none → ∀ n c l, Def.seq n c l ∈ defsOf b.modules → ∀ k ∈ l, k.comps = none) →
      ∃ N, ∀ fuel, N ≤ fuel → (generate fuel (binBackend fuel e out b) out b).result = .ok ()) := by
  have hbt := buildFromTexts_of_config hb
  have hn := accepted_moduleNames hb
  have he := accepted_sizeEnv hg hbt
  have hnd : ((defsOf b.modules).map Def.name).Nodup := by rw [defsOf_eq]; exact he.nodup
  have hmod : ∀ bm ∈ b.mods, bm.mod ∈ b.modules := fun bm h => List.mem_map.2 ⟨bm, h, rfl⟩
  have hsub : ∀ bm ∈ b.mods, ∀ d ∈ bm.mod.defs, d ∈ b.defs := fun bm h d hd =>
    mem_defs_of_module (hmod bm h) hd
  have hgram : ∀ bm ∈ b.mods, ∀ n c l, Def.seq n c l ∈ bm.mod.defs → ∀ k ∈ l, GrammarMember k :=
    fun bm h n c l hd => (accepted_grammar hg hbt _ (hsub bm h _ hd)).1.2.2
  have hpart : ∀ bm ∈ b.mods, ∀ fuel en name m,
      (∃ x, memberPart (binHandler b.defs fuel (some en)) name bm.mod m = .ok x) ↔ _ :=
    fun bm h fuel en name m => binPart_iff he (hsub bm h) (nodup_module hnd (hmod bm h))
      en name m
  constructor
  · rintro ⟨fuel, hr⟩
    rw [generate_ends_iff hn] at hr
    obtain ⟨⟨ms, ho⟩, hm⟩ := hr
    have hgen : Generatable b.modules := by
      refine ⟨(C21_returns_iff b.modules hn).2.1 ⟨fuel, ms, ho⟩, ?_, ?_⟩
      · intro m hmm
        obtain ⟨bm, hbm, rfl⟩ := List.mem_map.1 hmm
        obtain ⟨⟨sorted, hs⟩, _⟩ := hm bm hbm
        exact (C20_returns_iff bm.mod).2.1 ⟨fuel, sorted, hs⟩
      · intro n c l hl k hk
        obtain ⟨bm, hbm, hd⟩ := mem_mods hl
        rw [defsOf_eq]
        exact (accepted_field hg hb hbm hd hk).1 ((hm bm hbm).2.2 n c l hd k hk).1
    have hnone : e = none → ∀ n c l, Def.seq n c l ∈ defsOf b.modules → ∀ k ∈ l, k.comps = none := by
      rintro rfl n c l hl k hkl
      obtain ⟨bm, hbm, hd⟩ := mem_mods hl
      obtain ⟨x, hx⟩ := ((hm bm hbm).2.2 n c l hd k hkl).2
      exact binPart_none (hgram bm hbm n c l hd k hkl) hx
    refine ⟨⟨hgen, ?_, ?_⟩, hnone⟩
    · rintro m hmm ⟨n0, c0, l0, hd0, k0, hk0, hk0'⟩ n c l hd k hkl hc
      obtain ⟨bm, hbm, rfl⟩ := List.mem_map.1 hmm
      cases e with
      | none => exact absurd (hnone rfl n0 c0 l0 (List.mem_flatMap.2 ⟨_, hmm, hd0⟩) k0 hk0) hk0'
      | some en =>
        obtain ⟨cs, hcs⟩ := Option.ne_none_iff_exists'.1 hk0'
        obtain ⟨w, hw⟩ := ((hpart bm hbm _ _ _ _).1 ((hm bm hbm).2.2 n0 c0 l0 hd0 k0 hk0).2 cs hcs).1
          n c l hd k hkl hc
        rw [defsOf_eq]
        exact ⟨w, sizeMember_sound he (he.seqs _ _ _ (hsub bm hbm _ hd) k hkl) hw⟩
    · intro m hmm n c l hd k hkl cs hcs t ht
      obtain ⟨bm, hbm, rfl⟩ := List.mem_map.1 hmm
      cases e with
      | none =>
        have := hnone rfl n c l (List.mem_flatMap.2 ⟨_, hmm, hd⟩) k hkl
        rw [this] at hcs; cases hcs
      | some en =>
        rw [usesName_iff] at ht
        subst ht
        rw [defsOf_eq]
        exact ((hpart bm hbm _ _ _ _).1 ((hm bm hbm).2.2 n c l hd k hkl).2 cs hcs).2
  · intro hgen hnone
    have hsizes : ∃ N, ∀ fuel, N ≤ fuel → ∀ bm ∈ b.mods,
        (∃ n c l, Def.seq n c l ∈ bm.mod.defs ∧ ∃ k ∈ l, k.comps ≠ none) →
        ∀ n c l, Def.seq n c l ∈ bm.mod.defs → ∀ k ∈ l, k.comps = none →
          ∃ w, sizeMember b.defs fuel k = .ok w := by
      have : ∀ bm ∈ b.mods, ∃ N, ∀ fuel, N ≤ fuel → ∀ d ∈ bm.mod.defs,
          (∃ n c l, Def.seq n c l ∈ bm.mod.defs ∧ ∃ k ∈ l, k.comps ≠ none) →
          ∀ k ∈ d.members, ∀ n c l, d = .seq n c l → k.comps = none →
          ∃ w, sizeMember b.defs fuel k = .ok w := by
        intro bm hbm
        by_cases hcl : ∃ n c l, Def.seq n c l ∈ bm.mod.defs ∧ ∃ k ∈ l, k.comps ≠ none
        · refine uniform fun d hd => ?_
          suffices h : ∃ N, ∀ fuel, N ≤ fuel → ∀ k ∈ d.members, ∀ n c l, d = .seq n c l → k.comps = none →
              ∃ w, sizeMember b.defs fuel k = .ok w by
            obtain ⟨N, hN⟩ := h
            exact ⟨N, fun fuel hf _ => hN fuel hf⟩
          refine uniform fun k hkm => ?_
          by_cases hc : (∃ n c l, d = .seq n c l) ∧ k.comps = none
          · obtain ⟨⟨n, c, l, rfl⟩, hc⟩ := hc
            obtain ⟨w, hw⟩ := hgen.sizes _ (hmod bm hbm) hcl n c l hd k hkm hc
            rw [defsOf_eq] at hw
            obtain ⟨N, hN⟩ := sizeMember_complete he (he.seqs _ _ _ (hsub bm hbm _ hd) k hkm) hw
            exact ⟨N, fun fuel hf _ _ _ _ _ => ⟨w, hN fuel hf⟩⟩
          · exact ⟨0, fun fuel _ n c l e' hc' => absurd ⟨⟨n, c, l, e'⟩, hc'⟩ hc⟩
        · exact ⟨0, fun fuel _ d hd h => absurd h hcl⟩
      obtain ⟨N, hN⟩ := uniform this
      exact ⟨N, fun fuel hf bm hbm hcl n c l hd k hkl hc => hN fuel hf bm hbm _ hd hcl k hkl n c l rfl hc⟩
    obtain ⟨N, hN⟩ := hsizes
    obtain ⟨M, hM1, hM2⟩ := exists_enough b.modules
    refine ⟨N + M, fun fuel hf => ?_⟩
    rw [generate_ends_iff hn]
    obtain ⟨ms, ho⟩ := (C21_returns_iff b.modules hn).1.2 hgen.imports
    refine ⟨⟨ms, ho fuel (by omega)⟩, fun bm hbm => ?_⟩
    have hmm := hmod bm hbm
    obtain ⟨sorted, hs⟩ := (C20_returns_iff bm.mod).1.2 (hgen.types _ hmm)
    refine ⟨⟨sorted, hs fuel (by have := hM2 _ hmm; omega)⟩, ?_, ?_⟩
    · intro n c t hd
      simp only [binBackend, binNote, cNote]
      split <;> exact ⟨_, rfl⟩
    · intro n c l hd k hkl
      have hdd : Def.seq n c l ∈ defsOf b.modules := List.mem_flatMap.2 ⟨_, hmm, hd⟩
      refine ⟨(accepted_field hg hb hbm hd hkl).2 ?_, ?_⟩
      · rw [← defsOf_eq]
        exact hgen.fields n c l hdd k hkl
      · cases e with
        | none =>
          unfold memberPart
          rw [hnone rfl n c l hdd k hkl]
          exact ⟨_, rfl⟩
        | some en =>
          refine (hpart bm hbm fuel en _ k).2 fun cs hcs => ⟨hN fuel (by omega) bm hbm
            ⟨n, c, l, hd, k, hkl, by rw [hcs]; simp⟩, ?_⟩
          rw [← defsOf_eq]
          exact hgen.clauses _ hmm n c l hd k hkl cs hcs _ ((usesName_iff _ _).2 rfl)

/-- **C57, generate-binary.** The same as for generate-c with two more conditions: in a module with
clauses all other members have a size (a CHOICE has none), and the clauses can be written:
their sequences are in the module, their members have an encoding and the values fit. Without
`--endianness` there must be no clauses. -/
theorem C57_generate_binary (e : Option Endian) (raw : List Module) (cfg : List String) (out : Text)
    (hg : ∀ m ∈ raw, GrammarModule m) :
    ((∃ fuel, (runBinary fuel e raw cfg out).result = .ok ()) ↔
      Acceptable raw ∧ cfg.Perm (raw.map (·.name)) ∧ GeneratableBinary raw ∧
        (e = none → ∀ n c l, Def.seq n c l ∈ defsOf raw → ∀ k ∈ l, k.comps = none)) ∧
    ((∃ fuel, (runBinary fuel e raw cfg out).result = .ok ()) →
      ∃ N, ∀ fuel, N ≤ fuel → (runBinary fuel e raw cfg out).result = .ok ()) := by
  have hto : Acceptable raw → cfg.Perm (raw.map (·.name)) → GeneratableBinary raw →
      (e = none → ∀ n c l, Def.seq n c l ∈ defsOf raw → ∀ k ∈ l, k.comps = none) →
      ∃ N, ∀ fuel, N ≤ fuel → (runBinary fuel e raw cfg out).result = .ok () := by
    intro hacc hp hgen hnone
    obtain ⟨b, hb⟩ := (C56_exact raw cfg hg).2 ⟨hacc, hp⟩
    have hbt := buildFromTexts_of_config hb
    obtain ⟨ha, ha'⟩ := accepted_agree hbt
    obtain ⟨⟨a1, _⟩, a3⟩ := accepted_alike hbt
    simp only [runBinary, runCommand, hb]
    refine (binary_ends hg hb e out).2 ?_ fun he n c l hd => hnone he n c l (ha'.seqs _ _ _ hd)
    exact GeneratableBinary.alike (Generatable.agree hacc.moduleNames hacc.typeNames ha ha' hgen.toGeneratable) a1
      (fun m' hm' => by obtain ⟨m, hm, q⟩ := all2_mem_right a3 hm'; exact ⟨m, hm, q⟩) hgen
  have hfrom : (∃ fuel, (runBinary fuel e raw cfg out).result = .ok ()) →
      Acceptable raw ∧ cfg.Perm (raw.map (·.name)) ∧ GeneratableBinary raw ∧
        (e = none → ∀ n c l, Def.seq n c l ∈ defsOf raw → ∀ k ∈ l, k.comps = none) := by
    rintro ⟨fuel, hr⟩
    cases hb : buildFromConfig raw cfg with
    | error e => simp [runBinary, runCommand, hb] at hr
    | ok b =>
      obtain ⟨h1, h2⟩ := (C56_exact raw cfg hg).1 ⟨b, hb⟩
      have hbt := buildFromTexts_of_config hb
      obtain ⟨ha, ha'⟩ := accepted_agree hbt
      obtain ⟨⟨_, a2⟩, a3⟩ := accepted_alike hbt
      have hnd : ((defsOf b.modules).map Def.name).Nodup := by rw [defsOf_eq]; exact accepted_nodup hbt
      simp only [runBinary, runCommand, hb] at hr
      obtain ⟨q1, q2⟩ := (binary_ends hg hb e out).1 ⟨fuel, hr⟩
      refine ⟨h1, h2, ?_, fun he n c l hd => q2 he n c l (ha.seqs _ _ _ hd)⟩
      exact GeneratableBinary.alike (Generatable.agree (accepted_moduleNames hb) hnd ha' ha q1.toGeneratable) a2
        (fun m hm => by obtain ⟨m', hm', q⟩ := all2_mem_left a3 hm; exact ⟨m', hm', q.2, q.1⟩) q1
  refine ⟨⟨hfrom, ?_⟩, ?_⟩
  · rintro ⟨h1, h2, h3, h4⟩
    obtain ⟨N, hN⟩ := hto h1 h2 h3 h4
    exact ⟨N, hN N (Nat.le_refl _)⟩
  · intro h
    obtain ⟨h1, h2, h3, h4⟩ := hfrom h
    exact hto h1 h2 h3 h4

/-! ### Accepted input that cannot be generated -/

/-- A member that is an INTEGER without bounds. -/
def exUnbounded : List Module :=
  [{ name := "m", defs := [.seq "Rec" none [⟨"n", .plain "INTEGER" none none, none, none⟩]] }]

theorem exUnbounded_valid : Valid exUnbounded where
  moduleNames := by decide
  typeNames := by decide
  comments := by
    intro m hm
    simp only [exUnbounded, List.mem_cons, List.not_mem_nil, or_false] at hm
    subst hm
    constructor <;> simp [commentsOf]
  defs := by
    intro d hd
    simp only [exUnbounded, defsOf, List.flatMap_cons, List.flatMap_nil, List.append_nil, List.mem_cons,
      List.not_mem_nil, or_false] at hd
    subst hd
    refine ⟨?_, by decide, fun b e h => absurd h (no_standard (by decide +kernel) _ _),
      fun b e h => absurd h (no_standard (by decide +kernel) _ _)⟩
    intro m hm
    simp only [List.mem_cons, List.not_mem_nil, or_false] at hm
    subst hm
    exact .integer
  used := by
    intro m hm d hd k hk n hu
    simp only [exUnbounded, List.mem_cons, List.not_mem_nil, or_false] at hm
    subst hm
    simp only [List.mem_cons, List.not_mem_nil, or_false] at hd
    subst hd
    simp only [Def.members, List.mem_cons, List.not_mem_nil, or_false] at hk
    subst hk
    cases hu
    exact Or.inl (by simp [BuiltIn])
  imports := by
    intro m hm i hi
    simp only [exUnbounded, List.mem_cons, List.not_mem_nil, or_false] at hm
    subst hm
    cases hi
  components := by
    intro d hd k hk cs hcs
    simp only [exUnbounded, defsOf, List.flatMap_cons, List.flatMap_nil, List.append_nil, List.mem_cons,
      List.not_mem_nil, or_false] at hd
    subst hd
    simp only [Def.members, List.mem_cons, List.not_mem_nil, or_false] at hk
    subst hk
    cases hcs

theorem exUnbounded_grammar : ∀ m ∈ exUnbounded, GrammarModule m := by
  exact grammarB_sound (by decide +kernel)

/-- **C57, valid input that cannot be generated.** Valid modules pass validation, but there may be
no run of generate-c, generate-cfs or generate-binary on them that succeeds. -/
theorem C57_valid_not_generated :
    ∃ raw, (∀ m ∈ raw, GrammarModule m) ∧ Valid raw ∧
      (∃ b, buildFromConfig raw (raw.map (·.name)) = .ok b) ∧
      ∀ fuel p e cfg out, (runC fuel p raw cfg out).result ≠ .ok () ∧
        (runCfs fuel p raw cfg out).result ≠ .ok () ∧ (runBinary fuel e raw cfg out).result ≠ .ok () := by
  have hno : ¬ Generatable exUnbounded := by
    intro h
    have := (h.fields "Rec" none _ (List.Mem.head _) _ (List.Mem.head _)).1 "INTEGER" .plain (Or.inl rfl)
    generalize ht : AType.plain "INTEGER" none none = t at this
    cases this <;> simp at ht
  refine ⟨exUnbounded, exUnbounded_grammar, exUnbounded_valid,
    (C56_exact _ _ exUnbounded_grammar).2 ⟨valid_acceptable exUnbounded_valid, .refl _⟩, ?_⟩
  intro fuel p e cfg out
  refine ⟨fun h => ?_, fun h => ?_, fun h => ?_⟩
  · exact hno ((C57_generate_c p _ cfg out exUnbounded_grammar).1.1 ⟨fuel, h⟩).2.2
  · exact hno ((C57_generate_cfs p _ cfg out exUnbounded_grammar).1.1 ⟨fuel, h⟩).2.2.toGeneratable
  · exact hno ((C57_generate_binary e _ cfg out exUnbounded_grammar).1.1 ⟨fuel, h⟩).2.2.1.toGeneratable

/-- **C57, files.** Files that write valid modules from which C structs can be made are
generated by generate-c, whatever their layout and the order of `--asn1-modules`. -/
theorem C57_files (F : Bool → Nat → Int → Num) (hF : Rounds F) :
    ∀ raw ts fs, All2 (ModuleSyntax (.strict F)) raw ts → All2 Stored ts fs → Valid raw →
      ∀ ms, (nameList ms).Perm (raw.map (·.name)) → ∀ fuel, Enough raw fuel → ∀ p out,
        (Generatable raw → (program fuel p (fs.map some) (.c ms out)).result = .ok ()) ∧
        (GeneratableCfs raw → (program fuel p (fs.map some) (.cfs ms out)).result = .ok ()) := by
  cases rounds_unique hF
  intro raw ts fs h hs hv ms hms fuel hf p out
  have hg := strict_grammar h
  have hp := program_eq fuel p (readFiles_stored hs) (readModules_syntax h)
  rw [hp, hp]
  exact ⟨fun hgen => (C57_generate_c p raw _ out hg).2 (valid_acceptable hv) hms hgen fuel hf,
    fun hgen => (C57_generate_cfs p raw _ out hg).2 (valid_acceptable hv) hms hgen fuel hf⟩

/-! ### An example -/

/-- The valid bundle of two modules can be generated by generate-c and generate-cfs. -/
theorem exRaw_generatable : GeneratableCfs exRaw where
  imports := by
    refine ⟨fun m => if m.name = "base" then 1 else 0, fun a ha b hb hi => ?_⟩
    simp only [exRaw, List.mem_cons, List.not_mem_nil, or_false] at ha hb
    obtain ⟨i, hi, h⟩ := hi
    rcases ha with rfl | rfl
    · simp only [exGeo, List.mem_cons, List.not_mem_nil, or_false] at hi
      subst hi
      rcases hb with rfl | rfl
      · simp [exGeo] at h
      · decide
    · cases hi
  types := by
    intro m hm
    refine ⟨fun d => if d.name = "Track" then 1 else 0, fun d hd n hu => ?_⟩
    simp only [exRaw, List.mem_cons, List.not_mem_nil, or_false] at hm
    obtain ⟨-, k, hk, hu⟩ := hu
    rw [usesName_iff] at hu
    subst hu
    rcases hm with rfl | rfl
    · simp only [exGeo, List.mem_cons, List.not_mem_nil, or_false] at hd
      rcases hd with rfl | rfl
      · simp only [Def.members, List.mem_cons, List.not_mem_nil, or_false] at hk
        rcases hk with rfl | rfl <;>
          exact .inl (.inr ⟨_, List.mem_cons_self .., List.mem_cons_self ..⟩)
      · simp only [Def.members, List.mem_cons, List.not_mem_nil, or_false] at hk
        rcases hk with rfl | rfl <;>
          exact .inr ⟨_, List.mem_cons_self .., rfl, by decide⟩
    · simp only [exBase, List.mem_cons, List.not_mem_nil, or_false] at hd
      subst hd
      cases hk
  fields := by
    intro n c l hl k hk
    have hx : ∀ n c st, Def.simple n c st ∈ defsOf exRaw → Expandable st := by
      intro n c st h
      simp only [exRaw_defs, List.mem_cons, List.not_mem_nil, or_false, reduceCtorEq, false_or,
        Def.simple.injEq] at h
      obtain ⟨-, -, rfl⟩ := h
      exact .inl (Bounded.unsigned (by decide) (by decide) (by decide))
    refine ⟨?_, fun n _ _ c st h => hx n c st h⟩
    intro n' hu hn
    rw [usesName_iff] at hu
    subst hu
    simp only [exRaw_defs, List.mem_cons, List.not_mem_nil, or_false, reduceCtorEq, Def.seq.injEq] at hl
    rcases hl with ⟨-, -, rfl⟩ | ⟨-, -, rfl⟩ <;>
      simp only [List.mem_cons, List.not_mem_nil, or_false] at hk <;>
      rcases hk with rfl | rfl <;> simp [AType.name] at hn
  clauses := by
    intro n c l hl k hk cs hcs
    simp only [exRaw_defs, List.mem_cons, List.not_mem_nil, or_false, reduceCtorEq, Def.seq.injEq] at hl
    rcases hl with ⟨-, -, rfl⟩ | ⟨-, -, rfl⟩ <;>
      simp only [List.mem_cons, List.not_mem_nil, or_false] at hk <;>
      rcases hk with rfl | rfl <;> cases hcs
    exact .leaf (.leaf .nil)
  notes := by
    intro n c t h _
    simp only [exRaw_defs, List.mem_cons, List.not_mem_nil, or_false, reduceCtorEq, false_or,
      Def.simple.injEq] at h
    obtain ⟨-, -, rfl⟩ := h
    exact .unsigned (b := 0) (e := 359) (by decide) (by decide)

example (p : Printer) (out : Text) : (runCfs 4 p exRaw ["base", "geo"] out).result = .ok () :=
  (C57_generate_cfs p exRaw _ out (grammarB_sound (by decide +kernel))).2
    (valid_acceptable exRaw_valid) (by decide) exRaw_generatable 4 ⟨by decide, by decide⟩

example (p : Printer) (out : Text) : (runC 4 p exRaw ["geo", "base"] out).result = .ok () :=
  (C57_generate_c p exRaw _ out (grammarB_sound (by decide +kernel))).2
    (valid_acceptable exRaw_valid) (by decide) exRaw_generatable.toGeneratable 4 ⟨by decide, by decide⟩

/-- The module with signed, unsigned and real members and a nested clause: generate-binary succeeds
with a byte order, so it meets the conditions, and fails without one. -/
example : GeneratableBinary exBin ∧ ∀ fuel, (runBinary fuel none exBin ["m"] exOut).result ≠ .ok () := by
  have hg : ∀ m ∈ exBin, GrammarModule m := grammarB_sound (by decide +kernel)
  refine ⟨((C57_generate_binary (some .big) exBin ["m"] exOut hg).1.1 ⟨20, by decide +kernel⟩).2.2.1, ?_⟩
  intro fuel h
  have := ((C57_generate_binary none exBin ["m"] exOut hg).1.1 ⟨fuel, h⟩).2.2.2 rfl "Pkt" none _
    (.tail _ (.tail _ (.tail _ (.head _)))) _ (List.mem_cons_self ..)
  cases this

theorem keys_exist {ds own : List Def} {n : String} {cs : Comps} (h : Writable ds own n cs) : KeysExist own n cs := by
  have hm : ∀ {ms : List Member} {m : Member}, LastPlain ms m → m ∈ ms := by
    rintro ms m ⟨_, pre, post, rfl, _⟩
    exact List.mem_append_right _ (List.mem_cons_self ..)
  induction h with
  | nil => exact .nil
  | leaf h1 h2 _ _ ih => exact .leaf h1 (hm h2) ih
  | node h1 h2 h3 _ _ ih1 ih2 => exact .node h1 (hm h2) h3 ih1 ih2

/-- **C15, generate-binary.** When generate-binary succeeds, every key of every clause of a sequence, at every depth, is a member
of the sequence that it is for, and that sequence is in the same module. Here no types are left out. -/
theorem C15_binary (fuel : Nat) (e : Option Endian) (raw : List Module) (cfg : List String) (out : Text)
    (hg : ∀ m ∈ raw, GrammarModule m) (hr : (runBinary fuel e raw cfg out).result = .ok ()) (m : Module) (hm : m ∈ raw)
    (n : String) (c : Option Comment) (ms : List Member) (hd : Def.seq n c ms ∈ m.defs) (k : Member) (hk : k ∈ ms)
    (cs : Comps) (hc : k.comps = some cs) (t : String) (ht : UsesName k.type t) : KeysExist m.defs t cs :=
  keys_exist (((C57_generate_binary e raw cfg out hg).1.1 ⟨fuel, hr⟩).2.2.1.clauses m hm n c ms hd k hk cs hc t ht)

example : KeysExist exBinModule.defs "Head"
    (.node "id" (.leaf "a" (.int 258) (.leaf "r" (.flt (.flt (-1/2))) .nil)) (.leaf "s" (.int (-2)) .nil)) :=
  C15_binary 20 (some .big) exBin ["m"] exOut (grammarB_sound (by decide +kernel)) (by decide +kernel) exBinModule
    (List.Mem.head _) "Pkt" none _ (List.mem_of_getElem? (i := 3) rfl) _ (List.Mem.head _) _ rfl "Head" .plain

end Apg
