import Verif.Lemmas.CosmosItem
import Verif.Props.Bundle

namespace Apg
open Spec

/-! ### Linked modules -/

/-- The modules of the bundle have distinct names and are linked to the modules they import. -/
structure Linked (b : Bundle) : Prop where
  nodup : (b.modules.map (·.name)).Nodup
  link : ∀ bm ∈ b.mods, ∀ m', m' ∈ bm.imported ↔ m' ∈ b.modules ∧ ∃ i ∈ bm.mod.imports, i.module = m'.name

theorem lastNamed_nodup {ms : List Module} (h : (ms.map (·.name)).Nodup) {m : Module} (hm : m ∈ ms) :
    lastNamed ms m.name = some m := by
  cases hl : lastNamed ms m.name with
  | none =>
    exfalso
    clear h
    induction ms with
    | nil => cases hm
    | cons x ms ih =>
      rw [lastNamed] at hl
      split at hl
      · cases hl
      · rename_i h0
        rcases List.mem_cons.1 hm with rfl | hm
        · rw [if_pos rfl] at hl; cases hl
        · exact ih hm h0
  | some m' =>
    obtain ⟨h1, h2⟩ := lastNamed_some hl
    rw [mem_unique_of_nodup_map h h1 hm h2]

theorem accepted_linked {raw : List Module} {b : Bundle} (hn : (raw.map (·.name)).Nodup)
    (h : buildFromTexts raw = .ok b) : Linked b := by
  obtain ⟨ms, h1, h2, h3⟩ := buildFromTexts_ok.1 h
  have hmods := build_modules h2
  have hn' : (ms.map (·.name)).Nodup := by rw [processModules_names h1]; exact hn
  obtain ⟨h4, h5⟩ := (resolveDeps_nodup hn').1 (build_ok.1 h2).1
  refine ⟨by rw [hmods]; exact hn', fun bm hbm m' => ?_⟩
  rw [h5] at hbm
  obtain ⟨m, hm, rfl⟩ := List.mem_map.1 hbm
  rw [hmods]
  simp only [List.mem_filterMap]
  constructor
  · rintro ⟨i, hi, hl⟩
    obtain ⟨k1, k2⟩ := lastNamed_some hl
    exact ⟨k1, i, hi, k2.symm⟩
  · rintro ⟨hm', i, hi, hn⟩
    exact ⟨i, hi, by rw [hn]; exact lastNamed_nodup hn' hm'⟩

theorem lastBMod_nodup {bs : List BMod} (h : (bs.map (fun x => x.mod.name)).Nodup) {bm : BMod} (hm : bm ∈ bs) :
    lastBMod bs bm.mod.name = some bm := by
  cases hl : lastBMod bs bm.mod.name with
  | none =>
    exfalso
    clear h
    induction bs with
    | nil => cases hm
    | cons x ms ih =>
      rw [lastBMod] at hl
      split at hl
      · cases hl
      · rename_i h0
        rcases List.mem_cons.1 hm with rfl | hm
        · rw [if_pos rfl] at hl; cases hl
        · exact ih hm h0
  | some m' =>
    obtain ⟨h1, h2⟩ := lastBMod_some hl
    rw [mem_unique_of_nodup_map h h1 hm h2]

theorem Linked.names {b : Bundle} (h : Linked b) : (b.mods.map (fun x => x.mod.name)).Nodup := by
  have := h.nodup
  unfold Bundle.modules at this
  rwa [List.map_map] at this

/-- The entry of a module. -/
theorem Linked.bmod {b : Bundle} (h : Linked b) {m : Module} (hm : m ∈ b.modules) :
    ∃ bm ∈ b.mods, bm.mod = m ∧ lastBMod b.mods m.name = some bm := by
  obtain ⟨bm, hbm, rfl⟩ := List.mem_map.1 hm
  exact ⟨bm, hbm, rfl, lastBMod_nodup h.names hbm⟩

/-! ### The search -/

theorem collectDefs_mem {b : Bundle} {rec : BMod → Except Err (List Def)} {ms : List Module} {r : List Def}
    (h : collectDefs rec b ms = .ok r) {m : Module} (hm : m ∈ ms) {bm : BMod}
    (hbm : lastBMod b.mods m.name = some bm) : ∃ a, rec bm = .ok a ∧ ∀ d ∈ a, d ∈ r := by
  induction ms generalizing r with
  | nil => cases hm
  | cons x ms ih =>
    simp only [collectDefs, bind_ok, Except.ok.injEq] at h
    obtain ⟨a, h1, r', h2, rfl⟩ := h
    rcases List.mem_cons.1 hm with rfl | hm
    · rw [hbm] at h1
      exact ⟨a, h1, fun d hd => List.mem_append_left _ hd⟩
    · obtain ⟨a', h3, h4⟩ := ih h2 hm
      exact ⟨a', h3, fun d hd => List.mem_append_right _ (h4 d hd)⟩

theorem collectDefs_error {b : Bundle} {rec : BMod → Except Err (List Def)} {ms : List Module} {e : Err}
    (h : collectDefs rec b ms = .error e) :
    ∃ m ∈ ms, ∃ bm, lastBMod b.mods m.name = some bm ∧ rec bm = .error e := by
  induction ms with
  | nil => cases h
  | cons x ms ih =>
    rw [collectDefs] at h
    rcases bind_error.1 h with h | ⟨a, _, h⟩
    · split at h
      · cases h
      · rename_i bm hbm
        exact ⟨x, List.Mem.head _, bm, hbm, h⟩
    · rcases bind_error.1 h with h | ⟨_, _, h⟩
      · obtain ⟨m, hm, h⟩ := ih h
        exact ⟨m, List.Mem.tail _ hm, h⟩
      · cases h

theorem defsRecurs_error {b : Bundle} {n : String} (fuel : Nat) : ∀ bm e,
    defsRecurs b n fuel bm = .error e → e = .recursion := by
  induction fuel with
  | zero => intro bm e h; cases h; rfl
  | succ fuel ih =>
    intro bm e h
    rw [defsRecurs] at h
    rcases bind_error.1 h with h | ⟨_, _, h⟩
    · obtain ⟨_, _, bm', _, h⟩ := collectDefs_error h
      exact ih bm' e h
    · cases h

theorem defsRecurs_acyclic {b : Bundle} (hl : Linked b) {rank : String → Nat}
    (hr : RankedImports b.modules rank) {n : String} (fuel : Nat) : ∀ bm ∈ b.mods, rank bm.mod.name < fuel →
    ∃ ds, defsRecurs b n fuel bm = .ok ds := by
  induction fuel with
  | zero => intro bm _ h; omega
  | succ fuel ih =>
    intro bm hbm hlt
    cases h : defsRecurs b n (fuel + 1) bm with
    | ok ds => exact ⟨ds, rfl⟩
    | error e =>
      exfalso
      rw [defsRecurs] at h
      rcases bind_error.1 h with h | ⟨_, _, h⟩
      · obtain ⟨m', hm', bm', hbm', h⟩ := collectDefs_error h
        obtain ⟨k1, i, hi, k2⟩ := (hl.link bm hbm m').1 hm'
        obtain ⟨h1, h2⟩ := lastBMod_some hbm'
        have := hr bm.mod (List.mem_map.2 ⟨bm, hbm, rfl⟩) i hi
        obtain ⟨ds, hds⟩ := ih bm' h1 (by rw [h2, ← k2]; omega)
        rw [hds] at h
        cases h
      · cases h

theorem defsRecurs_complete {b : Bundle} (hl : Linked b) {n : String} (fuel : Nat) : ∀ bm ∈ b.mods, ∀ ds,
    defsRecurs b n fuel bm = .ok ds → ∀ m', ImportsFrom b.modules bm.mod m' → ∀ d ∈ m'.defs, d.name = n → d ∈ ds := by
  induction fuel with
  | zero => intro bm _ ds h; cases h
  | succ fuel ih =>
    intro bm hbm ds h m' him d hd hn
    simp only [defsRecurs, bind_ok, Except.ok.injEq] at h
    obtain ⟨r, h1, rfl⟩ := h
    rw [mem_dedup, List.mem_filter, List.mem_append, decide_eq_true_eq]
    refine ⟨?_, hn⟩
    generalize hm : bm.mod = m at him
    cases him with
    | refl => subst hm; exact .inl hd
    | @step _ i m1 _ hi hm1 hni him =>
      subst hm
      obtain ⟨bm1, h2, rfl, h3⟩ := hl.bmod hm1
      obtain ⟨a, h4, h5⟩ := collectDefs_mem h1 ((hl.link bm hbm _).2 ⟨hm1, i, hi, hni.symm⟩) h3
      exact .inr (h5 d (ih bm1 h2 a h4 m' him d hd hn))

/-- The search finds the definition. -/
theorem getDefinition_found {b : Bundle} (hl : Linked b) (hnd : (b.defs.map Def.name).Nodup) {n : String}
    {fuel : Nat} {bm : BMod} (hbm : bm ∈ b.mods) {m' : Module} (him : ImportsFrom b.modules bm.mod m') {d : Def}
    (hd : d ∈ m'.defs) (hn : d.name = n) :
    getDefinition b fuel n bm = .ok d ∨ getDefinition b fuel n bm = .error .recursion ∧
      ∀ rank, RankedImports b.modules rank → ¬ rank bm.mod.name < fuel := by
  unfold getDefinition
  cases h : defsRecurs b n fuel bm with
  | error e =>
    cases defsRecurs_error fuel bm e h
    refine .inr ⟨rfl, fun rank hr hlt => ?_⟩
    obtain ⟨ds, hds⟩ := defsRecurs_acyclic (n := n) hl hr fuel bm hbm hlt
    rw [hds] at h
    cases h
  | ok ds =>
    refine .inl ?_
    have h1 := defsRecurs_complete hl fuel bm hbm ds h m' him d hd hn
    have h2 := defsRecurs_sound fuel bm hbm ds h
    have h3 : ds.Nodup := by
      cases fuel with
      | zero => cases h
      | succ fuel =>
        simp only [defsRecurs, bind_ok, Except.ok.injEq] at h
        obtain ⟨r, _, rfl⟩ := h
        exact dedup_nodup _
    have h4 : ∀ x ∈ ds, x = d := fun x hx =>
      mem_unique_of_nodup_map hnd (h2 x hx).1 (h2 d h1).1 (by rw [(h2 x hx).2, hn])
    have : ds = [d] := by
      cases ds with
      | nil => cases h1
      | cons x ds =>
        cases h4 x (List.Mem.head _)
        cases ds with
        | nil => rfl
        | cons y ds =>
          cases h4 y (List.Mem.tail _ (List.Mem.head _))
          exact absurd (List.Mem.head _) (List.nodup_cons.1 h3).1
    rw [this]
    rfl

/-! ### Errors of entries -/

theorem getBitSize_error {c : CType} {lo hi : Option Num} {e : Err} (h : getBitSize c lo hi = .error e) :
    e ≠ .consistency ∧ e ≠ .recursion := by
  unfold getBitSize at h
  cases c
  · cases h
  · simp only at h
    split at h
    · cases h
    · cases h; decide
  · simp only at h
    split at h
    · unfold intBits at h
      split at h
      · cases h
      · split at h
        · cases h
        · split at h
          · cases h
          · split at h
            · cases h
            · cases h; decide
    · cases h; decide
  · simp only at h
    split at h
    · cases h
    · cases h; decide
  · cases h
  · cases h

theorem subrange_error {c : CType} {lo hi : Option Num} {e : Err} (h : subrange c lo hi = .error e) :
    e ≠ .consistency ∧ e ≠ .recursion := by
  unfold subrange at h
  split at h
  · split at h
    · split at h <;> cases h
    · cases h; decide
  · split at h
    · split at h <;> cases h
    · cases h; decide
  · cases h

theorem specificText_error {p : Printer} {m : Member} {bits : Int} {s : Specific} {e : Err}
    (h : specificText p m bits s = .error e) : e ≠ .consistency ∧ e ≠ .recursion := by
  unfold specificText at h
  split at h
  · cases h
  · split at h
    · split at h
      · cases h
      · cases h
      · cases h; decide
      · cases h; decide
    · split at h <;> cases h

theorem makeEntry_error {p : Printer} {m : Member} {s : Specific} {c : Option CType} {lo hi : Option Num}
    {states : List Text} {e : Err} (h : makeEntry p m s c lo hi states = .error e) :
    e ≠ .consistency ∧ e ≠ .recursion := by
  unfold makeEntry at h
  split at h
  · cases h; decide
  · rcases bind_error.1 h with h | ⟨_, _, h⟩
    · exact getBitSize_error h
    · rcases bind_error.1 h with h | ⟨_, _, h⟩
      · exact subrange_error h
      · rcases bind_error.1 h with h | ⟨_, _, h⟩
        · exact specificText_error h
        · cases h

/-! ### Errors of the walk through the members -/

/-- The type of every member can be found from the module. -/
def Findable (b : Bundle) (bm : BMod) (ms : List Member) : Prop :=
  ∀ k ∈ ms, ∀ n, UsesName k.type n → BuiltIn n ∨
    ∃ m', m' ∈ b.modules ∧ ImportsFrom b.modules bm.mod m' ∧ ∃ d ∈ m'.defs, d.name = n

theorem shapeOf_error {b : Bundle} (hl : Linked b) (hnd : (b.defs.map Def.name).Nodup)
    {bm : BMod} (hbm : bm ∈ b.mods) {fuel : Nat} {ms : List Member}
    (hf : Findable b bm ms) {k : Member} (hk : k ∈ ms) (hs : ¬ StringArray k.type) (hg : GrammarType k.type)
    {e : Err} (h : shapeOf b fuel bm k.type = .error e) :
    e = .recursion ∧ ∀ rank, RankedImports b.modules rank → ¬ rank bm.mod.name < fuel := by
  unfold shapeOf at h
  simp only at h
  split at h
  · cases h
  · rename_i h1
    split at h
    · cases h
    · rename_i h2
      split at h
      · cases h
      · rename_i h3
        have hstr : k.type.name ≠ "IA5String" ∧ k.type.name ≠ "NumericString" := by
          revert hs hg h3
          generalize k.type = t
          intro hs hg h3
          cases t with
          | str n len => exact absurd rfl (h3 n len)
          | plain n lo hi =>
            cases hg with
            | named hc =>
              constructor
              · intro hn
                have hn' : n = "IA5String" := hn
                subst hn'; revert hc; decide +kernel
              · intro hn
                have hn' : n = "NumericString" := hn
                subst hn'; revert hc; decide +kernel
            | _ => exact ⟨by simp [AType.name], by simp [AType.name]⟩
          | arr e len =>
            exact ⟨fun hn => hs ⟨e, len, rfl, .inl ((usesName_iff _ _).2 hn)⟩,
              fun hn => hs ⟨e, len, rfl, .inr ((usesName_iff _ _).2 hn)⟩⟩
        rcases hf k hk k.type.name ((usesName_iff _ _).2 rfl) with hb | ⟨m', _, him, d, hd, hn⟩
        · exfalso
          rcases hb with hb | hb | hb | hb | hb
          · exact h2 hb
          · exact h1 (.inl hb)
          · exact h1 (.inr hb)
          · exact hstr.1 hb
          · exact hstr.2 hb
        · rcases getDefinition_found hl hnd (fuel := fuel) hbm him hd hn with h4 | ⟨h4, h5⟩
          · rw [h4] at h
            exfalso
            cases d <;> cases h
          · rw [h4] at h
            cases h
            exact ⟨rfl, h5⟩

theorem telemetry_error {p : Printer} {b : Bundle} (hl : Linked b) (hnd : (b.defs.map Def.name).Nodup)
    {bm : BMod} (hbm : bm ∈ b.mods) {fuel : Nat}
    (hmod : ∀ m' ∈ b.modules, ∀ d ∈ m'.defs, ImportsFrom b.modules bm.mod m' → Findable b bm d.members)
    (hg : ∀ d ∈ b.defs, GrammarDef d) :
    ∀ (depth : Nat) (st : Store) (d : Def) (wc : Comps) (m' : Module), m' ∈ b.modules →
      ImportsFrom b.modules bm.mod m' → d ∈ m'.defs → (∀ m, Reached b.defs d.members m → ¬ StringArray m.type) →
      ∀ e, telemetry p b fuel bm depth st d wc = .error e → e ≠ .consistency ∧
        ∀ rank rank', RankedImports b.modules rank → rank bm.mod.name < fuel → NotNested b.defs rank' →
          0 < depth → (d.isSeq → rank' d.name + 1 < depth) → e ≠ .recursion := by
  intro depth
  induction depth with
  | zero =>
    intro st d wc m' _ _ _ _ e h
    cases h
    exact ⟨by decide, fun _ _ _ _ _ h => absurd h (by omega)⟩
  | succ depth ih =>
    intro st d wc m' hm' him hd hsa e h
    cases d with
    | choice => cases h; exact ⟨by decide, fun _ _ _ _ _ _ _ => by decide⟩
    | enum => cases h; exact ⟨by decide, fun _ _ _ _ _ _ _ => by decide⟩
    | simple => cases h; exact ⟨by decide, fun _ _ _ _ _ _ _ => by decide⟩
    | seq n c ms =>
      have hdd : Def.seq n c ms ∈ b.defs := List.mem_flatMap.2 ⟨m', hm', hd⟩
      have hfind : Findable b bm ms := hmod m' hm' _ hd him
      rw [telemetry] at h
      have key : ∀ (ms' : List Member) (st : Store) (i : Nat), (∀ x ∈ ms', x ∈ ms) →
          entriesFrom p b fuel bm (telemetry p b fuel bm depth) n wc st i ms' = .error e →
          e ≠ .consistency ∧
          ∀ rank rank', RankedImports b.modules rank → rank bm.mod.name < fuel → NotNested b.defs rank' →
            0 < depth + 1 → ((Def.seq n c ms).isSeq → rank' n + 1 < depth + 1) → e ≠ .recursion := by
        intro ms'
        induction ms' with
        | nil => intro st i _ h; cases h
        | cons k ms' ihm =>
          intro st i hsub h
          have hk := hsub k (List.Mem.head _)
          rw [entriesFrom] at h
          rcases bind_error.1 h with h | ⟨shape, hsh, h⟩
          · obtain ⟨rfl, h2⟩ := shapeOf_error hl hnd hbm hfind hk (hsa k (.here hk))
              ((hg _ hdd).2.2 k hk).2.1 h
            exact ⟨by decide, fun rank _ hr hlt _ _ _ => absurd hlt (h2 rank hr)⟩
          · rcases bind_error.1 h with h | ⟨r, _, h⟩
            · cases shape with
              | item c' lo hi states =>
                rcases bind_error.1 h with h | ⟨_, _, h⟩
                · have := makeEntry_error h
                  exact ⟨this.1, fun _ _ _ _ _ _ _ => this.2⟩
                · cases h
              | inner d' =>
                have h : telemetry p b fuel bm depth _ d' _ = .error e := h
                obtain ⟨k1, k2⟩ := shapeOf_inner hbm hsh
                have hu : UsesName k.type d'.name := (usesName_iff _ _).2 k2.symm
                have hex : ∃ m2 ∈ b.modules, ImportsFrom b.modules bm.mod m2 ∧ d' ∈ m2.defs := by
                  rcases hfind k hk d'.name hu with hb | ⟨m2, h1, h2, d2, h3, h4⟩
                  · refine absurd rfl (builtin_not_def hg (n := d'.name) ?_ _ k1)
                    rcases hb with hb | hb | hb | hb | hb <;> rw [hb] <;> decide
                  · refine ⟨m2, h1, h2, ?_⟩
                    rwa [mem_unique_of_nodup_map hnd (List.mem_flatMap.2 ⟨m2, h1, h3⟩ : d2 ∈ b.defs) k1 h4] at h3
                obtain ⟨m2, h1, h2, h3⟩ := hex
                cases d' with
                | seq n' c' inner =>
                  obtain ⟨g1, g2⟩ := ih _ _ _ m2 h1 h2 h3 (fun m hm => hsa m (.inside hk hu ⟨c', k1⟩ hm)) e h
                  refine ⟨g1, fun rank rank' hr hlt hr' _ hlt' => ?_⟩
                  have h0 := hlt' rfl
                  refine g2 rank rank' hr hlt hr' (by omega) fun hq => ?_
                  have := hr' n ms ⟨c, hdd⟩ k hk n' inner hu ⟨c', k1⟩
                  show rank' n' + 1 < depth
                  omega
                | _ =>
                  cases depth with
                  | zero => cases h; exact ⟨by decide, fun _ rank' _ _ _ _ h => absurd (h rfl) (by omega)⟩
                  | succ depth => cases h; exact ⟨by decide, fun _ _ _ _ _ _ _ => by decide⟩
            · rcases bind_error.1 h with h | ⟨_, _, h⟩
              · exact ihm r.2 (i + 1) (fun x hx => hsub x (List.Mem.tail _ hx)) h
              · cases h
      exact key ms st 0 (fun x hx => hx) h

/-- From a module, the types of the members of definitions of all modules it imports, directly or
not, can be found. -/
theorem accepted_findable {raw : List Module} {b : Bundle} (hn : (raw.map (·.name)).Nodup)
    (h : buildFromTexts raw = .ok b) {bm : BMod} (m' : Module) (hm' : m' ∈ b.modules) (d : Def)
    (hd : d ∈ m'.defs) (him : ImportsFrom b.modules bm.mod m') : Findable b bm d.members := by
  intro k hk n hu
  rcases C14_used_types_distinct raw b hn h m' hm' d hd k hk n hu with hb | ⟨_, m2, hm2, hor, hd2⟩
  · exact .inl hb
  · refine .inr ⟨m2, hm2, ?_, hd2⟩
    rcases hor with rfl | ⟨i, hi, hi2, _⟩
    · exact him
    · clear hk hu hd hd2
      generalize bm.mod = m0 at him ⊢
      induction him with
      | refl => exact .step hi hm2 hi2.symm .refl
      | step k1 k2 k3 k4 ih => exact .step k1 k2 k3 (ih hm' hi)

theorem packets_error {p : Printer} {b : Bundle} (hl : Linked b) (hnd : (b.defs.map Def.name).Nodup)
    {bm : BMod} (hbm : bm ∈ b.mods) {fuel : Nat} {target : Text}
    (hmod : ∀ m' ∈ b.modules, ∀ d ∈ m'.defs, ImportsFrom b.modules bm.mod m' → Findable b bm d.members)
    (hg : ∀ d ∈ b.defs, GrammarDef d) : ∀ (ns : List String) (st : Store),
    (∀ n ∈ ns, ∀ ms, IsSequence bm.mod.defs n ms → ∀ m, Reached b.defs ms m → ¬ StringArray m.type) →
    ∀ e, packets p b fuel bm target st ns = .error e → e ≠ .consistency ∧
      ∀ rank rank', RankedImports b.modules rank → rank bm.mod.name < fuel → NotNested b.defs rank' →
        0 < fuel → (∀ n ms, IsSequence b.defs n ms → rank' n + 1 < fuel) → e ≠ .recursion := by
  intro ns
  induction ns with
  | nil => intro st _ e h; cases h
  | cons n ns ih =>
    intro st hsa e h
    rw [packets] at h
    split at h
    · cases h; exact ⟨by decide, fun _ _ _ _ _ _ _ => by decide⟩
    · rename_i d hd
      obtain ⟨h1, h2⟩ := lastDef_some hd
      rcases bind_error.1 h with h | ⟨r, _, h⟩
      · cases d with
        | seq n' c ms =>
          cases h2
          obtain ⟨g1, g2⟩ := telemetry_error hl hnd hbm hmod hg fuel st _ .nil bm.mod
            (List.mem_map.2 ⟨bm, hbm, rfl⟩) .refl h1
            (hsa _ (List.Mem.head _) ms ⟨c, h1⟩) e h
          refine ⟨g1, fun rank rank' hr hlt hr' hpos hall => g2 rank rank' hr hlt hr' hpos fun _ => ?_⟩
          exact hall _ ms ⟨c, mem_defs_of_bmod hbm h1⟩
        | _ =>
          cases fuel with
          | zero => cases h; exact ⟨by decide, fun _ _ _ _ _ h => absurd h (by omega)⟩
          | succ fuel => cases h; exact ⟨by decide, fun _ _ _ _ _ _ _ => by decide⟩
      · rcases bind_error.1 h with h | ⟨_, _, h⟩
        · exact ih r.2 (fun n hn => hsa n (List.Mem.tail _ hn)) e h
        · cases h

end Apg
