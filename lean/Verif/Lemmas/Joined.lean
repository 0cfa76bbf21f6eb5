import Verif.Spec.Joined
import Verif.Spec.SuccessBinary
import Verif.Lemmas.Accept
import Verif.Lemmas.CScope

/-!
# Lemmas on joined inputs and parts of inputs
-/

namespace Apg
open Spec

/-- The definitions `ds` are among `ds'`, with all that they use. -/
structure Within (ds ds' : List Def) : Prop where
  sub : ∀ d ∈ ds, d ∈ ds'
  closed : ∀ d ∈ ds, ∀ k ∈ d.members, ∀ n, UsesName k.type n → ∀ e ∈ ds', e.name = n → e ∈ ds

theorem defsOf_mem {ms : List Module} {d : Def} : d ∈ defsOf ms ↔ ∃ m ∈ ms, d ∈ m.defs := by
  simp [defsOf, List.mem_flatMap]

theorem name_unique {ds : List Def} (h : (ds.map Def.name).Nodup) {d e : Def} (hd : d ∈ ds) (he : e ∈ ds)
    (hn : d.name = e.name) : d = e := by
  induction ds with
  | nil => cases hd
  | cons x xs ih =>
    rw [List.map_cons, List.nodup_cons] at h
    rcases List.mem_cons.1 hd with rfl | h1 <;> rcases List.mem_cons.1 he with rfl | h2
    · rfl
    · exact absurd (List.mem_map.2 ⟨e, h2, hn.symm⟩) h.1
    · exact absurd (List.mem_map.2 ⟨d, h1, hn⟩) h.1
    · exact ih h.2 h1 h2

theorem module_unique {ms : List Module} (h : (ms.map (·.name)).Nodup) {m m' : Module} (hm : m ∈ ms) (hm' : m' ∈ ms)
    (hn : m.name = m'.name) : m = m' := by
  induction ms with
  | nil => cases hm
  | cons x xs ih =>
    rw [List.map_cons, List.nodup_cons] at h
    rcases List.mem_cons.1 hm with rfl | h1 <;> rcases List.mem_cons.1 hm' with rfl | h2
    · rfl
    · exact absurd (List.mem_map.2 ⟨m', h2, hn.symm⟩) h.1
    · exact absurd (List.mem_map.2 ⟨m, h1, hn⟩) h.1
    · exact ih h.2 h1 h2

/-- Modules that satisfy their imports contain all that they use. -/
theorem within_of {raw raw' : List Module} (hg : ∀ m ∈ raw', GrammarModule m) (hsub : ∀ m ∈ raw, m ∈ raw')
    (hnd : ((defsOf raw').map Def.name).Nodup)
    (hu : ∀ m ∈ raw, ∀ d ∈ m.defs, ∀ k ∈ d.members, ∀ n, UsesName k.type n → Known m n)
    (hi : ∀ m ∈ raw, ImportsSatisfied raw m) : Within (defsOf raw) (defsOf raw') := by
  have hs : ∀ d ∈ defsOf raw, d ∈ defsOf raw' := by
    intro d hd
    obtain ⟨m, hm, hd⟩ := defsOf_mem.1 hd
    exact defsOf_mem.2 ⟨m, hsub m hm, hd⟩
  refine ⟨hs, fun d hd k hk n hn e he hen => ?_⟩
  obtain ⟨m, hm, hd⟩ := defsOf_mem.1 hd
  have key : ∀ f ∈ defsOf raw, f.name = n → e ∈ defsOf raw := by
    intro f hf hfn
    rw [name_unique hnd he (hs f hf) (hen.trans hfn.symm)]
    exact hf
  rcases hu m hm d hd k hk n hn with h | ⟨f, hf, hfn⟩ | ⟨i, hi', hn'⟩
  · obtain ⟨m', hm', he'⟩ := defsOf_mem.1 he
    have := grammarDef_name ((hg m' hm').2.2.1 e he')
    rw [hen] at this
    exact absurd h (capital_notBuiltIn this)
  · exact key f (defsOf_mem.2 ⟨m, hm, hf⟩) hfn
  · obtain ⟨m', hm', _, h3⟩ := hi m hm i hi'
    obtain ⟨f, hf, hfn⟩ := h3 n hn'
    exact key f (defsOf_mem.2 ⟨m', hm', hf⟩) hfn

theorem bits_down {ds ds' : List Def} (h : Within ds ds') {ts : List AType} {w : Int} (hb : Bits ds' ts w)
    (hc : ∀ t ∈ ts, ∀ n, UsesName t n → ∀ e ∈ ds', e.name = n → e ∈ ds) : Bits ds ts w := by
  induction hb with
  | nil => exact .nil
  | own h1 h2 _ ih =>
    exact .own (fun n lo hi e d hd => h1 n lo hi e d (h.sub d hd)) h2 (ih fun t ht => hc t (.tail _ ht))
  | simple h1 h2 _ ih =>
    exact .simple (hc _ (.head _) _ .plain _ h1 rfl) h2 (ih fun t ht => hc t (.tail _ ht))
  | enum w h1 h2 h3 _ ih =>
    exact .enum w (hc _ (.head _) _ .plain _ h1 rfl) h2 h3 (ih fun t ht => hc t (.tail _ ht))
  | seq h1 _ _ ih1 ih2 =>
    have hd := hc _ (.head _) _ .plain _ h1 rfl
    refine .seq hd (ih1 fun t ht => ?_) (ih2 fun t ht => hc t (.tail _ ht))
    obtain ⟨k, hk, rfl⟩ := List.mem_map.1 ht
    exact h.closed _ hd k hk

theorem bits_up {ds ds' : List Def} (h : Within ds ds') {ts : List AType} {w : Int} (hb : Bits ds ts w)
    (hc : ∀ t ∈ ts, ∀ n, UsesName t n → ∀ e ∈ ds', e.name = n → e ∈ ds) : Bits ds' ts w := by
  induction hb with
  | nil => exact .nil
  | own h1 h2 _ ih =>
    refine .own (fun n lo hi e d hd hdn => h1 n lo hi e d ?_ hdn) h2 (ih fun t ht => hc t (.tail _ ht))
    exact hc _ (.head _) n (by rw [e]; exact .plain) d hd hdn
  | simple h1 h2 _ ih => exact .simple (h.sub _ h1) h2 (ih fun t ht => hc t (.tail _ ht))
  | enum w h1 h2 h3 _ ih => exact .enum w (h.sub _ h1) h2 h3 (ih fun t ht => hc t (.tail _ ht))
  | seq h1 _ _ ih1 ih2 =>
    refine .seq (h.sub _ h1) (ih1 fun t ht => ?_) (ih2 fun t ht => hc t (.tail _ ht))
    obtain ⟨k, hk, rfl⟩ := List.mem_map.1 ht
    exact h.closed _ h1 k hk

theorem lastPlain_member {ms : List Member} {m : Member} (h : LastPlain ms m) : m ∈ ms := by
  obtain ⟨_, pre, post, rfl, _⟩ := h
  simp

theorem firstOf_mem' {ms : List Member} {m : Member} (h : FirstOf ms m) : m ∈ ms := by
  obtain ⟨pre, post, rfl, _⟩ := h
  simp

theorem writable_iff {ds ds' own : List Def} (h : Within ds ds') (ho : ∀ d ∈ own, d ∈ ds) {n : String} {cs : Comps} :
    Writable ds' own n cs ↔ Writable ds own n cs := by
  have hc : ∀ {n ms m}, IsSequence own n ms → LastPlain ms m → ∀ t ∈ [m.type], ∀ n, UsesName t n →
      ∀ e ∈ ds', e.name = n → e ∈ ds := by
    rintro n ms m ⟨c, h1⟩ h2 t ht
    rw [List.mem_singleton] at ht
    subst ht
    exact h.closed _ (ho _ h1) m (lastPlain_member h2)
  constructor
  · intro hw
    induction hw with
    | nil => exact .nil
    | leaf h1 h2 h3 _ ih =>
      obtain ⟨k, w, g1, g2, g3⟩ := h3
      exact .leaf h1 h2 ⟨k, w, g1, bits_down h g2 (hc h1 h2), g3⟩ ih
    | node h1 h2 h3 _ _ ih1 ih2 => exact .node h1 h2 h3 ih1 ih2
  · intro hw
    induction hw with
    | nil => exact .nil
    | leaf h1 h2 h3 _ ih =>
      obtain ⟨k, w, g1, g2, g3⟩ := h3
      exact .leaf h1 h2 ⟨k, w, g1, bits_up h g2 (hc h1 h2), g3⟩ ih
    | node h1 h2 h3 _ _ ih1 ih2 => exact .node h1 h2 h3 ih1 ih2

theorem addresses_down {ds ds' : List Def} (h : Within ds ds') {n : String} {cs : Comps}
    (ha : Addresses BuiltIn ds' n cs) (hc : ∀ e ∈ ds', e.name = n → e ∈ ds) : Addresses BuiltIn ds n cs := by
  induction ha with
  | exempt h => exact .exempt h
  | nil h1 =>
    obtain ⟨c, h1⟩ := h1
    exact .nil ⟨c, hc _ h1 rfl⟩
  | leaf h1 h2 _ ih =>
    obtain ⟨c, h1⟩ := h1
    exact .leaf ⟨c, hc _ h1 rfl⟩ h2 (ih hc)
  | node h1 h2 h3 _ _ ih1 ih2 =>
    obtain ⟨c, h1⟩ := h1
    have hd := hc _ h1 rfl
    exact .node ⟨c, hd⟩ h2 h3 (ih1 (h.closed _ hd _ (firstOf_mem' h2) _ h3)) (ih2 hc)

theorem storable_iff {ds ds' : List Def} (h : Within ds ds') {t : AType}
    (hc : ∀ n, UsesName t n → ∀ e ∈ ds', e.name = n → e ∈ ds) : Storable ds' t ↔ Storable ds t := by
  constructor
  · rintro ⟨h1, h2⟩
    exact ⟨h1, fun n hn hp c st hd => h2 n hn hp c st (h.sub _ hd)⟩
  · rintro ⟨h1, h2⟩
    exact ⟨h1, fun n hn hp c st hd => h2 n hn hp c st (hc n hn _ hd rfl)⟩

/-! ### Parts -/

theorem perm_part {raw sub rest : List Module} (hp : raw.Perm (sub ++ rest)) : ∀ m ∈ sub, m ∈ raw :=
  fun _ hm => hp.mem_iff.2 (List.mem_append_left _ hm)

theorem defsOf_perm' {raw raw' : List Module} (hp : raw.Perm raw') : (defsOf raw).Perm (defsOf raw') :=
  hp.flatMap_right _

theorem defsOf_append' (raw raw' : List Module) : defsOf (raw ++ raw') = defsOf raw ++ defsOf raw' := by
  simp [defsOf]

theorem part_imports {raw sub rest : List Module} (hp : raw.Perm (sub ++ rest)) (ha : Acceptable raw)
    (hw : ImportsWithin sub) : ∀ m ∈ sub, ImportsSatisfied sub m := by
  intro m hm i hi
  obtain ⟨m', hm', hn⟩ := hw m hm i hi
  obtain ⟨m'', hm'', hn', hd⟩ := ha.imports m (perm_part hp m hm) i hi
  rw [module_unique ha.moduleNames hm'' (perm_part hp m' hm') (hn'.trans hn.symm)] at hd
  exact ⟨m', hm', hn, hd⟩

theorem part_within {raw sub rest : List Module} (hg : ∀ m ∈ raw, GrammarModule m) (hp : raw.Perm (sub ++ rest))
    (ha : Acceptable raw) (hw : ImportsWithin sub) : Within (defsOf sub) (defsOf raw) :=
  within_of hg (perm_part hp) ha.typeNames (fun m hm => ha.used m (perm_part hp m hm)) (part_imports hp ha hw)

theorem part_acceptable {raw sub rest : List Module} (hg : ∀ m ∈ raw, GrammarModule m) (hp : raw.Perm (sub ++ rest))
    (ha : Acceptable raw) : Acceptable sub ↔ ImportsWithin sub := by
  constructor
  · intro h m hm i hi
    obtain ⟨m', hm', hn, _⟩ := h.imports m hm i hi
    exact ⟨m', hm', hn⟩
  · intro hw
    have hwi := part_within hg hp ha hw
    have hs := perm_part hp
    refine ⟨?_, ?_, fun m hm => ha.comments m (hs m hm), fun d hd => ha.defs d (hwi.sub d hd),
      fun m hm => ha.used m (hs m hm), part_imports hp ha hw, ?_⟩
    · have := (hp.map (·.name)).nodup_iff.1 ha.moduleNames
      rw [List.map_append] at this
      exact (List.nodup_append.1 this).1
    · have := ((defsOf_perm' hp).map Def.name).nodup_iff.1 ha.typeNames
      rw [defsOf_append', List.map_append] at this
      exact (List.nodup_append.1 this).1
    · intro n c l hd k hk cs hcs t ht
      exact addresses_down hwi (ha.components n c l (hwi.sub _ hd) k hk cs hcs t ht) (hwi.closed _ hd k hk t ht)

theorem part_generatable {raw raw' : List Module} (hsub : ∀ m ∈ raw, m ∈ raw')
    (hw : Within (defsOf raw) (defsOf raw')) (h : Generatable raw') : Generatable raw := by
  obtain ⟨rank, hr⟩ := h.imports
  exact ⟨⟨rank, fun a ha b hb => hr a (hsub a ha) b (hsub b hb)⟩, fun m hm => h.types m (hsub m hm),
    fun n c l hd k hk => (storable_iff hw (hw.closed _ hd k hk)).1 (h.fields n c l (hw.sub _ hd) k hk)⟩

theorem part_generatableCfs {raw raw' : List Module} (hsub : ∀ m ∈ raw, m ∈ raw')
    (hw : Within (defsOf raw) (defsOf raw')) (h : GeneratableCfs raw') : GeneratableCfs raw :=
  { part_generatable hsub hw h.toGeneratable with
    clauses := fun n c l hd => h.clauses n c l (hw.sub _ hd)
    notes := fun n c t hd ⟨m, hm, hu⟩ => h.notes n c t (hw.sub _ hd) ⟨m, hsub m hm, hu⟩ }

theorem part_generatableBinary {raw raw' : List Module} (hsub : ∀ m ∈ raw, m ∈ raw')
    (hw : Within (defsOf raw) (defsOf raw')) (h : GeneratableBinary raw') : GeneratableBinary raw := by
  have hin : ∀ m ∈ raw, ∀ d ∈ m.defs, d ∈ defsOf raw := fun m hm d hd => defsOf_mem.2 ⟨m, hm, hd⟩
  refine { part_generatable hsub hw h.toGeneratable with sizes := ?_, clauses := ?_ }
  · intro m hm hcl n c l hd k hk hkn
    obtain ⟨w, hb⟩ := h.sizes m (hsub m hm) hcl n c l hd k hk hkn
    refine ⟨w, bits_down hw hb fun t ht => ?_⟩
    rw [List.mem_singleton] at ht
    subst ht
    exact hw.closed _ (hin m hm _ hd) k hk
  · intro m hm n c l hd k hk cs hcs t ht
    exact (writable_iff hw (hin m hm)).1 (h.clauses m (hsub m hm) n c l hd k hk cs hcs t ht)

/-! ### Joined inputs -/

theorem join_acceptable {raw raw' : List Module} (ha : Acceptable raw) (ha' : Acceptable raw') :
    Acceptable (raw ++ raw') ↔ NamesApart raw raw' := by
  constructor
  · intro h
    have h1 := h.moduleNames
    have h2 := h.typeNames
    rw [List.map_append, List.nodup_append] at h1
    rw [defsOf_append', List.map_append, List.nodup_append] at h2
    exact ⟨fun m hm m' hm' => h1.2.2 _ (List.mem_map.2 ⟨m, hm, rfl⟩) _ (List.mem_map.2 ⟨m', hm', rfl⟩),
      fun d hd d' hd' => h2.2.2 _ (List.mem_map.2 ⟨d, hd, rfl⟩) _ (List.mem_map.2 ⟨d', hd', rfl⟩)⟩
  · rintro ⟨h1, h2⟩
    have himp : ∀ {ms ms' : List Module} {m}, ImportsSatisfied ms m → (∀ x ∈ ms, x ∈ ms') → ImportsSatisfied ms' m := by
      intro ms ms' m h hs i hi
      obtain ⟨m', hm', hr⟩ := h i hi
      exact ⟨m', hs m' hm', hr⟩
    have hadd : ∀ {ds ds' : List Def} {n cs}, Addresses BuiltIn ds n cs → (∀ x ∈ ds, x ∈ ds') →
        Addresses BuiltIn ds' n cs := fun h hs => h.mono fun _ _ ⟨c, hc⟩ => ⟨c, hs _ hc⟩
    refine ⟨?_, ?_, ?_, ?_, ?_, ?_, ?_⟩
    · rw [List.map_append, List.nodup_append]
      refine ⟨ha.moduleNames, ha'.moduleNames, fun a hx b hy => ?_⟩
      obtain ⟨m, hm, rfl⟩ := List.mem_map.1 hx
      obtain ⟨m', hm', rfl⟩ := List.mem_map.1 hy
      exact h1 m hm m' hm'
    · rw [defsOf_append', List.map_append, List.nodup_append]
      refine ⟨ha.typeNames, ha'.typeNames, fun a hx b hy => ?_⟩
      obtain ⟨m, hm, rfl⟩ := List.mem_map.1 hx
      obtain ⟨m', hm', rfl⟩ := List.mem_map.1 hy
      exact h2 m hm m' hm'
    · intro m hm
      exact (List.mem_append.1 hm).elim (ha.comments m) (ha'.comments m)
    · intro d hd
      rw [defsOf_append'] at hd
      exact (List.mem_append.1 hd).elim (ha.defs d) (ha'.defs d)
    · intro m hm
      exact (List.mem_append.1 hm).elim (ha.used m) (ha'.used m)
    · intro m hm
      rcases List.mem_append.1 hm with hm | hm
      · exact himp (ha.imports m hm) fun x hx => List.mem_append_left _ hx
      · exact himp (ha'.imports m hm) fun x hx => List.mem_append_right _ hx
    · intro n c l hd k hk cs hcs t ht
      rw [defsOf_append'] at hd ⊢
      rcases List.mem_append.1 hd with hd | hd
      · exact hadd (ha.components n c l hd k hk cs hcs t ht) fun x hx => List.mem_append_left _ hx
      · exact hadd (ha'.components n c l hd k hk cs hcs t ht) fun x hx => List.mem_append_right _ hx

theorem join_within {raw raw' : List Module} (hg : ∀ m ∈ raw, GrammarModule m) (hg' : ∀ m ∈ raw', GrammarModule m)
    (ha : Acceptable raw) (ha' : Acceptable raw') (hn : NamesApart raw raw') :
    Within (defsOf raw) (defsOf (raw ++ raw')) ∧ Within (defsOf raw') (defsOf (raw ++ raw')) := by
  have hj := (join_acceptable ha ha').2 hn
  have hgj : ∀ m ∈ raw ++ raw', GrammarModule m := fun m hm => (List.mem_append.1 hm).elim (hg m) (hg' m)
  exact ⟨within_of hgj (fun m hm => List.mem_append_left _ hm) hj.typeNames ha.used ha.imports,
    within_of hgj (fun m hm => List.mem_append_right _ hm) hj.typeNames ha'.used ha'.imports⟩

theorem join_generatable {raw raw' : List Module} (ha : Acceptable raw) (ha' : Acceptable raw')
    (hn : NamesApart raw raw') (hw : Within (defsOf raw) (defsOf (raw ++ raw')))
    (hw' : Within (defsOf raw') (defsOf (raw ++ raw'))) (h : Generatable raw) (h' : Generatable raw') :
    Generatable (raw ++ raw') := by
  classical
  obtain ⟨rank, hr⟩ := h.imports
  obtain ⟨rank', hr'⟩ := h'.imports
  have hnot : ∀ m ∈ raw', m ∉ raw := fun m hm' hm => hn.1 m hm m hm' rfl
  refine ⟨⟨fun m => if m ∈ raw then rank m else rank' m, fun a haa b hb hi => ?_⟩, fun m hm =>
    (List.mem_append.1 hm).elim (h.types m) (h'.types m), fun n c l hd k hk => ?_⟩
  · obtain ⟨it, hit, hname⟩ := hi
    rcases List.mem_append.1 haa with haa | haa <;> rcases List.mem_append.1 hb with hb | hb
    · simp only [haa, hb, if_true]
      exact hr a haa b hb ⟨it, hit, hname⟩
    · obtain ⟨m', hm', hn', _⟩ := ha.imports a haa it hit
      exact absurd (hn'.trans hname) (hn.1 m' hm' b hb)
    · obtain ⟨m', hm', hn', _⟩ := ha'.imports a haa it hit
      exact absurd (hn'.trans hname).symm (hn.1 b hb m' hm')
    · simp only [hnot a haa, hnot b hb, if_false]
      exact hr' a haa b hb ⟨it, hit, hname⟩
  · rw [defsOf_append'] at hd
    rcases List.mem_append.1 hd with hd | hd
    · exact (storable_iff hw (hw.closed _ hd k hk)).2 (h.fields n c l hd k hk)
    · exact (storable_iff hw' (hw'.closed _ hd k hk)).2 (h'.fields n c l hd k hk)

theorem join_generatableCfs {raw raw' : List Module} (ha : Acceptable raw) (ha' : Acceptable raw')
    (hn : NamesApart raw raw') (hw : Within (defsOf raw) (defsOf (raw ++ raw')))
    (hw' : Within (defsOf raw') (defsOf (raw ++ raw'))) (h : GeneratableCfs raw) (h' : GeneratableCfs raw') :
    GeneratableCfs (raw ++ raw') := by
  refine { join_generatable ha ha' hn hw hw' h.toGeneratable h'.toGeneratable with clauses := ?_, notes := ?_ }
  · intro n c l hd
    rw [defsOf_append'] at hd
    exact (List.mem_append.1 hd).elim (h.clauses n c l) (h'.clauses n c l)
  · rintro n c t hd ⟨m, hm, hu⟩
    obtain ⟨d, hdm, k, hk, _, hkn⟩ := id hu
    rcases List.mem_append.1 hm with hm | hm
    · exact h.notes n c t (hw.closed d (defsOf_mem.2 ⟨m, hm, hdm⟩) k hk n hkn _ hd rfl) ⟨m, hm, hu⟩
    · exact h'.notes n c t (hw'.closed d (defsOf_mem.2 ⟨m, hm, hdm⟩) k hk n hkn _ hd rfl) ⟨m, hm, hu⟩

theorem join_generatableBinary {raw raw' : List Module} (ha : Acceptable raw) (ha' : Acceptable raw')
    (hn : NamesApart raw raw') (hw : Within (defsOf raw) (defsOf (raw ++ raw')))
    (hw' : Within (defsOf raw') (defsOf (raw ++ raw'))) (h : GeneratableBinary raw) (h' : GeneratableBinary raw') :
    GeneratableBinary (raw ++ raw') := by
  have hs : ∀ {rs : List Module}, Within (defsOf rs) (defsOf (raw ++ raw')) → GeneratableBinary rs → ∀ m ∈ rs,
      (∃ n c l, Def.seq n c l ∈ m.defs ∧ ∃ k ∈ l, k.comps ≠ none) → ∀ n c l, Def.seq n c l ∈ m.defs →
      ∀ k ∈ l, k.comps = none → ∃ w, Bits (defsOf (raw ++ raw')) [k.type] w := by
    intro rs hw h m hm hcl n c l hd k hk hkn
    obtain ⟨w, hb⟩ := h.sizes m hm hcl n c l hd k hk hkn
    refine ⟨w, bits_up hw hb fun t ht => ?_⟩
    rw [List.mem_singleton] at ht
    subst ht
    exact hw.closed _ (defsOf_mem.2 ⟨m, hm, hd⟩) k hk
  refine { join_generatable ha ha' hn hw hw' h.toGeneratable h'.toGeneratable with sizes := ?_, clauses := ?_ }
  · intro m hm
    exact (List.mem_append.1 hm).elim (hs hw h m) (hs hw' h' m)
  · intro m hm n c l hd k hk cs hcs t ht
    rcases List.mem_append.1 hm with hm | hm
    · exact (writable_iff hw fun d hd => defsOf_mem.2 ⟨m, hm, hd⟩).2 (h.clauses m hm n c l hd k hk cs hcs t ht)
    · exact (writable_iff hw' fun d hd => defsOf_mem.2 ⟨m, hm, hd⟩).2 (h'.clauses m hm n c l hd k hk cs hcs t ht)

end Apg
