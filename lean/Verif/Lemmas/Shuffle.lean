import Verif.Lemmas.Reorder
import Verif.Lemmas.Binary
import Verif.Spec.Shuffle

/-!
# The order of the definitions in a module
-/

namespace Apg
open Spec

/-! ### Bundles -/

/-- Modules of bundles that only differ in the order of definitions. -/
structure ShuffledB (bm bm' : BMod) : Prop where
  mod : Shuffled bm.mod bm'.mod
  imported : All2 Shuffled bm.imported bm'.imported

theorem Spec.Shuffled.symm {m m' : Module} (h : Shuffled m m') : Shuffled m' m :=
  ⟨h.name.symm, h.comment.symm, h.commentImport.symm, h.imports.symm, h.defs.symm⟩

theorem Spec.Shuffled.names {m m' : Module} (h : Shuffled m m') : (m.defs.map Def.name).Perm (m'.defs.map Def.name) :=
  h.defs.map _

theorem Spec.Shuffled.grammar {m m' : Module} (h : Shuffled m m') (hg : GrammarModule m) : GrammarModule m' := by
  obtain ⟨h1, h2, h3, h4⟩ := hg
  refine ⟨by rw [h.name]; exact h1, ?_, fun d hd => h3 d (h.defs.mem_iff.2 hd), by rw [h.imports]; exact h4⟩
  intro he
  have := h.defs
  rw [he] at this
  exact h2 this.eq_nil

theorem grammar_shuffled {raw raw' : List Module} (h : All2 Shuffled raw raw') (hg : ∀ m ∈ raw, GrammarModule m) :
    ∀ m ∈ raw', GrammarModule m := by
  intro m' hm'
  obtain ⟨m, hm, hs⟩ := all2_mem_right h hm'
  exact hs.grammar (hg m hm)

theorem processModule_shuffled {m m' m1 : Module} (hs : Shuffled m m') (h : processModule m = .ok m1) :
    ∃ m1', processModule m' = .ok m1' ∧ Shuffled m1 m1' := by
  obtain ⟨h1, h2, ds, h3, rfl, h4⟩ := processModule_ok.1 h
  obtain ⟨ds', h5, h6⟩ := all2_reorder hs.defs (processDefs_ok.1 h3)
  have hsh : Shuffled { m with defs := ds } { m' with defs := ds' } :=
    ⟨hs.name, hs.comment, hs.commentImport, hs.imports, h6⟩
  refine ⟨{ m' with defs := ds' }, processModule_ok.2 ⟨by rw [hs.comment]; exact h1, by rw [hs.commentImport]; exact h2, ds',
    processDefs_ok.2 h5, rfl, ?_⟩, hsh⟩
  rw [checkUsedTypes_ok] at h4 ⊢
  intro d hd k hk
  have := h4 d (hsh.defs.mem_iff.2 hd) k hk
  unfold knownTypes at this ⊢
  simp only [List.mem_append] at this ⊢
  rw [hs.imports, ← hsh.names.mem_iff]
  exact this

theorem processModules_shuffled {raw raw' : List Module} (hs : All2 Shuffled raw raw') :
    ∀ {ms : List Module}, processModules raw = .ok ms →
      ∃ ms', processModules raw' = .ok ms' ∧ All2 Shuffled ms ms' := by
  induction hs with
  | nil => intro ms h; exact ⟨ms, h, by cases h; exact .nil⟩
  | cons h1 _ ih =>
    intro ms h
    simp only [processModules, bind_ok, pure_ok] at h
    obtain ⟨m1, q1, ms1, q2, rfl⟩ := h
    obtain ⟨m1', r1, r2⟩ := processModule_shuffled h1 q1
    obtain ⟨ms1', r3, r4⟩ := ih q2
    exact ⟨m1' :: ms1', by simp only [processModules, r1, r3, bind, Except.bind, pure, Except.pure], .cons r2 r4⟩

theorem names_shuffled {ms ms' : List Module} (hs : All2 Shuffled ms ms') :
    ms'.map (·.name) = ms.map (·.name) := by
  induction hs with
  | nil => rfl
  | cons h _ ih => rw [List.map_cons, List.map_cons, ih, h.name]

theorem lastNamed_shuffled {ms ms' : List Module} (hs : All2 Shuffled ms ms') (n : String) :
    (lastNamed ms n = none ∧ lastNamed ms' n = none) ∨
    ∃ m m', lastNamed ms n = some m ∧ lastNamed ms' n = some m' ∧ Shuffled m m' := by
  induction hs with
  | nil => exact .inl ⟨rfl, rfl⟩
  | @cons a c l l' h _ ih =>
    rw [lastNamed, lastNamed, h.name]
    rcases ih with ⟨h1, h2⟩ | ⟨m, m', h1, h2, h3⟩
    · rw [h1, h2]
      by_cases hn : a.name = n
      · simp only [if_pos hn]; exact .inr ⟨_, _, rfl, rfl, h⟩
      · refine .inl ⟨?_, ?_⟩ <;> exact if_neg hn
    · rw [h1, h2]; exact .inr ⟨_, _, rfl, rfl, h3⟩

theorem imported_shuffled {all all' : List Module} (hs : All2 Shuffled all all') (is : List ImportItem) :
    All2 Shuffled (is.filterMap fun i => lastNamed all i.module) (is.filterMap fun i => lastNamed all' i.module) := by
  induction is with
  | nil => exact .nil
  | cons i is ih =>
    rcases lastNamed_shuffled hs i.module with ⟨h1, h2⟩ | ⟨m, m', h1, h2, h3⟩
    · rw [List.filterMap_cons_none (by exact h1), List.filterMap_cons_none (by exact h2)]; exact ih
    · rw [List.filterMap_cons_some (by exact h1), List.filterMap_cons_some (by exact h2)]; exact .cons h3 ih

theorem resolveDeps_shuffled {all all' : List Module} (ha : All2 Shuffled all all') {ms ms' : List Module}
    (hs : All2 Shuffled ms ms') :
    ∀ {bs : List BMod}, resolveDeps all ms = .ok bs →
      ∃ bs', resolveDeps all' ms' = .ok bs' ∧ All2 ShuffledB bs bs' := by
  induction hs with
  | nil => intro bs h; exact ⟨bs, h, by cases h; exact .nil⟩
  | @cons m m' l l' h1 h2 ih =>
    intro bs h
    rw [resolveDeps] at h ⊢
    have hany : l'.any (fun r => decide (r.name = m'.name)) = l.any (fun r => decide (r.name = m.name)) := by
      have e : ∀ (k : List Module) (n : String), k.any (fun r => decide (r.name = n)) = (k.map (·.name)).any (fun r => decide (r = n)) := by
        intro k n; rw [List.any_map]; rfl
      rw [e, e, names_shuffled h2, h1.name]
    rw [hany]
    split at h
    · rename_i hc
      rw [if_pos hc]
      simp only [bind_ok, pure_ok] at h
      obtain ⟨tl, q1, rfl⟩ := h
      obtain ⟨tl', q2, q3⟩ := ih q1
      exact ⟨⟨m', []⟩ :: tl', by simp only [q2, bind, Except.bind, pure, Except.pure], .cons ⟨h1, .nil⟩ q3⟩
    · rename_i hc
      rw [if_neg hc]
      split at h
      · cases h
      · rename_i hi
        have hi' : ¬ (m'.imports.any fun i => (lastNamed all' i.module).isNone) = true := by
          rw [h1.imports]
          intro hx
          apply hi
          rw [List.any_eq_true] at hx ⊢
          obtain ⟨i, q1, q2⟩ := hx
          refine ⟨i, q1, ?_⟩
          rcases lastNamed_shuffled ha i.module with ⟨r1, _⟩ | ⟨_, _, _, r2, _⟩
          · rw [r1]; rfl
          · rw [r2] at q2; cases q2
        rw [if_neg hi']
        simp only [bind_ok, pure_ok] at h
        obtain ⟨tl, q1, rfl⟩ := h
        obtain ⟨tl', q2, q3⟩ := ih q1
        exact ⟨⟨m', m'.imports.filterMap fun i => lastNamed all' i.module⟩ :: tl',
          by simp only [q2, bind, Except.bind, pure, Except.pure],
          .cons ⟨h1, by rw [h1.imports]; exact imported_shuffled ha _⟩ q3⟩

theorem build_shuffled {ms ms' : List Module} {b : Bundle} (hs : All2 Shuffled ms ms') (h : build ms = .ok b) :
    ∃ b', build ms' = .ok b' ∧ All2 ShuffledB b.mods b'.mods := by
  obtain ⟨h1, _⟩ := build_ok.1 h
  obtain ⟨bs', q1, q2⟩ := resolveDeps_shuffled hs hs h1
  exact ⟨⟨bs', simpleUses ms'⟩, build_ok.2 ⟨q1, rfl⟩, q2⟩

theorem modules_shuffled {b b' : Bundle} (h : All2 ShuffledB b.mods b'.mods) : All2 Shuffled b.modules b'.modules := by
  unfold Bundle.modules
  generalize b.mods = l at *
  generalize b'.mods = l' at *
  induction h with
  | nil => exact .nil
  | cons h _ ih => exact .cons h.mod ih

theorem defs_shuffled {b b' : Bundle} (h : All2 ShuffledB b.mods b'.mods) : b.defs.Perm b'.defs := by
  rw [← defsOf_eq, ← defsOf_eq]
  have h := modules_shuffled h
  generalize b.modules = l at *
  generalize b'.modules = l' at *
  unfold defsOf
  induction h with
  | nil => exact .refl _
  | cons h _ ih => exact h.defs.append ih

theorem importsDefined_shuffled {bm bm' : BMod} (h : ShuffledB bm bm') (hi : importsDefined bm = true) :
    importsDefined bm' = true := by
  unfold importsDefined at hi ⊢
  rw [List.all_eq_true] at hi ⊢
  intro im' him'
  obtain ⟨im, him, hs⟩ := all2_mem_right h.imported him'
  have := hi im him
  rw [h.mod.imports, hs.name]
  rw [List.all_eq_true] at this ⊢
  intro i hx
  have := this i hx
  rw [List.all_eq_true] at this ⊢
  intro n hn
  have := this n hn
  rw [List.contains_iff_mem] at this ⊢
  exact hs.names.mem_iff.1 this

theorem validate_shuffled {b b' : Bundle} (h : All2 ShuffledB b.mods b'.mods) (hv : validateBundle b = .ok ()) :
    validateBundle b' = .ok () := by
  rw [validateBundle_ok] at hv ⊢
  obtain ⟨h1, h2, h3⟩ := hv
  refine ⟨fun m' hm' => ?_, checkComponents_perm (defs_shuffled h) h3 h2, ((defs_shuffled h).map _).nodup_iff.1 h3⟩
  obtain ⟨m, hm, hs⟩ := all2_mem_right h hm'
  exact importsDefined_shuffled hs (h1 m hm)

theorem buildFromConfig_shuffled {raw raw' : List Module} {cfg : List String} {b : Bundle}
    (hs : All2 Shuffled raw raw') (h : buildFromConfig raw cfg = .ok b) :
    ∃ b', buildFromConfig raw' cfg = .ok b' ∧ All2 ShuffledB b.mods b'.mods := by
  obtain ⟨ms, h1, h2, h3, h4, h5, h6⟩ := buildFromConfig_ok.1 h
  obtain ⟨ms', q1, q2⟩ := processModules_shuffled hs h1
  obtain ⟨b', q3, q4⟩ := build_shuffled q2 h4
  refine ⟨b', buildFromConfig_ok.2 ⟨ms', q1, by rw [names_shuffled q2]; exact h2, h3, q3, validate_shuffled q4 h5, ?_⟩, q4⟩
  rw [checkMissing_ok] at h6 ⊢
  intro n
  rw [h6 n, names_shuffled (modules_shuffled q4)]

theorem buildFromTexts_shuffled {raw raw' : List Module} {b : Bundle} (hs : All2 Shuffled raw raw')
    (h : buildFromTexts raw = .ok b) : ∃ b', buildFromTexts raw' = .ok b' ∧ All2 ShuffledB b.mods b'.mods := by
  obtain ⟨ms, h1, h2, h3⟩ := buildFromTexts_ok.1 h
  obtain ⟨ms', q1, q2⟩ := processModules_shuffled hs h1
  obtain ⟨b', q3, q4⟩ := build_shuffled q2 h2
  exact ⟨b', buildFromTexts_ok.2 ⟨ms', q1, q3, validate_shuffled q4 h3⟩, q4⟩

theorem uses_shuffled {ms ms' : List Module} {b b' : Bundle} (hs : All2 Shuffled ms ms') (h : build ms = .ok b)
    (h' : build ms' = .ok b') (n : String) :
    (b.uses.find? (fun u => u.1 = n) = none ∧ b'.uses.find? (fun u => u.1 = n) = none) ∨
    ∃ s s', b.uses.find? (fun u => u.1 = n) = some (n, s) ∧ b'.uses.find? (fun u => u.1 = n) = some (n, s') ∧
      s.Perm s' := by
  obtain ⟨u1, u2, u3⟩ := C18_use_map ms b h
  obtain ⟨v1, v2, v3⟩ := C18_use_map ms' b' h'
  refine uses_same u2 u3 v2 v3 fun mod => ?_
  rw [u1, v1]
  constructor
  · rintro ⟨m, hm, rfl, ⟨d, hd, hk⟩, hb⟩
    obtain ⟨m', hm', hsm⟩ := all2_mem_left hs hm
    exact ⟨m', hm', hsm.name, ⟨d, hsm.defs.mem_iff.1 hd, hk⟩, hb⟩
  · rintro ⟨m', hm', rfl, ⟨d, hd, hk⟩, hb⟩
    obtain ⟨m, hm, hsm⟩ := all2_mem_right hs hm'
    exact ⟨m, hm, hsm.name.symm, ⟨d, hsm.defs.mem_iff.2 hd, hk⟩, hb⟩

/-! ### Generation -/

theorem find?_same {α} {p : α → Bool} {l l' : List α} (h : ∀ x, x ∈ l ↔ x ∈ l')
    (hu : ∀ x ∈ l, ∀ y ∈ l, p x = true → p y = true → x = y) : l.find? p = l'.find? p := by
  cases h1 : l.find? p with
  | none =>
    symm
    rw [List.find?_eq_none] at h1 ⊢
    exact fun x hx => h1 x ((h x).2 hx)
  | some x =>
    have hx := List.mem_of_find?_eq_some h1
    have hpx := List.find?_some h1
    have : (l'.find? p).isSome := by rw [List.find?_isSome]; exact ⟨x, (h x).1 hx, hpx⟩
    obtain ⟨y, hy⟩ := Option.isSome_iff_exists.1 this
    rw [hy, hu x hx y ((h y).2 (List.mem_of_find?_eq_some hy)) hpx (List.find?_some hy)]

theorem mem_simpleList {bm : BMod} {d : Def} : d ∈ simpleList bm ↔
    d.isSimple = true ∧ (d ∈ bm.mod.defs ∨ ∃ m ∈ bm.imported, d ∈ m.defs) := by
  unfold simpleList simpleDefs
  simp only [List.mem_append, List.mem_filter, List.mem_flatMap]
  constructor
  · rintro (⟨h1, h2⟩ | ⟨m, h1, h2, h3⟩)
    · exact ⟨h2, .inl h1⟩
    · exact ⟨h3, .inr ⟨m, h1, h2⟩⟩
  · rintro ⟨h1, h2 | ⟨m, h2, h3⟩⟩
    · exact .inl ⟨h2, h1⟩
    · exact .inr ⟨m, h2, h3, h1⟩

theorem mem_simpleList_shuffled {bm bm' : BMod} (h : ShuffledB bm bm') (d : Def) :
    d ∈ simpleList bm ↔ d ∈ simpleList bm' := by
  rw [mem_simpleList, mem_simpleList, h.mod.defs.mem_iff]
  constructor
  · rintro ⟨h1, h2 | ⟨m, h2, h3⟩⟩
    · exact ⟨h1, .inl h2⟩
    · obtain ⟨m', q1, q2⟩ := all2_mem_left h.imported h2
      exact ⟨h1, .inr ⟨m', q1, q2.defs.mem_iff.1 h3⟩⟩
  · rintro ⟨h1, h2 | ⟨m, h2, h3⟩⟩
    · exact ⟨h1, .inl h2⟩
    · obtain ⟨m', q1, q2⟩ := all2_mem_right h.imported h2
      exact ⟨h1, .inr ⟨m', q1, q2.defs.mem_iff.2 h3⟩⟩

theorem fieldType_shuffled {ds ds' simple simple' : List Def} (hr : ∀ t, resolveType ds t = resolveType ds' t)
    (hm : ∀ d, d ∈ simple ↔ d ∈ simple')
    (hu : ∀ d ∈ simple, ∀ e ∈ simple, cName d.name = cName e.name → d = e) (t : AType) :
    fieldType ds simple t = fieldType ds' simple' t := by
  rw [fieldType_congr (hr t)]
  unfold fieldType
  have : ∀ ct : Text, simple.find? (fun d => d.isSimple && cName d.name == ct) =
      simple'.find? (fun d => d.isSimple && cName d.name == ct) := by
    intro ct
    refine find?_same hm fun x hx y hy h1 h2 => hu x hx y hy ?_
    simp only [Bool.and_eq_true, beq_iff_eq] at h1 h2
    rw [h1.2, h2.2]
  simp only [this]

theorem convertMembers_shuffled {h h' : Handler} {ds ds' simple simple' : List Def} {mod mod' : Module} {cn : Text}
    (hf : ∀ t, fieldType ds simple t = fieldType ds' simple' t)
    (hh : ∀ n m, Extends (h n m mod) (h' n m mod')) :
    ∀ (ms : List Member) (cd : CData), Extends (convertMembers h ds simple mod cn ms cd)
      (convertMembers h' ds' simple' mod' cn ms cd) := by
  intro ms
  induction ms with
  | nil => exact fun cd v hv => hv
  | cons m ms ih =>
    intro cd v hv
    simp only [convertMembers, bind_ok, ← hf] at hv ⊢
    obtain ⟨f, h1, cd', h2, r, h3, h4⟩ := hv
    refine ⟨f, h1, cd', ?_, r, ih _ _ h3, h4⟩
    cases hc : m.comps with
    | none => rw [hc] at h2; exact h2
    | some cs =>
      rw [hc] at h2
      simp only [bind_ok] at h2 ⊢
      obtain ⟨e, h5, h6⟩ := h2
      exact ⟨e, hh _ _ _ h5, h6⟩

theorem defPart_shuffled {be be' : Backend} {ds ds' simple simple' : List Def} {mod mod' : Module}
    (hf : ∀ t, fieldType ds simple t = fieldType ds' simple' t)
    (hn : ∀ n t, Extends (be.note n t) (be'.note n t))
    (hh : ∀ n m, Extends (be.handler n m mod) (be'.handler n m mod')) (d : Def) :
    Extends (defPart be ds simple mod d) (defPart be' ds' simple' mod' d) := by
  intro v hv
  cases d with
  | simple n c t =>
    simp only [defPart, bind_ok] at hv ⊢
    obtain ⟨x, h1, h2⟩ := hv
    exact ⟨x, hn _ _ _ h1, h2⟩
  | seq n c ms =>
    simp only [defPart, convertSequence, bind_ok] at hv ⊢
    obtain ⟨x, h1, h2⟩ := hv
    exact ⟨x, convertMembers_shuffled hf hh _ _ _ h1, h2⟩
  | enum n c its => exact hv
  | choice n c ms => exact hv

/-- Two sets of data made of the same parts, in the order of two lists of names. -/
structure Mixed (inc : List Text) (doc : Text) (f : String → CData) (l : List String) (cd : CData) : Prop where
  data : cd.data = l.flatMap fun n => (f n).data
  defines : cd.defines = l.flatMap fun n => (f n).defines
  includes : cd.includes = inc ++ l.flatMap fun n => (f n).includes
  inits : cd.inits = l.flatMap fun n => (f n).inits
  predefs : cd.predefs = l.flatMap fun n => (f n).predefs
  stdbool : cd.stdbool = l.any fun n => (f n).stdbool
  stdint : cd.stdint = l.any fun n => (f n).stdint
  bins : cd.bins = (l.map f).foldl (fun d p => dictUpdate d p.bins) []
  headerComment : cd.headerComment = doc

theorem mixed_of {inc : List Text} {doc : Text} {f : String → CData} {l : List String} {cd1 : CData}
    (h : Joined { includes := inc } (l.map f) cd1) : Mixed inc doc f l { cd1 with headerComment := doc } := by
  refine ⟨?_, ?_, ?_, ?_, ?_, ?_, ?_, ?_, rfl⟩
  · rw [h.data, List.flatMap_map]; rfl
  · rw [h.defines, List.flatMap_map]; rfl
  · rw [h.includes, List.flatMap_map]
  · rw [h.inits, List.flatMap_map]; rfl
  · rw [h.predefs, List.flatMap_map]; rfl
  · rw [h.stdbool, List.any_map]; rfl
  · rw [h.stdint, List.any_map]; rfl
  · rw [h.bins]

theorem all2_map {α β} {f : α → β} {R : α → β → Prop} {l : List α} {ps : List β} (h : All2 R l ps)
    (hf : ∀ a ∈ l, ∀ p, R a p → p = f a) : ps = l.map f := by
  induction h with
  | nil => rfl
  | cons h _ ih =>
    rw [List.map_cons, ← hf _ (by simp) _ h, ← ih fun a ha => hf a (by simp [ha])]

/-- The text a definition with a given name gives. -/
def namedPart (be : Backend) (ds simple : List Def) (mod : Module) (n : String) : CData :=
  match lastDef mod.defs n with
  | none => {}
  | some d =>
    match defPart be ds simple mod d with
    | .ok p => p
    | .error _ => {}

theorem named_parts {be be' : Backend} {ds ds' simple simple' : List Def} {mod mod' : Module}
    (hn : (mod'.defs.map Def.name).Nodup) {l : List Def} (hl : ∀ d ∈ l, d ∈ mod'.defs)
    (he : ∀ d, Extends (defPart be ds simple mod d) (defPart be' ds' simple' mod' d)) {ps : List CData}
    (h : All2 (fun d p => defPart be ds simple mod d = .ok p) l ps) :
    ps = (l.map Def.name).map (namedPart be' ds' simple' mod') := by
  rw [List.map_map]
  refine all2_map h fun d hd p hp => ?_
  have h1 : lastDef mod'.defs d.name = some d := (lastDef_eq_some_iff hn _ _).2 ⟨hl d hd, rfl⟩
  simp only [Function.comp_apply, namedPart, h1, he d p hp]

theorem moduleData_shuffled {fuel fuel' : Nat} {be be' : Backend} {ds ds' : List Def} {bm bm' : BMod}
    (hs : ShuffledB bm bm') (hr : ∀ t, resolveType ds t = resolveType ds' t)
    (hu : ∀ d ∈ simpleList bm, ∀ e ∈ simpleList bm, cName d.name = cName e.name → d = e)
    (hd : (bm.mod.defs.map Def.name).Nodup) (hi : be.includeFile = be'.includeFile)
    (hn : ∀ n t, Extends (be.note n t) (be'.note n t))
    (hh : ∀ n m, Extends (be.handler n m bm.mod) (be'.handler n m bm'.mod))
    (hl : bm.mod.defs.length < fuel') {cd : CData} (h : moduleData fuel be ds bm = .ok cd) :
    ∃ cd', moduleData fuel' be' ds' bm' = .ok cd' ∧ ∃ l l',
      l.Perm (bm.mod.defs.map Def.name) ∧ l'.Perm (bm.mod.defs.map Def.name) ∧
      Mixed (importIncludes be.includeFile bm.mod) (headerDoc bm.mod)
        (namedPart be' ds' (simpleList bm') bm'.mod) l cd ∧
      Mixed (importIncludes be.includeFile bm.mod) (headerDoc bm.mod)
        (namedPart be' ds' (simpleList bm') bm'.mod) l' cd' := by
  have hft := fieldType_shuffled (simple := simpleList bm) hr (mem_simpleList_shuffled hs) hu
  have he := defPart_shuffled hft hn hh
  have hd' : (bm'.mod.defs.map Def.name).Nodup := hs.mod.names.nodup_iff.1 hd
  have hsort : ∃ sorted', sortDefs fuel' bm'.mod = some sorted' := by
    obtain ⟨sorted, q1, _⟩ := moduleData_ok h
    obtain ⟨rank, q2⟩ := (C20_returns_iff bm.mod).2.1 ⟨fuel, sorted, q1⟩
    obtain ⟨out, q3⟩ := (C20_returns_iff bm'.mod).1.2 ⟨rank, fun d hd n hn => by
      rcases q2 d (hs.mod.defs.mem_iff.2 hd) n hn with h | ⟨e, h1, h2⟩
      · refine .inl ?_
        unfold Outside at h ⊢
        rw [hs.mod.imports]
        exact h
      · exact .inr ⟨e, hs.mod.defs.mem_iff.1 h1, h2⟩⟩
    exact ⟨out, q3 fuel' (by rw [← hs.mod.defs.length_eq]; exact hl)⟩
  obtain ⟨cd', h'⟩ : ∃ cd', moduleData fuel' be' ds' bm' = .ok cd' := by
    refine moduleData_iff.2 ⟨hsort, defParts_iff.1 fun d hd => ?_⟩
    obtain ⟨p, hp⟩ := defParts_iff.2 (moduleData_iff.1 ⟨cd, h⟩).2 d (hs.mod.defs.mem_iff.2 hd)
    exact ⟨p, he d p hp⟩
  refine ⟨cd', h', ?_⟩
  obtain ⟨sorted, _, q1, ps, q2, cd1, q3, _, rfl⟩ := moduleData_ok h
  obtain ⟨sorted', _, r1, ps', r2, cd1', r3, _, rfl⟩ := moduleData_ok h'
  have e1 := named_parts hd' (fun d hd => hs.mod.defs.mem_iff.1 (q1.mem_iff.1 hd)) he q2
  have e2 := named_parts hd' (fun d hd => r1.mem_iff.1 hd) (fun d v hv => hv) r2
  rw [e1] at q3
  rw [e2] at r3
  have ei : importIncludes be'.includeFile bm'.mod = importIncludes be.includeFile bm.mod := by
    unfold importIncludes
    rw [hs.mod.commentImport, hs.mod.imports, hi]
  have ed : headerDoc bm'.mod = headerDoc bm.mod := by
    unfold headerDoc
    rw [hs.mod.comment]
  rw [ei] at r3
  rw [ed]
  exact ⟨sorted.map Def.name, sorted'.map Def.name, q1.map _, (r1.map _).trans hs.mod.names.symm,
    mixed_of q3, mixed_of r3⟩

/-! ### Texts -/

theorem layout_append (ps qs : List Chunk) (l : List String) : layout (ps ++ qs) l = layout ps l ++ layout qs l :=
  List.flatMap_append

theorem layout_fixed (t : Text) (ps : List Chunk) (l : List String) : layout (.fixed t :: ps) l = t ++ layout ps l := rfl

theorem layout_each (f : String → Text) (ps : List Chunk) (l : List String) :
    layout (.each f :: ps) l = l.flatMap f ++ layout ps l := rfl

theorem layout_nil (l : List String) : layout [] l = [] := rfl

/-- The parts of a header. -/
def headerParts (ty : HeaderType) (fn doc : Text) (inc : List Text) (sb si dn pn : Bool) (f : String → CData) :
    List Chunk :=
  [.fixed (guardOpen fn ++ ['\n'] ++ fileHeader (if ty = .msgids then [] else doc) ++ ['\n'])] ++
  (if ty = .msgids then [] else
    [.fixed ((if sb then "#include <stdbool.h>\n".toList else []) ++ (if si then "#include <stdint.h>\n".toList else []) ++
      inc.flatMap (fun i => i ++ ['\n'])),
     .each fun n => (f n).includes.flatMap fun i => i ++ ['\n']]) ++
  (if ty = .msgids ∧ dn = true then [.each fun n => (f n).defines.flatMap fun d => d ++ ['\n'], .fixed ['\n']] else []) ++
  (if ty = .msgids then [] else [.fixed ['\n'], .each fun n => (f n).data.flatMap fun d => d ++ "\n\n".toList]) ++
  (if ty = .stored ∧ pn = true then [.each fun n => (f n).predefs.flatMap fun d => d ++ ['\n'], .fixed ['\n']] else []) ++
  [.fixed (guardClose fn)]

theorem header_layout {inc : List Text} {doc : Text} {f : String → CData} {l : List String} {cd : CData}
    (h : Mixed inc doc f l cd) (ty : HeaderType) (fn : Text) (sb si dn pn : Bool) (hsb : cd.stdbool = sb)
    (hsi : cd.stdint = si) (hdn : cd.defines ≠ [] ↔ dn = true) (hpn : cd.predefs ≠ [] ↔ pn = true) :
    headerText ty fn cd = layout (headerParts ty fn doc inc sb si dn pn f) l := by
  unfold headerText headerParts
  subst hsb hsi
  simp only [hdn, hpn]
  simp only [h.headerComment, h.includes, h.defines, h.data, h.predefs, List.flatMap_append, List.flatMap_assoc]
  simp only [layout_append, layout_fixed, layout_nil, List.append_nil]
  generalize "#include <stdbool.h>\n".toList = a
  generalize "#include <stdint.h>\n".toList = b
  generalize "\n\n".toList = c
  simp only [List.append_assoc]
  by_cases h1 : ty = .msgids <;> by_cases h2 : dn = true <;> by_cases h3 : ty = .stored <;>
    by_cases h4 : pn = true <;>
    simp only [h1, h2, h3, h4, and_true, and_self, if_true, if_false, and_false, layout_fixed, layout_each,
      layout_nil, List.append_nil, List.nil_append, List.append_assoc, List.cons_append, reduceCtorEq, Bool.false_eq_true]

theorem getLast?_flatMap_line {l : List Text} {e : Text} (he : e.getLast? = some '\n') :
    (l.flatMap fun i => i ++ e) = [] ∨ (l.flatMap fun i => i ++ e).getLast? = some '\n' := by
  induction l with
  | nil => exact .inl rfl
  | cons t l ih =>
    refine .inr ?_
    rw [List.flatMap_cons, List.getLast?_append]
    rcases ih with h | h
    · rw [h, List.getLast?_append, he]; rfl
    · rw [h]; rfl

theorem headerParts_whole (ty : HeaderType) (fn doc : Text) (inc : List Text) (sb si dn pn : Bool) (f : String → CData) :
    WholeLines (headerParts ty fn doc inc sb si dn pn f) := by
  intro g hg n
  unfold headerParts at hg
  have h2 : "\n\n".toList.getLast? = some '\n' := by decide
  generalize "\n\n".toList = e at hg h2
  generalize "#include <stdbool.h>\n".toList = a at hg
  generalize "#include <stdint.h>\n".toList = b at hg
  simp only [List.mem_append, List.mem_singleton, reduceCtorEq, false_or, or_false] at hg
  rcases hg with ((hg | hg) | hg) | hg
  all_goals split at hg
  all_goals simp only [List.mem_cons, reduceCtorEq, Chunk.each.injEq, List.not_mem_nil, false_or, or_false] at hg
  all_goals subst hg
  · exact getLast?_flatMap_line rfl
  · exact getLast?_flatMap_line rfl
  · exact getLast?_flatMap_line h2
  · exact getLast?_flatMap_line rfl

theorem perm_any {α} {l l' : List α} (h : l.Perm l') (p : α → Bool) : l.any p = l'.any p := by
  rw [Bool.eq_iff_iff, List.any_eq_true, List.any_eq_true]
  simp only [h.mem_iff]

theorem perm_flatMap_ne {α β} {l l' : List α} (h : l.Perm l') (f : α → List β) : l.flatMap f ≠ [] ↔ l'.flatMap f ≠ [] := by
  rw [ne_eq, ne_eq, List.flatMap_eq_nil_iff, List.flatMap_eq_nil_iff]
  simp only [h.mem_iff]

theorem header_rearranged {inc : List Text} {doc : Text} {f : String → CData} {names l l' : List String}
    {cd cd' : CData} (hl : l.Perm names) (hl' : l'.Perm names) (h : Mixed inc doc f l cd) (h' : Mixed inc doc f l' cd')
    (ty : HeaderType) (fn : Text) : Rearranged names (headerText ty fn cd) (headerText ty fn cd') := by
  have hp := hl.trans hl'.symm
  refine ⟨headerParts ty fn doc inc cd.stdbool cd.stdint (decide (cd.defines ≠ [])) (decide (cd.predefs ≠ [])) f, l, l',
    headerParts_whole _ _ _ _ _ _ _ _ _, hl, hl', header_layout h _ _ _ _ _ _ rfl rfl (by simp) (by simp),
    header_layout h' _ _ _ _ _ _ ?_ ?_ ?_ ?_⟩
  · rw [h.stdbool, h'.stdbool, perm_any hp]
  · rw [h.stdint, h'.stdint, perm_any hp]
  · rw [h.defines, h'.defines, perm_flatMap_ne hp.symm]; simp
  · rw [h.predefs, h'.predefs, perm_flatMap_ne hp.symm]; simp

/-! ### Binary data -/

/-- The keys of the parts tell the definitions apart. -/
def OwnBins (f : String → CData) (names : List String) : Prop :=
  ∀ n ∈ names, (∃ v, (f n).bins = v ∧ v.length ≤ 1) ∧
    ∀ n' ∈ names, ∀ k ∈ (f n).bins.map (·.1), k ∈ (f n').bins.map (·.1) → n = n'

theorem mem_bins {f : String → CData} {l : List String} (h : OwnBins f l) (x : Text × List (List UInt8)) :
    x ∈ (l.map f).foldl (fun d p => dictUpdate d p.bins) [] ↔ ∃ n ∈ l, x ∈ (f n).bins := by
  constructor
  · intro hx
    rcases foldl_dictUpdate_mem hx with hx | ⟨p, hp, hx⟩
    · cases hx
    · obtain ⟨n, hn, rfl⟩ := List.mem_map.1 hp
      exact ⟨n, hn, hx⟩
  · rintro ⟨n, hn, hx⟩
    have hk : x.1 ∈ ((l.map f).foldl (fun d p => dictUpdate d p.bins) []).map (·.1) := by
      rw [foldl_dictUpdate_keys]
      exact .inr ⟨f n, List.mem_map_of_mem hn, List.mem_map_of_mem hx⟩
    obtain ⟨y, hy, hyx⟩ := List.mem_map.1 hk
    rcases foldl_dictUpdate_mem hy with hy' | ⟨p, hp, hy'⟩
    · cases hy'
    · obtain ⟨n', hn', rfl⟩ := List.mem_map.1 hp
      have : n' = n := (h n' hn').2 n hn x.1 (hyx ▸ List.mem_map_of_mem hy') (List.mem_map_of_mem hx)
      subst this
      obtain ⟨v, hv, hlen⟩ := (h n' hn').1
      rw [hv] at hy' hx
      have : y = x := by
        match v, hlen with
        | [], _ => cases hx
        | [z], _ => rw [List.mem_singleton.1 hx, List.mem_singleton.1 hy']
      rwa [← this]

/-! ### Runs -/

/-- Two lists of files at the same paths, with contents in relation. -/
def AlikeFiles (R : Text → Content → Content → Prop) (l l' : List (Text × Content)) : Prop :=
  (∀ w ∈ l, ∃ w' ∈ l', w'.1 = w.1 ∧ R w.1 w.2 w'.2) ∧ ∀ w' ∈ l', ∃ w ∈ l, w.1 = w'.1

theorem run_shuffled {fuel fuel' : Nat} {mk mk' : Bundle → Backend} {raw raw' : List Module} {cfg : List String}
    {out : Text} {R : Module → Text → Content → Content → Prop} (hs : All2 Shuffled raw raw')
    (hmk : ∀ b b', buildFromConfig raw cfg = .ok b → buildFromConfig raw' cfg = .ok b' → All2 ShuffledB b.mods b'.mods →
      ∀ bm ∈ b.mods, ∀ bm' ∈ b'.mods, ShuffledB bm bm' → ∀ cd, moduleData fuel (mk b) b.defs bm = .ok cd →
        ∃ cd', moduleData fuel' (mk' b') b'.defs bm' = .ok cd' ∧
          AlikeFiles (R bm.mod) (printed ((mk b).print bm.mod cd)) (printed ((mk' b').print bm'.mod cd')))
    (h : (runCommand fuel mk raw cfg out).result = .ok ()) (hl : raw.length < fuel') :
    (runCommand fuel' mk' raw' cfg out).result = .ok () ∧ ∃ b, buildFromConfig raw cfg = .ok b ∧
      AlikeFiles (fun q c c' => ∃ bm ∈ b.mods, R bm.mod q c c') (runCommand fuel mk raw cfg out).writes
        (runCommand fuel' mk' raw' cfg out).writes := by
  rcases run_writes fuel mk raw cfg out with ⟨_, hw⟩ | ⟨b, hb, done, cds, hi, hw, hr⟩
  · exact absurd h hw
  obtain ⟨hdone, ho⟩ := hr h
  obtain ⟨b', hb', hsb⟩ := buildFromConfig_shuffled hs hb
  have hn := config_names_nodup hb
  have hn' := config_names_nodup hb'
  have hsm := modules_shuffled hsb
  have hall : ∀ bm ∈ b.mods, ∃ cd, moduleData fuel (mk b) b.defs bm = .ok cd := by
    intro bm hbm
    obtain ⟨cd, _, h⟩ := all2_mem_left hi.len (hdone.mem_iff.2 hbm)
    exact ⟨cd, h⟩
  have hlen : b'.modules.length < fuel' := by
    rw [← hsm.length_eq]
    obtain ⟨ms, q1, _, _, q4, _⟩ := buildFromConfig_ok.1 hb
    rw [build_modules q4, ← (processModules_ok.1 q1).length_eq]
    exact hl
  have horder : ∃ ms, orderModules fuel' b'.modules = some ms := by
    obtain ⟨rank, hrank⟩ := (C21_returns_iff b.modules hn).2.1 ⟨fuel, _, ho⟩
    obtain ⟨ms, hms⟩ := (C21_returns_iff b'.modules hn').1.2
      ⟨fun m => rank ((lastNamed b.modules m.name).getD m), fun a' ha' c' hc' him => by
        obtain ⟨a, ha, hsa⟩ := all2_mem_right hsm ha'
        obtain ⟨c, hc, hsc⟩ := all2_mem_right hsm hc'
        simp only [hsa.name, hsc.name, lastNamed_nodup hn ha, lastNamed_nodup hn hc, Option.getD_some]
        refine hrank a ha c hc ?_
        obtain ⟨it, q1, q2⟩ := him
        exact ⟨it, hsa.imports ▸ q1, q2.trans hsc.name⟩⟩
    exact ⟨ms, hms fuel' hlen⟩
  have hok : (runCommand fuel' mk' raw' cfg out).result = .ok () := by
    simp only [runCommand, hb']
    unfold generate
    obtain ⟨ms, hms⟩ := horder
    rw [hms]
    have hpm : ms.Perm b'.modules := (orderLoop_spec b'.modules fuel' _ ms ⟨rfl, hn'⟩
      ⟨by simp, by simp, by simp⟩ hms).1
    obtain ⟨h1, _⟩ := orderedMods_spec hn' hpm
    simp only [runModules_iff]
    intro bm' hbm'
    have hbm' := h1.mem_iff.1 hbm'
    obtain ⟨bm, hbm, hsbm⟩ := all2_mem_right hsb hbm'
    obtain ⟨cd, hcd⟩ := hall bm hbm
    obtain ⟨cd', hcd', _⟩ := hmk b b' hb hb' hsb bm hbm bm' hbm' hsbm cd hcd
    exact ⟨cd', hcd'⟩
  refine ⟨hok, b, hb, ?_⟩
  rcases run_writes fuel' mk' raw' cfg out with ⟨_, hw'⟩ | ⟨b2, hb2, done', cds', hi', hw', hr'⟩
  · exact absurd hok hw'
  rw [hb'] at hb2
  cases hb2
  obtain ⟨hdone', _⟩ := hr' hok
  rw [hw, hw']
  constructor
  · intro w hwm
    obtain ⟨x, hx, hwx⟩ := List.mem_flatMap.1 hwm
    have hcd := hi.len.zip_mem hx
    have hbm := hi.sub x.1 (List.of_mem_zip hx).1
    obtain ⟨bm', hbm', hsbm⟩ := all2_mem_left hsb hbm
    obtain ⟨cd', hcd', ha, _⟩ := hmk b b' hb hb' hsb x.1 hbm bm' hbm' hsbm x.2 hcd
    obtain ⟨w', hw'm, q1, q2⟩ := ha w hwx
    obtain ⟨cd2, hz, hcd2⟩ := hi'.len.zip_mem_left (hdone'.mem_iff.2 hbm')
    rw [hcd'] at hcd2
    cases hcd2
    exact ⟨w', List.mem_flatMap.2 ⟨_, hz, hw'm⟩, q1, x.1, hbm, q2⟩
  · intro w' hwm
    obtain ⟨x, hx, hwx⟩ := List.mem_flatMap.1 hwm
    have hcd := hi'.len.zip_mem hx
    have hbm' := hi'.sub x.1 (List.of_mem_zip hx).1
    obtain ⟨bm, hbm, hsbm⟩ := all2_mem_right hsb hbm'
    obtain ⟨cd, hz, hcd1⟩ := hi.len.zip_mem_left (hdone.mem_iff.2 hbm)
    obtain ⟨cd', hcd', _, ha⟩ := hmk b b' hb hb' hsb bm hbm x.1 hbm' hsbm cd hcd1
    rw [hcd] at hcd'
    cases hcd'
    obtain ⟨w, hwm, q1⟩ := ha w' hwx
    exact ⟨w, List.mem_flatMap.2 ⟨_, hz, hwm⟩, q1⟩

theorem apply_alike {r r' : Run} (hna : NoAppend r.ops) (hna' : NoAppend r'.ops) (hn : (r.writes.map (·.1)).Nodup)
    (hn' : (r'.writes.map (·.1)).Nodup) {R : Text → Content → Content → Prop} (h : AlikeFiles R r.writes r'.writes) (fs : Files)
    (q : Text) : (r.apply fs q = fs q ∧ r'.apply fs q = fs q) ∨
      ∃ c c', r.apply fs q = some c ∧ r'.apply fs q = some c' ∧ R q c c' := by
  by_cases hq : q ∈ r.writes.map (·.1)
  · obtain ⟨w, hw, rfl⟩ := List.mem_map.1 hq
    obtain ⟨w', hw', h1, h2⟩ := h.1 w hw
    exact .inr ⟨w.2, w'.2, apply_get hna hn fs hw, h1 ▸ apply_get hna' hn' fs hw', h2⟩
  · refine .inl ⟨apply_other hna fs hq, apply_other hna' fs fun hc => hq ?_⟩
    obtain ⟨w', hw', rfl⟩ := List.mem_map.1 hc
    obtain ⟨w, hw, h1⟩ := h.2 w' hw'
    exact h1 ▸ List.mem_map_of_mem hw

end Apg
