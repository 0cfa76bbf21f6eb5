import Verif.Lemmas.ShuffleRun
import Verif.Lemmas.Grow
import Verif.Spec.Added
import Verif.Props.FieldTypes

/-!
# Adding definitions to the input
-/

namespace Apg
open Spec

/-! ### Bundles -/

/-- Modules of bundles, the second with more definitions. -/
structure AddedB (bm bm' : BMod) : Prop where
  mod : Added bm.mod bm'.mod
  imported : ∀ m ∈ bm.imported, ∃ m' ∈ bm'.imported, Added m m'

theorem processModule_added {m m' m1 m1' : Module} (ha : Added m m') (h : processModule m = .ok m1)
    (h' : processModule m' = .ok m1') : Added m1 m1' := by
  obtain ⟨_, _, ds, h1, rfl, _⟩ := processModule_ok.1 h
  obtain ⟨_, _, ds', h2, rfl, _⟩ := processModule_ok.1 h'
  refine ⟨ha.name, ha.comment, ha.commentImport, ha.imports, fun d hd => ?_⟩
  obtain ⟨d0, q1, q2⟩ := all2_mem_right (processDefs_ok.1 h1) hd
  obtain ⟨d', q3, q4⟩ := all2_mem_left (processDefs_ok.1 h2) (ha.defs d0 q1)
  rw [q2] at q4
  cases q4
  exact q3

theorem processModules_added {raw raw' ms ms' : List Module} (ha : ∀ m ∈ raw, ∃ m' ∈ raw', Added m m')
    (h : processModules raw = .ok ms) (h' : processModules raw' = .ok ms') :
    ∀ m ∈ ms, ∃ m' ∈ ms', Added m m' := by
  intro m hm
  obtain ⟨r, hr, h1⟩ := all2_mem_right (processModules_ok.1 h) hm
  obtain ⟨r', hr', had⟩ := ha r hr
  obtain ⟨m', hm', h2⟩ := all2_mem_left (processModules_ok.1 h') hr'
  exact ⟨m', hm', processModule_added had h1 h2⟩

/-- The second bundle has the modules of the first with perhaps more definitions, and perhaps more modules. -/
structure GrownDefs (b b' : Bundle) : Prop where
  mods : ∀ bm ∈ b.mods, ∃ bm' ∈ b'.mods, AddedB bm bm'
  nodup : (b.defs.map Def.name).Nodup
  nodup' : (b'.defs.map Def.name).Nodup
  types : ∀ d ∈ b.defs, ∀ m ∈ d.members, resolveType b.defs m.type = resolveType b'.defs m.type

theorem GrownDefs.defs {b b' : Bundle} (h : GrownDefs b b') : ∀ d ∈ b.defs, d ∈ b'.defs := by
  intro d hd
  rw [← defsOf_eq] at hd ⊢
  obtain ⟨m, hm, hd⟩ := List.mem_flatMap.1 hd
  obtain ⟨bm, hbm, rfl⟩ := List.mem_map.1 hm
  obtain ⟨bm', hbm', ha⟩ := h.mods bm hbm
  exact List.mem_flatMap.2 ⟨bm'.mod, List.mem_map.2 ⟨bm', hbm', rfl⟩, ha.mod.defs d hd⟩

theorem GrownDefs.closed {b b' : Bundle} (h : GrownDefs b b') : ∀ d, d ∈ b.defs → ∀ m ∈ d.members,
    resolveType b.defs m.type = resolveType b'.defs m.type ∧
      ∀ d', resolveType b.defs m.type = some d' → d' ∈ b.defs := by
  refine fun d hd m hm => ⟨h.types d hd m hm, fun d' hd' => ?_⟩
  cases ht : m.type with
  | plain n lo hi => rw [ht] at hd'; exact (lastDef_some hd').1
  | str => rw [ht] at hd'; cases hd'
  | arr => rw [ht] at hd'; cases hd'

theorem grownDefs {raw raw' : List Module} {cfg cfg' : List String} {b b' : Bundle} (hg : ∀ m ∈ raw', GrammarModule m)
    (ha : ∀ m ∈ raw, ∃ m' ∈ raw', Added m m') (hb : buildFromConfig raw cfg = .ok b)
    (hb' : buildFromConfig raw' cfg' = .ok b') : GrownDefs b b' := by
  have hbt := buildFromTexts_of_config hb
  have hbt' := buildFromTexts_of_config hb'
  have hnd := accepted_nodup hbt
  have hnd' := accepted_nodup hbt'
  obtain ⟨ms, h1, h2, _, h4, _⟩ := buildFromConfig_ok.1 hb
  obtain ⟨ms', q1, q2, _, q4, _⟩ := buildFromConfig_ok.1 hb'
  have hn : (raw.map (·.name)).Nodup := by rwa [processModules_names h1] at h2
  have hmods : ∀ bm ∈ b.mods, ∃ bm' ∈ b'.mods, AddedB bm bm' := by
    have hm := processModules_added ha h1 q1
    obtain ⟨h3, h5⟩ := (resolveDeps_nodup h2).1 (build_ok.1 h4).1
    obtain ⟨q3, q5⟩ := (resolveDeps_nodup q2).1 (build_ok.1 q4).1
    intro bm hbm
    rw [h5] at hbm
    obtain ⟨m, hmm, rfl⟩ := List.mem_map.1 hbm
    obtain ⟨m', hmm', had⟩ := hm m hmm
    refine ⟨⟨m', m'.imports.filterMap fun i => lastNamed ms' i.module⟩, by rw [q5]; exact List.mem_map.2 ⟨m', hmm', rfl⟩,
      had, fun x hx => ?_⟩
    obtain ⟨i, hi, hx⟩ := List.mem_filterMap.1 hx
    obtain ⟨r1, r2⟩ := lastNamed_some hx
    obtain ⟨x', hx', hxa⟩ := hm x r1
    obtain ⟨i', hi', hii⟩ := List.mem_map.1 (had.imports.subset (List.mem_map_of_mem hi))
    refine ⟨x', List.mem_filterMap.2 ⟨i', hi', ?_⟩, hxa⟩
    exact (lastNamed_eq_some_iff q2 _ _).2 ⟨hx', by rw [hxa.name, r2, ← hii]⟩
  have hdefs : ∀ d ∈ b.defs, d ∈ b'.defs := by
    intro d hd
    rw [← defsOf_eq] at hd ⊢
    obtain ⟨m, hm, hd⟩ := List.mem_flatMap.1 hd
    obtain ⟨bm, hbm, rfl⟩ := List.mem_map.1 hm
    obtain ⟨bm', hbm', ha⟩ := hmods bm hbm
    exact List.mem_flatMap.2 ⟨bm'.mod, List.mem_map.2 ⟨bm', hbm', rfl⟩, ha.mod.defs d hd⟩
  refine ⟨hmods, hnd, hnd', ?_⟩
  intro d hd k hk
  rw [← defsOf_eq] at hd
  obtain ⟨m, hm, hd⟩ := List.mem_flatMap.1 hd
  cases ht : k.type with
  | str => rfl
  | arr => rfl
  | plain n lo hi =>
    simp only [resolveType]
    have hnone : ∀ {ds : List Def}, (∀ d ∈ ds, d.name ≠ n) → lastDef ds n = none := by
      intro ds h
      cases hl : lastDef ds n with
      | none => rfl
      | some d => exact absurd (lastDef_some hl).2 (h d (lastDef_some hl).1)
    rcases C14_used_types_distinct raw b hn hbt m hm d hd k hk n (by rw [ht]; exact .plain) with hbi | ⟨_, m', hm', _, e, he, hen⟩
    · have hno : ∀ d ∈ b'.defs, d.name ≠ n :=
        builtin_not_def (fun d hd => (accepted_grammar hg hbt' d hd).1)
          (by rcases hbi with rfl | rfl | rfl | rfl | rfl <;> decide)
      rw [hnone hno, hnone fun d hd => hno d (hdefs d hd)]
    · have he : e ∈ b.defs := by rw [← defsOf_eq]; exact List.mem_flatMap.2 ⟨m', hm', he⟩
      rw [(lastDef_eq_some_iff hnd n e).2 ⟨he, hen⟩, (lastDef_eq_some_iff hnd' n e).2 ⟨hdefs e he, hen⟩]

/-! ### Types of fields -/

theorem fieldType_added {ds ds' simple simple' : List Def} {t : AType} (hr : resolveType ds t = resolveType ds' t)
    (hcap : ∀ d ∈ simple, isNameCapital d.name = true) (hcap' : ∀ d ∈ simple', isNameCapital d.name = true)
    (hsub : ∀ d ∈ simple, d ∈ simple')
    (hu : ∀ d ∈ simple', ∀ e ∈ simple', cName d.name = cName e.name → d = e)
    (hv : ∀ d ∈ simple', d.isSimple = true → cName d.name = cName t.name → d ∈ simple) :
    fieldType ds simple t = fieldType ds' simple' t := by
  rw [fieldType_congr hr]
  unfold fieldType
  cases hm : mapMember ds' t with
  | error e => rfl
  | ok m =>
    simp only [bind, Except.bind]
    generalize hct : (if posixCTypes.contains (lowerize m.ctype) then lowerize m.ctype else m.ctype) = ct
    suffices simple.find? (fun d => d.isSimple && cName d.name == ct) =
        simple'.find? (fun d => d.isSimple && cName d.name == ct) by rw [this]
    have hcase : (∀ c ∈ ct.head?, reUpper c = false) ∨ ct = cName t.name := by
      split at hct
      · rename_i hp
        subst hct
        left
        have hh : ∀ ct ∈ posixCTypes, ∀ c ∈ ct.head?, reUpper c = false := by decide
        exact hh _ (List.contains_iff_mem.1 hp)
      · subst hct
        unfold mapMember at hm
        simp only at hm
        split at hm
        · exact .inl fun c hc => not_upper_of_lower (mapNumeric_lower hm c hc)
        split at hm
        · cases hm
          left
          dsimp only
          decide
        split at hm
        · simp only [bind_ok] at hm
          obtain ⟨_, _, hm⟩ := hm
          cases hm
          exact .inr rfl
        · cases hm
          exact .inr rfl
    rcases hcase with hl | rfl
    · rw [find_simple_none hcap hl, find_simple_none hcap' hl]
    · have hp : ∀ x : Def, (x.isSimple && cName x.name == cName t.name) = true ↔
          x.isSimple = true ∧ cName x.name = cName t.name := by
        intro x; simp only [Bool.and_eq_true, beq_iff_eq]
      cases h1 : simple.find? (fun d => d.isSimple && cName d.name == cName t.name) with
      | none =>
        symm
        rw [List.find?_eq_none] at h1 ⊢
        intro x hx hpx
        obtain ⟨p1, p2⟩ := (hp x).1 hpx
        exact h1 x (hv x hx p1 p2) hpx
      | some x =>
        have hx := List.mem_of_find?_eq_some h1
        have hpx := List.find?_some h1
        have : (simple'.find? (fun d => d.isSimple && cName d.name == cName t.name)).isSome := by
          rw [List.find?_isSome]; exact ⟨x, hsub x hx, hpx⟩
        obtain ⟨y, hy⟩ := Option.isSome_iff_exists.1 this
        have hpy := List.find?_some hy
        rw [hy, hu x (hsub x hx) y (List.mem_of_find?_eq_some hy) (((hp x).1 hpx).2.trans ((hp y).1 hpy).2.symm)]

theorem simpleList_added {bm bm' : BMod} (h : AddedB bm bm') : ∀ d ∈ simpleList bm, d ∈ simpleList bm' := by
  intro d hd
  rw [mem_simpleList] at hd ⊢
  obtain ⟨h1, h2 | ⟨m, h2, h3⟩⟩ := hd
  · exact ⟨h1, .inl (h.mod.defs d h2)⟩
  · obtain ⟨m', q1, q2⟩ := h.imported m h2
    exact ⟨h1, .inr ⟨m', q1, q2.defs d h3⟩⟩

theorem simpleList_defs {raw : List Module} {cfg : List String} {b : Bundle} (h : buildFromConfig raw cfg = .ok b)
    {bm : BMod} (hbm : bm ∈ b.mods) : ∀ d ∈ simpleList bm, d ∈ b.defs := by
  have hbt := buildFromTexts_of_config h
  obtain ⟨ms, h1, h2, _⟩ := buildFromConfig_ok.1 h
  have hl := accepted_linked (by rw [← processModules_names h1]; exact h2) hbt
  intro d hd
  obtain ⟨_, hd | ⟨m, hm, hd⟩⟩ := mem_simpleList.1 hd
  · exact module_defs_sub (List.mem_map.2 ⟨bm, hbm, rfl⟩) hd
  · exact module_defs_sub ((hl.link bm hbm m).1 hm).1 hd

theorem field_added {raw raw' : List Module} {cfg cfg' : List String} {b b' : Bundle} (hg : ∀ m ∈ raw', GrammarModule m)
    (hb : buildFromConfig raw cfg = .ok b) (hb' : buildFromConfig raw' cfg' = .ok b') (hgr : GrownDefs b b')
    {bm bm' : BMod} (hbm : bm ∈ b.mods) (hbm' : bm' ∈ b'.mods) (ha : AddedB bm bm') {d : Def} (hd : d ∈ bm.mod.defs)
    {k : Member} (hk : k ∈ d.members) :
    fieldType b.defs (simpleList bm) k.type = fieldType b'.defs (simpleList bm') k.type := by
  have hcap : ∀ d ∈ b'.defs, isNameCapital d.name = true := fun d hd =>
    def_capital (accepted_grammar hg (buildFromTexts_of_config hb') d hd).1
  have hcs : ∀ d ∈ simpleList bm', isNameCapital d.name = true := fun d hd => hcap d (simpleList_defs hb' hbm' d hd)
  refine fieldType_added (hgr.types d (mods_defs hbm d hd) k hk)
    (fun d hd => hcs d (simpleList_added ha d hd)) hcs (simpleList_added ha) (simpleList_unique hg hb' hbm') ?_
  intro e he hs hn
  have hec := hcs e he
  have hnb : ¬ BuiltIn k.type.name := by
    intro hbi
    obtain ⟨n1, n2, n3⟩ := cName_not_builtin hec
    obtain ⟨c, r, _, hc, hup⟩ := capital_head hec
    rcases hbi with h | h | h | h | h <;> rw [h] at hn
    · exact n3 (hn.trans (by decide))
    · exact n1 (hn.trans (by decide))
    · exact n2 (hn.trans (by decide))
    · rw [hc] at hn
      have : cName "IA5String" = ['c', 'h', 'a', 'r'] := by decide
      rw [this, List.cons.injEq] at hn
      rw [hn.1] at hup
      exact absurd hup (by decide)
    · rw [hc] at hn
      have : cName "NumericString" = ['c', 'h', 'a', 'r'] := by decide
      rw [this, List.cons.injEq] at hn
      rw [hn.1] at hup
      exact absurd hup (by decide)
  obtain ⟨⟨x, hx, hxn⟩, h2⟩ := used_simple hb hbm hd hk (usesName_name _) hnb
  have hex : e = x := by
    refine mem_unique_of_nodup_map hgr.nodup' (simpleList_defs hb' hbm' e he) (hgr.defs x hx) ?_
    refine cName_inj (Or.inr hec) (Or.inr (hcap x (hgr.defs x hx))) ?_
    rw [hn, hxn]
  subst hex
  exact h2 e hx hs hxn

/-! ### Parts -/

theorem convertMembers_added {h h' : Handler} {ds ds' simple simple' : List Def} {mod mod' : Module} {cn : Text} :
    ∀ (ms : List Member), (∀ m ∈ ms, fieldType ds simple m.type = fieldType ds' simple' m.type) →
    (∀ m ∈ ms, ∀ v v', h cn m mod = .ok v → h' cn m mod' = .ok v' → v = v') →
    ∀ (cd : CData) r r', convertMembers h ds simple mod cn ms cd = .ok r →
      convertMembers h' ds' simple' mod' cn ms cd = .ok r' → r = r' := by
  intro ms
  induction ms with
  | nil => intro _ _ cd r r' h1 h2; cases h1; cases h2; rfl
  | cons m ms ih =>
    intro hf hh cd r r' h1 h2
    simp only [convertMembers, bind_ok, ← hf m (List.Mem.head _)] at h1 h2
    obtain ⟨f, p1, cd1, p2, r1, p3, p4⟩ := h1
    obtain ⟨f', q1, cd1', q2, r1', q3, q4⟩ := h2
    rw [p1] at q1
    cases q1
    have hcd : cd1 = cd1' := by
      cases hc : m.comps with
      | none => rw [hc] at p2 q2; cases p2; cases q2; rfl
      | some cs =>
        rw [hc] at p2 q2
        simp only [bind_ok] at p2 q2
        obtain ⟨e, p5, p6⟩ := p2
        obtain ⟨e', q5, q6⟩ := q2
        rw [hh m (List.Mem.head _) e e' p5 q5, q6] at p6
        cases p6
        rfl
    subst hcd
    rw [ih (fun m hm => hf m (List.Mem.tail _ hm)) (fun m hm => hh m (List.Mem.tail _ hm)) _ _ _ p3 q3, q4] at p4
    cases p4
    rfl

theorem defPart_added {be be' : Backend} {ds ds' simple simple' : List Def} {mod mod' : Module} {d : Def}
    (hf : ∀ m ∈ d.members, fieldType ds simple m.type = fieldType ds' simple' m.type)
    (hn : ∀ n c t, d = .simple n c t → ∀ v v', be.note n t = .ok v → be'.note n t = .ok v' → v = v')
    (hh : ∀ n, ∀ m ∈ d.members, ∀ v v', be.handler n m mod = .ok v → be'.handler n m mod' = .ok v' → v = v')
    {p p' : CData} (h : defPart be ds simple mod d = .ok p) (h' : defPart be' ds' simple' mod' d = .ok p') : p = p' := by
  cases d with
  | simple n c t =>
    simp only [defPart, bind_ok] at h h'
    obtain ⟨x, h1, h2⟩ := h
    obtain ⟨x', h1', h2'⟩ := h'
    rw [hn n c t rfl x x' h1 h1', h2'] at h2
    cases h2
    rfl
  | seq n c ms =>
    simp only [defPart, convertSequence, bind_ok] at h h'
    obtain ⟨x, h1, h2⟩ := h
    obtain ⟨x', h1', h2'⟩ := h'
    rw [convertMembers_added ms hf (hh _) _ _ _ h1 h1', h2'] at h2
    cases h2
    rfl
  | enum n c its =>
    have : defPart be ds simple mod (.enum n c its) = defPart be' ds' simple' mod' (.enum n c its) := rfl
    rw [this, h'] at h
    cases h
    rfl
  | choice n c ms =>
    have : defPart be ds simple mod (.choice n c ms) = defPart be' ds' simple' mod' (.choice n c ms) := rfl
    rw [this, h'] at h
    cases h
    rfl

theorem moduleData_added {fuel fuel' : Nat} {be be' : Backend} {ds ds' : List Def} {bm bm' : BMod}
    (ha : AddedB bm bm') (hd' : (bm'.mod.defs.map Def.name).Nodup)
    (hp : ∀ d ∈ bm.mod.defs, ∀ p p', defPart be ds (simpleList bm) bm.mod d = .ok p →
      defPart be' ds' (simpleList bm') bm'.mod d = .ok p' → p = p') {cd cd' : CData}
    (h : moduleData fuel be ds bm = .ok cd) (h' : moduleData fuel' be' ds' bm' = .ok cd') : ∃ l l',
      l.Perm (bm.mod.defs.map Def.name) ∧ l'.Perm (bm'.mod.defs.map Def.name) ∧
      Mixed (importIncludes be.includeFile bm.mod) (headerDoc bm.mod)
        (namedPart be' ds' (simpleList bm') bm'.mod) l cd ∧
      Mixed (importIncludes be'.includeFile bm'.mod) (headerDoc bm.mod)
        (namedPart be' ds' (simpleList bm') bm'.mod) l' cd' := by
  obtain ⟨sorted, _, q1, ps, q2, cd1, q3, _, rfl⟩ := moduleData_ok h
  obtain ⟨sorted', _, r1, ps', r2, cd1', r3, _, rfl⟩ := moduleData_ok h'
  have e2 := named_parts hd' (fun d hd => r1.mem_iff.1 hd) (fun d v hv => hv) r2
  have e1 : ps = (sorted.map Def.name).map (namedPart be' ds' (simpleList bm') bm'.mod) := by
    rw [List.map_map]
    refine all2_map q2 fun d hd p hpd => ?_
    have hdm := q1.mem_iff.1 hd
    have hdm' := ha.mod.defs d hdm
    have h1 : lastDef bm'.mod.defs d.name = some d := (lastDef_eq_some_iff hd' _ _).2 ⟨hdm', rfl⟩
    obtain ⟨p', _, hp'⟩ := all2_mem_left r2 (r1.mem_iff.2 hdm')
    simp only [Function.comp_apply, namedPart, h1, hp']
    exact hp d hdm p p' hpd hp'
  rw [e1] at q3
  rw [e2] at r3
  have ed : headerDoc bm'.mod = headerDoc bm.mod := by
    unfold headerDoc
    rw [ha.mod.comment]
  rw [ed]
  exact ⟨sorted.map Def.name, sorted'.map Def.name, q1.map _, r1.map _, mixed_of q3, mixed_of r3⟩

/-! ### Texts -/

/-- The parts of a header, with places for the lines that may come in. -/
def keptParts (ty : HeaderType) (fn doc : Text) (imp : List Chunk) (sb si dn pn : Bool) (f : String → CData) :
    List Chunk :=
  [.fixed (guardOpen fn ++ ['\n'] ++ fileHeader (if ty = .msgids then [] else doc) ++ ['\n'])] ++
  (if ty = .msgids then [] else
    [.fixed (if sb then "#include <stdbool.h>\n".toList else []), .fixed (if si then "#include <stdint.h>\n".toList else [])] ++
      imp ++ [.each fun n => (f n).includes.flatMap fun i => i ++ ['\n']]) ++
  (if ty = .msgids then [.each fun n => (f n).defines.flatMap fun d => d ++ ['\n'], .fixed (if dn then ['\n'] else [])] else []) ++
  (if ty = .msgids then [] else [.fixed ['\n'], .each fun n => (f n).data.flatMap fun d => d ++ "\n\n".toList]) ++
  (if ty = .stored then [.each fun n => (f n).predefs.flatMap fun d => d ++ ['\n'], .fixed (if pn then ['\n'] else [])] else []) ++
  [.fixed (guardClose fn)]

theorem kept_layout {inc : List Text} {doc : Text} {f : String → CData} {l : List String} {cd : CData}
    (h : Mixed inc doc f l cd) (ty : HeaderType) (fn : Text) (imp : List Chunk)
    (hi : layout imp l = inc.flatMap fun i => i ++ ['\n']) :
    headerText ty fn cd = layout (keptParts ty fn doc imp cd.stdbool cd.stdint (decide (cd.defines ≠ []))
      (decide (cd.predefs ≠ [])) f) l := by
  have e1 : (l.flatMap fun n => (f n).defines.flatMap fun d => d ++ ['\n']) = cd.defines.flatMap fun d => d ++ ['\n'] := by
    rw [h.defines, List.flatMap_assoc]
  have e2 : (l.flatMap fun n => (f n).predefs.flatMap fun d => d ++ ['\n']) = cd.predefs.flatMap fun d => d ++ ['\n'] := by
    rw [h.predefs, List.flatMap_assoc]
  have e3 : (l.flatMap fun n => (f n).data.flatMap fun d => d ++ "\n\n".toList) = cd.data.flatMap fun d => d ++ "\n\n".toList := by
    rw [h.data, List.flatMap_assoc]
  have e4 : layout imp l ++ (l.flatMap fun n => (f n).includes.flatMap fun d => d ++ ['\n']) =
      cd.includes.flatMap fun d => d ++ ['\n'] := by
    rw [h.includes, List.flatMap_append, List.flatMap_assoc, hi]
  unfold headerText keptParts
  rw [h.headerComment]
  generalize "#include <stdbool.h>\n".toList = a
  generalize "#include <stdint.h>\n".toList = b
  generalize "\n\n".toList = c at e3 ⊢
  by_cases h1 : ty = .msgids
  · by_cases h2 : cd.defines = []
    · simp only [h1, h2, reduceCtorEq, ne_eq, not_true_eq_false, and_false, false_and, if_true, if_false, decide_false,
        layout_fixed, layout_each, layout_nil, e1, List.append_nil, List.nil_append, List.flatMap_nil,
        List.append_assoc, List.cons_append, Bool.false_eq_true]
    · simp only [h1, h2, reduceCtorEq, ne_eq, not_false_eq_true, and_true, false_and, if_true, if_false, decide_true,
        layout_fixed, layout_each, layout_nil, e1, List.append_nil, List.nil_append,
        List.append_assoc, List.cons_append]
  · by_cases h3 : ty = .stored <;> by_cases h2 : cd.predefs = []
    all_goals simp only [h1, h2, h3, reduceCtorEq, ne_eq, not_true_eq_false, not_false_eq_true, and_true, and_false, false_and,
      if_true, if_false, decide_false, decide_true, layout_append, layout_fixed, layout_each, layout_nil, e2, e3, ← e4,
      List.append_nil, List.nil_append, List.flatMap_nil, List.append_assoc, List.cons_append, Bool.false_eq_true]

theorem keptChunk_of {t t' : Text} (h : t = t' ∨ t = []) (ht : t' = [] ∨ t'.getLast? = some '\n') :
    KeptChunk (.fixed t) (.fixed t') := by
  rcases h with rfl | rfl
  · exact .fixed _ ht
  · rcases ht with rfl | ht
    · exact .fixed _ (.inl rfl)
    · exact .new _ ht

theorem flag_kept {s s' : Bool} (h : s = true → s' = true) {t : Text} (ht : t.getLast? = some '\n') :
    KeptChunk (.fixed (if s then t else [])) (.fixed (if s' then t else [])) := by
  cases s with
  | true => rw [h rfl]; exact .fixed _ (.inr ht)
  | false => exact keptChunk_of (.inr rfl) (by cases s' <;> simp [ht])

theorem keptParts_all {ty : HeaderType} {fn doc : Text} {imp imp' : List Chunk} (hi : All2 KeptChunk imp imp')
    {sb sb' si si' dn dn' pn pn' : Bool} (h1 : sb = true → sb' = true) (h2 : si = true → si' = true)
    (h3 : dn = true → dn' = true) (h4 : pn = true → pn' = true) (f : String → CData) :
    All2 KeptChunk (keptParts ty fn doc imp sb si dn pn f) (keptParts ty fn doc imp' sb' si' dn' pn' f) := by
  have hline : ∀ x : Text, (x ++ ['\n']).getLast? = some '\n' := fun x => by rw [List.getLast?_append]; rfl
  unfold keptParts
  have g1 : "#include <stdbool.h>\n".toList.getLast? = some '\n' := by decide
  have g2 : "#include <stdint.h>\n".toList.getLast? = some '\n' := by decide
  have g3 : "\n\n".toList.getLast? = some '\n' := by decide
  generalize "#include <stdbool.h>\n".toList = a at g1 ⊢
  generalize "#include <stdint.h>\n".toList = b at g2 ⊢
  generalize "\n\n".toList = c at g3 ⊢
  refine All2.append (All2.append (All2.append (All2.append (All2.append ?_ ?_) ?_) ?_) ?_) ?_
  · exact .cons (.fixed _ (.inr (hline _))) .nil
  · split
    · exact .nil
    · exact All2.append (All2.append (.cons (flag_kept h1 g1) (.cons (flag_kept h2 g2) .nil)) hi)
        (.cons (.each _ fun n => getLast?_flatMap_line rfl) .nil)
  · split
    · exact .cons (.each _ fun n => getLast?_flatMap_line rfl) (.cons (flag_kept h3 rfl) .nil)
    · exact .nil
  · split
    · exact .nil
    · exact .cons (.fixed _ (.inr rfl)) (.cons (.each _ fun n => getLast?_flatMap_line g3) .nil)
  · split
    · exact .cons (.each _ fun n => getLast?_flatMap_line rfl) (.cons (flag_kept h4 rfl) .nil)
    · exact .nil
  · exact .cons (.fixed _ (.inr (by unfold guardClose; exact hline _))) .nil

theorem lines_kept {l l' : List String} (h : l.Sublist l') (g : String → Text) : ∃ ps ps', All2 KeptChunk ps ps' ∧
    ∀ k, layout ps k = (l.flatMap fun x => g x ++ ['\n']) ∧ layout ps' k = l'.flatMap fun x => g x ++ ['\n'] := by
  have hline : ∀ x : Text, (x ++ ['\n']).getLast? = some '\n' := fun x => by rw [List.getLast?_append]; rfl
  induction h with
  | slnil => exact ⟨[], [], .nil, fun k => ⟨rfl, rfl⟩⟩
  | @cons l l' x _ ih =>
    obtain ⟨ps, ps', h1, h2⟩ := ih
    exact ⟨.fixed [] :: ps, .fixed (g x ++ ['\n']) :: ps', .cons (.new _ (hline _)) h1, fun k =>
      ⟨by rw [layout_fixed, (h2 k).1, List.nil_append], by rw [layout_fixed, (h2 k).2, List.flatMap_cons]⟩⟩
  | @cons_cons l l' x _ ih =>
    obtain ⟨ps, ps', h1, h2⟩ := ih
    exact ⟨.fixed (g x ++ ['\n']) :: ps, .fixed (g x ++ ['\n']) :: ps', .cons (.fixed _ (.inr (hline _))) h1, fun k =>
      ⟨by rw [layout_fixed, (h2 k).1, List.flatMap_cons], by rw [layout_fixed, (h2 k).2, List.flatMap_cons]⟩⟩

theorem imports_kept {m m' : Module} (h : Added m m') (fileOf : String → Text) : ∃ ps ps', All2 KeptChunk ps ps' ∧
    ∀ k, layout ps k = ((importIncludes fileOf m).flatMap fun x => x ++ ['\n']) ∧
      layout ps' k = (importIncludes fileOf m').flatMap fun x => x ++ ['\n'] := by
  obtain ⟨ps, ps', h1, h2⟩ := lines_kept h.imports fun n => "#include \"".toList ++ fileOf n ++ ['"']
  unfold importIncludes
  rw [h.commentImport]
  generalize "#include \"".toList = a at h2 ⊢
  suffices key : ∀ cs : List Text, ∃ ps ps', All2 KeptChunk ps ps' ∧
      ∀ k, layout ps k = ((cs ++ m.imports.map fun i => a ++ fileOf i.module ++ ['"']).flatMap fun x => x ++ ['\n']) ∧
        layout ps' k = (cs ++ m'.imports.map fun i => a ++ fileOf i.module ++ ['"']).flatMap fun x => x ++ ['\n'] by
    cases m.commentImport <;> exact key _
  intro cs
  refine ⟨.fixed (cs.flatMap fun x => x ++ ['\n']) :: ps, .fixed (cs.flatMap fun x => x ++ ['\n']) :: ps',
    .cons (.fixed _ (getLast?_flatMap_line rfl)) h1, fun k => ?_⟩
  rw [layout_fixed, layout_fixed, (h2 k).1, (h2 k).2, List.flatMap_append, List.flatMap_append, List.flatMap_map,
    List.flatMap_map, List.flatMap_map, List.flatMap_map]
  exact ⟨rfl, rfl⟩

theorem any_sub {α} {l l' : List α} (h : ∀ x ∈ l, x ∈ l') {p : α → Bool} (hp : l.any p = true) : l'.any p = true := by
  rw [List.any_eq_true] at hp ⊢
  obtain ⟨x, hx, hpx⟩ := hp
  exact ⟨x, h x hx, hpx⟩

theorem flatMap_sub_ne {α β} {l l' : List α} (h : ∀ x ∈ l, x ∈ l') {f : α → List β} (hp : l.flatMap f ≠ []) :
    l'.flatMap f ≠ [] := by
  intro h0
  apply hp
  rw [List.flatMap_eq_nil_iff] at h0 ⊢
  exact fun x hx => h0 x (h x hx)

theorem header_kept {m m' : Module} (ha : Added m m') {fileOf : String → Text} {doc : Text} {f : String → CData}
    {l l' : List String} {cd cd' : CData} (hl : l.Perm (m.defs.map Def.name)) (hl' : l'.Perm (m'.defs.map Def.name))
    (h : Mixed (importIncludes fileOf m) doc f l cd) (h' : Mixed (importIncludes fileOf m') doc f l' cd')
    (ty : HeaderType) (fn : Text) :
    Kept (m.defs.map Def.name) (m'.defs.map Def.name) (headerText ty fn cd) (headerText ty fn cd') := by
  have hs : ∀ x ∈ l, x ∈ l' := by
    intro x hx
    obtain ⟨d, hd, rfl⟩ := List.mem_map.1 (hl.mem_iff.1 hx)
    exact hl'.mem_iff.2 (List.mem_map_of_mem (ha.defs d hd))
  obtain ⟨ps, ps', h1, h2⟩ := imports_kept ha fileOf
  refine ⟨_, _, l, l', keptParts_all h1 ?_ ?_ ?_ ?_ f, hl, hl', kept_layout h ty fn ps (h2 l).1, kept_layout h' ty fn ps' (h2 l').2⟩
  · rw [h.stdbool, h'.stdbool]; exact any_sub hs
  · rw [h.stdint, h'.stdint]; exact any_sub hs
  · rw [h.defines, h'.defines]
    simp only [decide_eq_true_eq]
    exact flatMap_sub_ne hs
  · rw [h.predefs, h'.predefs]
    simp only [decide_eq_true_eq]
    exact flatMap_sub_ne hs

end Apg
