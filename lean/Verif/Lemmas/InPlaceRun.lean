import Verif.Lemmas.InPlaceOrder

/-!
# Runs with simple types in place of their names
-/

namespace Apg

open Spec

variable {σ : String → Option AType}

/-! ### Facts on the types given -/

/-- Facts on the types given, for a bundle. -/
structure Placed (ds : List Def) (σ : String → Option AType) : Prop where
  simple : ∀ n t, σ n = some t → ∃ c, Def.simple n c t ∈ ds
  given : Given σ
  free : NumbersFree ds
  cap : ∀ d ∈ ds, isNameCapital d.name = true
  nodup : (ds.map Def.name).Nodup

theorem placed_of {raw : List Module} {b : Bundle} (hg : ∀ m ∈ raw, GrammarModule m) (hb : buildFromTexts raw = .ok b)
    (ht : GivesTypes (defsOf raw) σ) (hn : ∀ n t, σ n = some t → NumberType t) : Placed b.defs σ := by
  obtain ⟨ms, h1, h2, h3⟩ := buildFromTexts_ok.1 hb
  have key : ∀ n c t, Def.simple n c t ∈ defsOf raw → Def.simple n c t ∈ b.defs ∧ checkTypeObj t = .ok () := by
    intro n c t hd
    obtain ⟨m, hm, hd⟩ := List.mem_flatMap.1 hd
    obtain ⟨m', hm', hmm⟩ := all2_mem_left (processModules_ok.1 h1) hm
    obtain ⟨_, _, ds, k1, k2, _⟩ := processModule_ok.1 hmm
    obtain ⟨d', hd', hp⟩ := all2_mem_left (processDefs_ok.1 k1) hd
    obtain ⟨_, _, _, _, p5, _⟩ := processDef_ok hp
    obtain ⟨rfl, p6, _⟩ := p5 n c t rfl
    refine ⟨?_, p6⟩
    have : m' ∈ b.modules := by rw [build_modules h2]; exact hm'
    exact mem_defs_of_module this (by rw [k2]; exact hd')
  have hcap : ∀ d ∈ b.defs, isNameCapital d.name = true := fun d hd => def_capital (accepted_grammar hg hb d hd).1
  refine ⟨fun n t h => ?_, ⟨fun n t h => ?_, hn⟩, fun d hd => ⟨fun h => ?_, fun h => ?_⟩, hcap, accepted_nodup hb⟩
  · obtain ⟨c, hc⟩ := ht n t h
    exact ⟨c, (key n c t hc).1⟩
  · obtain ⟨c, hc⟩ := ht n t h
    exact (key n c t hc).2
  · have := hcap d hd
    rw [h] at this
    exact absurd this (by decide)
  · have := hcap d hd
    rw [h] at this
    exact absurd this (by decide)

theorem lastDef_name_none {ds : List Def} {n : String} (h : ∀ d ∈ ds, d.name ≠ n) : lastDef ds n = none := by
  cases hl : lastDef ds n with
  | none => rfl
  | some d => exact absurd (lastDef_some hl).2 (h d (lastDef_some hl).1)

theorem Placed.number_none {ds : List Def} (hp : Placed ds σ) {n : String} {t : AType} (h : σ n = some t) :
    resolveType (ds.map (inPlaceDef σ)) t = none := by
  rw [resolveType_inPlace]
  obtain ⟨k, lo, hi, rfl, hk⟩ := hp.given.number n t h
  have : lastDef ds k = none := by
    rcases hk with rfl | rfl
    · exact lastDef_name_none fun d hd => (hp.free d hd).1
    · exact lastDef_name_none fun d hd => (hp.free d hd).2
  simp only [resolveType, this, Option.map_none]

theorem Placed.alias {ds : List Def} (hp : Placed ds σ) {n : String} {t : AType} (h : σ n = some t) :
    ∃ c, Def.simple n c t ∈ ds ∧ lastDef ds n = some (.simple n c t) := by
  obtain ⟨c, hc⟩ := hp.simple n t h
  exact ⟨c, hc, lastDef_of_mem hp.nodup hc⟩

/-! ### The grammar -/

theorem grammar_inPlace {raw : List Module} (hg : ∀ m ∈ raw, GrammarModule m) (ht : GivesTypes (defsOf raw) σ) :
    ∀ m ∈ raw.map (inPlace σ), GrammarModule m := by
  intro m' hm'
  obtain ⟨m, hm, rfl⟩ := List.mem_map.1 hm'
  obtain ⟨h1, h2, h3, h4⟩ := hg m hm
  refine ⟨h1, fun h => h2 (List.map_eq_nil_iff.1 h), fun d' hd' => ?_, h4⟩
  obtain ⟨d, hd, rfl⟩ := List.mem_map.1 hd'
  have hgd := h3 d hd
  cases d with
  | seq n c ms =>
    obtain ⟨g1, g2, g3⟩ := hgd
    refine ⟨g1, fun h => g2 (List.map_eq_nil_iff.1 h), fun k' hk' => ?_⟩
    obtain ⟨k, hk, rfl⟩ := List.mem_map.1 hk'
    obtain ⟨k1, k2, k3⟩ := g3 k hk
    refine ⟨k1, ?_, k3⟩
    rcases inPlaceType_cases σ k.type with e | ⟨n, lo, hi, t', _, e1, e2⟩
    · simp only [inPlaceMember, e]; exact k2
    · simp only [inPlaceMember, e2]
      obtain ⟨c, hc⟩ := ht n t' e1
      obtain ⟨m1, hm1, hc⟩ := List.mem_flatMap.1 hc
      exact ((hg m1 hm1).2.2.1 _ hc).2
  | choice => exact hgd
  | enum => exact hgd
  | simple => exact hgd

theorem comments_inPlace {raw : List Module} (hg : ∀ m ∈ raw, GrammarComments m) :
    ∀ m ∈ raw.map (inPlace σ), GrammarComments m := by
  intro m' hm'
  obtain ⟨m, hm, rfl⟩ := List.mem_map.1 hm'
  obtain ⟨h1, h2⟩ := hg m hm
  refine ⟨h1, fun d' hd' => ?_⟩
  obtain ⟨d, hd, rfl⟩ := List.mem_map.1 hd'
  have := h2 d hd
  cases d with
  | seq n c ms =>
    simp only [commentsOf, inPlaceDef, List.filterMap_map] at this ⊢
    exact this
  | choice => exact this
  | enum => exact this
  | simple => exact this

theorem input_inPlace {raw : List Module} {cfg : List String} {b : Bundle} (hi : Input raw cfg b)
    (ht : GivesTypes (defsOf raw) σ) (hn : ∀ n t, σ n = some t → NumberType t) :
    Input (raw.map (inPlace σ)) cfg (inPlaceBundle σ b) := by
  have hp := placed_of hi.grammar (buildFromTexts_of_config hi.accepted) ht hn
  exact ⟨grammar_inPlace hi.grammar ht, comments_inPlace hi.comments, buildFromConfig_inPlace hp.given hp.free hi.accepted⟩

/-! ### Types of fields -/

theorem mapNumeric_std {t : AType} {m : Mapped} (h : mapNumeric t = .ok m) :
    (m.stdint || posixCTypes.contains m.ctype) = m.stdint := by
  unfold mapNumeric at h
  split at h
  · cases h
  rename_i c _
  simp only [bind_ok] at h
  obtain ⟨size, _, h⟩ := h
  split at h
  · cases h
  split at h
  · cases h
  split at h
  · split at h
    · cases h; rfl
    · cases h
      show (false || posixCTypes.contains "unsigned long long".toList) = false
      decide
  · cases h
    show (false || posixCTypes.contains c.text) = false
    cases c <;> decide

theorem mapMember_number {ds : List Def} {t : AType} (h : NumberType t) : mapMember ds t = mapNumeric t := by
  obtain ⟨n, lo, hi, rfl, hn⟩ := h
  unfold mapMember
  refine if_pos ?_
  rcases hn with rfl | rfl
  · left; show cName "INTEGER" = _; decide
  · right; show cName "REAL" = _; decide

theorem fieldType_number {ds simple : List Def} (hcap : ∀ d ∈ simple, isNameCapital d.name = true) {t : AType}
    (h : NumberType t) : fieldType ds simple t = mapNumeric t := by
  cases hm : mapNumeric t with
  | error e =>
    unfold fieldType
    rw [mapMember_number h, hm]
    rfl
  | ok m =>
    rw [fieldType_lower_of hcap ((mapMember_number h).trans hm) (mapNumeric_lower hm), mapNumeric_std hm]

theorem mapNumeric_bool {t : AType} {m : Mapped} (h : mapNumeric t = .ok m) : m = ⟨m.bits, m.ctype, false, m.stdint⟩ := by
  unfold mapNumeric at h
  split at h
  · cases h
  simp only [bind_ok] at h
  obtain ⟨size, _, h⟩ := h
  split at h
  · cases h
  split at h
  · cases h
  split at h
  · split at h <;> cases h <;> rfl
  · cases h; rfl

/-- A field whose type is a name of a simple type has the type of that simple type. -/
theorem fieldType_name {ds simple : List Def} (hcap : ∀ d ∈ simple, isNameCapital d.name = true)
    (hsub : ∀ d ∈ simple, d ∈ ds) (hnd : (ds.map Def.name).Nodup) {n : String} {c : Option Comment} {t : AType}
    (hn : isNameCapital n = true) (hnp : ∀ ct, ¬ Posix n ct) (hd : Def.simple n c t ∈ simple) (lo hi : Option Num) :
    fieldType ds simple (.plain n lo hi) = mapNumeric t := by
  obtain ⟨b1, b2, b3⟩ := cName_not_builtin hn
  have hl : lastDef ds n = some (.simple n c t) := lastDef_of_mem hnd (hsub _ hd)
  have hp : posixCTypes.contains (lowerize (cName n)) = false := by
    cases hp : posixCTypes.contains (lowerize (cName n)) with
    | false => rfl
    | true => exact absurd (lowerize_posix hn hp) (hnp _)
  unfold fieldType mapMember
  simp only [AType.name, b1, b2, b3, or_self, if_false, resolveType, hl, bind, Except.bind, hp, Bool.false_eq_true]
  cases hf : simple.find? (fun d => d.isSimple && cName d.name == cName n) with
  | none => exact absurd rfl (find_simple_named_none hf _ hd rfl)
  | some d =>
    obtain ⟨h1, h2, h3⟩ := find_simple_named hcap hn hf
    have : d = .simple n c t := mem_unique_of_nodup_map hnd (hsub _ h1) (hsub _ hd) h3
    subst this
    simp only [mapSimpleDef]
    cases hm : mapNumeric t with
    | error e => rfl
    | ok m =>
      rw [mapNumeric_bool hm]
      rfl

theorem not_posix {n : String} (h : n ∉ standardNames) : ∀ ct, ¬ Posix n ct := by
  intro ct hp
  cases hp <;> exact h (by decide)

theorem field_inPlace {raw : List Module} {cfg : List String} {b : Bundle} (hi : Input raw cfg b) (hp : Placed b.defs σ)
    (hs : ∀ n t, σ n = some t → n ∉ standardNames) {bm : BMod} (hbm : bm ∈ b.mods) {d : Def} (hd : d ∈ bm.mod.defs)
    {k : Member} (hk : k ∈ d.members) :
    fieldType (b.defs.map (inPlaceDef σ)) ((simpleList bm).map (inPlaceDef σ)) (inPlaceMember σ k).type =
      fieldType b.defs (simpleList bm) k.type := by
  rw [fieldType_inPlace]
  rcases inPlaceType_cases σ k.type with e | ⟨n, lo, hi1, t', e0, e1, e2⟩
  · simp only [inPlaceMember, e]
  · have he := bundle_env hi hbm
    obtain ⟨c, hc, _⟩ := hp.alias e1
    have hcap : isNameCapital n = true := hp.cap _ hc
    have hu : UsesName k.type n := by rw [e0]; exact .plain
    have hmem := (used_simple hi.accepted hbm hd hk hu (capital_not_builtIn hcap)).2 _ hc rfl rfl
    simp only [inPlaceMember, e2]
    rw [e0, fieldType_number he.scap (hp.given.number _ _ e1),
      fieldType_name he.scap (fun d hd => (he.sub d hd).1) hp.nodup hcap (not_posix (hs _ _ e1)) hmem]

/-! ### Sizes -/

theorem sizeDef_inPlace {ds : List Def} (hp : Placed ds σ) (fuel : Nat) : ∀ d s, sizeDef ds fuel d = .ok s →
    sizeDef (ds.map (inPlaceDef σ)) fuel (inPlaceDef σ d) = .ok s := by
  induction fuel with
  | zero => intro d s h; cases h
  | succ fuel ih =>
    intro d s h
    cases d with
    | seq n c ms =>
      simp only [sizeDef, inPlaceDef] at h ⊢
      induction ms generalizing s with
      | nil => exact h
      | cons m ms ihm =>
        simp only [sumSizes, bind_ok, pure_ok, List.map_cons] at h ⊢
        obtain ⟨a, h1, r, h2, rfl⟩ := h
        refine ⟨a, ?_, r, ihm r h2, rfl⟩
        rcases inPlaceType_cases σ m.type with e | ⟨n, lo, hi1, t', e0, e1, e2⟩
        · simp only [inPlaceMember, e, resolveType_inPlace]
          cases hr : resolveType ds m.type with
          | none => rw [hr] at h1; exact h1
          | some d => rw [hr] at h1; exact ih d a h1
        · simp only [inPlaceMember, e2, hp.number_none e1]
          obtain ⟨c, hc, hl⟩ := hp.alias e1
          rw [e0] at h1
          simp only [resolveType, hl] at h1
          cases fuel with
          | zero => cases h1
          | succ fuel => exact h1
    | choice => exact h
    | enum => exact h
    | simple => exact h

theorem sizeMember_inPlace {ds : List Def} (hp : Placed ds σ) {fuel : Nat} {m : Member} {s : Int}
    (h : sizeMember ds fuel m = .ok s) : sizeMember (ds.map (inPlaceDef σ)) fuel (inPlaceMember σ m) = .ok s := by
  unfold sizeMember at h ⊢
  rcases inPlaceType_cases σ m.type with e | ⟨n, lo, hi1, t', e0, e1, e2⟩
  · simp only [inPlaceMember, e, resolveType_inPlace]
    cases hr : resolveType ds m.type with
    | none => rw [hr] at h; exact h
    | some d => rw [hr] at h; exact sizeDef_inPlace hp fuel d s h
  · simp only [inPlaceMember, e2, hp.number_none e1]
    obtain ⟨c, hc, hl⟩ := hp.alias e1
    rw [e0] at h
    simp only [resolveType, hl] at h
    cases fuel with
    | zero => cases h
    | succ fuel => exact h

/-! ### Binary data -/

theorem alias_ctype {n : String} (hs : n ∉ standardNames) (hcap : isNameCapital n = true) (lo hi : Option Num) :
    (AType.plain n lo hi).cType = none := by
  have h0 : posixRange n = none := by
    unfold posixRange
    split <;> first | exact absurd (by decide) hs | rfl
  have h1 : n ≠ "INTEGER" := by rintro rfl; exact absurd hcap (by decide)
  have h2 : n ≠ "REAL" := by rintro rfl; exact absurd hcap (by decide)
  have h3 : n ≠ "BOOLEAN" := by rintro rfl; exact absurd hcap (by decide)
  have hc : classify n lo hi false = .ok none := by
    unfold classify
    simp only [h0, Option.isSome_none, Bool.false_eq_true, if_false, h1, h2, h3]
    cases lo <;> cases hi <;> rfl
  unfold AType.cType asn1Type
  simp only [AType.lo, AType.hi, AType.name, hc]
  cases lo with
  | none => rfl
  | some b =>
    cases hi with
    | none => rfl
    | some e =>
      simp only
      split
      · rename_i h
        split at h
        · cases h
        · cases h; rfl
      · rfl

/-- Entries of the tables for the members. -/
def SpecAlike (σ : String → Option AType) (x x' : String × BinSpec) : Prop :=
  x'.1 = x.1 ∧ (x'.2 = x.2 ∨ (x.2.ctype = none ∧ ∃ t, σ x.2.typeName = some t))

theorem binMembers_inPlace {ds : List Def} (hp : Placed ds σ) (hs : ∀ n t, σ n = some t → n ∉ standardNames) {fuel : Nat}
    (ms : List Member) : ∀ {l}, binMembers ds fuel ms = .ok l →
    ∃ l', binMembers (ds.map (inPlaceDef σ)) fuel (ms.map (inPlaceMember σ)) = .ok l' ∧ All2 (SpecAlike σ) l l' := by
  induction ms with
  | nil => intro l h; cases h; exact ⟨[], rfl, .nil⟩
  | cons m ms ih =>
    intro l h
    rw [List.map_cons]
    unfold binMembers at h ⊢
    rw [show (inPlaceMember σ m).comps = m.comps from rfl]
    cases hc : m.comps with
    | some c =>
      rw [hc] at h
      exact ih h
    | none =>
      rw [hc] at h
      simp only [bind_ok, Except.ok.injEq] at h
      obtain ⟨size, h1, r, h2, rfl⟩ := h
      obtain ⟨r', k1, k2⟩ := ih h2
      refine ⟨(m.key, ⟨(inPlaceMember σ m).type.cType, size, (inPlaceMember σ m).type.name⟩) :: r', ?_, .cons ?_ k2⟩
      · simp only [bind_ok, Except.ok.injEq]
        exact ⟨size, sizeMember_inPlace hp h1, r', k1, rfl⟩
      · refine ⟨rfl, ?_⟩
        rcases inPlaceType_cases σ m.type with e | ⟨n, lo, hi1, t', e0, e1, e2⟩
        · left; simp only [inPlaceMember, e]
        · right
          obtain ⟨c, hc, _⟩ := hp.alias e1
          simp only [e0]
          exact ⟨alias_ctype (hs _ _ e1) (hp.cap _ hc) lo hi1, t', e1⟩

/-- The tables of the sequences of a module. -/
def TableAlike (σ : String → Option AType) (x x' : String × List (String × BinSpec)) : Prop :=
  x'.1 = x.1 ∧ All2 (SpecAlike σ) x.2 x'.2

theorem binDefs_inPlace {ds : List Def} (hp : Placed ds σ) (hs : ∀ n t, σ n = some t → n ∉ standardNames) {fuel : Nat}
    (l : List Def) : ∀ {r}, binDefs ds fuel l = .ok r →
    ∃ r', binDefs (ds.map (inPlaceDef σ)) fuel (l.map (inPlaceDef σ)) = .ok r' ∧ All2 (TableAlike σ) r r' := by
  induction l with
  | nil => intro r h; cases h; exact ⟨[], rfl, .nil⟩
  | cons d l ih =>
    intro r h
    cases d with
    | seq n c ms =>
      simp only [binDefs, List.map_cons, inPlaceDef, bind_ok, Except.ok.injEq] at h ⊢
      obtain ⟨s, h1, r1, h2, rfl⟩ := h
      obtain ⟨s', k1, k2⟩ := binMembers_inPlace hp hs ms h1
      obtain ⟨r1', k3, k4⟩ := ih h2
      exact ⟨_, ⟨s', k1, r1', k3, rfl⟩, .cons ⟨rfl, k2⟩ k4⟩
    | choice => exact ih h
    | enum => exact ih h
    | simple => exact ih h

theorem lastVal_alike {α : Type} {R : String × α → String × α → Prop} (hR : ∀ x x', R x x' → x'.1 = x.1)
    {l l' : List (String × α)} (h : All2 R l l') (n : String) :
    (lastVal l n = none ∧ lastVal l' n = none) ∨ ∃ v v', lastVal l n = some v ∧ lastVal l' n = some v' ∧ R (n, v) (n, v') := by
  induction h with
  | nil => exact .inl ⟨rfl, rfl⟩
  | @cons x x' l l' hx _ ih =>
    obtain ⟨k, v⟩ := x
    obtain ⟨k', v'⟩ := x'
    have hk : k' = k := hR _ _ hx
    subst hk
    rw [lastVal, lastVal]
    rcases ih with ⟨h1, h2⟩ | ⟨w, w', h1, h2, h3⟩
    · rw [h1, h2]
      by_cases hn : k' = n
      · subst hn
        exact .inr ⟨v, v', if_pos rfl, if_pos rfl, hx⟩
      · exact .inl ⟨if_neg hn, if_neg hn⟩
    · exact .inr ⟨w, w', by rw [h1], by rw [h2], h3⟩

theorem binLookup_inPlace {defs defs' : List (String × List (String × BinSpec))} (h : All2 (TableAlike σ) defs defs')
    {tn k : String} {s : BinSpec} (hb : binLookup defs tn k = .ok s) :
    ∃ s', binLookup defs' tn k = .ok s' ∧ SpecAlike σ (k, s) (k, s') := by
  unfold binLookup at hb ⊢
  rcases lastVal_alike (fun _ _ h => h.1) h tn with ⟨h1, h2⟩ | ⟨v, v', h1, h2, h3⟩
  · rw [h1] at hb; cases hb
  · rw [h1] at hb
    rw [h2]
    simp only at hb ⊢
    rcases lastVal_alike (fun _ _ h => h.1) h3.2 k with ⟨h4, h5⟩ | ⟨w, w', h4, h5, h6⟩
    · rw [h4] at hb; cases hb
    · rw [h4] at hb
      cases hb
      rw [h5]
      exact ⟨w', rfl, h6⟩

theorem compBytes_unknown {defs : List (String × List (String × BinSpec))} {e : Option Endian} {tn : String} {c : Comps}
    {r : List (List UInt8)} (hn : lastVal defs tn = none) (h : compBytes defs e tn c = .ok r) : c = .nil ∧ r = [] := by
  cases c with
  | nil => cases h; exact ⟨rfl, rfl⟩
  | leaf k v rest => simp only [compBytes, binLookup, hn, bind, Except.bind] at h; cases h
  | node k c rest => simp only [compBytes, binLookup, hn, bind, Except.bind] at h; cases h

theorem compBytes_inPlace {defs defs' : List (String × List (String × BinSpec))} (h : All2 (TableAlike σ) defs defs')
    (hu : ∀ n t, σ n = some t → lastVal defs n = none) (e : Option Endian) (c : Comps) : ∀ tn r,
    compBytes defs e tn c = .ok r → compBytes defs' e tn c = .ok r := by
  induction c with
  | nil => intro tn r h; exact h
  | leaf k v rest ih =>
    intro tn r hc
    simp only [compBytes, bind_ok] at hc ⊢
    obtain ⟨s, p1, x, p2, y, p3, p4⟩ := hc
    obtain ⟨s', q1, _, q2⟩ := binLookup_inPlace h p1
    rcases q2 with q2 | ⟨q2, _⟩
    · exact ⟨s', q1, x, by rw [show s' = s from q2]; exact p2, y, ih tn y p3, p4⟩
    · unfold leafBytes at p2
      rw [show s.ctype = none from q2] at p2
      cases p2
  | node k c rest ih1 ih2 =>
    intro tn r hc
    simp only [compBytes, bind_ok] at hc ⊢
    obtain ⟨s, p1, x, p2, y, p3, p4⟩ := hc
    obtain ⟨s', q1, _, q2⟩ := binLookup_inPlace h p1
    refine ⟨s', q1, x, ?_, y, ih2 tn y p3, p4⟩
    rcases q2 with q2 | ⟨_, t, q2⟩
    · rw [show s' = s from q2]; exact ih1 _ _ p2
    · obtain ⟨rfl, rfl⟩ := compBytes_unknown (hu _ _ q2) p2
      rfl

theorem table_no_alias {ds : List Def} (hp : Placed ds σ) {fuel : Nat} {l : List Def} (hl : ∀ d ∈ l, d ∈ ds) {defs}
    (h : binDefs ds fuel l = .ok defs) : ∀ n t, σ n = some t → lastVal defs n = none := by
  intro n t hn
  cases hv : lastVal defs n with
  | none => rfl
  | some v =>
    obtain ⟨c, ms, h1, _⟩ := binDefs_seq h (lastVal_mem hv)
    obtain ⟨c', hc'⟩ := hp.simple n t hn
    have := mem_unique_of_nodup_map hp.nodup (hl _ h1) hc' rfl
    cases this

theorem clauseBytes_inPlace {ds : List Def} (hp : Placed ds σ) (hs : ∀ n t, σ n = some t → n ∉ standardNames) {fuel : Nat}
    {e : Option Endian} {mod : Module} (hm : ∀ d ∈ mod.defs, d ∈ ds) {m : Member} {c : Comps} {bss : List (List UInt8)}
    (h : ClauseBytes ds fuel e mod (m, c) bss) :
    ClauseBytes (ds.map (inPlaceDef σ)) fuel e (inPlace σ mod) (inPlaceMember σ m, c) bss := by
  obtain ⟨defs, h1, h2⟩ := h
  obtain ⟨defs', k1, k2⟩ := binDefs_inPlace hp hs mod.defs h1
  refine ⟨defs', k1, ?_⟩
  have hu := table_no_alias hp hm h1
  have h3 := compBytes_inPlace k2 hu e c _ _ h2
  rcases inPlaceType_cases σ m.type with e | ⟨n, lo, hi1, t', e0, e1, e2⟩
  · simp only [inPlaceMember, e]; exact h3
  · simp only [e0, AType.name] at h2
    obtain ⟨rfl, rfl⟩ := compBytes_unknown (hu _ _ e1) h2
    rfl

/-! ### Parts of headers -/

/-- Back ends that treat the module with names and with types in their place alike. -/
structure PlaceBackend (σ : String → Option AType) (be be' : Backend) (mod : Module) : Prop where
  note : ∀ n c t r, Def.simple n c t ∈ mod.defs → be.note n t = .ok r → ∃ r', be'.note n t = .ok r'
  handler : ∀ cn m e, m.comps ≠ none → be.handler cn m mod = .ok e → be'.handler cn (inPlaceMember σ m) (inPlace σ mod) = .ok e

theorem convertMembers_inPlace (hn : ∀ n t, σ n = some t → NumberType t) {be be' : Backend} {mod : Module} (hb : PlaceBackend σ be be' mod) {ds ds' simple simple' : List Def}
    {cn : Text} (ms : List Member)
    (hf : ∀ m ∈ ms, fieldType ds' simple' (inPlaceMember σ m).type = fieldType ds simple m.type) : ∀ cd r,
    convertMembers be.handler ds simple mod cn ms cd = .ok r →
    convertMembers be'.handler ds' simple' (inPlace σ mod) cn (ms.map (inPlaceMember σ)) cd = .ok r := by
  induction ms with
  | nil => intro cd r h; exact h
  | cons m ms ih =>
    intro cd r h
    simp only [convertMembers, List.map_cons, bind_ok] at h ⊢
    obtain ⟨f, h1, cd1, h2, r1, h3, h4⟩ := h
    refine ⟨f, (hf m (List.Mem.head _)).trans h1, cd1, ?_, r1, ih (fun m hm => hf m (List.Mem.tail _ hm)) _ _ h3, ?_⟩
    · show (match m.comps with | none => _ | some _ => _) = _
      cases hc : m.comps with
      | none => rw [hc] at h2; exact h2
      | some c =>
        rw [hc] at h2
        simp only [bind_ok] at h2 ⊢
        obtain ⟨e, q1, q2⟩ := h2
        exact ⟨e, hb.handler cn m e (by rw [hc]; simp) q1, q2⟩
    · rw [← h4]
      have : fieldLine (inPlaceMember σ m) f = fieldLine m f := by
        unfold fieldLine
        rcases inPlaceType_cases σ m.type with e | ⟨n, lo, hi1, t', e0, e1, e2⟩
        · simp only [inPlaceMember, e]
        · obtain ⟨n', lo', hi', rfl, _⟩ := hn n t' e1
          simp only [inPlaceMember, e2]
          rw [e0]
      rw [this]
      rfl

/-- The part of a header for a definition that is not simple. -/
theorem defPart_inPlace (hn : ∀ n t, σ n = some t → NumberType t) {be be' : Backend} {mod : Module}
    (hb : PlaceBackend σ be be' mod) {ds ds' simple simple' : List Def} {d : Def}
    (hf : ∀ m ∈ d.members, fieldType ds' simple' (inPlaceMember σ m).type = fieldType ds simple m.type)
    (hs : d.isSimple = false) {p : CData} (h : defPart be ds simple mod d = .ok p) :
    defPart be' ds' simple' (inPlace σ mod) (inPlaceDef σ d) = .ok p := by
  cases d with
  | simple => cases hs
  | seq n c ms =>
    simp only [defPart, convertSequence, inPlaceDef, bind_ok] at h ⊢
    obtain ⟨r, h1, h2⟩ := h
    exact ⟨r, convertMembers_inPlace hn hb ms hf _ _ h1, h2⟩
  | enum => exact h
  | choice => exact h

theorem convertDefs_all {be : Backend} {ds simple : List Def} {mod : Module} (l : List Def)
    (h : ∀ d ∈ l, ∃ p, defPart be ds simple mod d = .ok p) : ∀ cd, ∃ cd', convertDefs be ds simple mod cd l = .ok cd' := by
  induction l with
  | nil => intro cd; exact ⟨cd, rfl⟩
  | cons d l ih =>
    intro cd
    obtain ⟨p, hp⟩ := h d (List.Mem.head _)
    have : ∃ cd1, convertDef be ds simple mod cd d = .ok cd1 := by
      cases d with
      | simple n c t =>
        simp only [defPart, bind_ok] at hp
        obtain ⟨r, h1, _⟩ := hp
        exact ⟨{ cd with includes := cd.includes ++ r }, by simp only [convertDef, h1, bind, Except.bind]⟩
      | seq n c ms =>
        simp only [defPart] at hp
        exact ⟨cd.extend p, by simp only [convertDef, hp, bind, Except.bind]⟩
      | enum => exact ⟨_, rfl⟩
      | choice => exact ⟨_, rfl⟩
    obtain ⟨cd1, h1⟩ := this
    obtain ⟨cd', h2⟩ := ih (fun d hd => h d (List.Mem.tail _ hd)) cd1
    exact ⟨cd', by simp only [convertDefs, h1, bind, Except.bind, h2]⟩

theorem moduleData_inPlace (hn : ∀ n t, σ n = some t → NumberType t) {be be' : Backend} {bm : BMod}
    (hb : PlaceBackend σ be be' bm.mod) {fuel : Nat} {ds : List Def}
    (hf : ∀ d ∈ bm.mod.defs, ∀ m ∈ d.members,
      fieldType (ds.map (inPlaceDef σ)) ((simpleList bm).map (inPlaceDef σ)) (inPlaceMember σ m).type =
        fieldType ds (simpleList bm) m.type) {cd : CData} (h : moduleData fuel be ds bm = .ok cd) :
    ∃ cd', moduleData fuel be' (ds.map (inPlaceDef σ)) (inPlaceBMod σ bm) = .ok cd' := by
  obtain ⟨sorted, hs, hp, ps, h1, _⟩ := moduleData_ok h
  obtain ⟨sorted', hs'⟩ := sortDefs_inPlace hn hs
  have hp' : sorted'.Perm (inPlace σ bm.mod).defs := (sortDefs_spec _ _ _ hs').1
  have hall : ∀ d ∈ sorted', ∃ p, defPart be' (ds.map (inPlaceDef σ)) ((simpleList bm).map (inPlaceDef σ))
      (inPlace σ bm.mod) d = .ok p := by
    intro d' hd'
    obtain ⟨d, hd, rfl⟩ := List.mem_map.1 (hp'.mem_iff.1 hd')
    obtain ⟨p, _, hdp⟩ := all2_mem_left h1 (hp.mem_iff.2 hd)
    cases hsd : d.isSimple with
    | false => exact ⟨p, defPart_inPlace hn hb (hf d hd) hsd hdp⟩
    | true =>
      cases d with
      | simple n c t =>
        simp only [defPart, bind_ok] at hdp
        obtain ⟨r, h3, _⟩ := hdp
        obtain ⟨r', h4⟩ := hb.note n c t r hd h3
        exact ⟨{ includes := r' }, by simp only [inPlaceDef, defPart, h4, bind, Except.bind]⟩
      | _ => cases hsd
  obtain ⟨cd', hcd⟩ := convertDefs_all sorted' hall { includes := importIncludes be'.includeFile (inPlace σ bm.mod) }
  refine ⟨{ cd' with headerComment := headerDoc (inPlace σ bm.mod) }, ?_⟩
  unfold moduleData
  rw [show (inPlaceBMod σ bm).mod = inPlace σ bm.mod from rfl, hs']
  simp only [simpleList_inPlace, hcd, bind, Except.bind]

theorem runModules_inPlace {be be' : Backend} (fuel : Nat) (ds : List Def) (bms : List BMod)
    (hb : ∀ bm ∈ bms, ∀ cd, moduleData fuel be ds bm = .ok cd →
      ∃ cd', moduleData fuel be' (ds.map (inPlaceDef σ)) (inPlaceBMod σ bm) = .ok cd')
    (h : (runModules fuel be ds bms).result = .ok ()) :
    (runModules fuel be' (ds.map (inPlaceDef σ)) (bms.map (inPlaceBMod σ))).result = .ok () := by
  induction bms with
  | nil => rfl
  | cons bm bms ih =>
    rw [runModules] at h
    cases hm : moduleData fuel be ds bm with
    | error e => rw [hm] at h; cases h
    | ok cd =>
      rw [hm] at h
      obtain ⟨cd', k1⟩ := hb bm (by simp) _ hm
      rw [List.map_cons, runModules, k1]
      exact ih (fun x hx => hb x (by simp [hx])) h

/-! ### Notes and back ends -/

theorem cfsNote_inPlace (hn : ∀ n t, σ n = some t → NumberType t) {raw : List Module} {cfg : List String} {b : Bundle}
    (hb : buildFromConfig raw cfg = .ok b) (hb' : buildFromConfig (raw.map (inPlace σ)) cfg = .ok (inPlaceBundle σ b))
    {n : String} {t : AType} {r : List Text} (h : cfsNote b n t = .ok r) : ∃ r', cfsNote (inPlaceBundle σ b) n t = .ok r' := by
  obtain ⟨ms, _, _, _, h4, _, _⟩ := buildFromConfig_ok.1 hb
  obtain ⟨ms', _, _, _, h4', _, _⟩ := buildFromConfig_ok.1 hb'
  obtain ⟨u1, u2, u3⟩ := C18_use_map ms b h4
  obtain ⟨v1, v2, v3⟩ := C18_use_map ms' _ h4'
  have hm : ms' = b.modules.map (inPlace σ) := by rw [← build_modules h4', inPlaceBundle_modules]
  have hm0 : ms = b.modules := (build_modules h4).symm
  subst hm0
  subst hm
  cases hf' : (inPlaceBundle σ b).uses.find? (fun u => u.1 = n) with
  | none => exact ⟨[], by simp only [cfsNote, hf']⟩
  | some u =>
    have hu := List.mem_of_find?_eq_some hf'
    have hun : u.1 = n := by simpa using List.find?_some hf'
    obtain ⟨mod, hmod⟩ := List.exists_mem_of_ne_nil _ (v3 u hu).2
    have h6 := (v1 n mod).1 ⟨u.2, by rw [← hun]; exact hu, hmod⟩
    obtain ⟨m', hm', rfl, ⟨d', hd', k', hk', hkc, huse⟩, hnb⟩ := h6
    obtain ⟨m, hm, rfl⟩ := List.mem_map.1 hm'
    obtain ⟨d, hd, rfl⟩ := List.mem_map.1 hd'
    have hpl : UsedPlainly m n := by
      cases d with
      | seq n' c l =>
        obtain ⟨k, hk, rfl⟩ := List.mem_map.1 hk'
        refine ⟨_, hd, k, hk, hkc, ?_⟩
        rcases inPlaceType_cases σ k.type with e | ⟨n1, lo, hi1, t', e0, e1, e2⟩
        · simp only [inPlaceMember, e] at huse; exact huse
        · simp only [inPlaceMember, e2] at huse
          obtain ⟨n2, lo', hi', rfl, h2⟩ := hn n1 t' e1
          cases huse
          exact absurd (by rcases h2 with rfl | rfl <;> simp [BuiltIn]) hnb
      | choice => exact ⟨_, hd, k', hk', hkc, huse⟩
      | simple => cases hk'
      | enum => cases hk'
    obtain ⟨s, hs, _⟩ := (u1 n m.name).2 ⟨m, hm, rfl, hpl, hnb⟩
    have hf : (b.uses.find? (fun u => u.1 = n)).isSome := by
      rw [List.find?_isSome]; exact ⟨_, hs, by simp⟩
    obtain ⟨y, hy⟩ := Option.isSome_iff_exists.1 hf
    unfold cfsNote at h
    rw [hy] at h
    simp only [bind_ok] at h
    obtain ⟨size, h7, _⟩ := h
    simp only [cfsNote, hf', h7, bind, Except.bind]
    exact ⟨_, rfl⟩

theorem place_backend {raw : List Module} {cfg : List String} {b : Bundle} (hi : Input raw cfg b)
    (ht : GivesNumbers (defsOf raw) σ) (fuel : Nat) (cmd : Command) (out : Text) {m : Module} (hm : m ∈ b.modules) :
    PlaceBackend σ (cmd.backend fuel out b) (cmd.backend fuel out (inPlaceBundle σ b)) m := by
  have hi' := input_inPlace hi ht.types ht.number
  have hp := placed_of hi.grammar (buildFromTexts_of_config hi.accepted) ht.types ht.number
  cases cmd with
  | cfs p => exact ⟨fun _ _ _ _ _ h => cfsNote_inPlace ht.number hi.accepted hi'.accepted h, fun _ _ _ _ h => h⟩
  | c p => exact ⟨fun _ _ _ r _ h => ⟨r, h⟩, fun _ _ _ _ h => h⟩
  | binary e =>
    refine ⟨fun _ _ _ r _ h => ⟨r, h⟩, fun cn k x hc h => ?_⟩
    change binHandler b.defs fuel e cn k m = .ok x at h
    change binHandler (inPlaceBundle σ b).defs fuel e cn (inPlaceMember σ k) (inPlace σ m) = .ok x
    rw [inPlaceBundle_defs]
    unfold binHandler at h ⊢
    rw [show (inPlaceMember σ k).comps = k.comps from rfl]
    cases hk : k.comps with
    | none => exact absurd hk hc
    | some c =>
      rw [hk] at h
      simp only [bind_ok] at h ⊢
      obtain ⟨defs, h1, bs, h2, h3⟩ := h
      obtain ⟨defs', h4, h5⟩ := clauseBytes_inPlace hp ht.name (fun d hd => mem_defs_of_module hm hd) ⟨defs, h1, h2⟩
      exact ⟨defs', h4, bs, h5, h3⟩

theorem run_inPlace {fuel : Nat} {cmd : Command} {raw : List Module} {cfg : List String} {out : Text} {b : Bundle}
    (hi : Input raw cfg b) (ht : GivesNumbers (defsOf raw) σ) (h : (cmd.run fuel raw cfg out).result = .ok ()) :
    (cmd.run fuel (raw.map (inPlace σ)) cfg out).result = .ok () := by
  have hi' := input_inPlace hi ht.types ht.number
  have hp := placed_of hi.grammar (buildFromTexts_of_config hi.accepted) ht.types ht.number
  rw [command_run] at h ⊢
  unfold runCommand at h ⊢
  rw [hi.accepted] at h
  rw [hi'.accepted]
  simp only [generate, inPlaceBundle_modules, orderModules_inPlace] at h ⊢
  cases ho : orderModules fuel b.modules with
  | none => rw [ho] at h; cases h
  | some ms =>
    rw [ho] at h
    have hn := config_names_nodup hi.accepted
    have hperm : ms.Perm b.modules := (orderLoop_spec b.modules fuel _ ms ⟨rfl, hn⟩ ⟨by simp, by simp, by simp⟩ ho).1
    simp only [Option.map_some] at h ⊢
    rw [orderedMods_inPlace hn fun m hm => hperm.mem_iff.1 hm, inPlaceBundle_defs]
    refine runModules_inPlace fuel b.defs (orderedMods b ms) (fun bm hbm cd hcd => ?_) h
    obtain ⟨m, _, hm⟩ := List.mem_filterMap.1 hbm
    have hbm' := List.mem_of_find?_eq_some hm
    exact moduleData_inPlace ht.number (place_backend hi ht fuel cmd out (List.mem_map.2 ⟨bm, hbm', rfl⟩))
      (fun d hd k hk => field_inPlace hi hp ht.name hbm' hd hk) hcd

end Apg
