import Verif.Lemmas.AddedRun
import Verif.Lemmas.Shared
import Verif.Lemmas.UnfixRun
import Verif.Lemmas.CosmosSize
import Verif.Spec.Local

/-!
# What a generated file depends on
-/

namespace Apg
open Spec

/-! ### Types of fields -/

/-- The type of the simple definition that gives a C type its meaning. -/
def aliasOf (simple : List Def) (ct : Text) : Option AType :=
  match simple.find? (fun d => d.isSimple && cName d.name == ct) with
  | some (.simple _ _ st) => some st
  | _ => none

theorem aliasOf_some {simple : List Def} (hu : ∀ d ∈ simple, ∀ e ∈ simple, cName d.name = cName e.name → d = e)
    {ct : Text} {t : AType} : aliasOf simple ct = some t ↔ ∃ n c, Def.simple n c t ∈ simple ∧ cName n = ct := by
  have hp : ∀ x : Def, (x.isSimple && cName x.name == ct) = true ↔ x.isSimple = true ∧ cName x.name = ct := by
    intro x; simp only [Bool.and_eq_true, beq_iff_eq]
  unfold aliasOf
  cases h : simple.find? (fun d => d.isSimple && cName d.name == ct) with
  | none =>
    simp only [reduceCtorEq, false_iff]
    rintro ⟨n, c, h1, h2⟩
    exact (List.find?_eq_none.1 h) _ h1 ((hp _).2 ⟨rfl, h2⟩)
  | some x =>
    have hx := List.mem_of_find?_eq_some h
    obtain ⟨p1, p2⟩ := (hp x).1 (List.find?_some (p := fun d : Def => d.isSimple && cName d.name == ct) h)
    cases x with
    | simple n c st =>
      simp only [Option.some.injEq]
      constructor
      · rintro rfl
        exact ⟨n, c, hx, p2⟩
      · rintro ⟨n', c', h1, h2⟩
        have := hu _ hx _ h1 (p2.trans h2.symm)
        cases this
        rfl
    | seq => cases p1
    | enum => cases p1
    | choice => cases p1

theorem fieldType_eq_alias {ds simple : List Def} {t : AType} : fieldType ds simple t = (mapMember ds t >>= fun m =>
    let std := posixCTypes.contains (lowerize m.ctype)
    let ct := if std then lowerize m.ctype else m.ctype
    match aliasOf simple ct with
    | some st => mapSimpleDef st >>= fun m' => .ok ⟨m'.bits, m'.ctype, m.stdbool || m'.stdbool, m.stdint || std || m'.stdint⟩
    | none => .ok ⟨m.bits, ct, m.stdbool, m.stdint || std⟩) := by
  unfold fieldType aliasOf
  cases mapMember ds t with
  | error e => rfl
  | ok m =>
    simp only [bind, Except.bind]
    generalize (if posixCTypes.contains (lowerize m.ctype) then lowerize m.ctype else m.ctype) = ct
    cases h : simple.find? (fun d => d.isSimple && cName d.name == ct) with
    | none => rfl
    | some x => cases x <;> rfl

theorem mapMember_ctype {ds : List Def} {t : AType} {m : Mapped} (h : mapMember ds t = .ok m) :
    (∀ c ∈ m.ctype.head?, reUpper c = false) ∨ m.ctype = cName t.name := by
  unfold mapMember at h
  simp only at h
  split at h
  · exact .inl fun c hc => not_upper_of_lower (mapNumeric_lower h c hc)
  split at h
  · cases h
    left
    dsimp only
    decide
  split at h
  · simp only [bind_ok] at h
    obtain ⟨_, _, h⟩ := h
    cases h
    exact .inr rfl
  · cases h
    exact .inr rfl

theorem fieldType_local {ds ds' simple simple' : List Def} {t : AType} (hm : mapMember ds t = mapMember ds' t)
    (hcap : ∀ d ∈ simple, isNameCapital d.name = true) (hcap' : ∀ d ∈ simple', isNameCapital d.name = true)
    (ha : aliasOf simple (cName t.name) = aliasOf simple' (cName t.name)) :
    fieldType ds simple t = fieldType ds' simple' t := by
  rw [fieldType_eq_alias, fieldType_eq_alias, ← hm]
  cases h : mapMember ds t with
  | error e => rfl
  | ok m =>
    simp only [bind, Except.bind]
    have hlow : ∀ {ct : Text}, (∀ c ∈ ct.head?, reUpper c = false) → aliasOf simple ct = aliasOf simple' ct := by
      intro ct hct
      unfold aliasOf
      rw [find_simple_none hcap hct, find_simple_none hcap' hct]
    have : aliasOf simple (if posixCTypes.contains (lowerize m.ctype) then lowerize m.ctype else m.ctype) =
        aliasOf simple' (if posixCTypes.contains (lowerize m.ctype) then lowerize m.ctype else m.ctype) := by
      split
      · rename_i hp
        have hh : ∀ ct ∈ posixCTypes, ∀ c ∈ ct.head?, reUpper c = false := by decide
        exact hlow (hh _ (List.contains_iff_mem.1 hp))
      · rcases mapMember_ctype h with hl | he
        · exact hlow hl
        · rw [he]; exact ha
    rw [this]

theorem enumSizeBits_least {its : List EnumItem} (hne : its ≠ []) (h : its.map (·.pos) = numbers its.length) {w : Nat}
    (hw : LeastForItems w its) : enumSizeBits its = .ok (w : Int) := by
  refine (enumSize_iff (fun it hit => ?_) _).2 ⟨w, rfl, hne, hw.1, hw.2⟩
  have : it.pos ∈ its.map (·.pos) := List.mem_map.2 ⟨it, hit, rfl⟩
  rw [h] at this
  obtain ⟨i, _, hi⟩ := List.mem_map.1 this
  omega

theorem mapMember_local {ds ds' : List Def} (hnd : (ds.map Def.name).Nodup) (hnd' : (ds'.map Def.name).Nodup)
    (he : ∀ n c its, Def.enum n c its ∈ ds → its ≠ [] ∧ its.map (·.pos) = numbers its.length)
    (he' : ∀ n c its, Def.enum n c its ∈ ds' → its ≠ [] ∧ its.map (·.pos) = numbers its.length)
    {t : AType} (hs : SameMeaning ds ds' t.name) : mapMember ds t = mapMember ds' t := by
  have hnone : ∀ {ds : List Def} {n : String}, (∀ d ∈ ds, d.name ≠ n) → lastDef ds n = none := by
    intro ds n h
    cases hl : lastDef ds n with
    | none => rfl
    | some d => exact absurd (lastDef_some hl).2 (h d (lastDef_some hl).1)
  unfold mapMember
  cases t with
  | str n len => rfl
  | arr e len => rfl
  | plain n lo hi =>
    simp only [resolveType]
    simp only [AType.name] at hs ⊢
    cases hs with
    | builtIn h1 h2 => rw [hnone h1, hnone h2]
    | @simple c c' t h1 h2 =>
      have e1 : lastDef ds n = _ := lastDef_of_mem hnd h1
      have e2 : lastDef ds' n = _ := lastDef_of_mem hnd' h2
      rw [e1, e2]
    | @enum c c' its its' w h1 h2 h3 h4 =>
      have e1 : lastDef ds n = _ := lastDef_of_mem hnd h1
      have e2 : lastDef ds' n = _ := lastDef_of_mem hnd' h2
      rw [e1, e2]
      simp only
      rw [enumSizeBits_least (he _ _ _ h1).1 (he _ _ _ h1).2 h3, enumSizeBits_least (he' _ _ _ h2).1 (he' _ _ _ h2).2 h4]
    | @composite d d' h1 h2 h3 h4 h5 h6 =>
      subst h3
      have e1 := lastDef_of_mem hnd h1
      have e2 := lastDef_of_mem hnd' h2
      rw [h4] at e2
      rw [e1, e2]
      cases d <;> first | exact h5.elim | (cases d' <;> first | exact h6.elim | rfl)

theorem field_local {raw raw' : List Module} {cfg cfg' : List String} {b b' : Bundle} (hi : Input raw cfg b)
    (hi' : Input raw' cfg' b') {bm bm' : BMod} (hbm : bm ∈ b.mods) (hbm' : bm' ∈ b'.mods) {d d' : Def}
    (hd : d ∈ bm.mod.defs) (hd' : d' ∈ bm'.mod.defs) {k : Member} (hk : k ∈ d.members) (hk' : k ∈ d'.members)
    (hs : SameMeaning b.defs b'.defs k.type.name) :
    fieldType b.defs (simpleList bm) k.type = fieldType b'.defs (simpleList bm') k.type := by
  have hbt := buildFromTexts_of_config hi.accepted
  have hbt' := buildFromTexts_of_config hi'.accepted
  have he := bundle_env hi hbm
  have he' := bundle_env hi' hbm'
  refine fieldType_local (mapMember_local he.nodup he'.nodup (fun _ _ _ h => ⟨(accepted_grammar hi.grammar hbt _ h).1.2.1, accepted_positions hbt h⟩)
    (fun _ _ _ h => ⟨(accepted_grammar hi'.grammar hbt' _ h).1.2.1, accepted_positions hbt' h⟩) hs) he.scap he'.scap ?_
  have key : ∀ {raw : List Module} {cfg : List String} {b : Bundle} (_ : Input raw cfg b) {bm : BMod} (_ : bm ∈ b.mods)
      {d : Def} (_ : d ∈ bm.mod.defs) (_ : k ∈ d.members) (t : AType), aliasOf (simpleList bm) (cName k.type.name) = some t ↔
        ∃ c, Def.simple k.type.name c t ∈ b.defs := by
    intro raw cfg b hi bm hbm d hd hk t
    have he := bundle_env hi hbm
    rw [aliasOf_some (simpleList_unique hi.grammar hi.accepted hbm)]
    constructor
    · rintro ⟨n, c, h1, h2⟩
      have h3 := (he.sub _ h1).1
      have hcap : isNameCapital n = true := he.cap _ h3
      have hnb : ¬ BuiltIn k.type.name := by
        intro hbi
        obtain ⟨n1, n2, n3⟩ := cName_not_builtin hcap
        obtain ⟨c, r, _, hc, hup⟩ := capital_head hcap
        rcases hbi with h | h | h | h | h <;> rw [h] at h2
        · exact n3 (h2.trans (by decide))
        · exact n1 (h2.trans (by decide))
        · exact n2 (h2.trans (by decide))
        · rw [hc] at h2
          have : cName "IA5String" = ['c', 'h', 'a', 'r'] := by decide
          rw [this, List.cons.injEq] at h2
          rw [h2.1] at hup
          exact absurd hup (by decide)
        · rw [hc] at h2
          have : cName "NumericString" = ['c', 'h', 'a', 'r'] := by decide
          rw [this, List.cons.injEq] at h2
          rw [h2.1] at hup
          exact absurd hup (by decide)
      obtain ⟨x, hx, hxn⟩ := (used_simple hi.accepted hbm hd hk (usesName_name _) hnb).1
      have hcx := he.cap x hx
      rw [hxn] at hcx
      have hnn : n = k.type.name := cName_inj (Or.inr hcap) (Or.inr hcx) h2
      rw [← hnn]
      exact ⟨c, h3⟩
    · rintro ⟨c, h1⟩
      have hcap : isNameCapital k.type.name = true := he.cap _ h1
      exact ⟨_, c, (used_simple hi.accepted hbm hd hk (usesName_name _) (capital_not_builtIn hcap)).2 _ h1 rfl rfl, rfl⟩
  have hall : ∀ t, aliasOf (simpleList bm) (cName k.type.name) = some t ↔ aliasOf (simpleList bm') (cName k.type.name) = some t := by
    intro t
    rw [key hi hbm hd hk, key hi' hbm' hd' hk']
    have hl := fun c (h : Def.simple k.type.name c t ∈ b.defs) => lastDef_of_mem he.nodup h
    cases hs with
    | builtIn h1 h2 => exact ⟨fun ⟨c, h⟩ => absurd rfl (h1 _ h), fun ⟨c, h⟩ => absurd rfl (h2 _ h)⟩
    | @simple c c' t' h1 h2 =>
      constructor
      · rintro ⟨c, h⟩
        have := mem_unique_of_nodup_map he.nodup h h1 rfl
        cases this
        exact ⟨_, h2⟩
      · rintro ⟨c, h⟩
        have := mem_unique_of_nodup_map he'.nodup h h2 rfl
        cases this
        exact ⟨_, h1⟩
    | enum h1 h2 _ _ =>
      constructor
      · rintro ⟨c, h⟩
        have := mem_unique_of_nodup_map he.nodup h h1 rfl
        cases this
      · rintro ⟨c, h⟩
        have := mem_unique_of_nodup_map he'.nodup h h2 rfl
        cases this
    | @composite d d' h1 h2 h3 h4 h5 h6 =>
      constructor
      · rintro ⟨c, h⟩
        have := mem_unique_of_nodup_map he.nodup h h1 h3.symm
        subst this
        exact h5.elim
      · rintro ⟨c, h⟩
        have := mem_unique_of_nodup_map he'.nodup h h2 h4.symm
        subst this
        exact h6.elim
  exact Option.ext hall

/-! ### Blocks -/

theorem convertMembers_lines {h h' : Handler} {ds ds' simple simple' : List Def} {mod mod' : Module} {cn : Text} :
    ∀ (ms : List Member), (∀ m ∈ ms, fieldType ds simple m.type = fieldType ds' simple' m.type) →
    ∀ (cd cd' : CData) r r', convertMembers h ds simple mod cn ms cd = .ok r →
      convertMembers h' ds' simple' mod' cn ms cd' = .ok r' → r.1 = r'.1 := by
  intro ms
  induction ms with
  | nil => intro _ cd cd' r r' h1 h2; cases h1; cases h2; rfl
  | cons m ms ih =>
    intro hf cd cd' r r' h1 h2
    simp only [convertMembers, bind_ok, ← hf m (List.Mem.head _)] at h1 h2
    obtain ⟨f, p1, cd1, p2, r1, p3, p4⟩ := h1
    obtain ⟨f', q1, cd1', q2, r1', q3, q4⟩ := h2
    rw [p1] at q1
    cases q1
    have := ih (fun m hm => hf m (List.Mem.tail _ hm)) _ _ _ _ p3 q3
    cases p4
    cases q4
    rw [this]

theorem convertMembers_data {h : Handler} (hq : Quiet h) {ds simple : List Def} {mod : Module} {cn : Text} :
    ∀ (ms : List Member) (cd : CData) r, convertMembers h ds simple mod cn ms cd = .ok r → r.2.data = cd.data := by
  intro ms
  induction ms with
  | nil => intro cd r h1; cases h1; rfl
  | cons m ms ih =>
    intro cd r h1
    simp only [convertMembers, bind_ok] at h1
    obtain ⟨f, p1, cd1, p2, r1, p3, p4⟩ := h1
    cases p4
    show r1.2.data = _
    rw [ih _ _ p3]
    cases hc : m.comps with
    | none => rw [hc] at p2; cases p2; rfl
    | some cs =>
      rw [hc] at p2
      simp only [bind_ok] at p2
      obtain ⟨e, p5, p6⟩ := p2
      cases p6
      simp only [CData.extend, (hq _ _ _ _ p5).1, List.append_nil]

/-- The text for a definition depends on the types of its members only. -/
theorem defPart_local {be be' : Backend} (hq : Quiet be.handler) (hq' : Quiet be'.handler)
    {ds ds' simple simple' : List Def} {mod mod' : Module} {d : Def}
    (hf : ∀ n c ms, d = .seq n c ms → ∀ m ∈ ms, fieldType ds simple m.type = fieldType ds' simple' m.type)
    {p p' : CData} (h : defPart be ds simple mod d = .ok p) (h' : defPart be' ds' simple' mod' d = .ok p') :
    p.data = p'.data := by
  cases d with
  | simple n c t =>
    simp only [defPart, bind_ok] at h h'
    obtain ⟨x, h1, h2⟩ := h
    obtain ⟨x', h1', h2'⟩ := h'
    cases h2
    cases h2'
    rfl
  | seq n c ms =>
    simp only [defPart, convertSequence, bind_ok] at h h'
    obtain ⟨x, h1, h2⟩ := h
    obtain ⟨x', h1', h2'⟩ := h'
    cases h2
    cases h2'
    simp only [convertMembers_lines ms (hf n c ms rfl) _ _ _ _ h1 h1', convertMembers_data hq _ _ _ h1,
      convertMembers_data hq' _ _ _ h1']
  | enum n c its => cases h; cases h'; rfl
  | choice n c ms => cases h; cases h'; rfl

/-- The place of the text for a definition in the data of a module. -/
theorem moduleData_at {fuel : Nat} {be : Backend} {ds : List Def} {bm : BMod} {cd : CData}
    (h : moduleData fuel be ds bm = .ok cd) {d : Def} (hd : d ∈ bm.mod.defs) :
    ∃ p l l', defPart be ds (simpleList bm) bm.mod d = .ok p ∧ cd.data = l ++ p.data ++ l' := by
  obtain ⟨sorted, _, q1, ps, q2, cd1, q3, _, rfl⟩ := moduleData_ok h
  obtain ⟨p, hp, hdp⟩ := all2_mem_left q2 (q1.mem_iff.2 hd)
  obtain ⟨s, t, rfl⟩ := List.append_of_mem hp
  refine ⟨p, s.flatMap (·.data), t.flatMap (·.data), hdp, ?_⟩
  simp only [q3.data, List.nil_append, List.flatMap_append, List.flatMap_cons, List.append_assoc]

end Apg
