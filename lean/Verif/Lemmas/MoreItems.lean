import Verif.Spec.MoreItems
import Verif.Lemmas.Append
import Verif.Props.Agreement

/-!
# Lemmas about items that are appended to enumerations
-/

namespace Apg
open Spec

theorem Spec.MoreItems.name {d d' : Def} (h : MoreItems d d') : d.name = d'.name := by cases h <;> rfl

theorem Spec.MoreItemsDefs.of_name {ds ds' : List Def} (hn' : (ds'.map Def.name).Nodup) (hg : MoreItemsDefs ds ds') {d d' : Def}
    (hd : d ∈ ds) (hd' : d' ∈ ds') (h : d.name = d'.name) : MoreItems d d' := by
  obtain ⟨x, hx, hdx⟩ := hg.there d hd
  have := mem_unique_of_nodup_map hn' hx hd' (hdx.name.symm.trans h)
  subst this
  exact hdx

/-- Items that are numbered from zero keep their numbers. -/
theorem items_prefix {its its' : List EnumItem} (hp : its.map (·.pos) = numbers its.length)
    (hp' : its'.map (·.pos) = numbers its'.length)
    (h : its.map (fun it => (it.key, it.comment)) <+: its'.map (fun it => (it.key, it.comment))) : its <+: its' := by
  rw [List.prefix_iff_getElem?] at h ⊢
  intro i hi
  have h1 := h i (by rw [List.length_map]; exact hi)
  rw [List.getElem?_map, List.getElem_map] at h1
  cases hx : its'[i]? with
  | none => rw [hx] at h1; cases h1
  | some x =>
    rw [hx] at h1
    simp only [Option.map_some, Option.some.injEq, Prod.mk.injEq] at h1
    have hi' : i < its'.length := (List.getElem?_eq_some_iff.1 hx).1
    have e1 : (its.map (·.pos))[i]? = some (i : Int) := by
      rw [hp]; unfold numbers; rw [List.getElem?_map, List.getElem?_range hi]; rfl
    have e2 : (its'.map (·.pos))[i]? = some (i : Int) := by
      rw [hp']; unfold numbers; rw [List.getElem?_map, List.getElem?_range hi']; rfl
    rw [List.getElem?_map, List.getElem?_eq_getElem hi] at e1
    rw [List.getElem?_map, hx] at e2
    simp only [Option.map_some, Option.some.injEq] at e1 e2
    congr 1
    generalize its[i] = y at *
    cases x
    cases y
    simp only at h1 e1 e2
    rw [h1.1, h1.2, e1, e2]

theorem Spec.MoreItemsDefs.enums {ds ds' : List Def} (hs : Sized ds) (hs' : Sized ds') (hw : MoreItemsDefs ds ds') {n : String}
    {c c' : Option Comment} {its its' : List EnumItem} (hd : Def.enum n c its ∈ ds) (hd' : Def.enum n c' its' ∈ ds') :
    its <+: its' := by
  have := hw.of_name hs'.nodup hd hd' rfl
  cases this with
  | same => exact List.prefix_rfl
  | items h => exact items_prefix (hs.pos _ _ _ hd) (hs'.pos _ _ _ hd') h

/-! ### Headers -/

/-- The names of types mean the same in fields. -/
theorem sameMeaning_items {ds ds' : List Def} (hw : MoreItemsDefs ds ds') (hleast : ∀ n c its, Def.enum n c its ∈ ds → ∃ w, LeastForItems w its)
    {d : Def} (hd : d ∈ ds) {k : Member} (hk : k ∈ d.members) (hb : KeepsBits ds ds' k.type) :
    SameMeaning ds ds' k.type.name := by
  by_cases hx : ∃ x ∈ ds, x.name = k.type.name
  · obtain ⟨x, hx, he⟩ := hx
    obtain ⟨x', hx', hxx⟩ := hw.there x hx
    rw [← he]
    have hu : UsesName k.type x.name := by rw [usesName_iff]; exact he.symm
    cases hxx with
    | same =>
      cases x with
      | seq n c ms => exact .composite hx hx' rfl rfl trivial trivial
      | choice n c ms => exact .composite hx hx' rfl rfl trivial trivial
      | simple n c t => exact .simple hx hx'
      | enum n c its =>
        obtain ⟨w, hw⟩ := hleast _ _ _ hx
        exact .enum hx hx' hw hw
    | items =>
      obtain ⟨w, w1, w2⟩ := hb _ _ _ _ _ hu hx hx'
      exact .enum hx hx' w1 w2
  · refine .builtIn (fun x hx' he => hx ⟨x, hx', he⟩) fun x' hx' he => ?_
    rcases hw.other x' hx' with ⟨x, h1, h2⟩ | hnot
    · exact hx ⟨x, h1, h2.name.trans he⟩
    · exact hnot d hd k hk (by rw [usesName_iff]; exact he.symm)

/-! ### COSMOS -/

theorem leaves_items {ds ds' : List Def} (hn' : (ds'.map Def.name).Nodup)
    (hw : MoreItemsDefs ds ds') {ms : List Member} {ls : List (List Member)} (h : Leaves ds ms ls) :
    ∀ {ls'}, (∀ m ∈ ms, ∃ d ∈ ds, m ∈ d.members) → Leaves ds' ms ls' → ls = ls' := by
  induction h with
  | nil => intro ls' _ h'; cases h'; rfl
  | leaf hno _ ih =>
    intro ls' hin h'
    cases h' with
    | leaf _ h' => rw [ih (fun m hm => hin m (List.mem_cons_of_mem _ hm)) h']
    | seq hu hs' _ _ =>
      exfalso
      obtain ⟨c, hd'⟩ := hs'
      obtain ⟨d, hd, hmd⟩ := hin _ (List.mem_cons_self ..)
      rcases hw.other _ hd' with ⟨x, hx, hwx⟩ | hnot
      · cases hwx
        exact hno _ _ hu ⟨_, hx⟩
      · exact hnot d hd _ hmd hu
  | seq hu hs _ _ ih1 ih2 =>
    intro ls' hin h'
    obtain ⟨c, hd⟩ := hs
    obtain ⟨x, hd', hx⟩ := hw.there _ hd
    cases hx
    cases h' with
    | leaf hno _ => exact absurd ⟨_, hd'⟩ (hno _ _ hu)
    | seq hu' hs' hl1 hl2 =>
      obtain ⟨c2, hd2⟩ := hs'
      have hnm := (usesName_iff _ _).1 hu'
      rw [(usesName_iff _ _).1 hu] at hnm
      cases mem_unique_of_nodup_map hn' hd' hd2 hnm
      rw [ih2 (fun m hm => hin m (List.mem_cons_of_mem _ hm)) hl2, ih1 (fun m hm => ⟨_, hd, hm⟩) hl1]

/-- The shapes are the same, or those of an enumeration. -/
theorem shape_items {ds ds' : List Def} (hs : Sized ds) (hs' : Sized ds') (hw : MoreItemsDefs ds ds') {t : AType}
    (hg : GrammarType t) {c c' : Option CType} {lo hi lo' hi' : Option Num} {st st' : List Text}
    (h : ItemShape ds t c lo hi st) (h' : ItemShape ds' t c' lo' hi' st') :
    (c = c' ∧ lo = lo' ∧ hi = hi' ∧ st = st') ∧ (∀ n cm its, Def.enum n cm its ∈ ds → ¬ UsesName t n) ∨
    c = some .uint ∧ c' = some .uint ∧ ∃ n cm cm' its its', UsesName t n ∧ Def.enum n cm its ∈ ds ∧
      Def.enum n cm' its' ∈ ds' := by
  have hb : ∀ {ds : List Def}, Sized ds → ∀ {d : Def}, d ∈ ds → d.name = t.name → t.name ∉ basicNames :=
    fun hs _ hd he => shape_builtin hs hd he
  have hno : t.name ∈ basicNames → ∀ n cm its, Def.enum n cm its ∈ ds → ¬ UsesName t n :=
    fun hn n cm its hd hu => hb hs hd ((usesName_iff _ _).1 hu).symm hn
  have hstr : ∀ {n len}, t = .str n len → t.name = "IA5String" ∨ t.name = "NumericString" := by
    intro n len h
    rw [h] at hg ⊢
    cases hg
    · exact .inl rfl
    · exact .inr rfl
  have hnb : t.name = "INTEGER" ∨ t.name = "REAL" → t.name ∈ basicNames := by
    rintro (h | h) <;> rw [h] <;> decide
  have hbb : t.name = "BOOLEAN" → t.name ∈ basicNames := by
    intro h; rw [h]; decide
  have hsb : t.name = "IA5String" ∨ t.name = "NumericString" → t.name ∈ basicNames := by
    rintro (h | h) <;> rw [h] <;> decide
  have hne : ¬ ((t.name = "INTEGER" ∨ t.name = "REAL") ∧ t.name = "BOOLEAN") := by
    rintro ⟨h | h, h'⟩ <;> rw [h] at h' <;> exact absurd h' (by decide)
  have hns : ¬ ((t.name = "INTEGER" ∨ t.name = "REAL") ∧ (t.name = "IA5String" ∨ t.name = "NumericString")) := by
    rintro ⟨h | h, h' | h'⟩ <;> rw [h] at h' <;> exact absurd h' (by decide)
  have hbs : ¬ (t.name = "BOOLEAN" ∧ (t.name = "IA5String" ∨ t.name = "NumericString")) := by
    rintro ⟨h, h' | h'⟩ <;> rw [h] at h' <;> exact absurd h' (by decide)
  cases h with
  | number k =>
    cases h' with
    | number => exact .inl ⟨⟨rfl, rfl, rfl, rfl⟩, hno (hnb k)⟩
    | bool k' => exact absurd ⟨k, k'⟩ hne
    | str k' => exact absurd ⟨k, hstr k'⟩ hns
    | simple k1 k2 => exact absurd (hnb k) (hb hs' k2 k1.symm)
    | enum k1 k2 => exact absurd (hnb k) (hb hs' k2 k1.symm)
  | bool k =>
    cases h' with
    | number k' => exact absurd ⟨k', k⟩ hne
    | bool => exact .inl ⟨⟨rfl, rfl, rfl, rfl⟩, hno (hbb k)⟩
    | str k' => exact absurd ⟨k, hstr k'⟩ hbs
    | simple k1 k2 => exact absurd (hbb k) (hb hs' k2 k1.symm)
    | enum k1 k2 => exact absurd (hbb k) (hb hs' k2 k1.symm)
  | str k =>
    cases h' with
    | number k' => exact absurd ⟨k', hstr k⟩ hns
    | bool k' => exact absurd ⟨k', hstr k⟩ hbs
    | str k' =>
      have hn := hno (hsb (hstr k))
      rw [k] at k'
      cases k'
      exact .inl ⟨⟨rfl, rfl, rfl, rfl⟩, hn⟩
    | simple k1 k2 => exact absurd (hsb (hstr k)) (hb hs' k2 k1.symm)
    | enum k1 k2 => exact absurd (hsb (hstr k)) (hb hs' k2 k1.symm)
  | simple k1 k2 =>
    cases h' with
    | number k' => exact absurd (hnb k') (hb hs k2 k1.symm)
    | bool k' => exact absurd (hbb k') (hb hs k2 k1.symm)
    | str k' => exact absurd (hsb (hstr k')) (hb hs k2 k1.symm)
    | simple l1 l2 =>
      cases hw.of_name hs'.nodup k2 l2 (k1.symm.trans l1)
      refine .inl ⟨⟨rfl, rfl, rfl, rfl⟩, fun n cm its hd hu => ?_⟩
      cases mem_unique_of_nodup_map hs.nodup k2 hd (k1.symm.trans ((usesName_iff _ _).1 hu))
    | enum l1 l2 => cases hw.of_name hs'.nodup k2 l2 (k1.symm.trans l1)
  | enum k1 k2 =>
    cases h' with
    | number k' => exact absurd (hnb k') (hb hs k2 k1.symm)
    | bool k' => exact absurd (hbb k') (hb hs k2 k1.symm)
    | str k' => exact absurd (hsb (hstr k')) (hb hs k2 k1.symm)
    | simple l1 l2 => cases hw.of_name hs'.nodup k2 l2 (k1.symm.trans l1)
    | enum l1 l2 =>
      have hu := (usesName_iff _ _).2 k1
      obtain rfl : _ = _ := k1.symm.trans l1
      exact .inr ⟨rfl, rfl, _, _, _, _, _, hu, k2, l2⟩

theorem sized_least {ds : List Def} (hs : Sized ds) {n : String} {c : Option Comment} {its : List EnumItem}
    (hd : Def.enum n c its ∈ ds) : ∃ w, LeastForItems w its := by
  have hpos := hs.pos _ _ _ hd
  have hnn : ∀ it ∈ its, 0 ≤ it.pos := by
    intro it hit
    have : it.pos ∈ its.map (·.pos) := List.mem_map.2 ⟨it, hit, rfl⟩
    rw [hpos] at this
    obtain ⟨i, _, hi⟩ := List.mem_map.1 this
    omega
  obtain ⟨w, _, _, h5, h6⟩ := (enumSize_iff hnn _).1 (enum_bits (hs.grammar _ hd).2.1 hpos)
  exact ⟨w, h5, h6⟩

/-- The entries for a leaf before and after. -/
theorem entry_items {p : Printer} {ds ds' : List Def} (hs : Sized ds) (hs' : Sized ds') (hw : MoreItemsDefs ds ds')
    {path : List Member} {e e' : Entry} {m : Member} (hm : path.getLast? = some m)
    (h : EntryFor p ds (fun path s => Clear ds path → FoundValue .nil path s) path e)
    (h' : EntryFor p ds' (fun path s => Clear ds' path → FoundValue .nil path s) path e') :
    KeepsStates ds ds' m.type (readItem p e) (readItem p e') ∧ (Clear ds path → Clear ds' path →
      (readItem p e).bits = (readItem p e').bits → { readItem p e with states := (readItem p e').states } = readItem p e') := by
  obtain ⟨m1, s, c, lo, hi, st, h1, h2, h3, h4, h5⟩ := h
  obtain ⟨m2, s', c', lo', hi', st', h1', h2', h3', h4', h5'⟩ := h'
  rw [hm] at h1 h1'
  cases h1
  cases h1'
  have hg := (member_grammar hs.grammar h2).2.1
  rcases shape_items hs hs' hw hg h3 h3' with ⟨⟨rfl, rfl, rfl, rfl⟩, hno⟩ | ⟨rfl, rfl, n, cm, cm', its, its', hu, hd, hd'⟩
  · obtain ⟨c, rfl, k⟩ := makeEntry_ok h4
    obtain ⟨c', hc, k'⟩ := makeEntry_ok h4'
    cases hc
    have eb : e.bits = e'.bits := Except.ok.inj (k.bits.symm.trans k'.bits)
    have er : e.range = e'.range := Except.ok.inj (k.range.symm.trans k'.range)
    refine ⟨⟨k.name.trans k'.name.symm, ?_, k.little.trans k'.little.symm, ?_, ?_, ?_, ?_⟩, ?_⟩
    · simp only [readItem, itemFields, k.ctype, k'.ctype]
    · simp only [readItem, er]
    · simp only [readItem, k.unit, k'.unit]
    · simp only [readItem, k.states, k'.states]
      exact List.prefix_rfl
    · refine ⟨fun _ n c c' its its' hu hd => absurd hu (hno n c its hd), fun _ => ?_⟩
      simp only [readItem, eb]
    · intro q q' _
      cases foundValue_unique (h5 q) (h5' q')
      rw [h4] at h4'
      cases h4'
      rfl
  · obtain ⟨c, hc, k⟩ := makeEntry_ok h4
    cases hc
    obtain ⟨c', hc, k'⟩ := makeEntry_ok h4'
    cases hc
    have er : e.range = e'.range := by
      have a := k.range
      have b := k'.range
      simp only [subrange] at a b
      exact (Except.ok.inj a).symm.trans (Except.ok.inj b)
    obtain ⟨b1, b2⟩ := item_enum hs hg h3 k hu hd
    obtain ⟨b1', b2'⟩ := item_enum hs' hg h3' k' hu hd'
    obtain ⟨w, hw1⟩ := sized_least hs hd
    obtain ⟨w', hw2⟩ := sized_least hs' hd'
    refine ⟨⟨k.name.trans k'.name.symm, ?_, k.little.trans k'.little.symm, ?_, ?_, ?_, ?_⟩, ?_⟩
    · simp only [readItem, itemFields, k.ctype, k'.ctype]
    · simp only [readItem, er]
    · simp only [readItem, k.unit, k'.unit]
    · rw [b2, b2']
      exact (hw.enums hs hs' hd hd').map _
    · rw [b1 w hw1, b1' w' hw2]
      constructor
      · intro hb n1 c1 c1' its1 its1' hu1 hd1 hd1'
        have hnn : n = n1 := ((usesName_iff _ _).1 hu).symm.trans ((usesName_iff _ _).1 hu1)
        subst hnn
        cases mem_unique_of_nodup_map hs.nodup hd hd1 rfl
        cases mem_unique_of_nodup_map hs'.nodup hd' hd1' rfl
        have : w = w' := Int.ofNat.inj (Option.some.inj hb)
        subst this
        exact ⟨w, hw1, hw2⟩
      · intro hb
        obtain ⟨v, v1, v2⟩ := hb n cm cm' its its' hu hd hd'
        rw [least_unique hw1 v1, least_unique hw2 v2]
    · intro q q' hb
      cases foundValue_unique (h5 q) (h5' q')
      have hb' : e.bits = e'.bits := Option.some.inj hb
      have es : e.specific = e'.specific := by
        have := k.specific
        rw [hb'] at this
        exact Except.ok.inj (this.symm.trans k'.specific)
      simp only [readItem, itemFields, k.ctype, k'.ctype, es, hb', er, k.isArray, k'.isArray, k.name, k'.name, k.little,
        k'.little, k.unit, k'.unit]

theorem adds_states {p : Printer} {ds ds' : List Def} (hs : Sized ds) (hs' : Sized ds') (hw : MoreItemsDefs ds ds')
    {ms : List Member} {ls ls' : List (List Member)} {es es' : List Entry} (hin : ∀ m ∈ ms, ∃ d ∈ ds, m ∈ d.members)
    (h : Leaves ds ms ls) (h' : Leaves ds' ms ls')
    (he : All2 (EntryFor p ds (fun path s => Clear ds path → FoundValue .nil path s)) ls es)
    (he' : All2 (EntryFor p ds' (fun path s => Clear ds' path → FoundValue .nil path s)) ls' es') :
    AddsStates ds ds' ms (es.map (readItem p)) (es'.map (readItem p)) := by
  cases leaves_items hs'.nodup hw h hin h'
  obtain ⟨xs, rfl, rfl, rfl, k4⟩ := all2_triple he he'
  refine ⟨xs.map fun x => (x.1, readItem p x.2.1, readItem p x.2.2), ?_, ?_, ?_, ?_⟩
  · rw [List.map_map]; exact h
  · rw [List.map_map, List.map_map]; rfl
  · rw [List.map_map, List.map_map]; rfl
  · intro y hy m hm
    obtain ⟨x, hx, rfl⟩ := List.mem_map.1 hy
    exact entry_items hs hs' hw hm (k4 x hx).1 (k4 x hx).2

/-! ### Binary files -/

/-- The sizes of members that are packed. -/
theorem size_items {ds ds' : List Def} (hs : Sized ds) (hs' : Sized ds') (hw : MoreItemsDefs ds ds')
    (hstd : ∀ d ∈ ds, (∃ c t, d = .simple d.name c t) ∨ d.name ∉ standardNames) {d : Def} (hd : d ∈ ds) {m : Member} (hm : m ∈ d.members)
    {ct : CType} (hc : m.type.cType = some ct) {fuel fuel' : Nat} {v v' : Int} (h : sizeMember ds fuel m = .ok v)
    (h' : sizeMember ds' fuel' m = .ok v') : v = v' := by
  unfold sizeMember at h h'
  cases ht : m.type with
  | str n len => rw [ht] at h h'; simp only [resolveType] at h h'; rw [h] at h'; exact Except.ok.inj h'
  | arr e len => rw [ht] at h h'; simp only [resolveType] at h h'; rw [h] at h'; exact Except.ok.inj h'
  | plain n lo hi =>
    rw [ht] at h h' hc
    simp only [resolveType] at h h'
    cases hl : lastDef ds n with
    | none =>
      have hno : lastDef ds' n = none := by
        refine lastDef_absent fun x hx hxn => ?_
        rcases hw.other x hx with ⟨y, hy, hyx⟩ | hnot
        · have := lastDef_of_mem hs.nodup hy
          rw [hyx.name, hxn, hl] at this
          cases this
        · exact hnot d hd m hm (by rw [ht, hxn]; exact .plain)
      rw [hl] at h
      rw [hno] at h'
      simp only at h h'
      rw [h] at h'
      exact Except.ok.inj h'
    | some x =>
      obtain ⟨hx, rfl⟩ := lastDef_some hl
      obtain ⟨x', hx', hxx⟩ := hw.there x hx
      have hl' := lastDef_of_mem hs'.nodup hx'
      rw [← hxx.name] at hl'
      rw [hl] at h
      rw [hl'] at h'
      simp only at h h'
      rcases hstd x hx with ⟨c, t, hxe⟩ | hnot
      · rw [hxe] at hxx h
        cases hxx
        cases fuel with
        | zero => cases h
        | succ fuel =>
          cases fuel' with
          | zero => cases h'
          | succ fuel' =>
            simp only [sizeDef] at h h'
            rw [h] at h'
            exact Except.ok.inj h'
      · have hcap : isNameCapital x.name = true := by
          have := hs.grammar _ hx
          cases x <;> exact this.1
        rw [alias_ctype hnot hcap lo hi] at hc
        cases hc

theorem binMembers_items {ds ds' : List Def} (hs : Sized ds) (hs' : Sized ds') (hw : MoreItemsDefs ds ds')
    (hstd : ∀ d ∈ ds, (∃ c t, d = .simple d.name c t) ∨ d.name ∉ standardNames) {d : Def} (hd : d ∈ ds) {fuel fuel' : Nat} :
    ∀ {ms : List Member} {r r'}, (∀ m ∈ ms, m ∈ d.members) → binMembers ds fuel ms = .ok r →
      binMembers ds' fuel' ms = .ok r' → All2 (fun x x' => x'.1 = x.1 ∧ SameSpec x.2 x'.2) r r' := by
  intro ms
  induction ms with
  | nil => intro r r' _ h h'; cases h; cases h'; exact .nil
  | cons m ms ih =>
    intro r r' hin h h'
    simp only [binMembers] at h h'
    cases hc : m.comps with
    | some c => rw [hc] at h h'; exact ih (fun m hm => hin m (List.mem_cons_of_mem _ hm)) h h'
    | none =>
      rw [hc] at h h'
      simp only [bind_ok] at h h'
      obtain ⟨s, h1, r0, h2, h3⟩ := h
      obtain ⟨s', h1', r0', h2', h3'⟩ := h'
      cases h3
      cases h3'
      refine .cons ⟨rfl, rfl, rfl, fun hne => ?_⟩ (ih (fun m hm => hin m (List.mem_cons_of_mem _ hm)) h2 h2')
      obtain ⟨ct, hct⟩ := Option.ne_none_iff_exists'.1 hne
      exact size_items hs hs' hw hstd hd (hin m (List.mem_cons_self ..)) hct h1 h1'

theorem clauseBytes_items {b b' : Bundle} (hs : Sized b.defs) (hs' : Sized b'.defs) (hw : MoreItemsDefs b.defs b'.defs)
    (hstd : ∀ d ∈ b.defs, (∃ c t, d = .simple d.name c t) ∨ d.name ∉ standardNames) {bm bm' : BMod}
    (hbm : bm ∈ b.mods) (hbm' : bm' ∈ b'.mods) {fuel fuel' : Nat} {e : Option Endian} {x : Member × Comps}
    {bss bss' : List (List UInt8)} (h : ClauseBytes b.defs fuel e bm.mod x bss)
    (h' : ClauseBytes b'.defs fuel' e bm'.mod x bss') : bss = bss' := by
  obtain ⟨defs, p1, p2⟩ := h
  obtain ⟨defs', q1, q2⟩ := h'
  refine compBytes_same ?_ e _ _ _ _ p2 q2
  intro n s s' hn hn' k sp hk
  obtain ⟨c, ms, r1, r2⟩ := binDefs_seq p1 (lastVal_mem hn)
  obtain ⟨c', ms', r3, r4⟩ := binDefs_seq q1 (lastVal_mem hn')
  have hd := mods_defs hbm _ r1
  have hd' := mods_defs hbm' _ r3
  cases hw.of_name hs'.nodup hd hd' rfl
  have hall := binMembers_items hs hs' hw hstd hd (fun _ h => h) r2 r4
  rcases lastVal_alike (fun _ _ h => h.1) hall k with ⟨h1, _⟩ | ⟨v, v', h1, h2, h3⟩
  · rw [hk] at h1; cases h1
  rw [hk] at h1
  cases h1
  exact ⟨v', h2, h3.2⟩

end Apg
