import Verif.Props.Enum
import Verif.Props.Names
import Verif.Props.Order
import Verif.Props.CCompileIff

/-!
# Exact conditions for properties C06, C19, C26 and C43
-/

namespace Apg
open Spec

/-! ### C06 -/

/-- **C06 (what is accepted), partial.** An enumeration is accepted exactly if the numbers are a permutation of
`0 .. n-1` or sum to zero. It is accepted with the numbers that are written exactly in the first case. -/
theorem C06_accepted_iff_partial (items : List EnumItem) :
    ((∃ slots, checkEnumerated items = .ok slots) ↔ ValidPositions items ∨ (items.map (·.pos)).sum = 0) ∧
    ((∃ items' : List EnumItem, checkEnumerated items = .ok (items'.map some) ∧ items'.Perm items) ↔
      ValidPositions items) := by
  refine ⟨⟨?_, ?_⟩, ?_, ?_⟩
  · rintro ⟨slots, h⟩
    by_cases hv : ValidPositions items
    · exact Or.inl hv
    · by_cases hs : (items.map (·.pos)).sum = 0
      · exact Or.inr hs
      · rw [C06_refusal_partial items hs hv] at h
        cases h
  · rintro (hv | hs)
    · obtain ⟨items', h, _⟩ := C06_valid_honoured items hv
      exact ⟨_, h⟩
    · exact ⟨(renumberFrom 0 items).map some, by unfold checkEnumerated; rw [if_pos hs]⟩
  · rintro ⟨items', h, hp⟩
    obtain ⟨items'', h1, h2, _⟩ := C05_numbered items _ h
    have : items'' = items' := by
      have := congrArg (List.filterMap id) h1
      rw [List.filterMap_map, List.filterMap_map] at this
      simpa using this.symm
    subst this
    unfold ValidPositions
    rw [← h2]
    exact (hp.map _).symm
  · intro hv
    obtain ⟨items', h, hp, _⟩ := C06_valid_honoured items hv
    exact ⟨items', h, hp⟩

example : ¬ ValidPositions [⟨"a", 2, none⟩, ⟨"b", -1, none⟩, ⟨"c", -1, none⟩] ∧
    (([⟨"a", 2, none⟩, ⟨"b", -1, none⟩, ⟨"c", -1, none⟩] : List EnumItem).map (·.pos)).sum = 0 := by
  unfold ValidPositions; decide

/-! ### C19 -/

theorem module_of_name {ms : List Module} (hn : ((defsOf ms).map Def.name).Nodup) {m m' : Module} (hm : m ∈ ms)
    (hm' : m' ∈ ms) {d d' : Def} (hd : d ∈ m.defs) (hd' : d' ∈ m'.defs) (he : d.name = d'.name) : m = m' := by
  induction ms with
  | nil => cases hm
  | cons a ms ih =>
    rw [defsOf, List.flatMap_cons, List.map_append, List.nodup_append] at hn
    obtain ⟨_, h2, h3⟩ := hn
    rcases List.mem_cons.1 hm with h | h <;> rcases List.mem_cons.1 hm' with h' | h'
    · rw [h, h']
    · subst h
      exact absurd he (h3 _ (List.mem_map_of_mem hd) _ (List.mem_map_of_mem (List.mem_flatMap.2 ⟨_, h', hd'⟩)))
    · subst h'
      exact absurd he.symm (h3 _ (List.mem_map_of_mem hd') _ (List.mem_map_of_mem (List.mem_flatMap.2 ⟨_, h, hd⟩)))
    · exact ih h2 h h'

/-- **C19 for accepted modules, partial.** In each module of an accepted bundle that does not import from itself,
every sequence and choice comes after each definition of the module that one of its members uses. Missing: modules
that import from themselves (see `C19_full_false`). -/
theorem C19_accepted_partial (raw : List Module) (cfg : List String) (b : Bundle) (hg : ∀ m ∈ raw, GrammarModule m)
    (hb : buildFromConfig raw cfg = .ok b) (m : Module) (hm : m ∈ b.modules)
    (hself : ∀ it ∈ m.imports, it.module ≠ m.name) (fuel : Nat) (out : List Def)
    (h : sortDefs fuel m = some out) :
    out.Perm m.defs ∧
    ∀ (i : Nat) d, out[i]? = some d → ∀ e ∈ m.defs, Uses d e.name → ∃ j : Nat, j < i ∧ out[j]? = some e := by
  obtain ⟨h1, _, h3⟩ := C19_dependency_order_partial m fuel out h
  have hbt := buildFromTexts_of_config hb
  have hnd : ((defsOf b.modules).map Def.name).Nodup := by rw [defsOf_eq]; exact accepted_nodup hbt
  refine ⟨h1, fun i d hi e he hu => h3 ?_ i d hi e he hu ?_⟩
  · exact (List.Sublist.map _ (by
      obtain ⟨s, t, hst⟩ := List.append_of_mem hm
      rw [hst, defsOf, List.flatMap_append, List.flatMap_cons]
      exact (List.sublist_append_left _ _).trans (List.sublist_append_right _ _))).nodup hnd
  · rintro (hbi | ⟨it, hit, hne⟩)
    · refine builtin_not_def (fun d hd => (accepted_grammar hg hbt d hd).1) ?_ e (mem_defs_of_module hm he) rfl
      rcases hbi with h | h | h | h | h <;> rw [h] <;> simp
    · obtain ⟨m', hm', hname, hdefs⟩ := C13_imports raw cfg b hb m hm it hit
      obtain ⟨d', hd', hn'⟩ := hdefs _ hne
      have := module_of_name hnd hm hm' he hd' hn'.symm
      subst this
      exact hself it hit hname.symm

example : (∀ m ∈ [exGeo, exBase], GrammarModule m) ∧ isOk (buildFromConfig [exGeo, exBase] ["geo", "base"]) = true ∧
    (∀ m ∈ (okBundle (buildFromConfig [exGeo, exBase] ["geo", "base"])).modules,
      (∀ it ∈ m.imports, it.module ≠ m.name) ∧ (sortDefs 5 m).isSome = true) :=
  ⟨grammarB_sound (by decide +kernel), by decide +kernel, by decide +kernel⟩

/-! ### C26 -/

/-- **C26 (identifier syntax), partial.** The generated identifier is a C identifier exactly if the name is ASCII. -/
theorem C26_identifier_iff_partial (s : String) (h : GrammarName s) :
    CIdent (cName s) ↔ ∀ c ∈ s.toList, c.toNat < 128 := by
  refine ⟨fun hi c hc => ?_, C26_identifier_partial s h⟩
  by_cases hd : c = '-'
  · subst hd; decide
  · have hm : c ∈ cName s := by
      rw [cName_eq h]
      exact List.mem_map.2 ⟨c, hc, if_neg hd⟩
    have hle : ∀ a b : Char, a ≤ b → a.toNat ≤ b.toNat := fun _ _ h => h
    have e1 : 'z'.toNat = 122 := by decide
    have e2 : 'Z'.toNat = 90 := by decide
    have e3 : '9'.toNat = 57 := by decide
    rcases hi.2 c hm with (⟨_, h2⟩ | ⟨_, h2⟩) | ⟨_, h2⟩ | rfl
    · have := hle _ _ h2; omega
    · have := hle _ _ h2; omega
    · have := hle _ _ h2; omega
    · decide

/-- **C26 (reserved words), partial.** The generated identifier is a reserved word exactly if the name itself is. -/
theorem C26_reserved_iff_partial (s : String) (h : GrammarName s) :
    (∃ k ∈ keywords, cName s = k.toList) ↔ s ∈ keywords := by
  rw [cName_eq h]
  constructor
  · rintro ⟨k, hk, he⟩
    have hk' : ∀ k ∈ keywords, k.toList.head? = some '_' ∨ '_' ∉ k.toList := by decide +kernel
    have hid : ident s = s.toList := by
      obtain ⟨c, cs, hs, hc, _⟩ := grammarName_cases h
      rcases hk' k hk with h1 | h1
      · rw [← he, ident, hs] at h1
        have : (if c = '-' then '_' else c) = '_' := by simpa using h1
        split at this
        · rename_i hc'
          subst hc'
          exact absurd hc (by decide)
        · subst this
          exact absurd hc (by decide)
      · rw [← he] at h1
        have : ∀ c ∈ s.toList, c ≠ '-' := by
          rintro c hc rfl
          exact h1 (List.mem_map.2 ⟨'-', hc, rfl⟩)
        unfold ident
        rw [show s.toList = s.toList.map id by simp]
        simp only [List.map_map]
        refine List.map_congr_left fun c hc => ?_
        simp [this c hc]
    rw [hid] at he
    rw [String.toList_inj.1 he]
    exact hk
  · intro hs
    refine ⟨s, hs, ?_⟩
    have hk' : ∀ k ∈ keywords, '-' ∉ k.toList := by decide +kernel
    unfold ident
    conv => rhs; rw [← List.map_id s.toList]
    refine List.map_congr_left fun c hc => ?_
    have : c ≠ '-' := by rintro rfl; exact hk' s hs hc
    simp [this]

example : GrammarName "int" ∧ "int" ∈ keywords ∧ GrammarName "Int" ∧ "Int" ∉ keywords :=
  ⟨Or.inl (by decide +kernel), by decide, Or.inr (by decide +kernel), by decide⟩

/-! ### C43 -/

/-- The type is, or is an array of, a type that is defined as BOOLEAN. -/
def NamesBoolean (ds : List Def) (t : AType) : Prop :=
  ∃ n c, UsesName t n ∧ Def.simple n c (.plain "BOOLEAN" none none) ∈ ds

theorem namedC_bool {ds : List Def} (hn : (ds.map Def.name).Nodup) (hc : ∀ d ∈ ds, isNameCapital d.name = true)
    (hp : ∀ n c ct, Def.simple n c (.plain "BOOLEAN" none none) ∈ ds → ¬ Posix n ct) {n : String} {ct sfx : Text}
    (h : NamedC ds n ct sfx) :
    ct = "bool".toList ↔ ∃ c, Def.simple n c (.plain "BOOLEAN" none none) ∈ ds := by
  have hid : ∀ d ∈ ds, ident d.name ≠ "bool".toList := by
    intro d hd he
    obtain ⟨c, r, h1, h2⟩ := ident_capital_head (hc d hd)
    rw [he] at h1
    cases h1
    exact absurd h2 (by decide)
  have hu : ∀ {d c}, d ∈ ds → Def.simple d.name c (.plain "BOOLEAN" none none) ∈ ds →
      d = Def.simple d.name c (.plain "BOOLEAN" none none) := fun hd hd' => mem_unique_of_nodup_map hn hd hd' rfl
  cases h with
  | posix hd hpx =>
    constructor
    · intro h; subst h; cases hpx
    · rintro ⟨c, h⟩; exact absurd hpx (hp _ _ _ h)
  | struct hd =>
    constructor
    · intro h; exact absurd h (hid _ hd)
    · rintro ⟨c', h⟩; exact absurd (hu hd h) (fun h => by cases h)
  | union hd =>
    constructor
    · intro h; exact absurd h (hid _ hd)
    · rintro ⟨c', h⟩; exact absurd (hu hd h) (fun h => by cases h)
  | alias hd hx hs =>
    constructor
    · intro h
      subst h
      generalize hb : "bool".toList = x at hs
      cases hs with
      | uint _ _ hf =>
        obtain ⟨_, hst, _⟩ := hf
        cases hst <;> exact absurd hb (by decide)
      | _ => exact absurd hb (by decide)
    · rintro ⟨c', h⟩
      have := hu hd h
      rw [Def.name, Def.simple.injEq] at this
      rw [this.2.2] at hs
      generalize hb : AType.plain "BOOLEAN" none none = x at hs
      cases hs <;> exact absurd (AType.plain.inj hb).1 (by decide)
  | aliasBool hd => exact ⟨fun _ => ⟨_, hd⟩, fun _ => rfl⟩
  | aliasFloat hd =>
    constructor
    · intro h; exact absurd h (by decide)
    · rintro ⟨c', h⟩
      have := hu hd h
      rw [Def.name, Def.simple.injEq] at this
      exact absurd this.2.2 (by decide)
  | aliasDouble hd =>
    constructor
    · intro h; exact absurd h (by decide)
    · rintro ⟨c', h⟩
      have := hu hd h
      rw [Def.name, Def.simple.injEq] at this
      exact absurd this.2.2 (by decide)

theorem fieldType_bool {ds : List Def} (hn : (ds.map Def.name).Nodup) (hc : ∀ d ∈ ds, isNameCapital d.name = true)
    (hp : ∀ n c ct, Def.simple n c (.plain "BOOLEAN" none none) ∈ ds → ¬ Posix n ct) {t : AType} {ct sfx : Text}
    (hg : GrammarType t) (h : FieldType ds t ct sfx) : ct = "bool".toList ↔ NamesBoolean ds t := by
  have hid : ∀ d ∈ ds, ident d.name ≠ "bool".toList := by
    intro d hd he
    obtain ⟨c, r, h1, h2⟩ := ident_capital_head (hc d hd)
    rw [he] at h1
    cases h1
    exact absurd h2 (by decide)
  have hcap : ∀ n, isNameCapital n = false → ∀ c, Def.simple n c (.plain "BOOLEAN" none none) ∉ ds := by
    intro n hn' c hd
    have := hc _ hd
    rw [Def.name, hn'] at this
    cases this
  cases h with
  | scalar hs =>
    constructor
    · intro h
      subst h
      generalize hb : "bool".toList = x at hs
      cases hs with
      | uint _ _ hf =>
        obtain ⟨_, hst, _⟩ := hf
        cases hst <;> exact absurd hb (by decide)
      | _ => exact absurd hb (by decide)
    · rintro ⟨n, c, h1, h2⟩
      rw [usesName_iff] at h1
      cases hs <;> subst h1
      · exact absurd h2 (hcap "INTEGER" (by decide) _)
      · exact absurd h2 (hcap "INTEGER" (by decide) _)
      · exact absurd h2 (hcap "REAL" (by decide) _)
      · exact absurd h2 (hcap "REAL" (by decide) _)
  | bool _ =>
    constructor
    · intro h; exact absurd h (by decide)
    · rintro ⟨n, c, h1, h2⟩
      rw [usesName_iff] at h1
      subst h1
      exact absurd h2 (hcap _ (by decide) _)
  | chars =>
    constructor
    · intro h; exact absurd h (by decide)
    · rintro ⟨n, c, h1, h2⟩
      rw [usesName_iff] at h1
      subst h1
      cases hg
      · exact absurd h2 (hcap "IA5String" (by decide) _)
      · exact absurd h2 (hcap "NumericString" (by decide) _)
  | named h =>
    rw [namedC_bool hn hc hp h]
    exact ⟨fun ⟨c, hd⟩ => ⟨_, c, .plain, hd⟩, fun ⟨_, c, h1, hd⟩ => ⟨c, by rw [usesName_iff] at h1; subst h1; exact hd⟩⟩
  | enum hd _ _ =>
    constructor
    · intro h; exact absurd h (hid _ hd)
    · rintro ⟨n', c', h1, h2⟩
      rw [usesName_iff] at h1
      subst h1
      exact absurd (mem_unique_of_nodup_map hn hd h2 rfl) (fun h => by cases h)
  | array h =>
    rw [namedC_bool hn hc hp h]
    exact ⟨fun ⟨c, hd⟩ => ⟨_, c, .arr .plain, hd⟩, fun ⟨_, c, h1, hd⟩ => ⟨c, by rw [usesName_iff] at h1; subst h1; exact hd⟩⟩
  | arrayEnum hd =>
    constructor
    · intro h; exact absurd h (hid _ hd)
    · rintro ⟨n', c', h1, h2⟩
      rw [usesName_iff] at h1
      subst h1
      exact absurd (mem_unique_of_nodup_map hn hd h2 rfl) (fun h => by cases h)

/-- **C43 (bool), partial.** In the header of a regular module the fields of type `bool` are exactly those of members
whose type is defined as BOOLEAN under a name, and stdbool.h is never included: so a header includes what it needs
exactly if there is no such member. -/
theorem C43_bool_partial (cmd : Command) (fuel : Nat) (raw : List Module) (cfg : List String) (out : Text) (b : Bundle)
    (fs : Files) (hin : Input raw cfg b) (hr : (cmd.run fuel raw cfg out).result = .ok ()) (hreg : Regular b.defs)
    (m : Module) (hm : m ∈ b.modules) :
    ∃ h : HeaderParts, HasText ((cmd.run fuel raw cfg out).apply fs) (cmd.path out m.name) h.text ∧
      HasBlocks (fun t ct _ => (StdIntType ct → h.stdint = true) ∧ (ct = "bool".toList ↔ NamesBoolean b.defs t))
        (fun t => (dims t).take 1) m h ∧ h.stdbool = false := by
  obtain ⟨h, sorted, tss, h1, _, h3, h4, h5, h6, _⟩ := header_typed fs hin hr hreg hm
  have hbt := buildFromTexts_of_config hin.accepted
  have hgr := accepted_grammar hin.grammar hbt
  refine ⟨h, h1, ⟨sorted, tss, h3, h4.imp_mem fun d hd ts hb => block_mono ?_ hb, h5⟩, h6⟩
  intro k hk ct sfx hf
  have hd' := mem_defs_of_module hm (h3.mem_iff.1 hd)
  refine ⟨hf.2, fieldType_bool (accepted_nodup hbt) (accepted_capital hin.grammar hbt) ?_
    (member_grammar (fun d hd => (hgr d hd).1) ⟨d, hd', hk⟩).2.1 hf.1⟩
  intro n c ct hs hpx
  exact posix_bounds hin.grammar hbt hs hpx rfl

example : Input exFlag ["m"] (okBundle (buildFromConfig exFlag ["m"])) ∧
    ((Command.cfs exPrinter).run 20 exFlag ["m"] exOut).result = .ok () ∧
    Regular (okBundle (buildFromConfig exFlag ["m"])).defs ∧
    NamesBoolean (okBundle (buildFromConfig exFlag ["m"])).defs (.plain "Flag" none none) :=
  ⟨input_of (by decide +kernel) (by decide +kernel) (by decide +kernel), by decide +kernel,
    regular_of (by decide +kernel) (by decide +kernel) (by decide +kernel), "Flag", none, .plain, by decide +kernel⟩

end Apg
