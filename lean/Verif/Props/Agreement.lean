import Verif.Spec.Agreement
import Verif.Props.Cosmos
import Verif.Props.FieldTypes
import Verif.Props.Binary

/-!
# Properties C07, C44: the formats agree on enumerations and widths
-/

namespace Apg
open Spec

theorem sources_of_input {raw : List Module} {cfg : List String} {b : Bundle} (h : Input raw cfg b) :
    Sources raw b := ⟨h.grammar, h.comments, buildFromTexts_of_config h.accepted⟩

/-- What is needed of a bundle and one of its modules. -/
theorem accepted_capital {raw : List Module} {b : Bundle} (hg : ∀ m ∈ raw, GrammarModule m)
    (hbt : buildFromTexts raw = .ok b) : ∀ d ∈ b.defs, isNameCapital d.name = true := by
  intro d hd
  have := (accepted_grammar hg hbt d hd).1
  cases d <;> exact this.1

theorem least_unique {w w' : Nat} {its : List EnumItem} (h : LeastForItems w its) (h' : LeastForItems w' its) :
    w = w' := by
  have h1 := h.2 w' h'.1
  have h2 := h'.2 w h.1
  omega

/-- `fieldType` on the name of an enumeration. -/
theorem fieldType_enum {ds simple : List Def} (hcap : ∀ d ∈ simple, isNameCapital d.name = true)
    (hsub : ∀ d ∈ simple, d ∈ ds) (hnd : (ds.map Def.name).Nodup) {n : String} {c : Option Comment}
    {its : List EnumItem} (hn : isNameCapital n = true) (hd : Def.enum n c its ∈ ds)
    (hpos : ∀ it ∈ its, 0 ≤ it.pos) {f : Mapped}
    (h : fieldType ds simple (.plain n none none) = .ok f) :
    (∃ w, LeastForItems w its ∧ BitSuffix w f.bits) ∧ ((∀ ct, ¬ Posix n ct) → f.ctype = ident n) ∧
      ∀ ct, Posix n ct → f.ctype = ct := by
  obtain ⟨b1, b2, b3⟩ := cName_not_builtin hn
  have hl : lastDef ds n = some (.enum n c its) := lastDef_of_mem hnd hd
  unfold fieldType mapMember at h
  simp only [AType.name, b1, b2, b3, or_self, if_false, resolveType, hl, bind_ok] at h
  obtain ⟨m, ⟨size, hsize, hm⟩, h⟩ := h
  cases hm
  obtain ⟨w, rfl, _, hw1, hw2⟩ := (enumSize_iff hpos size).1 hsize
  have hnone : ∀ ct, (ct = cName n ∨ ∀ x ∈ ct.head?, reUpper x = false) →
      simple.find? (fun d => d.isSimple && cName d.name == ct) = none := by
    rintro ct (rfl | hct)
    · cases hf : simple.find? (fun d => d.isSimple && cName d.name == cName n) with
      | none => rfl
      | some d =>
        obtain ⟨k1, k2, k3⟩ := find_simple_named hcap hn hf
        have : d = .enum n c its := mem_unique_of_nodup_map hnd (hsub _ k1) hd k3
        subst this
        cases k2
    · exact find_simple_none hcap hct
  by_cases hp : posixCTypes.contains (lowerize (cName n)) = true
  · have hpx := lowerize_posix hn hp
    simp only [hp, if_true] at h
    rw [hnone _ (Or.inr (posix_lower hpx).2.2.2)] at h
    cases h
    exact ⟨⟨w, ⟨hw1, hw2⟩, bitSuffix_int w⟩, fun hno => absurd hpx (hno _), fun ct hct => (posix_lower hct).1⟩
  · rw [Bool.not_eq_true] at hp
    simp only [hp, Bool.false_eq_true, if_false] at h
    rw [hnone _ (Or.inl rfl)] at h
    cases h
    refine ⟨⟨w, ⟨hw1, hw2⟩, bitSuffix_int w⟩, fun _ => cName_eq (Or.inr hn), fun ct hct => ?_⟩
    obtain ⟨p1, p2, _⟩ := posix_lower hct
    rw [p1, p2] at hp
    cases hp

theorem numbered_states {its : List EnumItem} : ∀ i : Nat, its.map (·.pos) = (List.range' i its.length).map (fun k : Nat => (k : Int)) →
    numbered i (its.map (·.key.toList)) = its.map fun it => (it.key.toList, some it.pos) := by
  induction its with
  | nil => intro i _; rfl
  | cons it its ih =>
    intro i h
    simp only [List.map_cons, List.length_cons, List.range'_succ, List.cons.injEq] at h
    simp only [List.map_cons, numbered]
    rw [ih _ h.2, h.1]

/-- The item of a leaf that is of an enumeration or an array of it. -/
theorem item_enum {p : Printer} {ds : List Def} (hs : Sized ds) {m : Member} {s : Specific} {c : CType}
    {lo hi : Option Num} {states : List Text} {e : Entry} (hg : GrammarType m.type)
    (hsh : ItemShape ds m.type (some c) lo hi states) (hm : MadeFrom p m s c lo hi states e)
    {n : String} {cm : Option Comment} {its : List EnumItem} (hu : UsesName m.type n)
    (hd : Def.enum n cm its ∈ ds) :
    (∀ w, LeastForItems w its → (readItem p e).bits = some w) ∧
    (readItem p e).states = its.map fun it => (it.key.toList, some it.pos) := by
  rw [usesName_iff] at hu
  have hb : ∀ k ∈ ["INTEGER", "REAL", "BOOLEAN", "NULL", "IA5String", "NumericString"], m.type.name ≠ k := by
    intro k hk he
    exact builtin_not_def hs.grammar hk _ hd (hu ▸ he)
  generalize hc : some c = c' at hsh
  cases hsh with
  | number h =>
    rcases h with h | h
    · exact absurd h (hb _ (by decide))
    · exact absurd h (hb _ (by decide))
  | bool h => exact absurd h (hb _ (by decide))
  | str h =>
    exfalso
    rw [h] at hg hb
    cases hg with
    | ia5 => exact hb "IA5String" (by decide) rfl
    | numeric => exact hb "NumericString" (by decide) rfl
  | simple h1 h2 =>
    have := mem_unique_of_nodup_map hs.nodup h2 hd (by show _ = n; rw [← hu, h1]; rfl)
    cases this
  | enum h1 h2 =>
    have := mem_unique_of_nodup_map hs.nodup h2 hd (by show _ = n; rw [← hu, h1]; rfl)
    cases this
    cases hc
    have hpos := hs.pos _ _ _ hd
    have hne : its ≠ [] := (hs.grammar _ hd).2.1
    have hnn : ∀ it ∈ its, 0 ≤ it.pos := by
      intro it hit
      have : it.pos ∈ its.map (·.pos) := List.mem_map.2 ⟨it, hit, rfl⟩
      rw [hpos] at this
      obtain ⟨i, _, hi⟩ := List.mem_map.1 this
      omega
    constructor
    · intro w hw
      have hl : 0 < its.length := List.length_pos_iff.2 hne
      have h3 := hm.bits
      obtain ⟨w', h4, _, h5, h6⟩ := (enumSize_iff hnn _).1 (enum_bits hne hpos)
      have hww : w' = w := least_unique ⟨h5, h6⟩ hw
      subst hww
      show some e.bits = some (w' : Int)
      rw [← h4]
      exact congrArg some (Except.ok.inj h3).symm
    · show numbered 0 e.states = _
      rw [hm.states]
      refine numbered_states 0 ?_
      rw [hpos, numbers, List.range_eq_range']

/-- **C07.** For each enumeration there is a width, the least that holds all positions, such that:
members of the enumeration are bit-fields of this width in the headers, with the C enumeration as
type unless it has the name of a type of stdint.h; items of the enumeration have this width in
COSMOS; the enumerators of the C enumeration (see `EnumBlock`) and the states of COSMOS have the
positions as their values. -/
theorem C07_enumerations (raw : List Module) (cfg : List String) (b : Bundle) (hin : Input raw cfg b)
    (n : String) (c : Option Comment) (its : List EnumItem) (hd : Def.enum n c its ∈ b.defs) :
    ∃ w, LeastForItems w its ∧
      (∀ (cmd : Command) (fuel : Nat) (out : Text) (fs : Files),
        (cmd.run fuel raw cfg out).result = .ok () → ∀ m ∈ b.modules,
        ∃ h : HeaderParts, HasText ((cmd.run fuel raw cfg out).apply fs) (cmd.path out m.name) h.text ∧
          HasBlocks (fun t ct sfx => t = .plain n none none →
            BitSuffix w sfx ∧ ((∀ ct, ¬ Posix n ct) → ct = ident n)) (fun t => (dims t).take 1) m h) ∧
      ∀ (fuel : Nat) (p : Printer) (module : String) (messages : List String) (target out : Text),
        Faithful p → OneLine p → IsTarget target →
        (runCosmos fuel p raw module messages target out).result = .ok () →
        ∃ t, (∀ fs, Adds fs ((runCosmos fuel p raw module messages target out).apply fs)
            (cosmosPath out target) t) ∧
          Describes b module target (LeafWise b.defs fun _ m it => UsesName m.type n →
            it.bits = some (w : Int) ∧ it.states = its.map fun it => (it.key.toList, some it.pos))
            messages t := by
  have hsrc := sources_of_input hin
  have hs := accepted_sized hsrc
  have hbt := hsrc.accepted
  have hcap := accepted_capital hin.grammar hbt
  have hpos := (accepted_grammar hin.grammar hbt _ hd).2 n c its rfl
  have hw : ∃ w, LeastForItems w its := by
    obtain ⟨w, _, _, h5, h6⟩ := (enumSize_iff hpos _).1 (enum_bits (hs.grammar _ hd).2.1 (hs.pos _ _ _ hd))
    exact ⟨w, h5, h6⟩
  obtain ⟨w, hw⟩ := hw
  refine ⟨w, hw, ?_, ?_⟩
  · intro cmd fuel out fs hr m hm
    obtain ⟨bm, hbm, rfl⟩ := List.mem_map.1 hm
    obtain ⟨h, sorted, tss, h1, _, h3, h4, h5, _⟩ :=
      header_file hin.grammar hin.comments hin.accepted hr hbm fs
    have hsub := simpleList_sub hin.accepted hbm
    refine ⟨h, h1, sorted, tss, h3, h4.imp_mem (fun d _ ts hbl => block_mono ?_ hbl), h5⟩
    rintro k hk ct sfx ⟨f, k1, rfl, rfl, _⟩ ht
    rw [ht] at k1
    obtain ⟨⟨w', q1, q2⟩, q3, _⟩ := fieldType_enum (fun d hd => hcap d (hsub d hd).1) (fun d hd => (hsub d hd).1)
      hs.nodup (hcap _ hd) hd hpos k1
    rw [least_unique hw q1]
    exact ⟨q2, q3⟩
  · intro fuel p module messages target out hp ho ht hr
    refine cosmos_describes hsrc hp ho ht hr fun _ _ _ hl _ h => leafWise_of hl h
      fun _ m _ c lo hi states e _ _ hmd hsh hm _ hu => ?_
    obtain ⟨q1, q2⟩ := item_enum hs (member_grammar hs.grammar hmd).2.1 hsh hm hu hd
    exact ⟨q1 w hw, q2⟩

/-! ### C44 -/

theorem Spec.ScalarWidth.leaf {t : AType} {w : Int} (h : ScalarWidth t w) : LeafSize t w := by
  cases h <;> assumption

theorem Spec.ScalarWidth.plain {t : AType} {w : Int} (h : ScalarWidth t w) :
    ∃ n lo hi, t = .plain n (some lo) (some hi) ∧ (n = "INTEGER" ∨ n = "REAL") := by
  cases h
  · exact ⟨_, _, _, rfl, .inl rfl⟩
  · exact ⟨_, _, _, rfl, .inl rfl⟩
  · exact ⟨_, _, _, rfl, .inr rfl⟩

/-- A width is the size of a member. -/
theorem Spec.Width.size {ds : List Def} (hg : ∀ d ∈ ds, GrammarDef d) {m : Member} {w : Int}
    (h : Width ds m.type w) : Size ds (.members [m]) w := by
  have hleaf : ∀ v, LeafSize m.type v →
      (∀ n lo hi, m.type = .plain n lo hi → ∀ d ∈ ds, d.name ≠ n) → Size ds (.members [m]) v := by
    intro v hl hn
    have := Size.leaf (m := m) (ms := []) hn hl .nil
    rwa [Int.add_zero] at this
  have hdef : ∀ d v, d ∈ ds → m.type = .plain d.name none none → Size ds (.def d) v →
      Size ds (.members [m]) v := by
    intro d v hd hn hv
    have := Size.named (m := m) (ms := []) hn hd hv .nil
    rwa [Int.add_zero] at this
  generalize ht : m.type = t at h
  cases h with
  | scalar h =>
    obtain ⟨n, lo, hi, rfl, hn⟩ := h.plain
    refine hleaf _ (ht ▸ h.leaf) ?_
    intro n' lo' hi' h'
    rw [ht] at h'
    cases h'
    refine builtin_not_def hg ?_
    rcases hn with rfl | rfl <;> decide
  | bool =>
    refine hleaf _ (ht ▸ .bool) ?_
    intro n' lo' hi' h'
    rw [ht] at h'
    cases h'
    exact builtin_not_def hg (by decide)
  | enum h1 h2 _ => exact hdef _ _ h1 ht (.enum _ (hg _ h1).2.1 h2.1 h2.2)
  | alias h1 _ h2 => exact hdef _ _ h1 ht (.simple h2.leaf)
  | posix h1 _ _ h2 => exact hdef _ _ h1 ht (.simple h2)

theorem leafSize_not_arr {t : AType} {w : Int} (h : LeafSize t w) : ∀ e len, t ≠ .arr e len := by
  intro e len ht
  subst ht
  cases h

/-- It is the only size. -/
theorem Spec.Width.unique {ds : List Def} (hnd : (ds.map Def.name).Nodup) (hg : ∀ d ∈ ds, GrammarDef d)
    {m : Member} (hgm : GrammarType m.type) {w v : Int}
    (h : Width ds m.type w) (hv : Size ds (.members [m]) v) : v = w := by
  have hplain : ∃ n lo hi, m.type = .plain n lo hi := by
    generalize ht : m.type = t at h
    cases h with
    | scalar h => obtain ⟨n, lo, hi, rfl, _⟩ := h.plain; exact ⟨_, _, _, rfl⟩
    | _ => exact ⟨_, _, _, rfl⟩
  have hs := Width.size hg h
  obtain ⟨n, lo, hi, ht⟩ := hplain
  have hdef : ∀ d a a', d ∈ ds → d.name = n → Size ds (.def d) a → Size ds (.def d) a' →
      (∀ ms c n, d ≠ .seq n c ms) → a = a' := by
    intro d a a' hd _ h1 h2 hns
    cases h1 with
    | seq => exact absurd rfl (hns _ _ _)
    | enum _ _ k1 k2 =>
      cases h2 with
      | enum _ _ k3 k4 => rw [least_unique ⟨k1, k2⟩ ⟨k3, k4⟩]
    | simple k1 =>
      cases h2 with
      | simple k2 => exact leafSize_unique (hg _ hd).2 (leafSize_not_arr k1) k1 k2
  have hns : ∀ d ∈ ds, d.name = n → ∀ ms c n, d ≠ .seq n c ms := by
    rintro d hd hdn ms c n' rfl
    rw [ht] at h
    simp only [Def.name] at hdn
    subst hdn
    have hnb : ∀ k ∈ ["INTEGER", "REAL", "BOOLEAN", "NULL", "IA5String", "NumericString"], n' ≠ k :=
      fun k hk => builtin_not_def hg hk _ hd
    generalize hx : AType.plain n' lo hi = x at h
    cases h with
    | scalar h =>
      obtain ⟨_, _, _, rfl, hn⟩ := h.plain
      cases hx
      rcases hn with hn | hn <;> exact absurd hn (hnb _ (by decide))
    | bool => cases hx; exact absurd rfl (hnb _ (by decide))
    | enum h1 =>
      cases hx
      exact absurd (mem_unique_of_nodup_map hnd h1 hd rfl) (by simp)
    | alias h1 =>
      cases hx
      exact absurd (mem_unique_of_nodup_map hnd h1 hd rfl) (by simp)
    | posix h1 =>
      cases hx
      exact absurd (mem_unique_of_nodup_map hnd h1 hd rfl) (by simp)
  generalize hl : Node.members [m] = x at hs hv
  cases hs with
  | named h1 h2 h3 h4 =>
    cases hl
    cases h4
    rw [ht] at h1
    cases h1
    cases hv with
    | named k1 k2 k3 k4 =>
      cases k4
      rw [ht] at k1
      have hn := (AType.plain.inj k1).1
      have := mem_unique_of_nodup_map hnd h2 k2 hn
      subst this
      rw [hdef _ _ _ h2 rfl h3 k3 (hns _ h2 rfl)]
    | leaf k1 => exact absurd rfl (k1 _ _ _ ht _ h2)
    | array k1 => rw [ht] at k1; cases k1
  | leaf h1 h2 h3 =>
    cases hl
    cases h3
    cases hv with
    | named k1 k2 k3 k4 => exact absurd rfl (h1 _ _ _ k1 _ k2)
    | leaf k1 k2 k3 =>
      cases k3
      rw [leafSize_unique hgm (leafSize_not_arr h2) h2 k2]
    | array k1 => rw [ht] at k1; cases k1
  | array h1 => cases hl; rw [ht] at h1; cases h1
  | _ => cases hl

theorem storage_bits {ct : Text} {s : Nat} (h : Storage ct s) :
    ([("uint8_t".toList, 8), ("uint16_t".toList, 16), ("uint32_t".toList, 32), ("uint64_t".toList, 64),
      ("int8_t".toList, 8), ("int16_t".toList, 16), ("int32_t".toList, 32), ("int64_t".toList, 64),
      ("unsigned long long".toList, 64)] : List (Text × Nat)).lookup ct = some s := by
  cases h with
  | unsigned h => cases h <;> decide +kernel
  | signed h => cases h <;> decide +kernel
  | long => decide +kernel

theorem storage_unique {ct : Text} {s s' : Nat} (h : Storage ct s) (h' : Storage ct s') : s = s' :=
  Option.some.inj ((storage_bits h).symm.trans (storage_bits h'))

theorem storage_lower {ct : Text} {s : Nat} (h : Storage ct s) : ∃ c ∈ ct.head?, reUpper c = false := by
  cases h with
  | unsigned h => cases h <;> exact ⟨'u', by decide, by decide⟩
  | signed h => cases h <;> exact ⟨'i', by decide, by decide⟩
  | long => exact ⟨'u', by decide, by decide⟩

theorem ident_not_storage {n : String} (hn : isNameCapital n = true) {s : Nat} : ¬ Storage (ident n) s := by
  intro h
  obtain ⟨c, hc, hu⟩ := storage_lower h
  unfold isNameCapital at hn
  unfold ident at hc
  cases hl : n.toList with
  | nil => rw [hl] at hc; cases hc
  | cons x xs =>
    rw [hl] at hn hc
    simp only [Bool.and_eq_true] at hn
    have hx : x ≠ '-' := by rintro rfl; exact absurd hn.1 (by decide)
    have : c = x := by simpa [hx] using hc.symm
    rw [this, hn.1] at hu
    cases hu

theorem unsignedField_bits {w : Nat} {ct sfx : Text} (h : UnsignedField w ct sfx) : FieldBits ct sfx w := by
  obtain ⟨n, h1, h2, h3, ⟨⟨ct', h4⟩, rfl⟩ | ⟨_, h4⟩⟩ := h
  · have : n = w := by
      have := h3 w ct' h4 (Nat.le_refl _)
      omega
    subst this
    exact .unsigned h1
  · refine .bitField h4 fun s hs => ?_
    rw [storage_unique hs (.unsigned h1)]
    exact h2

/-- The C type of a numeric type is as wide as the type. -/
theorem mapNumeric_bits {t : AType} {w : Int} (h : ScalarWidth t w) {f : Mapped} (hm : mapNumeric t = .ok f) :
    FieldBits f.ctype f.bits w := by
  cases h with
  | @unsigned lo hi w h0 h1 h2 =>
    have hle : lo ≤ hi := by
      generalize hx : intType lo hi = x at h2
      cases h2 <;> simp [intType] at hx <;> omega
    have hpos : 1 ≤ hi := by
      rcases Int.lt_or_le hi 1 with h | h
      · exfalso
        have : hi = 0 := by omega
        subst this
        rw [mapNumeric_uint h0 hle, if_pos (by decide)] at hm
        cases hm
      · exact h
    obtain ⟨ct', q1, q2, q3, _⟩ := mapNumeric_uint_ok h0 hle hpos h1
    rw [q1] at hm
    cases hm
    have : w = bitLength hi := leafSize_unique (t := intType lo hi) .integerRange (by simp [intType]) h2
      (.uint _ h0 hle q2.1 q2.2)
    rw [this]
    exact unsignedField_bits q3
  | signed h0 _ =>
    rw [mapNumeric_sint h0 hm]
    exact .int
  | @real lo hi w h0 =>
    rcases mapNumeric_real hm with ⟨h1, rfl⟩ | ⟨h1, rfl⟩
    · have h2 := (leafSize_real lo hi w).2 h0
      rw [(leafSize_real lo hi 32).2 h1] at h2
      cases h2
      exact .single
    · have h2 := (leafSize_real lo hi w).2 h0
      rw [(leafSize_real lo hi 64).2 h1] at h2
      cases h2
      exact .double

/-- `fieldType` on a name of stdint.h. -/
theorem fieldType_posix {ds simple : List Def} (hcap : ∀ d ∈ simple, isNameCapital d.name = true)
    (hnd : (ds.map Def.name).Nodup) {n : String} {c : Option Comment} {t : AType} {ct : Text}
    (hp : Posix n ct) (hd : Def.simple n c t ∈ ds) {f : Mapped}
    (h : fieldType ds simple (.plain n none none) = .ok f) : f.ctype = ct ∧ f.bits = [] := by
  obtain ⟨p1, p2, hn, p4⟩ := posix_lower hp
  obtain ⟨b1, b2, b3⟩ := cName_not_builtin hn
  have hl : lastDef ds n = some (.simple n c t) := lastDef_of_mem hnd hd
  unfold fieldType mapMember at h
  simp only [AType.name, b1, b2, b3, or_self, if_false, resolveType, hl] at h
  simp only [bind, Except.bind, p1, p2, if_true] at h
  rw [find_simple_none hcap p4] at h
  cases h
  exact ⟨rfl, rfl⟩

/-- The C field of a member is as wide as its type. -/
theorem fieldType_width {raw : List Module} {cfg : List String} {b : Bundle} (hin : Input raw cfg b)
    {bm : BMod} (hm : bm ∈ b.mods) {d : Def} (hd : d ∈ bm.mod.defs) {k : Member} (hk : k ∈ d.members)
    {w : Int} (hw : Width b.defs k.type w) {f : Mapped}
    (h : fieldType b.defs (simpleList bm) k.type = .ok f) : FieldBits f.ctype f.bits w := by
  have hb := hin.accepted
  have hbt := buildFromTexts_of_config hb
  have hsub := simpleList_sub hb hm
  have hcapd := accepted_capital hin.grammar hbt
  have hnd := accepted_nodup hbt
  have hcap : ∀ d ∈ simpleList bm, isNameCapital d.name = true := fun d hd => hcapd d (hsub d hd).1
  generalize ht : k.type = t at hw
  rw [ht] at h
  cases hw with
  | scalar hw =>
    have hmn : mapMember b.defs t = mapNumeric t := by
      obtain ⟨n, lo, hi, rfl, hn⟩ := hw.plain
      have h1 : cName "INTEGER" = "INTEGER".toList := by decide +kernel
      have h2 : cName "REAL" = "REAL".toList := by decide +kernel
      unfold mapMember
      rcases hn with rfl | rfl
      · simp only [AType.name, h1, true_or, if_true]
      · simp only [AType.name, h2, or_true, if_true]
    have h' := h
    unfold fieldType at h'
    simp only [bind_ok] at h'
    obtain ⟨m', hm', _⟩ := h'
    have hml := hm'
    rw [hmn] at hml
    have hlow : ∀ c ∈ m'.ctype.head?, reLower c = true := mapNumeric_lower hml
    rw [fieldType_lower_of hcap hm' hlow] at h
    cases h
    exact mapNumeric_bits (f := m') hw hml
  | bool =>
    have hmn : mapMember b.defs (.plain "BOOLEAN" none none) = .ok ⟨" : 1".toList, "uint8_t".toList, false, true⟩ := by
      have h1 : cName "BOOLEAN" = "BOOLEAN".toList := by decide +kernel
      unfold mapMember
      simp only [AType.name, h1, if_true]
      rw [if_neg (by decide)]
    rw [fieldType_lower_of hcap hmn (by decide)] at h
    cases h
    refine .bitField (w := 1) ⟨['1'], by decide, by decide⟩ fun s hs => ?_
    rw [storage_unique hs (.unsigned .w8)]
    decide
  | @enum n _ _ _ h1 h2 h3 =>
    have hpos := (accepted_grammar hin.grammar hbt _ h1).2 _ _ _ rfl
    obtain ⟨⟨w', q1, q2⟩, q3, q4⟩ := fieldType_enum hcap (fun d hd => (hsub d hd).1) hnd (hcapd _ h1) h1 hpos h
    rw [least_unique h2 q1]
    refine .bitField q2 fun s hs => ?_
    rw [← least_unique h2 q1]
    by_cases hp : ∃ ct, Posix n ct
    · obtain ⟨ct, hp⟩ := hp
      rw [q4 ct hp] at hs
      exact h3 ct s hp hs
    · rw [q3 fun ct h => hp ⟨ct, h⟩] at hs
      exact absurd hs (ident_not_storage (hcapd _ h1))
  | alias h1 h2 h3 =>
    have hn := hcapd _ h1
    simp only [Def.name] at hn
    have hvis := used_simple hb hm hd hk (ht ▸ .plain) (capital_not_builtIn hn)
    obtain ⟨m', q1, q2, q3⟩ := fieldType_alias hcap (fun d hd => (hsub d hd).1) hnd hn h2
      (hvis.2 _ h1 rfl rfl) h
    rw [q2, q3]
    exact mapNumeric_bits h3 q1
  | posix h1 h2 h3 h4 =>
    obtain ⟨q1, q2⟩ := fieldType_posix hcap hnd h2 h1 h
    rw [q1, q2]
    exact h3

/-- Statement of C44 for a relation between types and widths: C fields, COSMOS items and binary
blocks of a type have its width. -/
def SameWidths (W : List Def → AType → Int → Prop) : Prop :=
  ∀ (raw : List Module) (cfg : List String) (b : Bundle), Input raw cfg b →
    (∀ (cmd : Command) (fuel : Nat) (out : Text) (fs : Files),
      (cmd.run fuel raw cfg out).result = .ok () → ∀ m ∈ b.modules,
      ∃ h : HeaderParts, HasText ((cmd.run fuel raw cfg out).apply fs) (cmd.path out m.name) h.text ∧
        HasBlocks (fun t ct sfx => ∀ w, W b.defs t w → FieldBits ct sfx w)
          (fun t => (dims t).take 1) m h) ∧
    (∀ (fuel : Nat) (p : Printer) (module : String) (messages : List String) (target out : Text),
      Faithful p → OneLine p → IsTarget target →
      (runCosmos fuel p raw module messages target out).result = .ok () →
      ∃ t, (∀ fs, Adds fs ((runCosmos fuel p raw module messages target out).apply fs)
          (cosmosPath out target) t) ∧
        Describes b module target (LeafWise b.defs fun _ m it => ∀ w, W b.defs m.type w → it.bits = some w)
          messages t) ∧
    ∀ (fuel : Nat) (e : Option Endian) (out : Text),
      BinFiles fuel e raw cfg out fun ds f blk => (∃ t, Elementary ds f.1.type t) →
        ∀ w, W ds f.1.type w → 8 * (blk.length : Int) = w

/-- Full statement of C44: all members of numeric or enumerated types have the width the tool
computes for them in all formats. -/
def C44_full : Prop :=
  SameWidths fun ds t w => Numeric ds t ∧ Size ds (.members [⟨"x", t, none, none⟩]) w

/-- **C44, partial.** Numbers, booleans and enumerations have the same width in C, COSMOS and the
binary files. Missing: signed ranges of another width than that of int, unsigned ranges beyond 64
bits, and names of stdint.h that are defined as something else. -/
theorem C44_widths_partial : SameWidths Width := by
  intro raw cfg b hin
  have hsrc := sources_of_input hin
  have hs := accepted_sized hsrc
  refine ⟨?_, ?_, ?_⟩
  · intro cmd fuel out fs hr m hm
    obtain ⟨bm, hbm, rfl⟩ := List.mem_map.1 hm
    obtain ⟨h, sorted, tss, h1, _, h3, h4, h5, _⟩ :=
      header_file hin.grammar hin.comments hin.accepted hr hbm fs
    refine ⟨h, h1, sorted, tss, h3, h4.imp_mem (fun d hd ts hbl => block_mono ?_ hbl), h5⟩
    rintro k hk ct sfx ⟨f, k1, rfl, rfl, _⟩ w hw
    exact fieldType_width hin hbm (h3.mem_iff.1 hd) hk hw k1
  · intro fuel p module messages target out hp ho ht hr
    refine cosmos_describes hsrc hp ho ht hr fun _ _ _ hl _ h => leafWise_of hl h
      fun _ m _ c lo hi states e _ _ hmd hsh hm _ w hw => ?_
    have hgm := (member_grammar hs.grammar hmd).2.1
    have ha : ∀ e len, m.type ≠ .arr e len := by
      intro e len he
      rw [he] at hw
      generalize hx : AType.arr e len = x at hw
      cases hw with
      | scalar h => obtain ⟨_, _, _, rfl, _⟩ := h.plain; cases hx
      | _ => cases hx
    have hsim : ∀ n c t, UsesName m.type n → Def.simple n c t ∈ b.defs → ∀ e len, t ≠ .arr e len := by
      intro n c t hu hd
      have hlf : LeafSize t w := by
        have hnb : ∀ k ∈ ["INTEGER", "REAL", "BOOLEAN", "NULL", "IA5String", "NumericString"], n ≠ k :=
          fun k hk => builtin_not_def hs.grammar hk _ hd
        generalize m.type = t' at hw hu
        cases hw with
        | scalar h =>
          obtain ⟨_, _, _, rfl, hn⟩ := h.plain
          cases hu
          rcases hn with hn | hn <;> exact absurd hn (hnb _ (by decide))
        | bool => cases hu; exact absurd rfl (hnb _ (by decide))
        | enum h1 =>
          cases hu
          exact absurd (mem_unique_of_nodup_map hs.nodup h1 hd rfl) (by simp)
        | alias h1 _ h2 =>
          cases hu
          cases mem_unique_of_nodup_map hs.nodup h1 hd rfl
          exact h2.leaf
        | posix h1 _ _ h2 =>
          cases hu
          cases mem_unique_of_nodup_map hs.nodup h1 hd rfl
          exact h2
      exact leafSize_not_arr hlf
    have := hw.unique hs.nodup hs.grammar hgm (item_size hs hgm hsim ha hsh hm.bits)
    show some e.bits = some w
    rw [this]
  · intro fuel e out w hw hbin
    obtain ⟨b', hb', d, hd, x, hx, bytes, h1, h2, fixed, blocks, h3, h4, h5⟩ :=
      C30_blocks_partial fuel e raw cfg out hin.grammar w hw hbin
    have hbb : b' = b := Except.ok.inj (hb'.symm.trans hin.accepted)
    subst hbb
    refine ⟨b', hb', d, hd, x, hx, bytes, h1, h2, fixed, blocks, h3, ?_, h5⟩
    exact h4.imp fun f blk h he v hv => h he v (hv.size hs.grammar)

/-! #### Exactly these types -/

theorem intType_width_of {lo hi : Int} {w : Int} (hl : LeafSize (intType lo hi) w) {f : Mapped}
    (hm : mapNumeric (intType lo hi) = .ok f) (hf : FieldBits f.ctype f.bits w) : ScalarWidth (intType lo hi) w := by
  rcases Int.lt_or_le lo 0 with h0 | h0
  · rw [mapNumeric_sint h0 hm] at hf
    have : w = 32 := by
      generalize hc : "int".toList = ct at hf
      generalize hs : ([] : Text) = sfx at hf
      cases hf with
      | bitField hb _ => obtain ⟨d, rfl, _⟩ := hb; exact absurd hs (by simp)
      | unsigned h => cases h <;> exact absurd hc (by decide)
      | signed h => cases h <;> exact absurd hc (by decide)
      | int => rfl
      | single => exact absurd hc (by decide)
      | double => exact absurd hc (by decide)
    subst this
    exact .signed h0 hl
  · refine .unsigned h0 ?_ hl
    rcases Int.lt_or_le hi (2 ^ 64) with h | h
    · exact h
    · exfalso
      have hle : lo ≤ hi := by
        generalize hx : intType lo hi = x at hl
        cases hl <;> simp [intType] at hx <;> omega
      have hw : w = bitLength hi := Except.ok.inj (((leafSize_int lo hi w).2 hl).symm.trans
        ((leafSize_int lo hi (bitLength hi)).2 (.uint _ h0 hle (uint_least lo hi h0 hle).1 (uint_least lo hi h0 hle).2)))
      have hbig : 64 < bitLength hi := Nat.lt_of_not_le fun hc => by
        have := (lt_two_pow_64 (by omega)).1 hc
        omega
      have hct : f.ctype = "unsigned long long".toList := by
        rw [mapNumeric_big h0 hle hbig hm]
      rw [hct] at hf
      generalize hc : "unsigned long long".toList = ct at hf
      generalize f.bits = sfx at hf
      cases hf with
      | bitField _ h2 => have := h2 64 (hc ▸ .long); omega
      | unsigned h => cases h <;> exact absurd hc (by decide)
      | signed h => cases h <;> exact absurd hc (by decide)
      | int => exact absurd hc (by decide)
      | single => exact absurd hc (by decide)
      | double => exact absurd hc (by decide)

theorem size_leaf {ds : List Def} (hg : ∀ d ∈ ds, GrammarDef d) {m : Member} {n : String} {lo hi : Option Num}
    (ht : m.type = .plain n lo hi) (hn : n = "INTEGER" ∨ n = "REAL") {w : Int} (h : Size ds (.members [m]) w) :
    LeafSize m.type w := by
  have hnb : ∀ d ∈ ds, d.name ≠ n := builtin_not_def hg (by rcases hn with rfl | rfl <;> decide)
  generalize hl : Node.members [m] = x at h
  cases h with
  | named k1 k2 k3 k4 =>
    cases hl
    rw [ht] at k1
    exact absurd (AType.plain.inj k1).1.symm (hnb _ k2)
  | leaf k1 k2 k3 =>
    cases hl
    cases k3
    rw [Int.add_zero]
    exact k2
  | array k1 => cases hl; rw [ht] at k1; cases k1
  | _ => cases hl

theorem size_named {ds : List Def} (hnd : (ds.map Def.name).Nodup) {m : Member} {d : Def} (hd : d ∈ ds)
    (ht : m.type = .plain d.name none none) {w : Int} (h : Size ds (.members [m]) w) : Size ds (.def d) w := by
  generalize hl : Node.members [m] = x at h
  cases h with
  | named k1 k2 k3 k4 =>
    cases hl
    cases k4
    rw [ht] at k1
    have := mem_unique_of_nodup_map hnd hd k2 (AType.plain.inj k1).1
    subst this
    rw [Int.add_zero]
    exact k3
  | leaf k1 k2 k3 => cases hl; exact absurd rfl (k1 _ _ _ ht _ hd)
  | array k1 => cases hl; rw [ht] at k1; cases k1
  | _ => cases hl

/-- A type whose C field is as wide as the type is one of `Width`. -/
theorem fieldType_width_of {raw : List Module} {cfg : List String} {b : Bundle} (hin : Input raw cfg b)
    {bm : BMod} (hm : bm ∈ b.mods) {d : Def} (hd : d ∈ bm.mod.defs) {k : Member} (hk : k ∈ d.members)
    (hnum : Numeric b.defs k.type) {w : Int} (hw : Size b.defs (.members [⟨"x", k.type, none, none⟩]) w) {f : Mapped}
    (h : fieldType b.defs (simpleList bm) k.type = .ok f) (hf : FieldBits f.ctype f.bits w) :
    Width b.defs k.type w := by
  have hb := hin.accepted
  have hbt := buildFromTexts_of_config hb
  have hsub := simpleList_sub hb hm
  have hcapd := accepted_capital hin.grammar hbt
  have hnd := accepted_nodup hbt
  have hgd : ∀ d ∈ b.defs, GrammarDef d := fun d hd => (accepted_grammar hin.grammar hbt d hd).1
  have hcap : ∀ d ∈ simpleList bm, isNameCapital d.name = true := fun d hd => hcapd d (hsub d hd).1
  have hnumeric : ∀ t : AType, k.type = t → (∃ n lo hi, t = .plain n lo hi ∧ (n = "INTEGER" ∨ n = "REAL")) →
      ∃ m', mapNumeric t = .ok m' ∧ f.ctype = m'.ctype ∧ f.bits = m'.bits := by
    rintro t ht ⟨n, lo, hi, rfl, hn⟩
    have hmn : mapMember b.defs (.plain n lo hi) = mapNumeric (.plain n lo hi) := by
      have h1 : cName "INTEGER" = "INTEGER".toList := by decide +kernel
      have h2 : cName "REAL" = "REAL".toList := by decide +kernel
      unfold mapMember
      rcases hn with rfl | rfl
      · simp only [AType.name, h1, true_or, if_true]
      · simp only [AType.name, h2, or_true, if_true]
    have h' := ht ▸ h
    unfold fieldType at h'
    simp only [bind_ok] at h'
    obtain ⟨m', hm', _⟩ := h'
    have hml := hm'
    rw [hmn] at hml
    have h'' := ht ▸ h
    rw [fieldType_lower_of hcap hm' (mapNumeric_lower hml)] at h''
    cases h''
    exact ⟨m', hml, rfl, rfl⟩
  have halias : ∀ n c t, Def.simple n c t ∈ b.defs → k.type = .plain n none none → (∀ ct, ¬ Posix n ct) →
      ∃ m', mapNumeric t = .ok m' ∧ f.ctype = m'.ctype ∧ f.bits = m'.bits := by
    intro n c t h1 ht h2
    have hn := hcapd _ h1
    simp only [Def.name] at hn
    have hvis := used_simple hb hm hd hk (ht ▸ .plain) (capital_not_builtIn hn)
    exact fieldType_alias hcap (fun d hd => (hsub d hd).1) hnd hn h2 (hvis.2 _ h1 rfl rfl) (ht ▸ h)
  have hnamed : ∀ d ∈ b.defs, k.type = .plain d.name none none → Size b.defs (.def d) w :=
    fun d hd ht => size_named hnd (m := ⟨"x", k.type, none, none⟩) hd ht hw
  have hsimple : ∀ n c t, Def.simple n c t ∈ b.defs → k.type = .plain n none none →
      (∀ m', mapNumeric t = .ok m' → FieldBits m'.ctype m'.bits w → LeafSize t w → ScalarWidth t w) →
      Width b.defs (.plain n none none) w := by
    intro n c t hd ht hsc
    have hl : LeafSize t w := by
      have := hnamed _ hd ht
      cases this with
      | simple h => exact h
    by_cases hp : ∃ ct, Posix n ct
    · obtain ⟨ct, hp⟩ := hp
      obtain ⟨q1, q2⟩ := fieldType_posix hcap hnd hp hd (ht ▸ h)
      rw [q1, q2] at hf
      exact .posix hd hp hf hl
    · have hp' : ∀ ct, ¬ Posix n ct := fun ct h => hp ⟨ct, h⟩
      obtain ⟨m', q1, q2, q3⟩ := halias n c t hd ht hp'
      rw [q2, q3] at hf
      exact .alias hd hp' (hsc m' q1 hf hl)
  rcases hnum with ⟨lo, hi, ht⟩ | ⟨lo, hi, ht⟩ | ⟨n, ht, ⟨c, its, hd⟩ | ⟨c, lo, hi, hd⟩ | ⟨c, lo, hi, hd⟩⟩
  · have hl := size_leaf hgd (m := ⟨"x", k.type, none, none⟩) ht (.inl rfl) hw
    simp only [ht] at hl ⊢
    obtain ⟨m', q1, q2, q3⟩ := hnumeric _ ht ⟨_, _, _, rfl, .inl rfl⟩
    rw [q2, q3] at hf
    exact .scalar (intType_width_of hl q1 hf)
  · have hl := size_leaf hgd (m := ⟨"x", k.type, none, none⟩) ht (.inr rfl) hw
    simp only [ht] at hl ⊢
    exact .scalar (.real hl)
  · rw [ht]
    have := hnamed _ hd ht
    cases this with
    | enum v hne k1 k2 =>
      refine .enum hd ⟨k1, k2⟩ fun ct s hp hs => ?_
      have hpos := (accepted_grammar hin.grammar hbt _ hd).2 _ _ _ rfl
      obtain ⟨⟨w', q1, q2⟩, _, q4⟩ := fieldType_enum hcap (fun d hd => (hsub d hd).1) hnd (hcapd _ hd) hd hpos (ht ▸ h)
      rw [q4 ct hp] at hf
      generalize hv : (v : Int) = v' at hf
      generalize hb' : f.bits = sfx at hf
      obtain ⟨dg, hdg, _⟩ := q2
      have hne : sfx ≠ [] := by rw [← hb', hdg]; simp
      cases hf with
      | bitField _ h2 => have := h2 s hs; omega
      | _ => exact absurd rfl hne
  · rw [ht]
    exact hsimple _ _ _ hd ht fun m' q1 q2 q3 => intType_width_of q3 q1 q2
  · rw [ht]
    exact hsimple _ _ _ hd ht fun m' q1 q2 q3 => .real q3

/-- **C44, which fields agree.** A field for a numeric or enumerated member has the number of bits the tool computes
for the member, hence that of the COSMOS item, exactly if the type is one of `Width`. For the other numeric types the full statement is false. -/
theorem C44_exact_partial (raw : List Module) (cfg : List String) (b : Bundle) (hin : Input raw cfg b) (cmd : Command)
    (fuel : Nat) (out : Text) (fs : Files) (hr : (cmd.run fuel raw cfg out).result = .ok ()) (m : Module)
    (hm : m ∈ b.modules) :
    ∃ h : HeaderParts, HasText ((cmd.run fuel raw cfg out).apply fs) (cmd.path out m.name) h.text ∧
      HasBlocks (fun t ct sfx => Numeric b.defs t → ∀ w, Size b.defs (.members [⟨"x", t, none, none⟩]) w →
        (FieldBits ct sfx w ↔ Width b.defs t w)) (fun t => (dims t).take 1) m h := by
  obtain ⟨bm, hbm, rfl⟩ := List.mem_map.1 hm
  obtain ⟨h, sorted, tss, h1, _, h3, h4, h5, _⟩ := header_file hin.grammar hin.comments hin.accepted hr hbm fs
  refine ⟨h, h1, sorted, tss, h3, h4.imp_mem (fun d hd ts hbl => block_mono ?_ hbl), h5⟩
  rintro k hk ct sfx ⟨f, k1, rfl, rfl, _⟩ hn w hw
  exact ⟨fun hf => fieldType_width_of hin hbm (h3.mem_iff.1 hd) hk hn hw k1 hf,
    fun hW => fieldType_width hin hbm (h3.mem_iff.1 hd) hk hW k1⟩

/-- A module with a small signed range. -/
def exSignedModule : Module :=
  { name := "m", defs := [.seq "Rec" none [⟨"x", intType (-5) 5, none, none⟩]] }

def exSigned : List Module := [exSignedModule]

/-- It fails: `INTEGER (-5..5)` has 8 bits and becomes `int`. -/
theorem C44_full_false : ¬ C44_full := by
  intro hf
  have hin : Input exSigned ["m"] (okBundle (buildFromConfig exSigned ["m"])) :=
    input_of (by decide +kernel) (by decide +kernel) (by decide +kernel)
  obtain ⟨h, h1, h2⟩ := (hf exSigned ["m"] _ hin).1 (.c exPrinter) 20 exOut (fun _ => none)
    (by decide +kernel) exSignedModule (by decide +kernel)
  obtain ⟨ct, sfx, br, h3, h4, h5⟩ := field_line h2 (n := "Rec") (c := none)
    (ms := [⟨"x", intType (-5) 5, none, none⟩]) (by decide +kernel) (by decide +kernel) (List.Mem.head _)
  have h6 := h3 8 ⟨.inl ⟨_, _, rfl⟩, by
    have hno : ∀ d ∈ (okBundle (buildFromConfig exSigned ["m"])).defs, d.name ≠ "INTEGER" := by decide +kernel
    have := Size.leaf (ds := (okBundle (buildFromConfig exSigned ["m"])).defs)
      (m := ⟨"x", intType (-5) 5, none, none⟩) (ms := []) (a := 8) (v := 0)
      (by intro n lo hi hn; cases hn; exact hno)
      (by exact (leafSize_int (-5) 5 8).1 (by decide +kernel)) .nil
    exact this⟩
  rw [← fileText_eq h1] at h5
  have hno : ∀ l ∈ linesOf (fileText (((Command.c exPrinter).run 20 exSigned ["m"] exOut).apply
      fun _ => none) ((Command.c exPrinter).path exOut exSignedModule.name)),
      ':' ∉ l ∧ "  uint8_t".toList.isPrefixOf l = false ∧ "  int8_t".toList.isPrefixOf l = false := by
    decide +kernel
  obtain ⟨n1, n2, n3⟩ := hno _ h5
  generalize h8 : (8 : Int) = v at h6
  cases h6 with
  | bitField hb _ =>
    obtain ⟨ds, rfl, _⟩ := hb
    apply n1
    have : ':' ∈ " : ".toList := by decide
    simp only [List.mem_append, List.mem_cons, this, true_or, or_true]
  | unsigned hs =>
    have : _ = 8 := Int.ofNat.inj h8.symm
    subst this
    cases hs
    cases n2
  | signed hs =>
    have : _ = 8 := Int.ofNat.inj h8.symm
    subst this
    cases hs
    cases n3
  | int => cases h8
  | single => cases h8
  | double => cases h8

theorem exTlm_input : Input exTlm ["tlm"] (okBundle (buildFromConfig exTlm ["tlm"])) :=
  input_of (by decide +kernel) (by decide +kernel) (by decide +kernel)

/-- All commands succeed on the example of the COSMOS properties, which has an enumeration. -/
example : ((Command.c exPrinter).run 20 exTlm ["tlm"] exOut).result = .ok () ∧
    ((Command.cfs exPrinter).run 20 exTlm ["tlm"] exOut).result = .ok () ∧
    Def.enum "Mode" none [⟨"off", 0, none⟩, ⟨"on", 1, none⟩, ⟨"safe", 2, none⟩] ∈
      (okBundle (buildFromConfig exTlm ["tlm"])).defs := by
  refine ⟨by decide +kernel, by decide +kernel, by decide +kernel⟩

/-- Widths of types of the example. -/
example : Width (okBundle (buildFromConfig exTlm ["tlm"])).defs (.plain "Mode" none none) 2 ∧
    Width (okBundle (buildFromConfig exTlm ["tlm"])).defs (.plain "Temp" none none) 32 ∧
    Width (okBundle (buildFromConfig exTlm ["tlm"])).defs (intType 0 2047) 11 := by
  refine ⟨?_, ?_, ?_⟩
  · refine .enum (c := none) (its := [⟨"off", 0, none⟩, ⟨"on", 1, none⟩, ⟨"safe", 2, none⟩]) (w := 2)
      (by decide +kernel) (by
        refine ⟨by unfold FitsUnsigned; decide, fun w' h => ?_⟩
        have h2 := (h ⟨"safe", 2, none⟩ (by decide)).2
        simp only at h2
        refine Nat.not_lt.1 fun hlt => ?_
        have : w' = 0 ∨ w' = 1 := by omega
        rcases this with rfl | rfl <;> revert h2 <;> decide) ?_
    intro ct s h
    exfalso
    generalize hn : "Mode" = n at h
    cases h <;> revert hn <;> decide
  · refine .alias (c := none) (t := realType (.flt (-40)) (.flt 85)) (by decide +kernel) ?_
      (.real ((leafSize_real _ _ _).1 (by decide +kernel)))
    intro ct h
    generalize hn : "Temp" = n at h
    cases h <;> revert hn <;> decide
  · exact .scalar (.unsigned (by decide) (by decide) ((leafSize_int _ _ _).1 (by decide +kernel)))

end Apg
