import Verif.Lemmas.CosmosSize

namespace Apg
open Spec

/-! ### Limits -/

theorem restricted_single {b e : Num} (h : LeafSize (realType b e) 32) :
    Restricted b e ↔ ¬ (NumLE b (.flt floatMin) ∧ NumLE (.flt floatMax) e) := by
  rw [floatMin_eq]
  constructor
  · intro hr
    cases hr with
    | single hl _ hn => rw [floatMax_eq, ← hl]; exact hn
    | double hl h' _ =>
      have h1 := (leafSize_real b e 32).2 h
      have h2 := (leafSize_real b e 64).2 h'
      rw [h1] at h2
      cases h2
  · intro hn
    exact .single floatMax_eq h hn

theorem restricted_double {b e : Num} (h : LeafSize (realType b e) 64) :
    Restricted b e ↔ ¬ (NumLE b (.flt doubleMin) ∧ NumLE (.flt doubleMax) e) := by
  rw [doubleMin_eq]
  constructor
  · intro hr
    cases hr with
    | double hl _ hn => rw [doubleMax_eq, ← hl]; exact hn
    | single hl h' _ =>
      have h1 := (leafSize_real b e 64).2 h
      have h2 := (leafSize_real b e 32).2 h'
      rw [h1] at h2
      cases h2
  · intro hn
    exact .double doubleMax_eq h hn

theorem classify_integer {b e : Num} {c : CType} (h : (AType.plain "INTEGER" (some b) (some e)).cType = some c) :
    c = .uint ∨ c = .int := by
  have hp : posixRange "INTEGER" = none := by decide +kernel
  unfold AType.cType asn1Type classify at h
  simp only [AType.lo, AType.hi, AType.name, hp] at h
  split at h
  · rename_i x hx
    subst h
    split at hx
    · cases hx
    · rw [if_neg (by simp), if_pos trivial] at hx
      split at hx
      · cases hx; exact .inl rfl
      · cases hx; exact .inr rfl
  · cases h

theorem cType_real {b e : Num} {c : CType} (h : (realType b e).cType = some c) : c = .float ∨ c = .double := by
  unfold AType.cType at h
  rw [asn1Type_real] at h
  split at h
  · rename_i x hx
    subst h
    split at hx
    · cases hx
    · split at hx
      · cases hx; exact .inl rfl
      · split at hx
        · cases hx; exact .inr rfl
        · cases hx
  · cases h

theorem real_subrange {b e : Num} {c : CType} (hc : (realType b e).cType = some c)
    {r : Option (Num × Num)} (hr : subrange c (some b) (some e) = .ok r) :
    Restricted b e ∧ r = some (b, e) ∨ ¬ Restricted b e ∧ r = none := by
  have hsz : ∀ bits, getBitSize c (some b) (some e) = .ok bits → LeafSize (realType b e) bits := by
    intro bits hb
    exact (leafSize_real b e bits).1 (cType_plain_size (t := realType b e)
      (by intro e len h; cases h) (by intro n len h; cases h) hc hb)
  rcases cType_real hc with rfl | rfl
  · have hl := restricted_single (hsz 32 rfl)
    unfold subrange at hr
    simp only at hr
    split at hr
    · rename_i h
      cases hr
      rw [Bool.or_eq_true, Num.lt_iff_not_le, Num.lt_iff_not_le, ← Classical.not_and_iff_not_or_not] at h
      exact .inl ⟨hl.2 h, rfl⟩
    · rename_i h
      cases hr
      rw [Bool.or_eq_true, Num.lt_iff_not_le, Num.lt_iff_not_le, ← Classical.not_and_iff_not_or_not] at h
      exact .inr ⟨fun h' => h (hl.1 h'), rfl⟩
  · have hl := restricted_double (hsz 64 rfl)
    unfold subrange at hr
    simp only at hr
    split at hr
    · rename_i h
      cases hr
      rw [Bool.or_eq_true, Num.lt_iff_not_le, Num.lt_iff_not_le, ← Classical.not_and_iff_not_or_not] at h
      exact .inl ⟨hl.2 h, rfl⟩
    · rename_i h
      cases hr
      rw [Bool.or_eq_true, Num.lt_iff_not_le, Num.lt_iff_not_le, ← Classical.not_and_iff_not_or_not] at h
      exact .inr ⟨fun h' => h (hl.1 h'), rfl⟩

theorem subrange_other {c : CType} (h1 : c ≠ .float) (h2 : c ≠ .double) {lo hi : Option Num}
    {r : Option (Num × Num)} (hr : subrange c lo hi = .ok r) : r = none := by
  cases c <;> first | exact absurd rfl h1 | exact absurd rfl h2 | (cases hr; rfl)

theorem subrange_none {c : CType} {hi : Option Num} {r : Option (Num × Num)}
    (hr : subrange c none hi = .ok r) : r = none := by
  cases c <;> cases hr <;> rfl

/-- When a range is kept for limits. -/
theorem subrange_spec {t : AType} (hg : GrammarType t) {c : CType} (hc : t.cType = some c)
    {r : Option (Num × Num)} (hr : subrange c t.lo t.hi = .ok r) :
    (∃ b e, t = realType b e ∧ (Restricted b e ∧ r = some (b, e) ∨ ¬ Restricted b e ∧ r = none)) ∨
    ((∀ b e, t ≠ realType b e) ∧ r = none) := by
  cases hg with
  | realRange _ _ => exact .inl ⟨_, _, rfl, real_subrange hc hr⟩
  | integerRange =>
    refine .inr ⟨fun b e h => ?_, ?_⟩
    · simp [realType] at h
    · rcases classify_integer hc with rfl | rfl
      · exact subrange_other (by decide) (by decide) hr
      · exact subrange_other (by decide) (by decide) hr
  | _ => exact .inr ⟨fun b e h => (by simp [realType] at h), subrange_none hr⟩

theorem behind_real {ds : List Def} {t : AType} {b e : Num}
    (h : Behind ds t (realType b e)) :
    t = realType b e ∨ ∃ n c, t.name = n ∧ Def.simple n c (realType b e) ∈ ds := by
  generalize hx : realType b e = x at h
  cases h with
  | direct => exact .inl rfl
  | str => cases hx
  | named h1 h2 => exact .inr ⟨_, _, (usesName_iff _ _).1 h1, h2⟩

/-- The range of a made entry. -/
theorem entry_range {ds : List Def} (hnd : (ds.map Def.name).Nodup) (hg : ∀ d ∈ ds, GrammarDef d)
    {t : AType} (ht : GrammarType t) {c : CType} {lo hi : Option Num} {states : List Text}
    (h : ItemShape ds t (some c) lo hi states) {r : Option (Num × Num)}
    (hr : subrange c lo hi = .ok r) :
    (∀ b e, Behind ds t (realType b e) → Restricted b e → r = some (b, e)) ∧
    ((∀ b e, Behind ds t (realType b e) → ¬ Restricted b e) → r = none) := by
  have hown : ∀ {t' : AType}, GrammarType t' → t'.cType = some c → subrange c t'.lo t'.hi = .ok r →
      (∀ b e, Behind ds t (realType b e) ↔ t' = realType b e) →
      (∀ b e, Behind ds t (realType b e) → Restricted b e → r = some (b, e)) ∧
      ((∀ b e, Behind ds t (realType b e) → ¬ Restricted b e) → r = none) := by
    intro t' h1 h2 h3 h4
    rcases subrange_spec h1 h2 h3 with ⟨b, e, h5, h6⟩ | ⟨h5, h6⟩
    · refine ⟨fun b' e' hb hre => ?_, fun hn => ?_⟩
      · have := (h4 b' e').1 hb
        rw [h5] at this
        simp only [realType, AType.plain.injEq, Option.some.injEq, true_and] at this
        obtain ⟨rfl, rfl⟩ := this
        rcases h6 with h6 | h6
        · exact h6.2
        · exact absurd hre h6.1
      · rcases h6 with h6 | h6
        · exact absurd h6.1 (hn b e ((h4 b e).2 h5))
        · exact h6.2
    · refine ⟨fun b' e' hb _ => absurd ((h4 b' e').1 hb) (h5 b' e'), fun _ => h6⟩
  have hbuilt : t.name ∈ ["INTEGER", "REAL", "BOOLEAN", "NULL", "IA5String", "NumericString"] →
      ∀ b e, Behind ds t (realType b e) ↔ t = realType b e := by
    intro hn b e
    constructor
    · intro h
      rcases behind_real h with h | ⟨n, c, h1, h2⟩
      · exact h
      · exact absurd h1.symm (builtin_not_def hg hn _ h2)
    · rintro rfl
      exact .direct (builtin_not_def hg (by decide))
  have hdef : ∀ n d, t.name = n → d ∈ ds → d.name = n → t.name ≠ "REAL" := by
    intro n d h1 h2 h3 h4
    exact builtin_not_def hg (n := "REAL") (by decide) d h2 (by rw [h3, ← h1, h4])
  generalize hc : some c = c' at h
  cases h with
  | number h =>
    refine hown ht hc.symm hr (hbuilt ?_)
    rcases h with h | h <;> rw [h] <;> decide
  | bool h => exact hown ht hc.symm hr (hbuilt (by rw [h]; decide))
  | str h =>
    subst h
    have hc' := hc
    rw [cType_string ht] at hc'
    cases hc'
    refine hown ht hc.symm hr (hbuilt ?_)
    cases ht
    · show "IA5String" ∈ _; decide
    · show "NumericString" ∈ _; decide
  | simple h1 h2 =>
    refine hown (hg _ h2).2 hc.symm hr fun b e => ?_
    constructor
    · intro h
      rcases behind_real h with h | ⟨n', c'', h3, h4⟩
      · exact absurd (by rw [h]; rfl) (hdef _ _ h1 h2 rfl)
      · have := mem_unique_of_nodup_map hnd h2 h4 (by show _ = n'; rw [← h3, h1]; rfl)
        cases this; rfl
    · rintro rfl
      exact .named ((usesName_iff _ _).2 h1) h2
  | enum h1 h2 =>
    cases hc
    cases hr
    refine ⟨fun b e hb _ => ?_, fun _ => rfl⟩
    exfalso
    rcases behind_real hb with h | ⟨n', c'', h3, h4⟩
    · exact absurd (by rw [h]; rfl) (hdef _ _ h1 h2 rfl)
    · have := mem_unique_of_nodup_map hnd h2 h4 (by show _ = n'; rw [← h3, h1]; rfl)
      cases this

/-! ### Identifiers -/

theorem cType_boolean {t : AType} (hg : GrammarType t) (hn : t.name = "BOOLEAN") : t.cType = some .bool := by
  have h1 : ∀ s, classify "BOOLEAN" none none s = .ok (some .bool) := by decide +kernel
  have hlo : t.lo = none := by
    cases hg <;> first | rfl | (exfalso; revert hn; decide) | (simp [AType.name] at hn)
  unfold AType.cType asn1Type
  have hhi : t.hi = none := by
    cases hg <;> first | rfl | (exfalso; revert hn; decide) | (simp [AType.name] at hn)
  simp only [hlo, hhi, hn, h1]

theorem itemShape_bool_iff {ds : List Def} (hnd : (ds.map Def.name).Nodup) (hg : ∀ d ∈ ds, GrammarDef d)
    {t : AType} (ht : GrammarType t) {c : CType} {lo hi : Option Num} {states : List Text}
    (h : ItemShape ds t (some c) lo hi states) : c = .bool ↔ IsBoolean ds t := by
  constructor
  · intro hc
    refine Classical.byContradiction fun hn => ?_
    refine itemShape_not_bool (fun h' => hn (.inl h')) (fun n cm t' h1 h2 h3 => hn (.inr ⟨n, cm, t', h1, h2, h3⟩)) h hc
  · rintro (h1 | ⟨n, cm, t', h1, h2, h3⟩)
    · rw [usesName_iff] at h1
      have hc := cType_boolean ht h1
      generalize hc' : some c = c' at h
      cases h with
      | number h => rw [hc] at hc'; exact Option.some.inj hc'
      | bool h => rw [hc] at hc'; exact Option.some.inj hc'
      | str h => rw [hc] at hc'; exact Option.some.inj hc'
      | simple h3 h4 =>
        exact absurd (h3.symm.trans h1) (builtin_not_def hg (by decide) _ h4)
      | enum h3 h4 =>
        exact absurd (h3.symm.trans h1) (builtin_not_def hg (by decide) _ h4)
    · rw [usesName_iff] at h1 h3
      have hc := cType_boolean (hg _ h2).2 h3
      have hnb : ∀ k ∈ ["INTEGER", "REAL", "BOOLEAN", "NULL", "IA5String", "NumericString"], t.name ≠ k := by
        intro k hk hh
        exact builtin_not_def hg hk _ h2 (by rw [← hh, h1]; rfl)
      generalize hc' : some c = c' at h
      cases h with
      | number h => rcases h with h | h <;> exact absurd h (hnb _ (by decide))
      | bool h => exact absurd h (hnb _ (by decide))
      | str h =>
        subst h
        exfalso
        cases ht
        · exact hnb "IA5String" (by decide) rfl
        · exact hnb "NumericString" (by decide) rfl
      | simple h4 h5 =>
        have := mem_unique_of_nodup_map hnd h5 h2 (by show _ = n; rw [← h1, h4]; rfl)
        cases this
        rw [hc] at hc'; exact Option.some.inj hc'
      | enum h4 h5 =>
        have := mem_unique_of_nodup_map hnd h5 h2 (by show _ = n; rw [← h1, h4]; rfl)
        cases this

theorem words_word_only {t : Text} (h : IsWord t) : words t = [t] := words_end h.1 h.blank

theorem readNat_hex (n : Nat) : readNat 16 (hexText 2 (n : Int)) = some n := by
  unfold hexText
  rw [if_neg (by omega)]
  exact readNat_padZero (by omega) (by omega) _ _

theorem isWord_hex (i : Int) : IsWord ("0x".toList ++ hexText 2 i) := by
  have hdig : ∀ n, ∀ c ∈ digits 16 n, c ≠ ' ' ∧ c ≠ '\n' ∧ c ≠ '"' := by
    intro n c hc
    obtain ⟨d, rfl⟩ := digits_all_digit 16 n c hc
    unfold digitChar
    split <;> decide
  have hpad : ∀ w n, ∀ c ∈ padZero w (digits 16 n), c ≠ ' ' ∧ c ≠ '\n' ∧ c ≠ '"' := by
    intro w n c hc
    unfold padZero at hc
    rcases List.mem_append.1 hc with hc | hc
    · rw [List.eq_of_mem_replicate hc]; decide
    · exact hdig n c hc
  refine ⟨by rw [show "0x".toList = '0' :: ['x'] by decide]; simp, fun c hc => ?_⟩
  rcases List.mem_append.1 hc with hc | hc
  · have h0 : ∀ c ∈ "0x".toList, c ≠ ' ' ∧ c ≠ '\n' ∧ c ≠ '"' := by decide
    exact h0 c hc
  · unfold hexText at hc
    split at hc
    · rcases List.mem_cons.1 hc with rfl | hc
      · decide
      · exact hpad _ _ c hc
    · exact hpad _ _ c hc

theorem specificText_scalar {p : Printer} {m : Member} (ha : ∀ e len, m.type ≠ .arr e len) {bits : Int}
    {s : Specific} {x : Text} (h : specificText p m bits s = .ok x) :
    (m.key = "application-process-identifier" ∧ ∃ v i, s = .leaf v ∧ x = "0x".toList ++ hexText 2 i ∧
      ∀ n, v = .int n → i = n) ∨
    (m.key ≠ "application-process-identifier" ∧
      (s = .empty ∧ x = [] ∨ (∃ v, s = .leaf v ∧ x = p.leaf v) ∨ ∃ c, s = .node c)) := by
  unfold specificText at h
  split at h
  · rename_i el len ht; exact absurd ht (ha _ _)
  · split at h
    · rename_i hk
      refine .inl ⟨hk, ?_⟩
      cases s with
      | leaf v =>
        cases v with
        | int i => exact ⟨_, i, rfl, (Except.ok.inj h).symm, fun n hn => by cases hn; rfl⟩
        | bool b => exact ⟨_, _, rfl, (Except.ok.inj h).symm, fun n hn => by cases hn⟩
        | flt x => cases h
      | node c => cases h
      | empty => cases h
    · rename_i hk
      refine .inr ⟨hk, ?_⟩
      cases s with
      | leaf v => exact .inr (.inl ⟨v, rfl, (Except.ok.inj h).symm⟩)
      | node c => exact .inr (.inr ⟨c, rfl⟩)
      | empty => exact .inl ⟨rfl, (Except.ok.inj h).symm⟩

/-- Kind and value of the item of a leaf that is no array. -/
theorem item_id {p : Printer} (hp : Faithful p) {ds : List Def} {m : Member}
    (ha : ∀ e len, m.type ≠ .arr e len) {s : Specific} {c : CType} {lo hi : Option Num}
    {states : List Text} {e : Entry} (hm : MadeFrom p m s c lo hi states e)
    (hb : c = .bool ↔ IsBoolean ds m.type) (hs : ∀ c, s ≠ .node c) :
    (¬ IsBoolean ds m.type → ((readItem p e).kind = "APPEND_ID_ITEM".toList ↔ ∃ v, s = .leaf v)) ∧
    ∀ v, s = .leaf v → Suits ds m v →
      (readItem p e).kind = "APPEND_ID_ITEM".toList ∧ IdText p (readItem p e).value v := by
  have harr : e.isArray = false := by
    rw [hm.isArray]
    split
    · rename_i el len ht; exact absurd ht (ha _ _)
    · rfl
  have hkind : ∀ x, (itemFields e).2.1 = x → ((readItem p e).kind = "APPEND_ID_ITEM".toList ↔ x ≠ []) := by
    intro x hx
    subst hx
    show (itemFields e).2.2.text = _ ↔ _
    unfold itemFields
    simp only [harr, Bool.false_eq_true, if_false]
    generalize (if e.ctype = CType.bool then _ else e.specific) = t
    split
    · rename_i h; exact ⟨fun _ => h, fun _ => rfl⟩
    · rename_i h
      constructor
      · intro h'; exact absurd h' (by decide)
      · intro h'; exact absurd h' h
  have hplain : ∀ (x : Text), e.specific = x → c ≠ .bool → (itemFields e).2.1 = x := by
    intro x hx hc
    unfold itemFields
    simp only [hm.ctype, hc, if_false, hx]
  have hval : (readItem p e).value = words (itemFields e).2.1 := rfl
  have hspec := specificText_scalar ha hm.specific
  refine ⟨fun hnb => ?_, fun v hv hsuit => ?_⟩
  · have hc : c ≠ .bool := fun h => hnb (hb.1 h)
    rcases hspec with ⟨_, v, i, rfl, hx, _⟩ | ⟨_, ⟨rfl, hx⟩ | ⟨v, rfl, hx⟩ | ⟨c', rfl⟩⟩
    · rw [hkind _ (hplain _ hx hc)]
      exact ⟨fun _ => ⟨v, rfl⟩, fun _ => (isWord_hex _).1⟩
    · rw [hkind _ (hplain _ hx hc)]
      exact ⟨fun h => absurd rfl h, fun ⟨v, h⟩ => by cases h⟩
    · rw [hkind _ (hplain _ hx hc)]
      exact ⟨fun _ => ⟨v, rfl⟩, fun _ => (isWord_leaf hp v).1⟩
    · exact absurd rfl (hs c')
  · subst hv
    rcases hspec with ⟨hkey, v', i, hv, hx, hi⟩ | ⟨hkey, ⟨hv, hx⟩ | ⟨v', hv, hx⟩ | ⟨c', hv⟩⟩
    · cases hv
      obtain ⟨n, rfl⟩ := hsuit.2 hkey
      cases hi _ rfl
      have hc : c ≠ .bool := by
        intro h
        obtain ⟨b, hb'⟩ := hsuit.1.1 (hb.1 h)
        cases hb'
      refine ⟨(hkind _ (hplain _ hx hc)).2 (isWord_hex _).1, ?_⟩
      rw [hval, hplain _ hx hc, words_word_only (isWord_hex _)]
      exact .hex (readNat_hex n)
    · cases hv
    · cases hv
      by_cases hbool : IsBoolean ds m.type
      · obtain ⟨b, rfl⟩ := hsuit.1.1 hbool
        have hc := hb.2 hbool
        have hf : (itemFields e).2.1 = if b then ['1'] else ['0'] := by
          unfold itemFields
          simp only [hm.ctype, hc, if_true, hx]
          cases b <;> rfl
        rw [hval, hkind _ hf, hf]
        cases b
        · exact ⟨by decide, .false⟩
        · exact ⟨by decide, .true⟩
      · have hc : c ≠ .bool := fun h => hbool (hb.1 h)
        refine ⟨(hkind _ (hplain _ hx hc)).2 (isWord_leaf hp v).1, ?_⟩
        rw [hval, hplain _ hx hc, words_word_only (isWord_leaf hp v)]
        cases v with
        | int i => exact .dec (readInt_intText i)
        | flt x => exact .float
        | bool b => exact absurd (hsuit.1.2 ⟨b, rfl⟩) hbool
    · cases hv

/-- The kind of each item, and the value of BOOLEAN items. -/
theorem item_kind {p : Printer} (hp : Faithful p) {ds : List Def} {m : Member} {s : Specific}
    {c : CType} {lo hi : Option Num} {states : List Text} {e : Entry}
    (hm : MadeFrom p m s c lo hi states e) (hb : c = .bool ↔ IsBoolean ds m.type)
    (hs : ∀ c, s ≠ .node c) :
    ((∃ el len, m.type = .arr el len) → (readItem p e).kind = "APPEND_ARRAY_ITEM".toList) ∧
    ((¬ ∃ el len, m.type = .arr el len) →
      (IsBoolean ds m.type ∨ (∃ v, s = .leaf v)) → (readItem p e).kind = "APPEND_ID_ITEM".toList) ∧
    ((¬ ∃ el len, m.type = .arr el len) →
      ¬ (IsBoolean ds m.type ∨ ∃ v, s = .leaf v) → (readItem p e).kind = "APPEND_ITEM".toList) ∧
    (IsBoolean ds m.type → (¬ ∃ el len, m.type = .arr el len) → s = .empty →
      (readItem p e).value = [['0']]) := by
  by_cases ha : ∃ el len, m.type = .arr el len
  · refine ⟨fun _ => ?_, fun h => absurd ha h, fun h => absurd ha h, fun _ h => absurd ha h⟩
    obtain ⟨el, len, ha⟩ := ha
    have harr : e.isArray = true := by rw [hm.isArray, ha]
    show (itemFields e).2.2.text = _
    unfold itemFields
    simp only [harr, if_true]
    rfl
  · have ha' : ∀ e len, m.type ≠ .arr e len := fun e len h => ha ⟨e, len, h⟩
    have harr : e.isArray = false := by
      rw [hm.isArray]
      split
      · rename_i el len ht; exact absurd ht (ha' _ _)
      · rfl
    obtain ⟨h1, _⟩ := item_id hp ha' hm hb hs
    have hor : (readItem p e).kind = "APPEND_ID_ITEM".toList ∨ (readItem p e).kind = "APPEND_ITEM".toList := by
      show (itemFields e).2.2.text = _ ∨ (itemFields e).2.2.text = _
      unfold itemFields
      simp only [harr, Bool.false_eq_true, if_false]
      generalize (if e.ctype = CType.bool then _ else e.specific) = t
      split
      · exact .inl rfl
      · exact .inr rfl
    refine ⟨fun h => absurd h ha, fun _ h => ?_, fun _ h => ?_, fun hbool _ he => ?_⟩
    · by_cases hbool : IsBoolean ds m.type
      · show (itemFields e).2.2.text = _
        unfold itemFields
        simp only [harr, hm.ctype, hb.2 hbool, Bool.false_eq_true, if_false, if_true]
        split <;> split <;> first | rfl | (rename_i h'; exact absurd h' (by decide)) | (rename_i h'; exact absurd (by decide) h')
      · rcases h with h | h
        · exact absurd h hbool
        · exact (h1 hbool).2 h
    · rcases hor with h' | h'
      · exact absurd (.inr ((h1 fun hb => h (.inl hb)).1 h')) h
      · exact h'
    · have hspec := specificText_scalar ha' hm.specific
      subst he
      rcases hspec with ⟨_, v, i, hv, _⟩ | ⟨_, ⟨_, hx⟩ | ⟨v, hv, _⟩ | ⟨c', hv⟩⟩
      · cases hv
      · show words (itemFields e).2.1 = _
        unfold itemFields
        simp only [hm.ctype, hb.2 hbool, if_true, hx]
        decide
      · cases hv
      · cases hv

end Apg
