import Verif.Spec.Success
import Verif.Lemmas.Valid
import Verif.Lemmas.FieldType
import Verif.Lemmas.Run
import Verif.Props.Order
import Verif.Props.FieldTypes

/-! Success of the steps of the generators. -/

namespace Apg
open Spec

/-! ### Types -/

theorem nextSize_isSome : ∀ (fuel n k : Nat), n ≤ k → k < n + fuel → isPow2 k = true → 3 ≤ Nat.log2 k →
    ∃ r, nextSize fuel n = some r := by
  intro fuel
  induction fuel with
  | zero => intro n k h1 h2; omega
  | succ fuel ih =>
    intro n k h1 h2 h3 h4
    rw [nextSize]
    split
    · exact ⟨_, rfl⟩
    · rename_i hn
      rcases Nat.lt_or_ge n k with h | h
      · exact ih (n + 1) k h (by omega) h3 h4
      · have : n = k := by omega
        subst this
        exact absurd (by simp [h3, h4]) hn

theorem nextSize_ok {n : Nat} (h : 1 ≤ n) : ∃ r, nextSize (n + 8) n = some r := by
  by_cases h8 : n ≤ 8
  · exact nextSize_isSome _ _ 8 h8 (by omega) (by decide) (by decide)
  · have hl := Nat.log2_self_le (n := n - 1) (by omega)
    have hu := Nat.lt_log2_self (n := n - 1)
    have h3 : 3 ≤ Nat.log2 (n - 1) := (Nat.le_log2 (by omega)).2 (by omega)
    refine nextSize_isSome _ _ (2 ^ (Nat.log2 (n - 1) + 1)) (by omega) (by rw [Nat.pow_succ]; omega)
      ?_ ?_
    · simp [isPow2, Nat.log2_two_pow]
    · rw [Nat.log2_two_pow]; omega

/-- `mapNumeric` succeeds exactly when the type has a C type with a positive size. -/
theorem mapNumeric_iff_size {t : AType} :
    (∃ f, mapNumeric t = .ok f) ↔ ∃ c s, t.cType = some c ∧ getBitSize c t.lo t.hi = .ok s ∧ 0 < s := by
  unfold mapNumeric
  cases hc : t.cType with
  | none => simp
  | some c =>
    simp only [Option.some.injEq]
    cases hs : getBitSize c t.lo t.hi with
    | error e => simp [bind, Except.bind, hs]
    | ok s =>
      simp only [bind, Except.bind]
      by_cases h0 : s ≤ 0
      · rw [if_pos h0]
        constructor
        · rintro ⟨f, h⟩; cases h
        · rintro ⟨c', s', rfl, h1, h2⟩
          rw [hs] at h1; cases h1; omega
      · rw [if_neg h0]
        obtain ⟨r, hr⟩ := nextSize_ok (n := s.toNat) (by omega)
        rw [hr]
        refine iff_of_true ?_ ⟨c, s, rfl, hs, by omega⟩
        simp only
        split
        · split <;> exact ⟨_, rfl⟩
        · exact ⟨_, rfl⟩

theorem cType_int (b e : Int) (h : b ≤ e) :
    (intType b e).cType = some (if 0 ≤ b then .uint else .int) := by
  unfold AType.cType
  rw [asn1Type_int]
  by_cases hb : 0 ≤ b <;> simp [hb, show ¬ e < b by omega]

theorem intBits_ok (b e : Int) : (∃ s, intBits b e = .ok s) ↔ -(2 ^ 63) ≤ b ∧ e < 2 ^ 63 := by
  unfold intBits
  repeat' split
  all_goals simp
  all_goals omega

theorem intBits_pos {b e s : Int} (h : intBits b e = .ok s) : 0 < s := by
  unfold intBits at h
  repeat' split at h
  all_goals first | cases h; done | skip
  all_goals (cases h; decide)

/-- The bounded integer types with a size. -/
theorem size_intType {b e : Int} (h : b ≤ e) :
    (∃ c s, (intType b e).cType = some c ∧ getBitSize c (intType b e).lo (intType b e).hi = .ok s) ↔
      0 ≤ b ∨ -(2 ^ 63) ≤ b ∧ e < 2 ^ 63 := by
  rw [cType_int b e h]
  by_cases hb : 0 ≤ b
  · exact iff_of_true ⟨_, _, rfl, by rw [if_pos hb]; rfl⟩ (Or.inl hb)
  · simp only [hb, if_false, Option.some.injEq, false_or]
    rw [← intBits_ok]
    constructor
    · rintro ⟨c, s, rfl, h⟩; exact ⟨s, h⟩
    · rintro ⟨s, h⟩; exact ⟨_, s, rfl, h⟩

theorem size_intType_pos {b e : Int} (h : b ≤ e) :
    (∃ c s, (intType b e).cType = some c ∧ getBitSize c (intType b e).lo (intType b e).hi = .ok s ∧
      0 < s) ↔ 0 ≤ b ∧ 1 ≤ e ∨ b < 0 ∧ -(2 ^ 63) ≤ b ∧ e < 2 ^ 63 := by
  rw [cType_int b e h]
  by_cases hb : 0 ≤ b
  · simp only [hb, if_true, Option.some.injEq, true_and, show ¬ b < 0 by omega, false_and, or_false]
    have hz := bitLength_zero (e := e) (by omega)
    constructor
    · rintro ⟨c, s, rfl, h1, h2⟩
      simp only [intType, AType.hi, getBitSize, Except.ok.injEq] at h1
      omega
    · intro h1
      exact ⟨_, _, rfl, rfl, by omega⟩
  · simp only [hb, if_false, Option.some.injEq, false_and, false_or, show b < 0 by omega, true_and]
    rw [← intBits_ok]
    constructor
    · rintro ⟨c, s, rfl, h, _⟩; exact ⟨s, h⟩
    · rintro ⟨s, h⟩; exact ⟨_, s, rfl, h, intBits_pos h⟩

theorem size_realType {b e : Num} (h1 : NumLE (.flt (-largestFloat)) b) (h2 : NumLE b e)
    (h3 : NumLE e (.flt largestFloat)) :
    ∃ c s, (realType b e).cType = some c ∧ getBitSize c (realType b e).lo (realType b e).hi = .ok s ∧
      0 < s := by
  rw [← doubleMin_largest] at h1
  rw [← doubleMax_largest] at h3
  unfold AType.cType
  rw [asn1Type_real, if_neg (by rw [Num.lt_iff_not_le]; simpa using h2)]
  split
  · rename_i c' hc
    split at hc
    · cases hc; exact ⟨_, 32, rfl, rfl, by decide⟩
    · rw [if_pos (by rw [Bool.and_eq_true, Num.le_iff, Num.le_iff]; exact ⟨h1, h3⟩)] at hc
      cases hc; exact ⟨_, 64, rfl, rfl, by decide⟩
  · rename_i c' hc
    split at hc
    · cases hc
    · rw [if_pos (by rw [Bool.and_eq_true, Num.le_iff, Num.le_iff]; exact ⟨h1, h3⟩)] at hc
      cases hc

/-- C type of a type without bounds. -/
theorem cType_bare {t : AType} (hl : t.lo = none) (hh : t.hi = none)
    (hs : ∀ n len, t ≠ .str n len) {c : CType} {s : Int} (hc : t.cType = some c)
    (hb : getBitSize c t.lo t.hi = .ok s) :
    t.name = "BOOLEAN" ∨ t.name = "Float" ∨ t.name = "Double" := by
  have he : asn1Type t = classify t.name none none false := by
    unfold asn1Type
    rw [hl, hh]
    cases t with
    | str n len => exact absurd rfl (hs n len)
    | plain => rfl
    | arr => rfl
  rw [hl, hh] at hb
  unfold AType.cType at hc
  rw [he] at hc
  by_cases hp : (posixRange t.name).isSome
  · have := posixRange_some hp
    simp only [List.mem_cons, List.not_mem_nil, or_false] at this
    rcases this with h | h | h | h | h | h | h | h | h | h
    all_goals first
      | exact Or.inr (Or.inl h)
      | exact Or.inr (Or.inr h)
      | (exfalso
         rw [h] at hc
         simp only [show classify "Int8-t" none none false = .ok (some .int) by decide +kernel,
           show classify "Int16-t" none none false = .ok (some .int) by decide +kernel,
           show classify "Int32-t" none none false = .ok (some .int) by decide +kernel,
           show classify "Int64-t" none none false = .ok (some .int) by decide +kernel,
           show classify "Uint8-t" none none false = .ok (some .uint) by decide +kernel,
           show classify "Uint16-t" none none false = .ok (some .uint) by decide +kernel,
           show classify "Uint32-t" none none false = .ok (some .uint) by decide +kernel,
           show classify "Uint64-t" none none false = .ok (some .uint) by decide +kernel,
           Option.some.injEq] at hc
         subst hc
         cases hb)
  · unfold classify at hc
    rw [if_neg hp] at hc
    simp only at hc
    split at hc
    · rename_i hx
      split at hx
      · exact Or.inl ‹_›
      · cases hx; cases hc
    · cases hc

theorem cType_bare_ok {t : AType} (hl : t.lo = none) (hh : t.hi = none)
    (hs : ∀ n len, t ≠ .str n len) (hn : t.name = "BOOLEAN" ∨ t.name = "Float" ∨ t.name = "Double") :
    ∃ c s, t.cType = some c ∧ getBitSize c t.lo t.hi = .ok s ∧ 0 < s := by
  have he : asn1Type t = classify t.name none none false := by
    unfold asn1Type
    rw [hl, hh]
    cases t with
    | str n len => exact absurd rfl (hs n len)
    | plain => rfl
    | arr => rfl
  unfold AType.cType
  rw [he, hl, hh]
  rcases hn with h | h | h <;> rw [h]
  · exact ⟨.bool, 1, by decide +kernel, rfl, by decide⟩
  · exact ⟨.float, 32, by decide +kernel, rfl, by decide⟩
  · exact ⟨.double, 64, by decide +kernel, rfl, by decide⟩

theorem not_bounded_bare {t : AType} (hl : t.lo = none) : ¬ Bounded t := by
  intro h
  cases h <;> cases hl

/-- Sized types without bounds, other than strings. -/
theorem bare_iff {t : AType} (hl : t.lo = none) (hh : t.hi = none) (hs : ∀ n len, t ≠ .str n len) :
    (∃ c s, t.cType = some c ∧ getBitSize c t.lo t.hi = .ok s ∧ 0 < s) ↔ Expandable t := by
  constructor
  · rintro ⟨c, s, h1, h2, _⟩
    have := cType_bare hl hh hs h1 h2
    simp only [← usesName_iff] at this
    exact Or.inr this
  · rintro (h | h)
    · exact absurd h (not_bounded_bare hl)
    · simp only [usesName_iff] at h
      exact cType_bare_ok hl hh hs h

theorem bounded_int {b e : Int} (hbe : b ≤ e) :
    Bounded (intType b e) ↔ 0 ≤ b ∧ 1 ≤ e ∨ b < 0 ∧ -(2 ^ 63) ≤ b ∧ e < 2 ^ 63 := by
  constructor
  · intro h
    generalize ht : intType b e = t at h
    cases h with
    | unsigned h1 h2 h3 => simp only [intType, AType.plain.injEq, Option.some.injEq, Num.int.injEq, true_and] at ht; omega
    | signed h1 h2 h3 h4 => simp only [intType, AType.plain.injEq, Option.some.injEq, Num.int.injEq, true_and] at ht; omega
    | real => simp [intType, realType] at ht
  · rintro (⟨h1, h2⟩ | ⟨h1, h2, h3⟩)
    · exact .unsigned h1 hbe h2
    · exact .signed h2 h1 hbe h3

theorem expandable_int {b e : Int} : Expandable (intType b e) ↔ Bounded (intType b e) := by
  refine ⟨?_, Or.inl⟩
  rintro (h | h | h | h)
  · exact h
  all_goals simp [usesName_iff, intType, AType.name] at h

/-- The types `mapNumeric` has a C type for. -/
theorem mapNumeric_iff {t : AType} (hs : SoundType t) : (∃ f, mapNumeric t = .ok f) ↔ Expandable t := by
  rw [mapNumeric_iff_size]
  cases hs with
  | real => exact bare_iff rfl rfl (by simp)
  | realRange h1 h2 h3 =>
    exact iff_of_true (size_realType h1 h2 h3) (Or.inl (.real h1 h2 h3))
  | integer => exact bare_iff rfl rfl (by simp)
  | integerRange h => rw [size_intType_pos h, expandable_int, bounded_int h]
  | boolean => exact bare_iff rfl rfl (by simp)
  | @ia5 len =>
    refine iff_of_false ?_ ?_
    · rintro ⟨c, s, h1, h2, _⟩
      rw [show (AType.str "IA5String" len).cType = some .string by
        simp [AType.cType, asn1Type, AType.lo, AType.hi, AType.name, classify,
          show posixRange "IA5String" = none by decide]] at h1
      cases h1; cases h2
    · rintro (h | h | h | h)
      · cases h
      all_goals simp [usesName_iff, AType.name] at h
  | @numeric len =>
    refine iff_of_false ?_ ?_
    · rintro ⟨c, s, h1, h2, _⟩
      rw [show (AType.str "NumericString" len).cType = some .string by
        simp [AType.cType, asn1Type, AType.lo, AType.hi, AType.name, classify,
          show posixRange "NumericString" = none by decide]] at h1
      cases h1; cases h2
    · rintro (h | h | h | h)
      · cases h
      all_goals simp [usesName_iff, AType.name] at h
  | arr => exact bare_iff rfl rfl (by simp)
  | named => exact bare_iff rfl rfl (by simp)

/-- The types of simple definitions that have a size. -/
theorem unresolvedSizeBits_ok {t : AType} (hs : SoundType t) :
    (∃ s, unresolvedSizeBits t = .ok s) ↔ Measurable t := by
  have hb : ∀ {n}, (n = "REAL" ∨ n = "INTEGER" ∨ n = "BOOLEAN" ∨ isNameCapital n = true) →
      ((∃ s, unresolvedSizeBits (.plain n none none) = .ok s) ↔ Measurable (.plain n none none)) := by
    intro n _
    constructor
    · rintro ⟨s, h⟩
      unfold unresolvedSizeBits at h
      split at h
      · rename_i h'; cases h'
      · rename_i h'; cases h'
      · split at h
        · rename_i c hc
          rcases cType_bare rfl rfl (by simp) hc h with h | h | h <;> (cases h; constructor)
        · cases h
    · intro h
      generalize ht : AType.plain n none none = t at h
      cases h with
      | boolean => exact ⟨1, by decide +kernel⟩
      | float => exact ⟨32, by decide +kernel⟩
      | double => exact ⟨64, by decide +kernel⟩
      | _ => cases ht
  cases hs with
  | real => exact hb (by simp)
  | realRange h1 h2 h3 =>
    refine iff_of_true ?_ (.real h1 h2 h3)
    obtain ⟨c, s, h4, h5, _⟩ := size_realType h1 h2 h3
    exact ⟨s, by unfold unresolvedSizeBits; simp only [realType] at h4 h5 ⊢; rw [h4]; exact h5⟩
  | integer => exact hb (by simp)
  | @integerRange b e h =>
    have h0 : (∃ s, unresolvedSizeBits (intType b e) = .ok s) ↔
        ∃ c s, (intType b e).cType = some c ∧ getBitSize c (intType b e).lo (intType b e).hi = .ok s := by
      unfold unresolvedSizeBits
      simp only [intType]
      cases (AType.plain "INTEGER" (some (.int b)) (some (.int e))).cType <;> simp
    rw [h0, size_intType h]
    constructor
    · intro h1
      by_cases hb : 0 ≤ b
      · exact .unsigned hb h
      · exact .signed (by omega) (by omega) h (by omega)
    · intro h1
      generalize ht : intType b e = t at h1
      cases h1 with
      | unsigned h1 h2 => simp only [intType, AType.plain.injEq, Option.some.injEq, Num.int.injEq, true_and] at ht; omega
      | signed h1 h2 h3 h4 => simp only [intType, AType.plain.injEq, Option.some.injEq, Num.int.injEq, true_and] at ht; omega
      | _ => simp [intType, realType] at ht
  | boolean => exact hb (by simp)
  | ia5 => exact iff_of_true ⟨_, rfl⟩ .str
  | numeric => exact iff_of_true ⟨_, rfl⟩ .str
  | arr => exact iff_of_true ⟨_, rfl⟩ .arr
  | named h => exact hb (by simp [h])

/-! ### Struct fields -/

/-- Second half of `fieldType`. -/
theorem fieldType_second {ds simple : List Def} {t : AType} {m : Mapped} (hm : mapMember ds t = .ok m) :
    (∃ f, fieldType ds simple t = .ok f) ↔
      ∀ n c st, simple.find? (fun d => d.isSimple && cName d.name ==
          (if posixCTypes.contains (lowerize m.ctype) then lowerize m.ctype else m.ctype)) =
          some (.simple n c st) → ∃ f, mapNumeric st = .ok f := by
  unfold fieldType
  rw [hm]
  simp only [bind, Except.bind]
  split
  · rename_i n c st hf
    rw [hf]
    simp only [mapSimpleDef]
    cases hs : mapNumeric st with
    | error e => simp [hs]
    | ok m' => simp [hs]
  · rename_i hf
    refine iff_of_true ⟨_, rfl⟩ ?_
    intro n c st h
    exact absurd h (hf n c st)

theorem fieldType_lower_ok {ds simple : List Def}
    (hcap : ∀ d ∈ simple, isNameCapital d.name = true) {t : AType} {m : Mapped}
    (hm : mapMember ds t = .ok m) (hl : ∀ c ∈ m.ctype.head?, reLower c = true) :
    ∃ f, fieldType ds simple t = .ok f := by
  rw [fieldType_second hm]
  intro n c st h
  simp only [lowerize_head hl, ite_self] at h
  rw [find_simple_none hcap (fun c hc => not_upper_of_lower (hl c hc))] at h
  cases h

theorem sound_name {t : AType} (h : SoundType t) :
    t.name = "REAL" ∨ t.name = "INTEGER" ∨ t.name = "BOOLEAN" ∨
      (t.name = "IA5String" ∨ t.name = "NumericString") ∧ (∀ n lo hi, t ≠ .plain n lo hi) ∨
      isNameCapital t.name = true := by
  induction h with
  | named h => exact Or.inr (Or.inr (Or.inr (Or.inr h)))
  | arr h ih =>
    simp only [AType.name]
    rcases ih with h | h | h | ⟨h, _⟩ | h
    · exact Or.inl h
    · exact Or.inr (Or.inl h)
    · exact Or.inr (Or.inr (Or.inl h))
    · exact Or.inr (Or.inr (Or.inr (Or.inl ⟨h, by simp⟩)))
    · exact Or.inr (Or.inr (Or.inr (Or.inr h)))
  | _ => simp [AType.name, realType, intType]

/-- The definitions of an accepted bundle, as far as struct fields are concerned. -/
structure FieldEnv (ds simple : List Def) : Prop where
  cap : ∀ d ∈ ds, isNameCapital d.name = true
  nodup : (ds.map Def.name).Nodup
  sub : ∀ d ∈ simple, d ∈ ds ∧ d.isSimple = true
  sound : ∀ n c t, Def.simple n c t ∈ ds → SoundType t
  enums : ∀ n c its, Def.enum n c its ∈ ds → its ≠ []

theorem enumSizeBits_ok {its : List EnumItem} (h : its ≠ []) : ∃ s, enumSizeBits its = .ok s := by
  unfold enumSizeBits
  cases its with
  | nil => exact absurd rfl h
  | cons => exact ⟨_, rfl⟩

theorem mapMember_capital {ds simple : List Def} (he : FieldEnv ds simple) {t : AType}
    (hn : isNameCapital t.name = true) : ∃ m, mapMember ds t = .ok m ∧ m.ctype = cName t.name := by
  obtain ⟨b1, b2, b3⟩ := cName_not_builtin hn
  unfold mapMember
  simp only [b1, b2, b3, or_self, if_false]
  split
  · rename_i n c its hr
    have hd : Def.enum n c its ∈ ds := by
      cases t with
      | plain => exact ((lastDef_eq_some_iff he.nodup _ _).1 hr).1
      | str => cases hr
      | arr => cases hr
    obtain ⟨s, hs⟩ := enumSizeBits_ok (he.enums n c its hd)
    rw [hs]
    exact ⟨_, rfl, rfl⟩
  · exact ⟨_, rfl, rfl⟩

/-- **Struct fields.** A field can be made exactly for storable types. -/
theorem fieldType_iff {ds simple : List Def} (he : FieldEnv ds simple) {t : AType} (hs : SoundType t)
    (hv : isNameCapital t.name = true → ∀ d ∈ ds, d.isSimple = true → d.name = t.name → d ∈ simple) :
    (∃ f, fieldType ds simple t = .ok f) ↔ Storable ds t := by
  have hcap : ∀ d ∈ simple, isNameCapital d.name = true := fun d hd => he.cap d (he.sub d hd).1
  have hnone : isNameCapital t.name = false → t.name ≠ "INTEGER" → t.name ≠ "REAL" → Storable ds t := by
    intro h0 h1 h2
    refine ⟨?_, ?_⟩
    · intro n hu
      rw [usesName_iff] at hu
      subst hu
      simp [h1, h2]
    · intro n hu _ c st hd
      rw [usesName_iff] at hu
      have := he.cap _ hd
      simp only [Def.name, ← hu, h0] at this
      cases this
  have hnum : t.name = "INTEGER" ∨ t.name = "REAL" → ((∃ f, fieldType ds simple t = .ok f) ↔ Storable ds t) := by
    intro h
    have hm : mapMember ds t = mapNumeric t := by
      unfold mapMember
      rcases h with h | h
      · rw [h, show cName "INTEGER" = "INTEGER".toList by decide]; simp
      · rw [h, show cName "REAL" = "REAL".toList by decide]; simp
    have h1 : (∃ f, fieldType ds simple t = .ok f) ↔ ∃ f, mapNumeric t = .ok f := by
      constructor
      · rintro ⟨f, hf⟩
        unfold fieldType at hf
        simp only [bind_ok] at hf
        obtain ⟨m, h1, _⟩ := hf
        exact ⟨m, hm ▸ h1⟩
      · rintro ⟨m, h1⟩
        exact fieldType_lower_ok hcap (hm.trans h1) (mapNumeric_lower h1)
    rw [h1, mapNumeric_iff hs]
    have hcapf : isNameCapital t.name = false := by rcases h with h | h <;> rw [h] <;> decide +kernel
    constructor
    · intro hx
      refine ⟨fun _ _ _ => ?_, ?_⟩
      · rcases hx with hx | hx | hx | hx
        · exact hx
        all_goals
          rw [usesName_iff] at hx
          rw [hx] at h
          exact absurd h (by decide)
      · intro n hu _ c st hd
        rw [usesName_iff] at hu
        have := he.cap _ hd
        simp only [Def.name, ← hu, hcapf] at this
        cases this
    · rintro ⟨hx, _⟩
      exact Or.inl (hx t.name ((usesName_iff _ _).2 rfl) h)
  rcases sound_name hs with h | h | h | ⟨h, hp⟩ | h
  · exact hnum (Or.inr h)
  · exact hnum (Or.inl h)
  · refine iff_of_true ?_ (hnone (by rw [h]; decide +kernel) (by rw [h]; decide) (by rw [h]; decide))
    have hm : mapMember ds t = .ok ⟨" : 1".toList, "uint8_t".toList, false, true⟩ := by
      unfold mapMember
      rw [h, show cName "BOOLEAN" = "BOOLEAN".toList by decide]
      simp
    exact fieldType_lower_ok hcap hm (by decide)
  · refine iff_of_true ?_ (hnone (by rcases h with h | h <;> rw [h] <;> decide +kernel)
      (by rcases h with h | h <;> rw [h] <;> decide) (by rcases h with h | h <;> rw [h] <;> decide))
    have hm : mapMember ds t = .ok ⟨[], "char".toList, false, false⟩ := by
      have hr : resolveType ds t = none := by
        cases t with
        | plain => exact absurd rfl (hp _ _ _)
        | str => rfl
        | arr => rfl
      have hc : cName t.name = "char".toList := by
        rcases h with h | h <;> rw [h] <;> decide
      unfold mapMember
      rw [hr, hc]
      simp
    exact fieldType_lower_ok hcap hm (by decide)
  · obtain ⟨m, hm, hct⟩ := mapMember_capital he h
    rw [fieldType_second hm, hct]
    have hfirst : ∀ n, UsesName t n → n = "INTEGER" ∨ n = "REAL" → Bounded t := by
      intro n hu hn
      rw [usesName_iff] at hu
      rw [hu] at h
      rcases hn with rfl | rfl <;> exact absurd h (by decide +kernel)
    by_cases hp : posixCTypes.contains (lowerize (cName t.name)) = true
    · have hpx := lowerize_posix h hp
      refine iff_of_true ?_ ⟨hfirst, ?_⟩
      · intro n c st hf
        rw [if_pos hp, find_simple_none hcap (posix_lower hpx).2.2.2] at hf
        cases hf
      · intro n hu hnp
        rw [usesName_iff] at hu
        exact absurd (hu ▸ hpx) (hnp _)
    · rw [if_neg hp]
      have hnp : ∀ ct, ¬ Posix t.name ct := by
        intro ct hpx
        obtain ⟨h1, h2, _⟩ := posix_lower hpx
        rw [h1] at hp
        exact hp h2
      constructor
      · intro hx
        refine ⟨hfirst, ?_⟩
        intro n hu _ c st hd
        rw [usesName_iff] at hu
        subst hu
        rw [← mapNumeric_iff (he.sound _ _ _ hd)]
        cases hf : simple.find? (fun d => d.isSimple && cName d.name == cName t.name) with
        | none => exact absurd rfl (find_simple_named_none hf _ (hv h _ hd rfl rfl) rfl)
        | some d =>
          obtain ⟨q1, q2, q3⟩ := find_simple_named hcap h hf
          have : d = .simple t.name c st := mem_unique_of_nodup_map he.nodup (he.sub _ q1).1 hd q3
          subst this
          exact hx _ _ _ hf
      · rintro ⟨_, hx⟩ n c st hf
        obtain ⟨q1, q2, q3⟩ := find_simple_named hcap h hf
        simp only [Def.name] at q3
        subst q3
        have hd := (he.sub _ q1).1
        rw [mapNumeric_iff (he.sound _ _ _ hd)]
        exact hx _ ((usesName_iff _ _).2 rfl) hnp c st hd

/-! ### Definitions and modules -/

theorem convertDef_iff {be : Backend} {ds simple : List Def} {mod : Module} {cd : CData} {d : Def} :
    (∃ cd', convertDef be ds simple mod cd d = .ok cd') ↔ ∃ p, defPart be ds simple mod d = .ok p := by
  constructor
  · rintro ⟨cd', h⟩
    obtain ⟨p, h1, _⟩ := convertDef_ok h
    exact ⟨p, h1⟩
  · rintro ⟨p, h⟩
    cases d with
    | simple n c t =>
      simp only [defPart, bind_ok, Except.ok.injEq] at h
      obtain ⟨notes, h1, rfl⟩ := h
      exact ⟨_, by simp only [convertDef, h1, bind, Except.bind]; rfl⟩
    | seq n c ms =>
      simp only [defPart] at h
      exact ⟨_, by simp only [convertDef, h, bind, Except.bind]; rfl⟩
    | enum => exact ⟨_, rfl⟩
    | choice => exact ⟨_, rfl⟩

theorem convertDefs_iff {be : Backend} {ds simple : List Def} {mod : Module} {l : List Def} :
    ∀ {cd : CData}, (∃ cd', convertDefs be ds simple mod cd l = .ok cd') ↔
      ∀ d ∈ l, ∃ p, defPart be ds simple mod d = .ok p := by
  induction l with
  | nil => intro cd; simp [convertDefs]
  | cons d l ih =>
    intro cd
    rw [List.forall_mem_cons, ← convertDef_iff (cd := cd)]
    simp only [convertDefs, bind_ok]
    constructor
    · rintro ⟨cd', c1, h1, h2⟩
      exact ⟨⟨c1, h1⟩, ih.1 ⟨cd', h2⟩⟩
    · rintro ⟨⟨c1, h1⟩, h2⟩
      obtain ⟨cd', h3⟩ := (ih (cd := c1)).2 h2
      exact ⟨cd', c1, h1, h3⟩

theorem convertMembers_iff {h : Handler} {ds simple : List Def} {mod : Module} {cn : Text}
    {ms : List Member} : ∀ {cd : CData}, (∃ r, convertMembers h ds simple mod cn ms cd = .ok r) ↔
      ∀ m ∈ ms, (∃ f, fieldType ds simple m.type = .ok f) ∧ ∃ e, memberPart h cn mod m = .ok e := by
  induction ms with
  | nil => intro cd; simp [convertMembers]
  | cons m ms ih =>
    intro cd
    rw [List.forall_mem_cons]
    simp only [convertMembers, bind_ok]
    constructor
    · rintro ⟨r, f, hf, c1, h1, r', h2, _⟩
      refine ⟨⟨⟨f, hf⟩, ?_⟩, ih.1 ⟨r', h2⟩⟩
      unfold memberPart
      cases hm : m.comps with
      | none => exact ⟨_, rfl⟩
      | some c =>
        rw [hm] at h1
        simp only [bind_ok] at h1
        obtain ⟨e, h1, _⟩ := h1
        exact ⟨e, h1⟩
    · rintro ⟨⟨⟨f, hf⟩, e, he⟩, h2⟩
      unfold memberPart at he
      cases hm : m.comps with
      | none =>
        obtain ⟨r, hr⟩ := (ih (cd := { cd with stdbool := cd.stdbool || f.stdbool, stdint := cd.stdint || f.stdint })).2 h2
        exact ⟨_, f, hf, _, rfl, r, hr, rfl⟩
      | some c =>
        rw [hm] at he
        obtain ⟨r, hr⟩ := (ih (cd := CData.extend { cd with stdbool := cd.stdbool || f.stdbool, stdint := cd.stdint || f.stdint } e)).2 h2
        exact ⟨_, f, hf, _, by simp only [he, bind, Except.bind], r, hr, rfl⟩

/-- What a module needs from a back end. -/
def ModuleOk (be : Backend) (ds : List Def) (bm : BMod) : Prop :=
  (∀ n c t, Def.simple n c t ∈ bm.mod.defs → ∃ l, be.note n t = .ok l) ∧
  ∀ n c ms, Def.seq n c ms ∈ bm.mod.defs → ∀ m ∈ ms,
    (∃ f, fieldType ds (simpleList bm) m.type = .ok f) ∧ ∃ e, memberPart be.handler (cName n) bm.mod m = .ok e

theorem defParts_iff {be : Backend} {ds : List Def} {bm : BMod} :
    (∀ d ∈ bm.mod.defs, ∃ p, defPart be ds (simpleList bm) bm.mod d = .ok p) ↔ ModuleOk be ds bm := by
  constructor
  · intro h
    refine ⟨fun n c t hd => ?_, fun n c ms hd => ?_⟩
    · obtain ⟨p, hp⟩ := h _ hd
      simp only [defPart, bind_ok] at hp
      obtain ⟨l, hl, _⟩ := hp
      exact ⟨l, hl⟩
    · obtain ⟨p, hp⟩ := h _ hd
      simp only [defPart, convertSequence, bind_ok] at hp
      obtain ⟨r, hr, _⟩ := hp
      exact convertMembers_iff.1 ⟨r, hr⟩
  · rintro ⟨h1, h2⟩ d hd
    cases d with
    | simple n c t =>
      obtain ⟨l, hl⟩ := h1 n c t hd
      exact ⟨_, by simp only [defPart, hl, bind, Except.bind]; rfl⟩
    | seq n c ms =>
      obtain ⟨r, hr⟩ := (convertMembers_iff (cd := {})).2 (h2 n c ms hd)
      exact ⟨_, by simp only [defPart, convertSequence, hr, bind, Except.bind]; rfl⟩
    | enum => exact ⟨_, rfl⟩
    | choice => exact ⟨_, rfl⟩

theorem moduleData_iff {fuel : Nat} {be : Backend} {ds : List Def} {bm : BMod} :
    (∃ cd, moduleData fuel be ds bm = .ok cd) ↔
      (∃ sorted, sortDefs fuel bm.mod = some sorted) ∧ ModuleOk be ds bm := by
  unfold moduleData
  cases hs : sortDefs fuel bm.mod with
  | none => simp
  | some sorted =>
    have hp := (sortDefs_spec fuel bm.mod sorted hs).1
    simp only [Option.some.injEq, exists_eq', true_and, bind_ok]
    rw [← defParts_iff]
    have : (∀ d ∈ bm.mod.defs, ∃ p, defPart be ds (simpleList bm) bm.mod d = .ok p) ↔
        ∀ d ∈ sorted, ∃ p, defPart be ds (simpleList bm) bm.mod d = .ok p := by
      simp only [hp.mem_iff]
    rw [this, ← convertDefs_iff (cd := { includes := importIncludes be.includeFile bm.mod })]
    constructor
    · rintro ⟨cd, c1, h1, _⟩; exact ⟨c1, h1⟩
    · rintro ⟨c1, h1⟩; exact ⟨_, c1, h1, rfl⟩

theorem runModules_iff {fuel : Nat} {be : Backend} {ds : List Def} {bms : List BMod} :
    (runModules fuel be ds bms).result = .ok () ↔ ∀ bm ∈ bms, ∃ cd, moduleData fuel be ds bm = .ok cd := by
  induction bms with
  | nil => simp [runModules]
  | cons bm bms ih =>
    rw [List.forall_mem_cons, runModules]
    cases h : moduleData fuel be ds bm with
    | error e => simp
    | ok cd => simp [ih]

/-- **Runs.** A run on accepted input succeeds exactly when both sorters return and every module
has what the back end needs. -/
theorem generate_ends_iff {fuel : Nat} {be : Backend} {out : Text} {b : Bundle}
    (hn : (b.modules.map (·.name)).Nodup) :
    (generate fuel be out b).result = .ok () ↔
      (∃ ms, orderModules fuel b.modules = some ms) ∧
      ∀ bm ∈ b.mods, (∃ sorted, sortDefs fuel bm.mod = some sorted) ∧ ModuleOk be b.defs bm := by
  unfold generate
  cases ho : orderModules fuel b.modules with
  | none => simp
  | some ms =>
    have hp : ms.Perm b.modules := (orderLoop_spec b.modules fuel _ ms ⟨rfl, hn⟩
      ⟨by simp, by simp, by simp⟩ ho).1
    obtain ⟨h1, _⟩ := orderedMods_spec hn hp
    simp only [runModules_iff, moduleData_iff, h1.mem_iff]
    simp

/-! ### The clauses and notes of generate-cfs -/

theorem shiftLeft_iff {v : CVal} {k : Nat} :
    (∃ i, shiftLeft v k = .ok i) ↔ ∃ l, v = .leaf l ∧ Whole l := by
  cases v with
  | node c => simp [shiftLeft]
  | leaf l =>
    cases l with
    | int i => exact iff_of_true ⟨_, rfl⟩ ⟨_, rfl, .int⟩
    | bool b => exact iff_of_true ⟨_, rfl⟩ ⟨_, rfl, .bool⟩
    | flt x =>
      refine iff_of_false (by simp [shiftLeft]) ?_
      rintro ⟨l, h, hw⟩
      cases h
      cases hw

theorem msgIdStep_iff {id : Int} {k : String} {v : CVal} :
    (∃ i, msgIdStep id k v = .ok i) ↔
      k ∈ ["packet-version-number", "packet-type-is-cmd", "sec-hdr-flag-is-present",
        "application-process-identifier"] ∧ ∃ l, v = .leaf l ∧ Whole l := by
  unfold msgIdStep
  have hb : ∀ n, (∃ i, (shiftLeft v n >>= fun s => .ok (intOr id s) : Except Err Int) = .ok i) ↔
      ∃ l, v = .leaf l ∧ Whole l := by
    intro n
    rw [← shiftLeft_iff (k := n)]
    simp only [bind_ok, Except.ok.injEq]
    constructor
    · rintro ⟨i, s, h, _⟩; exact ⟨s, h⟩
    · rintro ⟨s, h⟩; exact ⟨_, s, h, rfl⟩
  repeat' split
  · rename_i h; rw [hb, h]; simp
  · rename_i h; rw [hb, h]; simp
  · rename_i h; rw [hb, h]; simp
  · rename_i h; rw [hb, h]; simp
  · rename_i h1 h2 h3 h4
    simp [h1, h2, h3, h4]

theorem msgIdInner_iff {c : Comps} : ∀ {id : Int}, (∃ i, msgIdInner id c = .ok i) ↔
    ∃ l, c = leavesComps l ∧ ∀ kv ∈ l,
      kv.1 ∈ ["packet-version-number", "packet-type-is-cmd", "sec-hdr-flag-is-present",
        "application-process-identifier"] ∧ Whole kv.2 := by
  induction c with
  | nil => intro id; exact iff_of_true ⟨_, rfl⟩ ⟨[], rfl, by simp⟩
  | leaf k v r ih =>
    intro id
    simp only [msgIdInner, bind_ok]
    constructor
    · rintro ⟨i, j, h1, h2⟩
      obtain ⟨l, rfl, hl⟩ := ih.1 ⟨i, h2⟩
      obtain ⟨g1, v', g2, g3⟩ := msgIdStep_iff.1 ⟨j, h1⟩
      cases g2
      refine ⟨(k, v) :: l, rfl, ?_⟩
      intro kv hkv
      rcases List.mem_cons.1 hkv with rfl | hkv
      · exact ⟨g1, g3⟩
      · exact hl kv hkv
    · rintro ⟨l, hl, hg⟩
      cases l with
      | nil => cases hl
      | cons kv l =>
        obtain ⟨k', v'⟩ := kv
        simp only [leavesComps, Comps.leaf.injEq] at hl
        obtain ⟨rfl, rfl, rfl⟩ := hl
        obtain ⟨g1, g2⟩ := hg (k, v) (by simp)
        obtain ⟨j, hj⟩ := (msgIdStep_iff (id := id)).2 ⟨g1, v, rfl, g2⟩
        obtain ⟨i, hi⟩ := (ih (id := j)).2 ⟨l, rfl, fun kv h => hg kv (by simp [h])⟩
        exact ⟨i, j, hj, hi⟩
  | node k c r _ _ =>
    intro id
    simp only [msgIdInner, bind_ok]
    constructor
    · rintro ⟨i, j, h1, h2⟩
      obtain ⟨_, v', g2, _⟩ := msgIdStep_iff.1 ⟨j, h1⟩
      cases g2
    · rintro ⟨l, hl, _⟩
      cases l with
      | nil => cases hl
      | cons kv l => cases hl

theorem msgIdOuter_iff {c : Comps} : ∀ {id : Int}, (∃ i, msgIdOuter id c = .ok i) ↔ HeaderClause c := by
  induction c with
  | nil => intro id; exact iff_of_true ⟨_, rfl⟩ ⟨[], rfl, by simp⟩
  | leaf k v r =>
    intro id
    refine iff_of_false ?_ ?_
    · rintro ⟨i, h⟩
      simp only [msgIdOuter] at h
      split at h <;> cases h
    · rintro ⟨parts, h, _⟩
      cases parts <;> cases h
  | node k c r _ ih =>
    intro id
    simp only [msgIdOuter]
    constructor
    · rintro ⟨i, h⟩
      split at h
      · rename_i hk
        subst hk
        simp only [bind_ok] at h
        obtain ⟨j, h1, h2⟩ := h
        obtain ⟨l, rfl, hl⟩ := msgIdInner_iff.1 ⟨j, h1⟩
        obtain ⟨parts, rfl, hp⟩ := ih.1 ⟨i, h2⟩
        refine ⟨l :: parts, rfl, ?_⟩
        intro kv hkv
        rw [List.flatten_cons, List.mem_append] at hkv
        rcases hkv with h | h
        · exact hl kv h
        · exact hp kv h
      · cases h
    · rintro ⟨parts, h, hp⟩
      cases parts with
      | nil => cases h
      | cons l parts =>
        simp only [headerComps, Comps.node.injEq] at h
        obtain ⟨rfl, rfl, rfl⟩ := h
        rw [if_pos rfl]
        simp only [bind_ok]
        obtain ⟨j, hj⟩ := (msgIdInner_iff (id := id)).2 ⟨l, rfl, fun kv h => hp kv (by simp [h])⟩
        obtain ⟨i, hi⟩ := (ih (id := j)).2 ⟨parts, rfl, fun kv h => hp kv (by
          rw [List.flatten_cons, List.mem_append]; exact Or.inr h)⟩
        exact ⟨i, j, hj, hi⟩

theorem cfsDefines_iff (p : Printer) (s : Text) (c : Comps) :
    (∃ l, cfsDefines p s c = .ok l) ↔ MessageClause c := by
  induction c with
  | nil => exact iff_of_true ⟨_, rfl⟩ .nil
  | leaf k v r ih =>
    simp only [cfsDefines, bind_ok]
    constructor
    · rintro ⟨l, r', h, _⟩; exact .leaf (ih.1 ⟨r', h⟩)
    · intro h
      cases h with
      | leaf h =>
        obtain ⟨r', h⟩ := ih.2 h
        exact ⟨_, r', h, rfl⟩
  | node k c r ihc ih =>
    simp only [cfsDefines, bind_ok]
    constructor
    · rintro ⟨l, d, h1, r', h2, _⟩
      have h3 := ih.1 ⟨r', h2⟩
      split at h1
      · rename_i hk
        subst hk
        simp only [bind_ok] at h1
        obtain ⟨i, h1, _⟩ := h1
        exact .primary (msgIdOuter_iff.1 ⟨i, h1⟩) h3
      · exact .node ‹_› (ihc.1 ⟨d, h1⟩) h3
    · intro h
      cases h with
      | primary h1 h2 =>
        obtain ⟨r', h2⟩ := ih.2 h2
        obtain ⟨i, h1⟩ := (msgIdOuter_iff (id := 0)).2 h1
        have h3 : ∃ d, (if "primary" = "primary" then
            msgId c >>= fun id =>
            .ok [⟨upper s ++ "_MID".toList, "(0x".toList ++ hexText 4 id ++ [')'], false⟩]
          else cfsDefines p s c) = .ok d := by
          rw [if_pos rfl]
          simp only [msgId, h1, bind, Except.bind]
          exact ⟨_, rfl⟩
        obtain ⟨d, h3⟩ := h3
        exact ⟨_, d, h3, r', h2, rfl⟩
      | node h0 h1 h2 =>
        obtain ⟨r', h2⟩ := ih.2 h2
        obtain ⟨d, h1⟩ := ihc.2 h1
        refine ⟨_, d, ?_, r', h2, rfl⟩
        rw [if_neg h0, h1]

theorem cfsPart_iff (p : Printer) (cn : Text) (mod : Module) (m : Member) :
    (∃ e, memberPart (cfsHandler p) cn mod m = .ok e) ↔ ∀ cs, m.comps = some cs → MessageClause cs := by
  unfold memberPart
  cases hm : m.comps with
  | none => simp
  | some c =>
    simp only [cfsHandler, hm, bind_ok, Option.some.injEq, forall_eq']
    rw [← cfsDefines_iff p cn c]
    constructor
    · rintro ⟨e, l, h, _⟩; exact ⟨l, h⟩
    · rintro ⟨l, h⟩; exact ⟨_, l, h, rfl⟩

theorem cfsNote_iff {b : Bundle} {n : String} {t : AType} :
    (∃ l, cfsNote b n t = .ok l) ↔ ((∃ s, (n, s) ∈ b.uses) → ∃ s, unresolvedSizeBits t = .ok s) := by
  unfold cfsNote
  cases hf : b.uses.find? (fun u => decide (u.1 = n)) with
  | none =>
    refine iff_of_true ⟨_, rfl⟩ ?_
    rintro ⟨s, hs⟩
    have := List.find?_eq_none.1 hf _ hs
    simp at this
  | some u =>
    have h1 := List.mem_of_find?_eq_some hf
    have h2 := List.find?_some hf
    simp only [decide_eq_true_eq] at h2
    subst h2
    simp only [bind_ok]
    constructor
    · rintro ⟨l, s, h, _⟩ _; exact ⟨s, h⟩
    · intro h
      obtain ⟨s, h⟩ := h ⟨u.2, h1⟩
      exact ⟨_, s, h, rfl⟩

end Apg
