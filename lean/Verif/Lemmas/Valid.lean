import Verif.Spec.Valid
import Verif.Lemmas.Bare
import Verif.Props.Sizes
import Verif.Props.Enum
import Verif.Props.Bundle

/-!
# Which modules are accepted
-/

namespace Apg

open Spec

/-! ### Types -/

theorem doubleMax_largest : doubleMax = largestFloat := by decide +kernel

theorem doubleMin_largest : doubleMin = -largestFloat := by decide +kernel

theorem Spec.NumLE.trans {a b c : Num} (h : NumLE a b) (h' : NumLE b c) : NumLE a c :=
  fun q hq => h' q (h q hq)

theorem float_within : NumLE (.flt doubleMin) (.flt floatMin) ∧ NumLE (.flt floatMax) (.flt doubleMax) := by
  rw [← Num.le_iff, ← Num.le_iff]; decide +kernel

theorem asn1Type_unbounded (t : AType) (h : t.lo = none) : ∃ c, asn1Type t = .ok c := by
  simp only [asn1Type, h, classify]
  split
  · split
    · exact ⟨_, rfl⟩
    · split
      · exact ⟨_, rfl⟩
      · split
        · exact ⟨_, rfl⟩
        · split <;> exact ⟨_, rfl⟩
  · split
    · exact ⟨_, rfl⟩
    · split <;> exact ⟨_, rfl⟩

theorem checkTypeObj_plain {n : String} {b e : Option Num} :
    checkTypeObj (.plain n b e) = .ok () ↔ ∃ c, asn1Type (.plain n b e) = .ok c := by
  simp only [checkTypeObj, bind_ok, pure_ok]
  simp

theorem checkTypeObj_str {n : String} {len : Int} : checkTypeObj (.str n len) = .ok () := by
  obtain ⟨c, hc⟩ := asn1Type_unbounded (.str n len) rfl
  simp only [checkTypeObj, hc, bind_ok, pure_ok]
  simp

theorem checkTypeObj_arr {e : AType} {len : Int} :
    checkTypeObj (.arr e len) = .ok () ↔ checkTypeObj e = .ok () := by
  obtain ⟨c, hc⟩ := asn1Type_unbounded (.arr e len) rfl
  simp only [checkTypeObj, hc, bind_ok, pure_ok]
  simp [exists_unit]

theorem asn1Type_bounds {n : String} {b e : Num} {c : Option CType}
    (h : asn1Type (.plain n (some b) (some e)) = .ok c) : NumLE b e := by
  by_cases hl : NumLE b e
  · exact hl
  · rw [C03_inverted_range_refused n b e hl] at h; cases h

theorem checkTypeObj_real {b e : Num} :
    checkTypeObj (realType b e) = .ok () ↔
      NumLE (.flt doubleMin) b ∧ NumLE b e ∧ NumLE e (.flt doubleMax) := by
  rw [realType, checkTypeObj_plain]
  constructor
  · rintro ⟨c, h⟩
    have hl := asn1Type_bounds h
    obtain ⟨h1, h2, h3⟩ := C03_real_classified b e hl
    unfold realType at h1 h2 h3
    by_cases hf : NumLE (.flt floatMin) b ∧ NumLE e (.flt floatMax)
    · exact ⟨NumLE.trans float_within.1 hf.1, hl, NumLE.trans hf.2 float_within.2⟩
    · by_cases hd : NumLE (.flt doubleMin) b ∧ NumLE e (.flt doubleMax)
      · exact ⟨hd.1, hl, hd.2⟩
      · rw [h3 hf hd] at h; cases h
  · rintro ⟨h1, h2, h3⟩
    obtain ⟨g1, g2, _⟩ := C03_real_classified b e h2
    by_cases hf : NumLE (.flt floatMin) b ∧ NumLE e (.flt floatMax)
    · exact ⟨_, g1 hf⟩
    · exact ⟨_, g2 hf ⟨h1, h3⟩⟩

theorem checkTypeObj_int {b e : Int} : checkTypeObj (intType b e) = .ok () ↔ b ≤ e := by
  rw [intType, checkTypeObj_plain]
  constructor
  · rintro ⟨c, h⟩
    exact (numLE_int _ _).1 (asn1Type_bounds h)
  · intro h
    obtain ⟨h1, h2⟩ := C03_integer_classified (.int b) (.int e) ((numLE_int _ _).2 h)
    by_cases h0 : NumLE (.int 0) (.int b)
    · exact ⟨_, h1 h0⟩
    · exact ⟨_, h2 h0⟩

theorem notNull_of_capital {n : String} (h : isNameCapital n) : n ≠ "NULL" := by
  rintro rfl
  revert h
  decide +kernel

/-- The types that pass. -/
theorem soundType_iff {t : AType} (hg : GrammarType t) :
    (checkTypeObj t = .ok () ∧ t.name ≠ "NULL") ↔ SoundType t := by
  induction hg with
  | real =>
    refine iff_of_true ⟨?_, by decide⟩ .real
    exact checkTypeObj_plain.2 (asn1Type_unbounded _ rfl)
  | @realRange b e h1 h2 =>
    constructor
    · intro h
      obtain ⟨g1, g2, g3⟩ := checkTypeObj_real.1 h.1
      rw [doubleMin_largest] at g1; rw [doubleMax_largest] at g3
      exact .realRange g1 g2 g3
    · intro h
      refine ⟨?_, by simp [AType.name]⟩
      refine checkTypeObj_real.2 ?_
      rw [doubleMin_largest, doubleMax_largest]
      generalize ht : AType.plain "REAL" (some b) (some e) = t at h
      cases h with
      | realRange g1 g2 g3 => simp only [realType, AType.plain.injEq, Option.some.injEq, true_and] at ht; obtain ⟨rfl, rfl⟩ := ht; exact ⟨g1, g2, g3⟩
      | _ => simp [intType] at ht
  | integer =>
    refine iff_of_true ⟨?_, by decide⟩ .integer
    exact checkTypeObj_plain.2 (asn1Type_unbounded _ rfl)
  | @integerRange b e =>
    constructor
    · intro h
      exact .integerRange (checkTypeObj_int.1 h.1)
    · intro h
      refine ⟨?_, by simp [AType.name]⟩
      refine checkTypeObj_int.2 ?_
      generalize ht : AType.plain "INTEGER" (some (.int b)) (some (.int e)) = t at h
      cases h with
      | integerRange g => simp only [intType, AType.plain.injEq, Option.some.injEq, true_and, Num.int.injEq] at ht; obtain ⟨rfl, rfl⟩ := ht; exact g
      | _ => simp [realType] at ht
  | null =>
    refine iff_of_false (fun h => h.2 rfl) ?_
    intro h
    generalize ht : AType.plain "NULL" none none = t at h
    cases h with
    | named h => cases ht; revert h; decide +kernel
    | _ => simp [realType, intType] at ht
  | boolean =>
    refine iff_of_true ⟨?_, by decide⟩ .boolean
    exact checkTypeObj_plain.2 (asn1Type_unbounded _ rfl)
  | ia5 => exact iff_of_true ⟨checkTypeObj_str, by simp [AType.name]⟩ .ia5
  | numeric => exact iff_of_true ⟨checkTypeObj_str, by simp [AType.name]⟩ .numeric
  | arr _ ih =>
    rw [checkTypeObj_arr]
    constructor
    · intro h; exact .arr (ih.1 h)
    · intro h; cases h with
      | arr h => exact ih.2 h
  | named h =>
    refine iff_of_true ⟨?_, notNull_of_capital h⟩ (.named h)
    exact checkTypeObj_plain.2 (asn1Type_unbounded _ rfl)

/-! ### Definitions -/

theorem standardRange_iff {n : String} {b e : Num} : StandardRange n b e ↔ posixRange n = some (b, e) := by
  constructor
  · intro h; cases h <;> decide +kernel
  · intro h
    unfold posixRange at h
    split at h <;> simp only [Option.some.injEq, Prod.mk.injEq, reduceCtorEq] at h <;> obtain ⟨rfl, rfl⟩ := h
    · exact .i8
    · exact .i16
    · exact .i32
    · exact .i64
    · exact .u8
    · exact .u16
    · exact .u32
    · exact .u64
    · have h1 : floatMin = ((-(8999725064576941 * 2 ^ 75) : Int) : Rat) := by decide +kernel
      have h2 : floatMax = ((8999725064576941 * 2 ^ 75 : Int) : Rat) := by decide +kernel
      rw [h1, h2]; exact .float
    · rw [doubleMin_largest, doubleMax_largest]; exact .double

theorem checkPosix_iff {n : String} {t : AType} (hg : GrammarType t) :
    checkPosix n t = .ok () ↔ ∀ b e, StandardRange n b e →
      ∃ x y, (t = realType x y ∨ t = .plain "INTEGER" (some x) (some y)) ∧ SameNum x b ∧ SameNum y e := by
  simp only [standardRange_iff]
  unfold checkPosix
  cases hp : posixRange n with
  | none => simp
  | some p =>
    obtain ⟨b, e⟩ := p
    simp only [Option.some.injEq, Prod.mk.injEq, and_imp]
    constructor
    · intro h b' e' hb he
      subst hb; subst he
      split at h
      · rename_i x y hx hy
        split at h
        · rename_i hc
          rw [Bool.and_eq_true, Num.eq_iff, Num.eq_iff] at hc
          refine ⟨x, y, ?_, ⟨hc.1.2, hc.1.1⟩, ⟨hc.2.2, hc.2.1⟩⟩
          cases hg <;> simp_all [AType.lo, AType.hi, realType]
        · cases h
      · cases h
    · intro h
      obtain ⟨x, y, ht, h1, h2⟩ := h b e rfl rfl
      have hx : t.lo = some x ∧ t.hi = some y := by rcases ht with rfl | rfl <;> exact ⟨rfl, rfl⟩
      rw [hx.1, hx.2]
      simp only
      rw [if_pos]
      rw [Bool.and_eq_true, Num.eq_iff, Num.eq_iff]
      exact ⟨⟨h1.2, h1.1⟩, ⟨h2.2, h2.1⟩⟩

theorem checkEnumerated_iff (its : List EnumItem) :
    (∃ s, checkEnumerated its = .ok s) ↔ (its.map (·.pos)).sum = 0 ∨ ValidPositions its := by
  constructor
  · rintro ⟨s, h⟩
    by_cases h0 : (its.map (·.pos)).sum = 0
    · exact .inl h0
    · by_cases hv : ValidPositions its
      · exact .inr hv
      · rw [C06_refusal_partial its h0 hv] at h; cases h
  · rintro (h | h)
    · exact ⟨(renumberFrom 0 its).map some, by rw [checkEnumerated]; simp only [h, if_true]⟩
    · obtain ⟨l, hl, _⟩ := C06_valid_honoured its h
      exact ⟨_, hl⟩

theorem processMembers_iff {ms : List Member} (hg : ∀ m ∈ ms, GrammarMember m) :
    processMembers ms = .ok () ↔
      (∀ m ∈ ms, SoundType m.type) ∧ ∀ c ∈ ms.filterMap (·.comment), CleanComment c := by
  rw [processMembers_ok]
  simp only [processMember_ok, checkCommentOpt_ok]
  constructor
  · intro h
    refine ⟨fun m hm => (soundType_iff (hg m hm).2.1).1 ⟨(h m hm).1, (h m hm).2.2⟩, ?_⟩
    intro c hc
    obtain ⟨m, hm, hc⟩ := List.mem_filterMap.1 hc
    exact (h m hm).2.1 c hc
  · rintro ⟨h1, h2⟩ m hm
    obtain ⟨g1, g2⟩ := (soundType_iff (hg m hm).2.1).2 (h1 m hm)
    exact ⟨g1, fun c hc => h2 c (List.mem_filterMap.2 ⟨m, hm, hc⟩), g2⟩

theorem exists_pure_ok {α} {a : α} {p : Prop} :
    (∃ d : α, p ∧ a = d) ↔ p := ⟨fun ⟨_, h, _⟩ => h, fun h => ⟨a, h, rfl⟩⟩

theorem mem_toList_append {c : Option Comment} {l : List Comment} {P : Comment → Prop} :
    (∀ x ∈ c.toList ++ l, P x) ↔ (∀ x ∈ c, P x) ∧ ∀ x ∈ l, P x := by
  simp only [List.mem_append, or_imp, forall_and, Option.mem_toList, Option.mem_def]

theorem processDef_iff {d : Def} (hg : GrammarDef d) :
    (∃ d', processDef d = .ok d') ↔ AcceptableDef d ∧ ∀ c ∈ commentsOf d, CleanComment c := by
  cases d with
  | seq n c ms =>
    simp only [processDef, bind_unit_ok, pure_ok, commentsOf, AcceptableDef, mem_toList_append,
      processMembers_iff hg.2.2, checkCommentOpt_ok]
    constructor
    · rintro ⟨d', h1, ⟨h2, h3⟩, _⟩; exact ⟨h2, h1, h3⟩
    · rintro ⟨h2, h1, h3⟩; exact ⟨_, h1, ⟨h2, h3⟩, rfl⟩
  | choice n c ms =>
    simp only [processDef, bind_unit_ok, pure_ok, commentsOf, AcceptableDef, mem_toList_append,
      processMembers_iff hg.2.2, checkCommentOpt_ok]
    constructor
    · rintro ⟨d', h1, ⟨h2, h3⟩, _⟩; exact ⟨h2, h1, h3⟩
    · rintro ⟨h2, h1, h3⟩; exact ⟨_, h1, ⟨h2, h3⟩, rfl⟩
  | enum n c its =>
    simp only [processDef, bind_ok, exists_unit, pure_ok, commentsOf, AcceptableDef, mem_toList_append,
      checkCommentOpt_ok, processEnumComments_ok, ← checkEnumerated_iff]
    constructor
    · rintro ⟨d', h1, h2, s, h3, _⟩
      refine ⟨⟨s, h3⟩, h1, fun x hx => ?_⟩
      obtain ⟨i, hi, hc⟩ := List.mem_filterMap.1 hx
      exact h2 i hi x hc
    · rintro ⟨⟨s, h3⟩, h1, h2⟩
      exact ⟨_, h1, fun i hi x hx => h2 x (List.mem_filterMap.2 ⟨i, hi, hx⟩), s, h3, rfl⟩
  | simple n c t =>
    have e := soundType_iff hg.2
    have e' := checkPosix_iff (n := n) hg.2
    simp only [processDef, bind_ok, exists_unit, pure_ok, commentsOf, AcceptableDef,
      checkCommentOpt_ok, nullCheckSimple, ← e, ← e']
    constructor
    · rintro ⟨d', h1, h2, h3, _⟩
      split at h3
      · cases h3
      · rename_i hn
        exact ⟨⟨⟨h1, hn⟩, h3⟩, fun x hx => h2 x (by simpa using hx)⟩
    · rintro ⟨⟨⟨h1, h2⟩, h3⟩, h4⟩
      exact ⟨_, h1, fun x hx => h4 x (by simpa using hx), by rw [if_neg h2]; exact h3, rfl⟩

theorem processDefs_iff {ds : List Def} (hg : ∀ d ∈ ds, GrammarDef d) :
    (∃ ds', processDefs ds = .ok ds') ↔
      ∀ d ∈ ds, AcceptableDef d ∧ ∀ c ∈ commentsOf d, CleanComment c := by
  induction ds with
  | nil => simp [processDefs]
  | cons d ds ih =>
    simp only [processDefs, bind_ok, pure_ok, List.forall_mem_cons]
    rw [← ih fun d hd => hg d (List.mem_cons_of_mem _ hd), ← processDef_iff (hg d (List.mem_cons_self ..))]
    constructor
    · rintro ⟨_, a, ha, b, hb, _⟩; exact ⟨⟨a, ha⟩, b, hb⟩
    · rintro ⟨⟨a, ha⟩, b, hb⟩; exact ⟨_, a, ha, b, hb, rfl⟩

/-! ### Modules -/

/-- What processing leaves as it is. -/
theorem processDefs_same {ds ds' : List Def} (h : processDefs ds = .ok ds') :
    All2 (fun d d' => d'.name = d.name ∧ d'.members = d.members ∧
      ∀ n c ms, d' = .seq n c ms ↔ d = .seq n c ms) ds ds' := by
  have := processDefs_ok.1 h
  clear h
  induction this with
  | nil => exact .nil
  | cons h1 _ ih =>
    refine .cons ?_ ih
    rename_i d d' _ _ _
    obtain ⟨p1, p2, _, _, p5, p6, p7, p8⟩ := processDef_ok h1
    refine ⟨p1, p2, fun n c ms => ⟨?_, fun h => (p6 n c ms h).trans h⟩⟩
    rintro rfl
    cases d with
    | seq n' c' ms' => exact (p6 n' c' ms' rfl).symm
    | choice n' c' ms' => cases p7 n' c' ms' rfl
    | enum n' c' ms' => obtain ⟨_, _, h⟩ := p8 n' c' ms' rfl; cases h
    | simple n' c' t' => cases (p5 n' c' t' rfl).1

theorem processModule_iff {m : Module} (hg : GrammarModule m) :
    (∃ m', processModule m = .ok m') ↔
      CleanComments m ∧ (∀ d ∈ m.defs, AcceptableDef d) ∧
      ∀ d ∈ m.defs, ∀ k ∈ d.members, ∀ n, UsesName k.type n → Known m n := by
  have hu : ∀ ds, processDefs m.defs = .ok ds → (checkUsedTypes { m with defs := ds } = .ok () ↔
      ∀ d ∈ m.defs, ∀ k ∈ d.members, ∀ n, UsesName k.type n → Known m n) := by
    intro ds hds
    have hs := processDefs_same hds
    rw [checkUsedTypes_ok]
    have hn : ∀ n, n ∈ knownTypes { m with defs := ds } ↔ Known m n := by
      intro n
      have e : ds.map Def.name = m.defs.map Def.name := all2_map_eq hs _ _ fun _ _ h => h.1
      simp only [knownTypes, e, List.mem_append, List.mem_flatMap, List.mem_map, Known, builtIn_iff]
      constructor
      · rintro ((h | h) | h)
        · exact .inl h
        · exact .inr (.inr h)
        · exact .inr (.inl h)
      · rintro (h | h | h)
        · exact .inl (.inl h)
        · exact .inr h
        · exact .inl (.inr h)
    simp only [hn, usesName_iff]
    constructor
    · intro h d hd k hk n hkn
      obtain ⟨d', hd', p⟩ := all2_mem_left hs hd
      subst hkn
      exact h d' hd' k (by rw [p.2.1]; exact hk)
    · intro h d' hd' k hk
      obtain ⟨d, hd, p⟩ := all2_mem_right hs hd'
      exact h d hd k (by rw [← p.2.1]; exact hk) _ rfl
  have hd := processDefs_iff hg.2.2.1
  simp only [processModule_ok, checkCommentOpt_ok, CleanComments, mem_toList_append]
  constructor
  · rintro ⟨m', h1, h2, ds, h3, rfl, h4⟩
    have h5 := hd.1 ⟨ds, h3⟩
    exact ⟨⟨⟨h1, fun x hx => h2 x (by simpa using hx)⟩, fun d hm => (h5 d hm).2⟩,
      fun d hm => (h5 d hm).1, (hu ds h3).1 h4⟩
  · rintro ⟨⟨⟨h1, h2⟩, h3⟩, h4, h5⟩
    obtain ⟨ds, hds⟩ := hd.2 fun d hm => ⟨h4 d hm, h3 d hm⟩
    exact ⟨_, h1, fun x hx => h2 x (by simpa using hx), ds, hds, rfl, (hu ds hds).2 h5⟩

theorem processModules_iff {ms : List Module} (hg : ∀ m ∈ ms, GrammarModule m) :
    (∃ ms', processModules ms = .ok ms') ↔
      ∀ m ∈ ms, CleanComments m ∧ (∀ d ∈ m.defs, AcceptableDef d) ∧
        ∀ d ∈ m.defs, ∀ k ∈ d.members, ∀ n, UsesName k.type n → Known m n := by
  induction ms with
  | nil => simp [processModules]
  | cons d ds ih =>
    simp only [processModules, bind_ok, pure_ok, List.forall_mem_cons]
    rw [← ih fun d hd => hg d (List.mem_cons_of_mem _ hd), ← processModule_iff (hg d (List.mem_cons_self ..))]
    constructor
    · rintro ⟨_, a, ha, b, hb, _⟩; exact ⟨⟨a, ha⟩, b, hb⟩
    · rintro ⟨⟨a, ha⟩, b, hb⟩; exact ⟨_, a, ha, b, hb, rfl⟩

/-! ### WITH COMPONENTS -/

theorem Spec.Addresses.mono {ex : String → Prop} {ds ds' : List Def}
    (hs : ∀ n ms, IsSequence ds n ms → IsSequence ds' n ms) {n : String} {cs : Comps}
    (h : Addresses ex ds n cs) : Addresses ex ds' n cs := by
  induction h with
  | exempt h => exact .exempt h
  | nil h => exact .nil (hs _ _ h)
  | leaf h1 h2 _ ih => exact .leaf (hs _ _ h1) h2 ih
  | node h1 h2 h3 _ _ ih1 ih2 => exact .node (hs _ _ h1) h2 h3 ih1 ih2

theorem Spec.Addresses.weaken {ex ex' : String → Prop} {ds : List Def} (hx : ∀ n, ex n → ex' n)
    {n : String} {cs : Comps} (h : Addresses ex ds n cs) : Addresses ex' ds n cs := by
  induction h with
  | exempt h => exact .exempt (hx _ h)
  | nil h => exact .nil h
  | leaf h1 h2 _ ih => exact .leaf h1 h2 ih
  | node h1 h2 h3 _ _ ih1 ih2 => exact .node h1 h2 h3 ih1 ih2

theorem seqsNamed_eq {ds : List Def} (hn : (ds.map Def.name).Nodup) {n : String} {ms : List Member}
    (h : IsSequence ds n ms) : seqsNamed ds n = [ms] := by
  obtain ⟨c, h⟩ := h
  induction ds with
  | nil => cases h
  | cons d ds ih =>
    simp only [List.map_cons, List.nodup_cons, List.mem_map, not_exists, not_and] at hn
    rcases List.mem_cons.1 h with rfl | h'
    · have : seqsNamed ds n = [] := by
        rw [List.eq_nil_iff_forall_not_mem]
        intro x hx
        obtain ⟨c', hx⟩ := seqsNamed_mem.1 hx
        exact hn.1 _ hx rfl
      simp only [seqsNamed] at this ⊢
      rw [List.filterMap_cons]
      simp [this]
    · have ih := ih hn.2 h'
      simp only [seqsNamed] at ih ⊢
      rw [List.filterMap_cons]
      cases d with
      | seq n' c' ms' =>
        have : n' ≠ n := by rintro rfl; exact hn.1 _ h' rfl
        simpa [this] using ih
      | choice => simpa using ih
      | enum => simpa using ih
      | simple => simpa using ih

theorem addresses_ok {ds : List Def} (hn : (ds.map Def.name).Nodup)
    (hb : ∀ n ms, IsSequence ds n ms → ¬ BuiltIn n) {n : String} {cs : Comps}
    (h : Addresses BuiltIn ds n cs) :
    (∀ ms, IsSequence ds n ms → checkWithComponent.go ds ms cs = .ok ()) ∧
      checkWithComponent ds n cs = .ok () := by
  have aux : ∀ {n ms cs}, IsSequence ds n ms →
      (∀ ms, IsSequence ds n ms → checkWithComponent.go ds ms cs = .ok ()) →
      checkWithComponent ds n cs = .ok () := by
    intro n ms cs h1 h2
    unfold checkWithComponent
    rw [seqsNamed_eq hn h1]
    exact h2 ms h1
  induction h with
  | @exempt n cs h =>
    refine ⟨fun ms hs => absurd h (hb n ms hs), ?_⟩
    have : seqsNamed ds n = [] := by
      rw [List.eq_nil_iff_forall_not_mem]
      intro x hx
      exact hb n x (seqsNamed_mem.1 hx) h
    unfold checkWithComponent
    rw [this]
    simp only [List.contains_iff_mem, (builtIn_iff n).1 h, if_true]
  | @nil n _ h =>
    have : ∀ ms, IsSequence ds n ms → checkWithComponent.go ds ms .nil = .ok () := fun _ _ => by
      rw [checkWithComponent.go]
    exact ⟨this, aux h this⟩
  | @leaf n ms m v rest h1 h2 _ ih =>
    have : ∀ ms, IsSequence ds n ms → checkWithComponent.go ds ms (.leaf m.key v rest) = .ok () := by
      intro ms' hs
      have e : ms' = ms := by
        have a := seqsNamed_eq hn hs
        have b := seqsNamed_eq hn h1
        rw [a] at b; simpa using b
      subst e
      rw [checkWithComponent.go, if_pos (List.any_eq_true.2 ⟨m, h2, by simp⟩)]
      exact ih.1 _ hs
    exact ⟨this, aux h1 this⟩
  | @node n ms m t inner rest h1 h2 h3 _ _ ih1 ih2 =>
    have : ∀ ms, IsSequence ds n ms → checkWithComponent.go ds ms (.node m.key inner rest) = .ok () := by
      intro ms' hs
      have e : ms' = ms := by
        have a := seqsNamed_eq hn hs
        have b := seqsNamed_eq hn h1
        rw [a] at b; simpa using b
      subst e
      rw [checkWithComponent.go, memberTypeName_first h2, (usesName_iff _ _).1 h3]
      simp only
      rw [bind_unit_ok]
      have := ih1.2
      unfold checkWithComponent at this
      exact ⟨this, ih2.1 _ hs⟩
    exact ⟨this, aux h1 this⟩

end Apg
