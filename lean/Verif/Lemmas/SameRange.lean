import Verif.Spec.SameRange
import Verif.Lemmas.RetypeRun
import Verif.Lemmas.RetypeLimits
import Verif.Lemmas.Success

/-!
# One range for each sign and width
-/

namespace Apg
open Spec

/-- The whole range of the width. -/
def canonRange (r : Bool) : Ranges := fun n lo hi =>
  if n = "INTEGER" then
    match (AType.plain n lo hi).cType, unresolvedSizeBits (.plain n lo hi) with
    | some .uint, .ok s => (some (.int 0), some (.int (2 ^ s.toNat - 1)))
    | some .int, .ok s => (some (.int (-(2 ^ (s.toNat - 1)))), some (.int (2 ^ (s.toNat - 1) - 1)))
    | _, _ => (lo, hi)
  else if r = true ∧ n = "REAL" then
    match (AType.plain n lo hi).cType with
    | some .float => (some (.flt floatMin), some (.flt floatMax))
    | some .double => (some (.flt doubleMin), some (.flt doubleMax))
    | _ => (lo, hi)
  else (lo, hi)

theorem bitLength_whole (n : Nat) : bitLength (2 ^ n - 1) = n := by
  have h2 : (1 : Int) ≤ 2 ^ n := by
    have : (0 : Int) < 2 ^ n := Int.pow_pos (by decide)
    omega
  have h1 := lt_two_pow_bitLength (2 ^ n - 1) (by omega)
  rcases Nat.lt_trichotomy (bitLength (2 ^ n - 1)) n with h | h | h
  · have h3 : (2 : Int) ^ (bitLength (2 ^ n - 1) + 1) ≤ 2 ^ n := by
      exact_mod_cast Nat.pow_le_pow_right (n := 2) (by decide) h
    have h4 : (2 : Int) ^ (bitLength (2 ^ n - 1) + 1) = 2 ^ bitLength (2 ^ n - 1) * 2 := Int.pow_succ _ _
    have h5 : (0 : Int) < 2 ^ bitLength (2 ^ n - 1) := Int.pow_pos (by decide)
    omega
  · exact h
  · have := two_pow_le_of_lt_bitLength (2 ^ n - 1) (by omega) n h
    omega

theorem asn1Type_of_cType {t : AType} {c : CType} (h : t.cType = some c) : asn1Type t = .ok (some c) := by
  unfold AType.cType at h
  cases ha : asn1Type t with
  | error e => rw [ha] at h; cases h
  | ok x => rw [ha] at h; exact congrArg Except.ok h

theorem canonRange_other {r : Bool} {n : String} (h : n ≠ "INTEGER") (h' : r = true → n ≠ "REAL") (lo hi : Option Num) :
    canonRange r n lo hi = (lo, hi) := by
  unfold canonRange
  rw [if_neg h, if_neg fun k => h' k.1 k.2]

theorem cType_of_asn1Type {t : AType} {c : Option CType} (h : asn1Type t = .ok c) : t.cType = c := by
  unfold AType.cType
  rw [h]

theorem canonRange_kind (r : Bool) (n : String) (lo hi : Option Num) :
    asn1Type (.plain n (canonRange r n lo hi).1 (canonRange r n lo hi).2) = asn1Type (.plain n lo hi) ∧
    ∀ c, (AType.plain n lo hi).cType = some c →
      getBitSize c (canonRange r n lo hi).1 (canonRange r n lo hi).2 = getBitSize c lo hi := by
  by_cases h1 : n = "INTEGER"
  · subst h1
    unfold canonRange
    rw [if_pos rfl]
    split
    · rename_i s hc hs
      have ha := asn1Type_of_cType hc
      have hb : getBitSize .uint lo hi = .ok s := by
        unfold unresolvedSizeBits at hs
        simp only [hc] at hs
        exact hs
      have hs0 : ∃ e, hi = some (.int e) ∧ s = bitLength e := by
        unfold getBitSize at hb
        simp only at hb
        split at hb
        · cases hb; exact ⟨_, rfl, rfl⟩
        · cases hb
      obtain ⟨e, rfl, rfl⟩ := hs0
      have hp : (0 : Int) < 2 ^ bitLength e := Int.pow_pos (by decide)
      constructor
      · have := asn1Type_int 0 (2 ^ bitLength e - 1)
        rw [if_neg (by omega), if_pos (by omega)] at this
        rw [ha]
        exact this
      · intro c hc'
        rw [hc] at hc'
        cases hc'
        exact congrArg Except.ok (congrArg Int.ofNat (bitLength_whole (bitLength e)))
    · rename_i s hc hs
      have ha := asn1Type_of_cType hc
      have hb : getBitSize .int lo hi = .ok s := by
        unfold unresolvedSizeBits at hs
        simp only [hc] at hs
        exact hs
      have hs0 : s = 8 ∨ s = 16 ∨ s = 32 ∨ s = 64 := by
        unfold getBitSize at hb
        simp only at hb
        split at hb
        · unfold intBits at hb
          split at hb
          · cases hb; simp
          split at hb
          · cases hb; simp
          split at hb
          · cases hb; simp
          split at hb
          · cases hb; simp
          · cases hb
        · cases hb
      constructor
      · rw [ha]
        rcases hs0 with rfl | rfl | rfl | rfl <;> decide +kernel
      · intro c hc'
        rw [hc] at hc'
        cases hc'
        rw [hb]
        rcases hs0 with rfl | rfl | rfl | rfl <;> decide +kernel
    · exact ⟨rfl, fun _ _ => rfl⟩
  · by_cases h2 : r = true ∧ n = "REAL"
    · obtain ⟨rfl, rfl⟩ := h2
      unfold canonRange
      rw [if_neg h1, if_pos ⟨rfl, rfl⟩]
      split
      · rename_i hc
        rw [asn1Type_of_cType hc]
        refine ⟨by decide +kernel, fun c hc' => ?_⟩
        rw [hc] at hc'
        cases hc'
        rfl
      · rename_i hc
        rw [asn1Type_of_cType hc]
        refine ⟨by decide +kernel, fun c hc' => ?_⟩
        rw [hc] at hc'
        cases hc'
        rfl
      · exact ⟨rfl, fun _ _ => rfl⟩
    · rw [canonRange_other h1 fun a b => h2 ⟨a, b⟩]
      exact ⟨rfl, fun _ _ => rfl⟩

theorem canonRange_keeps (r : Bool) : Keeps (canonRange r) :=
  ⟨fun n lo hi => (canonRange_kind r n lo hi).1, fun n lo hi => (canonRange_kind r n lo hi).2⟩

theorem canonRange_limits : KeepsLimits (canonRange false) := by
  intro n lo hi c hc
  by_cases h1 : n = "INTEGER"
  · subst h1
    have hp : posixRange "INTEGER" = none := by decide
    have ha := asn1Type_of_cType hc
    have : c = .uint ∨ c = .int := by
      cases lo with
      | none => simp [asn1Type, AType.lo, AType.hi, AType.name, classify, hp] at ha
      | some b =>
        cases hi with
        | none => simp [asn1Type, AType.lo, AType.hi, AType.name, classify, hp] at ha
        | some e => exact classify_integer hc
    rcases this with rfl | rfl <;> rfl
  · rw [canonRange_other h1 fun h => Bool.noConfusion h]

theorem canonRange_hasLimits (r : Bool) : HasLimits (canonRange r) := by
  intro n lo hi c hc
  by_cases h : r = true ∧ n = "REAL"
  · obtain ⟨rfl, rfl⟩ := h
    have hp : posixRange "REAL" = none := by decide
    have ha := asn1Type_of_cType hc
    cases lo with
    | none => simp [asn1Type, AType.lo, AType.hi, AType.name, classify, hp] at ha
    | some b =>
      cases hi with
      | none => simp [asn1Type, AType.lo, AType.hi, AType.name, classify, hp] at ha
      | some e =>
        have hok : ∀ c (b e : Num), limitsOk c (some b) (some e) = .ok () := by
          intro c b e
          unfold limitsOk subrange
          cases c <;> simp only <;> first | rfl | (split <;> rfl)
        unfold canonRange
        rw [if_neg (by decide), if_pos ⟨rfl, rfl⟩]
        split <;> simp only [hok]
  · by_cases h1 : n = "INTEGER"
    · subst h1
      have := canonRange_limits "INTEGER" lo hi c hc
      unfold limitsOk
      have e : canonRange r "INTEGER" lo hi = canonRange false "INTEGER" lo hi := by
        unfold canonRange
        rw [if_pos rfl, if_pos rfl]
      rw [e, this]
    · rw [canonRange_other h1 fun a b => h ⟨a, b⟩]

/-! ### The same range -/

theorem canon_type {r : Bool} {t t' : AType} (h : SameRange r t t') :
    rerange (canonRange r) t = rerange (canonRange r) t' := by
  induction h with
  | same t => rfl
  | @unsigned lo hi lo' hi' w h0 h0' hw hw' =>
    have key : ∀ {lo hi : Int}, 0 ≤ lo → LeafSize (intType lo hi) w →
        rerange (canonRange r) (intType lo hi) = .plain "INTEGER" (some (.int 0)) (some (.int (2 ^ w.toNat - 1))) := by
      intro lo hi h0 hw
      have hs := (leafSize_int lo hi w).2 hw
      have hle : lo ≤ hi := by
        generalize ht : intType lo hi = t at hw
        cases hw <;> simp [intType] at ht <;> omega
      have hc : (intType lo hi).cType = some .uint := cType_of_asn1Type (by
        rw [asn1Type_int, if_neg (by omega), if_pos h0])
      unfold intType at hs hc
      simp only [rerange, intType, canonRange, if_pos, hs, hc]
    rw [key h0 hw, key h0' hw']
  | @signed lo hi lo' hi' w h0 h0' hw hw' =>
    have key : ∀ {lo hi : Int}, lo < 0 → LeafSize (intType lo hi) w →
        rerange (canonRange r) (intType lo hi) =
          .plain "INTEGER" (some (.int (-(2 ^ (w.toNat - 1))))) (some (.int (2 ^ (w.toNat - 1) - 1))) := by
      intro lo hi h0 hw
      have hs := (leafSize_int lo hi w).2 hw
      have hle : lo ≤ hi := by
        generalize ht : intType lo hi = t at hw
        cases hw <;> simp [intType] at ht <;> omega
      have hc : (intType lo hi).cType = some .int := cType_of_asn1Type (by
        rw [asn1Type_int, if_neg (by omega), if_neg (by omega)])
      unfold intType at hs hc
      simp only [rerange, intType, canonRange, if_pos, hs, hc]
    rw [key h0 hw, key h0' hw']
  | @real lo hi lo' hi' w hr hw hw' =>
    subst hr
    have key : ∀ {lo hi : Num}, LeafSize (realType lo hi) w →
        rerange (canonRange true) (realType lo hi) = if w = 32 then
          .plain "REAL" (some (.flt floatMin)) (some (.flt floatMax)) else
          .plain "REAL" (some (.flt doubleMin)) (some (.flt doubleMax)) := by
      intro lo hi hw
      have hs := (leafSize_real lo hi w).2 hw
      rw [size_real] at hs
      have ha := asn1Type_real lo hi
      split at hs
      · cases hs
      · rename_i h1
        rw [if_neg h1] at ha
        split at hs
        · rename_i h2
          rw [if_pos h2] at ha
          cases hs
          have hc := cType_of_asn1Type ha
          unfold realType at hc
          simp only [rerange, realType, canonRange, hc]
          rfl
        · rename_i h2
          rw [if_neg h2] at ha
          split at hs
          · rename_i h3
            rw [if_pos h3] at ha
            cases hs
            have hc := cType_of_asn1Type ha
            unfold realType at hc
            simp only [rerange, realType, canonRange, hc]
            rfl
          · cases hs
    rw [key hw, key hw']
  | array len _ ih => simp only [rerange, ih]

theorem canon_members {r : Bool} {ms ms' : List Member} (h : All2 (SameRangeMember r) ms ms') :
    ms.map (retypeMember (canonRange r)) = ms'.map (retypeMember (canonRange r)) := by
  induction h with
  | nil => rfl
  | @cons m m' ms ms' h _ ih =>
    rw [List.map_cons, List.map_cons, ih]
    congr 1
    obtain ⟨h1, h2, h3, h4⟩ := h
    cases m
    cases m'
    simp only at h1 h2 h3 h4
    subst h1 h2 h3
    simp only [retypeMember, canon_type h4]

theorem posix_standard (n : String) : (posixRange n).isSome = true → n ∈ standardNames := by
  intro h
  unfold posixRange at h
  split at h
  all_goals first | (exfalso; revert h; decide) | decide

theorem canon_def {r : Bool} {d d' : Def} (h : SameRangeDef r d d') :
    retypeDef (canonRange r) d = retypeDef (canonRange r) d' := by
  cases h with
  | same => rfl
  | seq n c h => simp only [retypeDef, canon_members h]
  | choice n c h => simp only [retypeDef, canon_members h]
  | simple c hn h =>
    simp only [retypeDef]
    rw [if_neg fun k => hn (posix_standard _ k), if_neg fun k => hn (posix_standard _ k), canon_type h]

theorem canon_defs {r : Bool} {ds ds' : List Def} (h : All2 (SameRangeDef r) ds ds') :
    ds.map (retypeDef (canonRange r)) = ds'.map (retypeDef (canonRange r)) := by
  induction h with
  | nil => rfl
  | cons h _ ih => rw [List.map_cons, List.map_cons, ih, canon_def h]

theorem canon_modules {r : Bool} {ms ms' : List Module} (h : All2 (SameRangeModule r) ms ms') :
    ms.map (retypeMod (canonRange r)) = ms'.map (retypeMod (canonRange r)) := by
  induction h with
  | nil => rfl
  | @cons m m' ms ms' h _ ih =>
    rw [List.map_cons, List.map_cons, ih]
    congr 1
    obtain ⟨ds, rfl, h⟩ := h
    unfold retypeMod
    rw [canon_defs h]

end Apg
