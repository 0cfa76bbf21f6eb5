import Verif.Lemmas.Size
import Verif.Lemmas.Bundle
import Verif.Lemmas.Enum
import Verif.Spec.Sizes
import Verif.Spec.Grammar

namespace Apg
open Spec

theorem uint_least (b e : Int) (hb : 0 ≤ b) (hbe : b ≤ e) :
    (∀ v, InRange b e v → FitsUnsigned (bitLength e) v) ∧
    (∀ w' : Nat, (∀ v, InRange b e v → FitsUnsigned w' v) → bitLength e ≤ w') := by
  constructor
  · intro v hv
    have := lt_two_pow_bitLength e (by omega)
    have := hv.1; have := hv.2
    exact ⟨by omega, by omega⟩
  · intro w' hw'
    refine Nat.le_of_not_lt fun hlt => ?_
    exact not_fits_of_lt_bitLength e (by omega) w' hlt (hw' e ⟨hbe, Int.le_refl _⟩)

/-- Inversion of `LeafSize` as a disjunction (string literals block `cases`). -/
theorem leafSize_inv {t : AType} {v : Int} (h : LeafSize t v) :
    (t = .plain "BOOLEAN" none none ∧ v = 1) ∨
    (∃ (b e : Int) (w : Nat), t = intType b e ∧ v = w ∧ 0 ≤ b ∧ b ≤ e ∧
      (∀ v, InRange b e v → FitsUnsigned w v) ∧
      (∀ w' : Nat, (∀ v, InRange b e v → FitsUnsigned w' v) → w ≤ w')) ∨
    (∃ (b e : Int) (w : Nat), t = intType b e ∧ v = w ∧ b < 0 ∧ b ≤ e ∧ w ∈ [8, 16, 32, 64] ∧
      (∀ v, InRange b e v → FitsSigned w v) ∧
      (∀ w' ∈ [8, 16, 32, 64], (∀ v, InRange b e v → FitsSigned w' v) → w ≤ w')) ∨
    (∃ (b e : Num) (lim : Rat), t = realType b e ∧ v = 32 ∧
      lim = (8999725064576941 * 2 ^ 75 : Int) ∧
      NumLE b e ∧ NumLE (.flt (-lim)) b ∧ NumLE e (.flt lim)) ∨
    (∃ (b e : Num) (lim dlim : Rat), t = realType b e ∧ v = 64 ∧
      lim = (8999725064576941 * 2 ^ 75 : Int) ∧ dlim = (2 ^ 1024 - 2 ^ 971 : Int) ∧ NumLE b e ∧
      ¬ (NumLE (.flt (-lim)) b ∧ NumLE e (.flt lim)) ∧
      NumLE (.flt (-dlim)) b ∧ NumLE e (.flt dlim)) ∨
    (∃ len, (t = .str "IA5String" len ∨ t = .str "NumericString" len) ∧ v = len * 8) ∨
    (t = .plain "Float" none none ∧ v = 32) ∨ (t = .plain "Double" none none ∧ v = 64) := by
  cases h with
  | bool => exact Or.inl ⟨rfl, rfl⟩
  | uint w h1 h2 h3 h4 => exact Or.inr (Or.inl ⟨_, _, w, rfl, rfl, h1, h2, h3, h4⟩)
  | int w h1 h2 h3 h4 h5 => exact Or.inr (Or.inr (Or.inl ⟨_, _, w, rfl, rfl, h1, h2, h3, h4, h5⟩))
  | single h1 h2 h3 h4 =>
    exact Or.inr (Or.inr (Or.inr (Or.inl ⟨_, _, _, rfl, rfl, h1, h2, h3, h4⟩)))
  | double h1 h2 h3 h4 h5 h6 =>
    exact Or.inr (Or.inr (Or.inr (Or.inr (Or.inl ⟨_, _, _, _, rfl, rfl, h1, h2, h3, h4, h5, h6⟩))))
  | ia5 => exact Or.inr (Or.inr (Or.inr (Or.inr (Or.inr (Or.inl ⟨_, Or.inl rfl, rfl⟩)))))
  | numeric => exact Or.inr (Or.inr (Or.inr (Or.inr (Or.inr (Or.inl ⟨_, Or.inr rfl, rfl⟩)))))
  | floatName => exact Or.inr (Or.inr (Or.inr (Or.inr (Or.inr (Or.inr (Or.inl ⟨rfl, rfl⟩))))))
  | doubleName => exact Or.inr (Or.inr (Or.inr (Or.inr (Or.inr (Or.inr (Or.inr ⟨rfl, rfl⟩))))))

theorem size_int (b e : Int) :
    unresolvedSizeBits (intType b e) =
      if e < b then .error .notImplemented
      else if 0 ≤ b then .ok (bitLength e) else intBits b e := by
  have h := asn1Type_int b e
  unfold unresolvedSizeBits
  simp only [intType]
  unfold intType at h
  simp only [AType.cType, h]
  by_cases h1 : e < b
  · simp [h1]
  · by_cases h2 : 0 ≤ b <;> simp [h1, h2, getBitSize, AType.lo, AType.hi]

theorem fitsSigned_ends (b e : Int) (hbe : b ≤ e) (w : Nat) :
    (∀ v, InRange b e v → FitsSigned w v) ↔ FitsSigned w b ∧ FitsSigned w e := by
  constructor
  · intro h; exact ⟨h b ⟨Int.le_refl _, hbe⟩, h e ⟨hbe, Int.le_refl _⟩⟩
  · rintro ⟨h1, h2⟩ v hv
    unfold FitsSigned InRange at *
    omega

theorem leafSize_int (b e v : Int) :
    unresolvedSizeBits (intType b e) = .ok v ↔ LeafSize (intType b e) v := by
  rw [size_int]
  constructor
  · intro h
    split at h
    · cases h
    · rename_i hbe
      split at h
      · rename_i hb
        cases h
        have := uint_least b e hb (by omega)
        exact .uint _ hb (by omega) this.1 this.2
      · rename_i hb
        obtain ⟨n, rfl, hn, h1, h2, h3⟩ := intBits_spec b e v (by omega) h
        refine .int _ (by omega) (by omega) hn ((fitsSigned_ends b e (by omega) n).2 ⟨h1, h2⟩) ?_
        intro w' hw' hf
        rw [fitsSigned_ends b e (by omega)] at hf
        exact h3 w' hw' hf.1 hf.2
  · intro h
    rcases leafSize_inv h with ⟨h0, _⟩ | ⟨b', e', w, h0, rfl, hb, hbe, h1, h2⟩ |
      ⟨b', e', w, h0, rfl, hb, hbe, hw, h1, h2⟩ | ⟨b', e', lim, h0, _⟩ | ⟨b', e', lim, dlim, h0, _⟩ |
      ⟨len, h0 | h0, _⟩ | ⟨h0, _⟩ | ⟨h0, _⟩ <;> simp [intType, realType] at h0
    · obtain ⟨rfl, rfl⟩ := h0
      rw [if_neg (by omega), if_pos hb]
      have := uint_least b e hb hbe
      have h3 := h2 _ this.1
      have h4 := this.2 _ h1
      have : w = bitLength e := by omega
      rw [this]
    · obtain ⟨rfl, rfl⟩ := h0
      rw [if_neg (by omega), if_neg (by omega)]
      cases hi : intBits b e with
      | error x =>
        exfalso
        rw [fitsSigned_ends b e hbe] at h1
        unfold intBits at hi
        unfold FitsSigned at h1
        simp only [List.mem_cons, List.not_mem_nil, or_false] at hw
        split at hi; · cases hi
        split at hi; · cases hi
        split at hi; · cases hi
        split at hi; · cases hi
        rcases hw with rfl | rfl | rfl | rfl <;> omega
      | ok v =>
        obtain ⟨n, rfl, hn, h3, h4, h5⟩ := intBits_spec b e v hbe hi
        have h6 := h2 n hn ((fitsSigned_ends b e hbe n).2 ⟨h3, h4⟩)
        rw [fitsSigned_ends b e hbe] at h1
        have h7 := h5 w hw h1.1 h1.2
        have : n = w := by omega
        rw [this]

theorem floatMax_eq : floatMax = ((8999725064576941 * 2 ^ 75 : Int) : Rat) := by decide +kernel
theorem floatMin_eq : floatMin = -floatMax := by decide +kernel
theorem doubleMax_eq : doubleMax = ((2 ^ 1024 - 2 ^ 971 : Int) : Rat) := by decide +kernel
theorem doubleMin_eq : doubleMin = -doubleMax := by decide +kernel

theorem asn1Type_real (b e : Num) : asn1Type (realType b e) =
    if Num.lt e b then .error .valueError
    else if Num.le (.flt floatMin) b && Num.le e (.flt floatMax) then .ok (some .float)
    else if Num.le (.flt doubleMin) b && Num.le e (.flt doubleMax) then .ok (some .double)
    else .error .floatingPoint := by
  have hp : posixRange "REAL" = none := by decide
  simp [asn1Type, realType, AType.lo, AType.hi, AType.name, classify, hp]

theorem size_real (b e : Num) : unresolvedSizeBits (realType b e) =
    if Num.lt e b then .error .notImplemented
    else if Num.le (.flt floatMin) b && Num.le e (.flt floatMax) then .ok 32
    else if Num.le (.flt doubleMin) b && Num.le e (.flt doubleMax) then .ok 64
    else .error .notImplemented := by
  have h := asn1Type_real b e
  unfold unresolvedSizeBits
  simp only [realType]
  unfold realType at h
  simp only [AType.cType, h]
  by_cases h1 : Num.lt e b = true
  · rw [if_pos h1, if_pos h1]
  · rw [if_neg h1, if_neg h1]
    by_cases h2 : (Num.le (.flt floatMin) b && Num.le e (.flt floatMax)) = true
    · rw [if_pos h2, if_pos h2]; rfl
    · rw [if_neg h2, if_neg h2]
      by_cases h3 : (Num.le (.flt doubleMin) b && Num.le e (.flt doubleMax)) = true
      · rw [if_pos h3, if_pos h3]; rfl
      · rw [if_neg h3, if_neg h3]

theorem leafSize_real (b e : Num) (v : Int) :
    unresolvedSizeBits (realType b e) = .ok v ↔ LeafSize (realType b e) v := by
  rw [size_real]
  constructor
  · intro h
    split at h
    · cases h
    · rename_i hbe
      have hbe : NumLE b e := Classical.byContradiction fun hh => hbe ((Num.lt_iff_not_le _ _).2 hh)
      split at h
      · rename_i hf
        cases h
        rw [Bool.and_eq_true, Num.le_iff, Num.le_iff, floatMin_eq] at hf
        exact .single floatMax_eq hbe hf.1 hf.2
      · rename_i hf
        split at h
        · rename_i hd
          cases h
          rw [Bool.and_eq_true, Num.le_iff, Num.le_iff, floatMin_eq] at hf
          rw [Bool.and_eq_true, Num.le_iff, Num.le_iff, doubleMin_eq] at hd
          exact .double floatMax_eq doubleMax_eq hbe hf hd.1 hd.2
        · cases h
  · intro h
    rcases leafSize_inv h with ⟨h0, _⟩ | ⟨b', e', w, h0, _⟩ |
      ⟨b', e', w, h0, _⟩ | ⟨b', e', lim, h0, rfl, hl, hbe, h1, h2⟩ |
      ⟨b', e', lim, dlim, h0, rfl, hl, hdl, hbe, hnf, h1, h2⟩ |
      ⟨len, h0 | h0, _⟩ | ⟨h0, _⟩ | ⟨h0, _⟩ <;> simp [intType, realType] at h0
    · obtain ⟨rfl, rfl⟩ := h0
      rw [← floatMax_eq] at hl; subst hl
      rw [← floatMin_eq] at h1
      rw [if_neg (by rw [Num.lt_iff_not_le]; simpa using hbe),
        if_pos (by rw [Bool.and_eq_true, Num.le_iff, Num.le_iff]; exact ⟨h1, h2⟩)]
    · obtain ⟨rfl, rfl⟩ := h0
      rw [← floatMax_eq] at hl; subst hl
      rw [← doubleMax_eq] at hdl; subst hdl
      rw [← floatMin_eq] at hnf
      rw [← doubleMin_eq] at h1
      rw [if_neg (by rw [Num.lt_iff_not_le]; simpa using hbe),
        if_neg (by rw [Bool.and_eq_true, Num.le_iff, Num.le_iff]; exact hnf),
        if_pos (by rw [Bool.and_eq_true, Num.le_iff, Num.le_iff]; exact ⟨h1, h2⟩)]

theorem posixRange_some {n : String} (h : (posixRange n).isSome) :
    n ∈ ["Int8-t", "Int16-t", "Int32-t", "Int64-t", "Uint8-t", "Uint16-t", "Uint32-t",
      "Uint64-t", "Float", "Double"] := by
  unfold posixRange at h
  split at h <;> first | (cases h; done) | simp

/-- No constructor of `LeafSize` fits. -/
theorem not_leafSize_plain {n : String} (h1 : n ≠ "BOOLEAN") (h2 : n ≠ "Float")
    (h3 : n ≠ "Double") (v : Int) : ¬ LeafSize (.plain n none none) v := by
  intro h
  rcases leafSize_inv h with ⟨h0, _⟩ | ⟨b', e', w, h0, _⟩ |
    ⟨b', e', w, h0, _⟩ | ⟨b', e', lim, h0, _⟩ | ⟨b', e', lim, dlim, h0, _⟩ |
    ⟨len, h0 | h0, _⟩ | ⟨h0, _⟩ | ⟨h0, _⟩ <;> simp [intType, realType] at h0
  · exact h1 h0
  · exact h2 h0
  · exact h3 h0

theorem leafSize_str {n : String} {len v : Int} (h : LeafSize (.str n len) v) : v = len * 8 := by
  rcases leafSize_inv h with ⟨h0, _⟩ | ⟨b', e', w, h0, _⟩ |
    ⟨b', e', w, h0, _⟩ | ⟨b', e', lim, h0, _⟩ | ⟨b', e', lim, dlim, h0, _⟩ |
    ⟨len, h0 | h0, rfl⟩ | ⟨h0, _⟩ | ⟨h0, _⟩ <;> simp [intType, realType] at h0
  · rw [h0.2]
  · rw [h0.2]

theorem leafSize_bool {v : Int} (h : LeafSize (.plain "BOOLEAN" none none) v) : v = 1 := by
  rcases leafSize_inv h with ⟨h0, h1⟩ | ⟨b', e', w, h0, _⟩ |
    ⟨b', e', w, h0, _⟩ | ⟨b', e', lim, h0, _⟩ | ⟨b', e', lim, dlim, h0, _⟩ |
    ⟨len, h0 | h0, _⟩ | ⟨h0, _⟩ | ⟨h0, _⟩ <;> simp [intType, realType] at h0
  exact h1

theorem leafSize_float {v : Int} (h : LeafSize (.plain "Float" none none) v) : v = 32 := by
  rcases leafSize_inv h with ⟨h0, h1⟩ | ⟨b', e', w, h0, _⟩ |
    ⟨b', e', w, h0, _⟩ | ⟨b', e', lim, h0, _⟩ | ⟨b', e', lim, dlim, h0, _⟩ |
    ⟨len, h0 | h0, _⟩ | ⟨h0, h1⟩ | ⟨h0, _⟩ <;> simp [intType, realType] at h0
  exact h1

theorem leafSize_double {v : Int} (h : LeafSize (.plain "Double" none none) v) : v = 64 := by
  rcases leafSize_inv h with ⟨h0, h1⟩ | ⟨b', e', w, h0, _⟩ |
    ⟨b', e', w, h0, _⟩ | ⟨b', e', lim, h0, _⟩ | ⟨b', e', lim, dlim, h0, _⟩ |
    ⟨len, h0 | h0, _⟩ | ⟨h0, h1⟩ | ⟨h0, h1⟩ <;> simp [intType, realType] at h0
  exact h1

theorem leafSize_named {n : String} (hn : isNameCapital n) (v : Int) :
    unresolvedSizeBits (.plain n none none) = .ok v ↔ LeafSize (.plain n none none) v := by
  by_cases hf : n = "Float"
  · subst hf
    rw [show unresolvedSizeBits _ = Except.ok 32 from by decide +kernel]
    constructor
    · intro h; cases h; exact .floatName
    · intro h; rw [leafSize_float h]
  by_cases hd : n = "Double"
  · subst hd
    rw [show unresolvedSizeBits _ = Except.ok 64 from by decide +kernel]
    constructor
    · intro h; cases h; exact .doubleName
    · intro h; rw [leafSize_double h]
  have hb : n ≠ "BOOLEAN" := by rintro rfl; revert hn; decide +kernel
  have : ∃ x, unresolvedSizeBits (.plain n none none) = .error x := by
    by_cases hp : (posixRange n).isSome
    · have := posixRange_some hp
      simp only [List.mem_cons, List.not_mem_nil, or_false] at this
      rcases this with rfl | rfl | rfl | rfl | rfl | rfl | rfl | rfl | rfl | rfl <;>
        first
        | exact absurd rfl hf
        | exact absurd rfl hd
        | exact ⟨.assertion, by decide +kernel⟩
    · exact ⟨.notImplemented, by
        simp [unresolvedSizeBits, AType.cType, asn1Type, AType.lo, AType.hi, AType.name,
          classify, hp, hb]⟩
  obtain ⟨x, hx⟩ := this
  rw [hx]
  constructor
  · intro h; cases h
  · intro h; exact absurd h (not_leafSize_plain hb hf hd v)

/-- The size of a leaf type is what the specification says. -/
theorem leafSize_iff {t : AType} (ht : GrammarType t) (ha : ∀ e len, t ≠ .arr e len) (v : Int) :
    unresolvedSizeBits t = .ok v ↔ LeafSize t v := by
  have hno : ∀ n, n ∈ ["REAL", "INTEGER", "NULL"] →
      (unresolvedSizeBits (.plain n none none) = .ok v ↔ LeafSize (.plain n none none) v) := by
    intro n hn
    have h1 : unresolvedSizeBits (.plain n none none) = .error .notImplemented := by
      simp only [List.mem_cons, List.not_mem_nil, or_false] at hn
      rcases hn with rfl | rfl | rfl <;> decide +kernel
    rw [h1]
    constructor
    · intro h; cases h
    · intro h
      refine absurd h (not_leafSize_plain ?_ ?_ ?_ v) <;> rintro rfl <;> revert hn <;> decide
  cases ht with
  | real => exact hno _ (by simp)
  | realRange _ _ => exact leafSize_real _ _ v
  | integer => exact hno _ (by simp)
  | integerRange => exact leafSize_int _ _ v
  | null => exact hno _ (by simp)
  | boolean =>
    rw [show unresolvedSizeBits _ = Except.ok 1 from by decide +kernel]
    constructor
    · intro h; cases h; exact .bool
    · intro h; rw [leafSize_bool h]
  | ia5 =>
    simp only [unresolvedSizeBits]
    constructor
    · intro h; cases h; exact .ia5
    · intro h; rw [leafSize_str h]
  | numeric =>
    simp only [unresolvedSizeBits]
    constructor
    · intro h; cases h; exact .numeric
    · intro h; rw [leafSize_str h]
  | arr _ => exact absurd rfl (ha _ _)
  | named hn => exact leafSize_named hn v

theorem enumSize_iff {its : List EnumItem} (hpos : ∀ it ∈ its, 0 ≤ it.pos) (v : Int) :
    enumSizeBits its = .ok v ↔ ∃ w : Nat, v = w ∧ its ≠ [] ∧
      (∀ it ∈ its, FitsUnsigned w it.pos) ∧
      (∀ w' : Nat, (∀ it ∈ its, FitsUnsigned w' it.pos) → w ≤ w') := by
  unfold enumSizeBits
  cases hm : (its.map (·.pos)).max? with
  | none =>
    rw [List.max?_eq_none_iff, List.map_eq_nil_iff] at hm
    subst hm; simp
  | some m =>
    obtain ⟨hmem, hmax⟩ := List.max?_eq_some_iff.1 hm
    obtain ⟨it, hit, rfl⟩ := List.mem_map.1 hmem
    have hne : its ≠ [] := by rintro rfl; cases hit
    have hall : ∀ x ∈ its, x.pos ≤ it.pos := fun x hx => hmax _ (List.mem_map_of_mem hx)
    have h1 : ∀ x ∈ its, FitsUnsigned (bitLength it.pos) x.pos := by
      intro x hx
      have := lt_two_pow_bitLength it.pos (hpos it hit)
      have := hall x hx
      exact ⟨hpos x hx, by omega⟩
    have h2 : ∀ w' : Nat, (∀ x ∈ its, FitsUnsigned w' x.pos) → bitLength it.pos ≤ w' := by
      intro w' hw'
      refine Nat.le_of_not_lt fun hlt => ?_
      exact not_fits_of_lt_bitLength it.pos (hpos it hit) w' hlt (hw' it hit)
    constructor
    · intro h; cases h; exact ⟨_, rfl, hne, h1, h2⟩
    · rintro ⟨w, rfl, _, h3, h4⟩
      have := h4 _ h1
      have := h2 _ h3
      simp only
      rw [show bitLength it.pos = w by omega]

/-- What the size lemmas need to know about a definition. -/
def SizeReady : Def → Prop
  | .seq _ _ ms => ∀ m ∈ ms, GrammarType m.type ∧ ∀ e len, m.type ≠ .arr e len
  | .choice .. => True
  | .enum _ _ its => ∀ it ∈ its, 0 ≤ it.pos
  | .simple _ _ t => GrammarType t ∧ ∀ e len, t ≠ .arr e len

theorem sumSizes_sound {ds : List Def} (rec : Def → Except Err Int)
    (hrec : ∀ d ∈ ds, ∀ v, rec d = .ok v → Size ds (.def d) v)
    (ms : List Member) (hms : ∀ m ∈ ms, GrammarType m.type ∧ ∀ e len, m.type ≠ .arr e len) :
    ∀ v, sumSizes rec ds ms = .ok v → Size ds (.members ms) v := by
  induction ms with
  | nil => intro v h; simp [sumSizes] at h; subst h; exact .nil
  | cons m ms ih =>
    intro v h
    rw [sumSizes] at h
    rw [bind_ok] at h
    obtain ⟨a, ha, h⟩ := h
    rw [bind_ok] at h
    obtain ⟨r, hr, h⟩ := h
    rw [pure_ok] at h
    subst h
    have hrest := ih (fun m hm => hms m (by simp [hm])) r hr
    obtain ⟨hg, hna⟩ := hms m (by simp)
    cases hres : resolveType ds m.type with
    | some d =>
      rw [hres] at ha
      unfold resolveType at hres
      split at hres
      · rename_i n lo hi hmt
        obtain ⟨h1, h2⟩ := lastDef_some hres
        exact .named (lo := lo) (hi := hi) (by rw [hmt, h2]) h1 (hrec d h1 a ha) hrest
      · cases hres
    | none =>
      rw [hres] at ha
      refine .leaf ?_ ((leafSize_iff hg hna a).1 ha) hrest
      intro n lo hi hmt d hd
      unfold resolveType at hres
      rw [hmt] at hres
      exact lastDef_none hres d hd

theorem sizeDef_sound {ds : List Def} (hds : ∀ d ∈ ds, SizeReady d) (fuel : Nat) :
    ∀ d ∈ ds, ∀ v, sizeDef ds fuel d = .ok v → Size ds (.def d) v := by
  induction fuel with
  | zero => intro d _ v h; simp [sizeDef] at h
  | succ fuel ih =>
    intro d hd v h
    have hready := hds d hd
    cases d with
    | seq n c ms => exact .seq (sumSizes_sound _ ih ms hready v h)
    | choice n c ms => simp [sizeDef] at h
    | enum n c its =>
      obtain ⟨w, rfl, h1, h2, h3⟩ := (enumSize_iff hready v).1 h
      exact .enum w h1 h2 h3
    | simple n c t => exact .simple ((leafSize_iff hready.1 hready.2 v).1 h)

/-- Property of nodes used in the completeness induction. -/
def NodeReady (ds : List Def) : Node → Prop
  | .def d => d ∈ ds
  | .members ms => ∀ m ∈ ms, GrammarType m.type ∧ ∀ e len, m.type ≠ .arr e len

/-- The model's answer for a node. -/
def nodeSize (ds : List Def) (fuel : Nat) : Node → Except Err Int
  | .def d => sizeDef ds fuel d
  | .members ms => sumSizes (sizeDef ds fuel) ds ms

theorem size_complete {ds : List Def} (hnd : (ds.map Def.name).Nodup)
    (hds : ∀ d ∈ ds, SizeReady d) {x : Node} {v : Int} (h : Size ds x v) :
    NodeReady ds x → ∃ N, ∀ fuel, N ≤ fuel → nodeSize ds fuel x = .ok v := by
  induction h with
  | seq h ih =>
    rename_i n c ms v
    intro hd
    obtain ⟨N, hN⟩ := ih (hds _ hd)
    refine ⟨N + 1, fun fuel hf => ?_⟩
    obtain ⟨f, rfl⟩ : ∃ f, fuel = f + 1 := ⟨fuel - 1, by omega⟩
    exact hN f (by omega)
  | enum w h1 h2 h3 =>
    intro hd
    refine ⟨1, fun fuel hf => ?_⟩
    obtain ⟨f, rfl⟩ : ∃ f, fuel = f + 1 := ⟨fuel - 1, by omega⟩
    exact (enumSize_iff (hds _ hd) _).2 ⟨w, rfl, h1, h2, h3⟩
  | simple h1 =>
    intro hd
    refine ⟨1, fun fuel hf => ?_⟩
    obtain ⟨f, rfl⟩ : ∃ f, fuel = f + 1 := ⟨fuel - 1, by omega⟩
    exact (leafSize_iff (hds _ hd).1 (hds _ hd).2 _).2 h1
  | nil => intro _; exact ⟨0, fun _ _ => rfl⟩
  | named hmt hd h1 h2 ih1 ih2 =>
    intro hr
    obtain ⟨N1, hN1⟩ := ih1 hd
    obtain ⟨N2, hN2⟩ := ih2 (fun m hm => hr m (by simp [hm]))
    refine ⟨max N1 N2, fun fuel hf => ?_⟩
    simp only [nodeSize] at hN1 hN2 ⊢
    rw [sumSizes, hmt, resolveType, (lastDef_eq_some_iff hnd _ _).2 ⟨hd, rfl⟩]
    simp only
    rw [hN1 fuel (by omega), hN2 fuel (by omega)]
    rfl
  | leaf hno hl h2 ih2 =>
    rename_i m ms a v
    intro hr
    obtain ⟨N2, hN2⟩ := ih2 (fun m hm => hr m (by simp [hm]))
    refine ⟨N2, fun fuel hf => ?_⟩
    simp only [nodeSize] at hN2 ⊢
    have hnone : resolveType ds m.type = none := by
      unfold resolveType
      split
      · rename_i n lo hi hmt
        cases hl : lastDef ds n with
        | none => rfl
        | some d =>
          obtain ⟨h3, h4⟩ := lastDef_some hl
          exact absurd h4 (hno n lo hi hmt d h3)
      · rfl
    obtain ⟨hg, hna⟩ := hr m (by simp)
    rw [sumSizes, hnone]
    simp only
    rw [(leafSize_iff hg hna _).2 hl, hN2 fuel (by omega)]
    rfl
  | array hmt h1 h2 ih1 ih2 =>
    intro hr
    exact absurd hmt ((hr _ (by simp)).2 _ _)

theorem sumSizes_no_recursion {ds : List Def} (rec : Def → Except Err Int)
    (ms : List Member) (hms : ∀ m ∈ ms, ∀ n lo hi, m.type = .plain n lo hi →
      ∀ d ∈ ds, d.name = n → rec d ≠ .error .recursion) :
    sumSizes rec ds ms ≠ .error .recursion := by
  induction ms with
  | nil => simp [sumSizes]
  | cons m ms ih =>
    rw [sumSizes]
    have ih' := ih (fun m hm => hms m (by simp [hm]))
    have h1 : (match resolveType ds m.type with
      | some d => rec d
      | none => unresolvedSizeBits m.type) ≠ .error .recursion := by
      cases hres : resolveType ds m.type with
      | some d =>
        simp only
        unfold resolveType at hres
        split at hres
        · rename_i n lo hi hmt
          obtain ⟨h1, h2⟩ := lastDef_some hres
          exact hms m (by simp) n lo hi hmt d h1 h2
        · cases hres
      | none =>
        simp only
        unfold unresolvedSizeBits
        split
        · simp
        · simp
        · split
          · rename_i c hc
            unfold getBitSize
            cases c
            · simp
            · simp only; split <;> simp
            · simp only; split
              · unfold intBits
                split; · simp
                split; · simp
                split; · simp
                split <;> simp
              · simp
            · simp only; split <;> simp
            · simp
            · simp
          · simp
    intro h
    rcases bind_error.1 h with h | ⟨a, _, h⟩
    · exact h1 h
    · rcases bind_error.1 h with h | ⟨r, _, h⟩
      · exact ih' h
      · simp [pure, Except.pure] at h

theorem sizeDef_no_recursion {ds : List Def} {rank : Def → Nat} (hr : NonRecursive ds rank)
    (fuel : Nat) : ∀ d ∈ ds, rank d < fuel → sizeDef ds fuel d ≠ .error .recursion := by
  induction fuel with
  | zero => intro d _ h; omega
  | succ fuel ih =>
    intro d hd hlt
    cases d with
    | seq n c ms =>
      apply sumSizes_no_recursion
      intro m hm n' lo hi hmt e he hen
      have := hr _ hd rfl m hm n' lo hi hmt e he hen
      exact ih e he (by omega)
    | choice n c ms => simp [sizeDef]
    | enum n c its =>
      simp only [sizeDef, enumSizeBits]
      split <;> simp
    | simple n c t =>
      have := sumSizes_no_recursion (ds := []) (fun _ => .ok 0) [⟨"", t, none, none⟩] (by simp)
      intro h
      apply this
      have hres : resolveType [] t = none := by
        unfold resolveType; split <;> rfl
      rw [sumSizes, hres]
      simp only [sizeDef] at h
      rw [h]; rfl

end Apg

namespace Apg
open Spec

theorem sumSizes_congr {ds ds' : List Def} (rec rec' : Def → Except Err Int) (ms : List Member)
    (h : ∀ m ∈ ms, resolveType ds m.type = resolveType ds' m.type)
    (hrec : ∀ m ∈ ms, ∀ d, resolveType ds m.type = some d → rec d ≠ .error .recursion → rec' d = rec d)
    (hok : sumSizes rec ds ms ≠ .error .recursion) :
    sumSizes rec' ds' ms = sumSizes rec ds ms := by
  induction ms with
  | nil => rfl
  | cons m ms ih =>
    have ih := ih (fun k hk => h k (List.Mem.tail _ hk)) (fun k hk => hrec k (List.Mem.tail _ hk))
    rw [sumSizes, sumSizes, ← h m (List.Mem.head _)]
    rw [sumSizes] at hok
    cases hr : resolveType ds m.type with
    | none =>
      simp only [hr] at hok ⊢
      cases hu : unresolvedSizeBits m.type with
      | error e => rfl
      | ok a =>
        rw [hu] at hok
        have : sumSizes rec ds ms ≠ .error .recursion := by
          intro hh; apply hok; rw [hh]; rfl
        rw [ih this]
    | some d =>
      simp only [hr] at hok ⊢
      have h1 : rec d ≠ .error .recursion := by
        intro hh; apply hok; rw [hh]; rfl
      rw [hrec m (List.Mem.head _) d hr h1]
      cases hd : rec d with
      | error e => rfl
      | ok a =>
        rw [hd] at hok
        have : sumSizes rec ds ms ≠ .error .recursion := by
          intro hh; apply hok; rw [hh]; rfl
        rw [ih this]

/-- Sizes are the same in two lists of definitions that agree on the types found from a
definition. -/
theorem sizeDef_mono_on {ds ds' : List Def} {K : Def → Prop}
    (hK : ∀ d, K d → ∀ m ∈ d.members, resolveType ds m.type = resolveType ds' m.type ∧
      ∀ d', resolveType ds m.type = some d' → K d') :
    ∀ (fuel fuel' : Nat) (d : Def), K d → fuel ≤ fuel' → sizeDef ds fuel d ≠ .error .recursion →
      sizeDef ds' fuel' d = sizeDef ds fuel d := by
  intro fuel
  induction fuel with
  | zero => intro fuel' d _ _ hne; exact absurd rfl hne
  | succ fuel ih =>
    intro fuel' d hd hle hne
    obtain ⟨f, rfl⟩ : ∃ f, fuel' = f + 1 := ⟨fuel' - 1, by omega⟩
    cases d with
    | seq n c ms =>
      exact sumSizes_congr _ _ ms (fun m hm => (hK _ hd m hm).1)
        (fun m hm d' hd' h => ih f d' ((hK _ hd m hm).2 d' hd') (by omega) h) hne
    | choice n c ms => rfl
    | enum n c its => rfl
    | simple n c t => rfl

theorem sizeDef_mono {ds ds' : List Def} (h : ∀ t, resolveType ds t = resolveType ds' t) :
    ∀ (fuel fuel' : Nat) (d : Def), fuel ≤ fuel' → sizeDef ds fuel d ≠ .error .recursion →
      sizeDef ds' fuel' d = sizeDef ds fuel d := fun fuel fuel' d =>
  sizeDef_mono_on (K := fun _ => True) (fun _ _ m _ => ⟨h m.type, fun _ _ => trivial⟩) fuel fuel' d trivial

/-- Processing keeps what the grammar guarantees. -/
theorem processDef_grammar {d d' : Def} (h : processDef d = .ok d') (hg : GrammarDef d) :
    GrammarDef d' ∧ ∀ n c its, d' = .enum n c its → ∀ it ∈ its, 0 ≤ it.pos := by
  obtain ⟨_, _, _, _, p5, p6, p7, p8⟩ := processDef_ok h
  cases d with
  | seq n c ms => rw [p6 n c ms rfl]; exact ⟨hg, by simp⟩
  | choice n c ms => rw [p7 n c ms rfl]; exact ⟨hg, by simp⟩
  | simple n c t => rw [(p5 n c t rfl).1]; exact ⟨hg, by simp⟩
  | enum n c its =>
    obtain ⟨slots, hs, rfl⟩ := p8 n c its rfl
    obtain ⟨items', rfl, hpos, hlab⟩ : ∃ items' : List EnumItem, slots = items'.map some ∧
        items'.map (·.pos) = numbers its.length ∧
        (items'.map label).Perm (its.map label) := by
      unfold checkEnumerated at hs
      simp only at hs
      split at hs
      · cases hs
        refine ⟨renumberFrom 0 its, rfl, ?_, ?_⟩
        · rw [renumberFrom_pos]; simp [numbers, List.range_eq_range']
        · have := renumberFrom_keys its 0
          unfold label
          rw [this]
      · split at hs
        · cases hs
        · rename_i h1 h2
          obtain ⟨items', rfl, hp, hpos⟩ := fillSlots_explicit its slots (by omega) hs
          exact ⟨items', rfl, hpos, hp.map _⟩
    have hfm : (items'.map some).filterMap id = items' := by
      simp
    rw [hfm]
    obtain ⟨g1, g2, g3⟩ := hg
    refine ⟨⟨g1, ?_, ?_⟩, ?_⟩
    · intro he
      rw [he] at hlab
      have := hlab.length_eq
      simp at this
      exact g2 (List.eq_nil_of_length_eq_zero this.symm)
    · intro it hit
      have : label it ∈ its.map label := hlab.mem_iff.1 (List.mem_map_of_mem hit)
      obtain ⟨it', hit', he⟩ := List.mem_map.1 this
      have : it'.key = it.key := congrArg Prod.fst he
      rw [← this]; exact g3 it' hit'
    · intro n' c' its' he it hit
      cases he
      have : it.pos ∈ numbers its.length := by
        rw [← hpos]; exact List.mem_map_of_mem hit
      simp only [numbers, List.mem_map] at this
      obtain ⟨i, _, hi⟩ := this
      omega

/-- No member and no simple definition is an array. -/
def NoArrays (d : Def) : Prop :=
  (∀ m ∈ d.members, ∀ e len, m.type ≠ .arr e len) ∧
  ∀ n c t, d = .simple n c t → ∀ e len, t ≠ .arr e len

theorem accepted_grammar {raw : List Module} {b : Bundle} (hg : ∀ m ∈ raw, GrammarModule m)
    (h : buildFromTexts raw = .ok b) : ∀ d ∈ b.defs,
      GrammarDef d ∧ ∀ n c its, d = .enum n c its → ∀ it ∈ its, 0 ≤ it.pos := by
  obtain ⟨ms, h1, h2, h3⟩ := buildFromTexts_ok.1 h
  intro d hd
  rw [← defsOf_eq, build_modules h2] at hd
  obtain ⟨m, hm, hdm⟩ := List.mem_flatMap.1 hd
  obtain ⟨m0, hm0, d0, hd0, hp⟩ := processModules_def h1 hm hdm
  exact processDef_grammar hp ((hg m0 hm0).2.2.1 d0 hd0)

theorem accepted_sizeReady {raw : List Module} {b : Bundle} (hg : ∀ m ∈ raw, GrammarModule m)
    (h : buildFromTexts raw = .ok b) (hna : ∀ d ∈ b.defs, NoArrays d) :
    ∀ d ∈ b.defs, SizeReady d := by
  intro d hd
  obtain ⟨h1, h2⟩ := accepted_grammar hg h d hd
  obtain ⟨h3, h4⟩ := hna d hd
  cases d with
  | seq n c ms => intro m hm; exact ⟨(h1.2.2 m hm).2.1, h3 m hm⟩
  | choice n c ms => trivial
  | enum n c its => exact h2 n c its rfl
  | simple n c t => exact ⟨h1.2, h4 n c t rfl⟩

theorem accepted_nodup {raw : List Module} {b : Bundle} (h : buildFromTexts raw = .ok b) :
    (b.defs.map Def.name).Nodup := by
  obtain ⟨_, _, _, h3⟩ := buildFromTexts_ok.1 h
  exact ((validateBundle_ok b).1 h3).2.2

end Apg
