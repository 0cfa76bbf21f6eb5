import Verif.Model.Cfs
import Verif.Spec.CFields
import Verif.Lemmas.SizeSpec
import Verif.Lemmas.Names
import Verif.Lemmas.Text

namespace Apg
open Spec

/-- Smallest standard width. -/
def storage (w : Nat) : Nat :=
  if w ≤ 8 then 8 else if w ≤ 16 then 16 else if w ≤ 32 then 32 else 64

theorem nextSize_storage {w : Nat} (h1 : 1 ≤ w) (h2 : w ≤ 64) :
    nextSize (w + 8) w = some (storage w) := by
  have : ∀ w : Fin 65, 1 ≤ w.val → nextSize (w.val + 8) w.val = some (storage w.val) := by
    decide +kernel
  exact this ⟨w, by omega⟩ h1

theorem nextSize_some {w : Nat} (h1 : 1 ≤ w) : ∀ fuel n, nextSize fuel w = some n → 8 ≤ n ∧ w ≤ n := by
  intro fuel
  induction fuel generalizing w with
  | zero => intro n h; simp [nextSize] at h
  | succ fuel ih =>
    intro n h
    simp only [nextSize] at h
    split at h
    · rename_i hc
      simp only [Bool.and_eq_true, decide_eq_true_eq] at hc
      cases h
      refine ⟨?_, Nat.le_refl _⟩
      have : 2 ^ Nat.log2 w ≤ w := Nat.log2_self_le (by omega)
      have h8 : 2 ^ 3 ≤ 2 ^ Nat.log2 w := Nat.pow_le_pow_right (by omega) hc.2
      omega
    · obtain ⟨h3, h4⟩ := ih (by omega) n h
      exact ⟨h3, by omega⟩

theorem stdUInt_storage (w : Nat) :
    StdUInt (storage w) ("uint".toList ++ digits 10 (storage w) ++ "_t".toList) := by
  have e8 : "uint".toList ++ digits 10 8 ++ "_t".toList = "uint8_t".toList := by decide +kernel
  have e16 : "uint".toList ++ digits 10 16 ++ "_t".toList = "uint16_t".toList := by decide +kernel
  have e32 : "uint".toList ++ digits 10 32 ++ "_t".toList = "uint32_t".toList := by decide +kernel
  have e64 : "uint".toList ++ digits 10 64 ++ "_t".toList = "uint64_t".toList := by decide +kernel
  unfold storage
  split
  · rw [e8]; exact .w8
  · split
    · rw [e16]; exact .w16
    · split
      · rw [e32]; exact .w32
      · rw [e64]; exact .w64

theorem stdUInt_width {n : Nat} {ct : List Char} (h : StdUInt n ct) :
    n = 8 ∨ n = 16 ∨ n = 32 ∨ n = 64 := by
  cases h <;> simp

theorem stdUInt_iff (n : Nat) : (∃ ct, StdUInt n ct) ↔ n = 8 ∨ n = 16 ∨ n = 32 ∨ n = 64 := by
  constructor
  · rintro ⟨ct, h⟩; exact stdUInt_width h
  · rintro (rfl | rfl | rfl | rfl)
    · exact ⟨_, .w8⟩
    · exact ⟨_, .w16⟩
    · exact ⟨_, .w32⟩
    · exact ⟨_, .w64⟩

theorem bitSuffix_int (w : Nat) : BitSuffix w (" : ".toList ++ intText (w : Int)) := by
  exact ⟨_, rfl, readInt_intText _⟩

/-- Suffix chosen for an unsigned width. -/
def widthSuffix (w : Nat) : Text :=
  if w = 8 ∨ w = 16 ∨ w = 32 ∨ w = 64 then [] else " : ".toList ++ intText (w : Int)

theorem unsignedField_storage {w : Nat} (h2 : w ≤ 64) :
    UnsignedField w ("uint".toList ++ digits 10 (storage w) ++ "_t".toList) (widthSuffix w) := by
  refine ⟨storage w, stdUInt_storage w, ?_, ?_, ?_⟩
  · unfold storage; repeat' split
    all_goals omega
  · intro n' ct' h hw
    have := stdUInt_width h
    unfold storage; repeat' split
    all_goals omega
  · rw [stdUInt_iff]
    unfold widthSuffix
    split
    · rename_i h; exact Or.inl ⟨h, rfl⟩
    · rename_i h; exact Or.inr ⟨h, bitSuffix_int w⟩

theorem mapNumeric_uint {b e : Int} (hb : 0 ≤ b) (hbe : b ≤ e) :
    mapNumeric (intType b e) =
      if bitLength e = 0 then .error .valueError
      else match nextSize (bitLength e + 8) (bitLength e) with
        | none => .error .running
        | some next =>
          if posixCTypes.contains ("uint".toList ++ digits 10 next ++ "_t".toList) then
            .ok ⟨widthSuffix (bitLength e), "uint".toList ++ digits 10 next ++ "_t".toList, false, true⟩
          else .ok ⟨widthSuffix (bitLength e), "unsigned long long".toList, false, false⟩ := by
  have hc : (intType b e).cType = some .uint := by
    unfold AType.cType
    rw [asn1Type_int]
    simp [hb, show ¬ e < b by omega]
  unfold mapNumeric
  rw [hc]
  simp only [intType, AType.hi, getBitSize, bind, Except.bind]
  have hsz : ((bitLength e : Int) ≤ 0) ↔ bitLength e = 0 := by omega
  simp only [hsz, Int.toNat_natCast]
  have hsfx : (if True ∧ ¬ ((bitLength e : Int) = 8 ∨ (bitLength e : Int) = 16 ∨
      (bitLength e : Int) = 32 ∨ (bitLength e : Int) = 64) then
        " : ".toList ++ intText (bitLength e : Int) else []) = widthSuffix (bitLength e) := by
    unfold widthSuffix
    by_cases h : bitLength e = 8 ∨ bitLength e = 16 ∨ bitLength e = 32 ∨ bitLength e = 64
    · rw [if_pos h, if_neg]; simp only [true_and]; omega
    · rw [if_neg h, if_pos]; exact ⟨trivial, by omega⟩
  split
  · rfl
  · cases nextSize (bitLength e + 8) (bitLength e) with
    | none => rfl
    | some next => simp only [if_true, hsfx]

theorem mapNumeric_sint {b e : Int} (hb : b < 0) {f : Mapped}
    (h : mapNumeric (intType b e) = .ok f) : f = ⟨[], "int".toList, false, false⟩ := by
  have hc : (intType b e).cType = if e < b then none else some .int := by
    unfold AType.cType
    rw [asn1Type_int]
    by_cases he : e < b
    · simp [he]
    · simp [he, show ¬ 0 ≤ b by omega]
  unfold mapNumeric at h
  rw [hc] at h
  by_cases he : e < b
  · simp [he] at h
  · simp only [he, if_false, bind_ok] at h
    obtain ⟨size, _, h⟩ := h
    split at h
    · cases h
    · split at h
      · cases h
      · simp at h; rw [← h]; rfl

theorem mapNumeric_real {b e : Num} {f : Mapped}
    (h : mapNumeric (realType b e) = .ok f) :
    (LeafSize (realType b e) 32 ∧ f = ⟨[], "float".toList, false, false⟩) ∨
    (LeafSize (realType b e) 64 ∧ f = ⟨[], "double".toList, false, false⟩) := by
  have hs := size_real b e
  have hc : (realType b e).cType =
    if Num.lt e b then none
    else if Num.le (.flt floatMin) b && Num.le e (.flt floatMax) then some .float
    else if Num.le (.flt doubleMin) b && Num.le e (.flt doubleMax) then some .double
    else none := by
    unfold AType.cType
    rw [asn1Type_real]
    cases Num.lt e b <;> cases (Num.le (.flt floatMin) b && Num.le e (.flt floatMax)) <;>
      cases (Num.le (.flt doubleMin) b && Num.le e (.flt doubleMax)) <;> rfl
  have hl := leafSize_real b e
  rw [hs] at hl
  have n32 : nextSize 40 32 = some 32 := by decide +kernel
  have n64 : nextSize 72 64 = some 64 := by decide +kernel
  unfold mapNumeric at h
  rw [hc] at h
  split at h
  · cases h
  · rename_i c hcc
    split at hcc
    · cases hcc
    · rename_i h1
      split at hcc
      · rename_i h2
        cases hcc
        left
        refine ⟨(hl 32).1 (by simp [h1, h2]), ?_⟩
        simp [getBitSize, bind, Except.bind, n32] at h
        rw [← h]; rfl
      · rename_i h2
        split at hcc
        · rename_i h3
          cases hcc
          right
          refine ⟨(hl 64).1 (by simp only [h1, h2, h3]; simp), ?_⟩
          simp [getBitSize, bind, Except.bind, n64] at h
          rw [← h]; rfl
        · cases hcc

theorem lt_two_pow_64 {e : Int} (h0 : 0 ≤ e) : bitLength e ≤ 64 ↔ e < 2 ^ 64 := by
  constructor
  · intro h
    have h1 := lt_two_pow_bitLength e h0
    have h2 : (2 : Int) ^ bitLength e ≤ 2 ^ 64 := by
      have := Nat.pow_le_pow_right (n := 2) (by omega) h
      exact_mod_cast this
    omega
  · intro h
    cases Nat.lt_or_ge 64 (bitLength e) with
    | inl hlt => have := two_pow_le_of_lt_bitLength e h0 64 hlt; omega
    | inr hge => exact hge

theorem bitLength_zero {e : Int} (h0 : 0 ≤ e) : bitLength e = 0 ↔ e = 0 := by
  unfold bitLength
  split <;> omega

theorem mapNumeric_uint_ok {b e : Int} (hb : 0 ≤ b) (hbe : b ≤ e) (h1 : 1 ≤ e) (h2 : e < 2 ^ 64) :
    ∃ ct, mapNumeric (intType b e) = .ok ⟨widthSuffix (bitLength e), ct, false, true⟩ ∧
      LeastUnsigned (bitLength e) b e ∧
      UnsignedField (bitLength e) ct (widthSuffix (bitLength e)) ∧ posixCTypes.contains ct = true := by
  have hw : 1 ≤ bitLength e := by
    have := bitLength_zero (e := e) (by omega); omega
  have hw2 : bitLength e ≤ 64 := (lt_two_pow_64 (by omega)).2 h2
  have hcont : posixCTypes.contains ("uint".toList ++ digits 10 (storage (bitLength e)) ++ "_t".toList)
      = true := by
    have := stdUInt_storage (bitLength e)
    generalize "uint".toList ++ digits 10 (storage (bitLength e)) ++ "_t".toList = ct at this
    generalize storage (bitLength e) = n at this
    cases this <;> decide
  refine ⟨_, ?_, uint_least b e hb hbe, unsignedField_storage hw2, hcont⟩
  rw [mapNumeric_uint hb hbe, if_neg (by omega), nextSize_storage hw hw2]
  simp only
  rw [if_pos hcont]

theorem posix_digits {d : Text} (h : posixCTypes.contains ("uint".toList ++ d ++ "_t".toList) = true) :
    d ∈ ["8".toList, "16".toList, "32".toList, "64".toList] := by
  have h1 : "uint".toList ++ d ++ "_t".toList ∈ posixCTypes := List.contains_iff_mem.1 h
  have hu : "uint".toList = ['u', 'i', 'n', 't'] := by decide
  have ht : "_t".toList = ['_', 't'] := by decide
  have hb : ∀ x : Text, "uint".toList ++ d ++ "_t".toList = "uint".toList ++ x ++ "_t".toList → d = x :=
    fun x h => List.append_cancel_left (List.append_cancel_right h)
  have hno : ∀ x : Text, x.head? = some 'i' → "uint".toList ++ d ++ "_t".toList ≠ x := by
    rintro x hx rfl
    rw [hu] at hx
    exact absurd hx (by simp)
  unfold posixCTypes at h1
  rcases List.mem_cons.1 h1 with h | h1
  · exact absurd h (hno _ (by decide))
  rcases List.mem_cons.1 h1 with h | h1
  · exact absurd h (hno _ (by decide))
  rcases List.mem_cons.1 h1 with h | h1
  · exact absurd h (hno _ (by decide))
  rcases List.mem_cons.1 h1 with h | h1
  · exact absurd h (hno _ (by decide))
  rcases List.mem_cons.1 h1 with h | h1
  · rw [hb "8".toList (h.trans (by decide))]; decide
  rcases List.mem_cons.1 h1 with h | h1
  · rw [hb "16".toList (h.trans (by decide))]; decide
  rcases List.mem_cons.1 h1 with h | h1
  · rw [hb "32".toList (h.trans (by decide))]; decide
  rcases List.mem_cons.1 h1 with h | h1
  · rw [hb "64".toList (h.trans (by decide))]; decide
  · cases h1

/-- The C type of a range beyond 64 bits. -/
theorem mapNumeric_big {lo hi : Int} (h0 : 0 ≤ lo) (hle : lo ≤ hi) (hb : 64 < bitLength hi) {f : Mapped}
    (hm : mapNumeric (intType lo hi) = .ok f) : f = ⟨widthSuffix (bitLength hi), "unsigned long long".toList, false, false⟩ := by
  rw [mapNumeric_uint h0 hle, if_neg (by omega)] at hm
  cases hn : nextSize (bitLength hi + 8) (bitLength hi) with
  | none => rw [hn] at hm; cases hm
  | some next =>
    have h1 := (nextSize_some (by omega) _ _ hn).2
    rw [hn] at hm
    simp only at hm
    split at hm
    · rename_i hc
      have h2 := posix_digits hc
      have : next ∈ [8, 16, 32, 64] := by
        have h10 : ∀ k : Nat, digits 10 next = digits 10 k → next = k := fun k => digits_inj (by decide) (by decide)
        have e1 : "8".toList = digits 10 8 := by decide +kernel
        have e2 : "16".toList = digits 10 16 := by decide +kernel
        have e3 : "32".toList = digits 10 32 := by decide +kernel
        have e4 : "64".toList = digits 10 64 := by decide +kernel
        rw [e1, e2, e3, e4] at h2
        simp only [List.mem_cons, List.not_mem_nil, or_false] at h2 ⊢
        rcases h2 with h | h | h | h
        · exact .inl (h10 _ h)
        · exact .inr (.inl (h10 _ h))
        · exact .inr (.inr (.inl (h10 _ h)))
        · exact .inr (.inr (.inr (h10 _ h)))
      simp only [List.mem_cons, List.not_mem_nil, or_false] at this
      omega
    · cases hm; rfl

end Apg
