import Verif.Lemmas.MsgId
import Verif.Lemmas.Text

/-!
# Properties C22 to C24: message ids
-/

namespace Apg
open Spec

/-- A header with the fields in an unusual order, split in two clauses. -/
def exHeader (version apid : Nat) : List (List (String × Leaf)) :=
  [[("application-process-identifier", .int apid), ("packet-version-number", .int version)],
   [("sec-hdr-flag-is-present", .bool true), ("packet-type-is-cmd", .int 0)]]

theorem exHeader_fixes (version apid : Nat) : FixesHeader (exHeader version apid) version 0 1 apid := by
  refine ⟨_, _, _, _, .int version, .int 0, .true, .int apid, ?_⟩
  show ([_, _, _, _] : List (String × Leaf)).Perm _
  exact (List.Perm.swap _ _ _).trans (List.Perm.cons _ ((List.perm_append_comm (l₁ := [_])
    (l₂ := [_, _])).trans ((List.Perm.swap _ _ _).trans (List.Perm.refl _))))

/-- **C22.** A primary header that fixes the four fields, in any order and grouping, has
the id `version*2^13 + type*2^12 + flag*2^11 + apid`. It fits in 16 bits and every
field can be read back. -/
theorem C22_msgid_layout (parts : List (List (String × Leaf))) (version type flag apid : Nat)
    (h : FixesHeader parts version type flag apid)
    (hv : version < 8) (ht : type < 2) (hf : flag < 2) (ha : apid < 2048) :
    ∃ id : Nat, msgId (headerComps parts) = .ok (id : Int) ∧
      id = version * 2 ^ 13 + type * 2 ^ 12 + flag * 2 ^ 11 + apid ∧ id < 2 ^ 16 ∧
      id / 2 ^ 13 = version ∧ id / 2 ^ 12 % 2 = type ∧ id / 2 ^ 11 % 2 = flag ∧
      id % 2 ^ 11 = apid := by
  refine ⟨_, msgId_or h, ?_⟩
  rw [header_sum ht hf (by omega)]
  refine ⟨rfl, ?_, ?_, ?_, ?_, ?_⟩ <;> omega

example : FixesHeader (exHeader 3 1234) 3 0 1 1234 ∧ (3 < 8 ∧ 0 < 2 ∧ 1 < 2 ∧ 1234 < 2048) :=
  ⟨exHeader_fixes 3 1234, by decide⟩
example : msgId (headerComps (exHeader 3 1234)) = .ok 27858 := by decide

/-- The full statement of C23: headers that differ in a field have different ids. The
tool accepts any integer for the fields. -/
def C23_full : Prop :=
  ∀ (p p' : List (List (String × Leaf))) (v t f a v' t' f' a' : Nat),
    FixesHeader p v t f a → FixesHeader p' v' t' f' a' →
    msgId (headerComps p) = msgId (headerComps p') → v = v' ∧ t = t' ∧ f = f' ∧ a = a'

/-- It fails: application id 2048 runs into the secondary header flag, so with this flag
set it gives the id of application id 0. -/
theorem C23_full_false : ¬ C23_full := by
  intro h
  have := h (exHeader 0 0) (exHeader 0 2048) 0 0 1 0 0 0 1 2048 (exHeader_fixes 0 0)
    (exHeader_fixes 0 2048) (by decide)
  omega

/-- **C23**, for type, flag and application id that fit their fields; the version may be any
natural number. Two headers have the same id exactly if the four fields are the same. -/
theorem C23_msgid_injective_partial (p p' : List (List (String × Leaf)))
    (v t f a v' t' f' a' : Nat)
    (h : FixesHeader p v t f a) (h' : FixesHeader p' v' t' f' a')
    (r : t < 2 ∧ f < 2 ∧ a < 2048) (r' : t' < 2 ∧ f' < 2 ∧ a' < 2048) :
    msgId (headerComps p) = msgId (headerComps p') ↔ v = v' ∧ t = t' ∧ f = f' ∧ a = a' := by
  have h1 := msgId_or h
  have k1 := msgId_or h'
  rw [header_sum r.1 r.2.1 (by omega)] at h1
  rw [header_sum r'.1 r'.2.1 (by omega)] at k1
  rw [h1, k1]
  constructor
  · intro he
    have := Int.ofNat.inj (Except.ok.inj he)
    exact ⟨by omega, by omega, by omega, by omega⟩
  · rintro ⟨rfl, rfl, rfl, rfl⟩
    rfl

/-- **C23, what collides.** For all natural numbers, two headers have the same id exactly if each bit is set in
one of the shifted fields of the first exactly if it is set in one of those of the second. -/
theorem C23_collisions_partial (p p' : List (List (String × Leaf))) (v t f a v' t' f' a' : Nat)
    (h : FixesHeader p v t f a) (h' : FixesHeader p' v' t' f' a') :
    msgId (headerComps p) = msgId (headerComps p') ↔
      ∀ i, (HasBit v 13 i ∨ HasBit t 12 i ∨ HasBit f 11 i ∨ HasBit a 0 i) ↔
        (HasBit v' 13 i ∨ HasBit t' 12 i ∨ HasBit f' 11 i ∨ HasBit a' 0 i) := by
  have key : ∀ v t f a i : Nat, (v * 2 ^ 13 ||| t * 2 ^ 12 ||| f * 2 ^ 11 ||| a).testBit i = true ↔
      (HasBit v 13 i ∨ HasBit t 12 i ∨ HasBit f 11 i ∨ HasBit a 0 i) := by
    intro v t f a i
    simp only [Nat.testBit_or, Bool.or_eq_true, hasBit_iff, Nat.pow_zero, Nat.mul_one]
    simp only [or_assoc]
  rw [msgId_or h, msgId_or h', Except.ok.injEq, Int.ofNat_inj]
  simp only [← key]
  constructor
  · intro he i; rw [he]
  · intro he
    refine Nat.eq_of_testBit_eq fun i => ?_
    have := he i
    exact Bool.eq_iff_iff.2 this

/-- Application id 2048 sets the bit of the secondary header flag. -/
example : HasBit 2048 0 11 ∧ HasBit 1 11 11 := ⟨⟨by decide, by decide⟩, by decide, by decide⟩

example : msgId (headerComps (exHeader 3 5)) = msgId (headerComps (exHeader 3 5).reverse) := by
  decide

/-- **C24.** For every non-negative id, the value printed for a `_MID` macro is `(0x`, at
least four digits `0`-`9`, `A`-`F` that denote the id, and `)`. There are exactly four
digits iff the id is below 2^16. The macro is the only thing generated for a primary
header. -/
theorem C24_mid_text (p : Printer) (seqName : Text) (c : Comps) (id : Nat)
    (h : msgId c = .ok (id : Int)) :
    ∃ hs : List Char,
      cfsDefines p seqName (.node "primary" c .nil) =
        .ok [⟨upper seqName ++ "_MID".toList, "(0x".toList ++ hs ++ [')'], false⟩] ∧
      readNat 16 hs = some id ∧ 4 ≤ hs.length ∧ (hs.length = 4 ↔ id < 2 ^ 16) ∧
      ∀ x ∈ hs, ('0' ≤ x ∧ x ≤ '9') ∨ ('A' ≤ x ∧ x ≤ 'F') := by
  refine ⟨hexText 4 id, ?_, ?_, ?_, ?_, ?_⟩
  · simp [cfsDefines, h, bind, Except.bind]
  · simp only [hexText]
    rw [if_neg (by omega)]
    simpa using readNat_padZero (by omega : 2 ≤ 16) (by omega : 16 ≤ 16) 4 id
  · simp only [hexText]
    rw [if_neg (by omega)]
    simp [padZero]; omega
  · simp only [hexText]
    rw [if_neg (by omega)]
    have h1 := digits_length_le (b := 16) (by omega) 4 id (by omega)
    simp only [padZero, List.length_append, List.length_replicate, Int.natAbs_natCast]
    have : (16 : Nat) ^ 4 = 2 ^ 16 := by decide
    omega
  · have hd : ∀ d : Nat, ('0' ≤ digitChar d ∧ digitChar d ≤ '9') ∨
        ('A' ≤ digitChar d ∧ digitChar d ≤ 'F') := by
      intro d
      unfold digitChar
      split <;> decide
    intro x hx
    simp only [hexText] at hx
    rw [if_neg (by omega)] at hx
    simp only [padZero, List.mem_append, List.mem_replicate] at hx
    rcases hx with hx | hx
    · rw [hx.2]; decide
    · obtain ⟨d, rfl⟩ := digits_all_digit _ _ x hx
      exact hd d

example : msgId (headerComps (exHeader 0 5)) = .ok ((2053 : Nat) : Int) := by decide

/-- Without the restriction to non-negative ids: the value is `(0x`, hexadecimal digits
and `)`. -/
def C24_integers_full : Prop :=
  ∀ (c : Comps) (id : Int), msgId c = .ok id →
    ∀ x ∈ hexText 4 id, ('0' ≤ x ∧ x ≤ '9') ∨ ('A' ≤ x ∧ x ≤ 'F')

/-- It fails: the grammar allows a negative application id, for which the text is
`(0x-001)`. -/
theorem C24_integers_full_false : ¬ C24_integers_full := by
  intro h
  have h2 := h (.node "packet-identification"
    (.leaf "application-process-identifier" (.int (-1)) .nil) .nil) (-1) (by decide)
  have := h2 '-' (by decide +kernel)
  revert this; decide

end Apg
