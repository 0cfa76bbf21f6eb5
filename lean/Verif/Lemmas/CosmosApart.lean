import Verif.Spec.CosmosApart
import Verif.Props.CosmosPossible

/-!
# Lemmas about bits of data
-/

namespace Apg
open Spec

/-! ### Bits -/

theorem testBit_toNat_mod (a k : Nat) : a / 2 ^ k % 2 = (a.testBit k).toNat := by
  rw [Nat.testBit_eq_decide_div_mod_eq]
  have := Nat.mod_two_eq_zero_or_one (a / 2 ^ k)
  rcases this with h | h <;> simp [h]

theorem bitsAt_one {data : List UInt8} {i : Nat} (h : i < 8 * data.length) :
    bitsAt data i 1 = some ((readBE data).testBit (8 * data.length - 1 - i)).toNat := by
  unfold bitsAt
  rw [if_pos (by omega), show 8 * data.length - (i + 1) = 8 * data.length - 1 - i by omega, Nat.pow_one,
    testBit_toNat_mod]

theorem bit_inj {a b : Bool} (h : a.toNat = b.toNat) : a = b := by
  cases a <;> cases b <;> simp at h <;> rfl

/-- The bits of a field. -/
theorem bitsAt_bit {data : List UInt8} {pos w n i : Nat} (h : bitsAt data pos w = some n) (h1 : pos ≤ i)
    (h2 : i < pos + w) : bitsAt data i 1 = some (n.testBit (pos + w - 1 - i)).toNat := by
  have h0 := h
  unfold bitsAt at h
  split at h
  · rename_i hle
    cases h
    rw [bitsAt_one (by omega), Nat.testBit_mod_two_pow, Nat.testBit_div_two_pow]
    rw [show pos + w - 1 - i + (8 * data.length - (pos + w)) = 8 * data.length - 1 - i by omega]
    simp [show pos + w - 1 - i < w by omega]
  · cases h

/-- A field is determined by its bits. -/
theorem bitsAt_of_bits {data : List UInt8} {pos w n : Nat} (hle : pos + w ≤ 8 * data.length) (hn : n < 2 ^ w)
    (h : ∀ i, pos ≤ i → i < pos + w → bitsAt data i 1 = some (n.testBit (pos + w - 1 - i)).toNat) :
    bitsAt data pos w = some n := by
  unfold bitsAt
  rw [if_pos hle]
  congr 1
  apply Nat.eq_of_testBit_eq
  intro k
  rw [Nat.testBit_mod_two_pow, Nat.testBit_div_two_pow]
  by_cases hk : k < w
  · have := h (pos + w - 1 - k) (by omega) (by omega)
    rw [bitsAt_one (by omega), Option.some.injEq] at this
    have := bit_inj this
    rw [show pos + w - 1 - (pos + w - 1 - k) = k by omega] at this
    rw [← this, show 8 * data.length - 1 - (pos + w - 1 - k) = k + (8 * data.length - (pos + w)) by omega]
    simp [hk]
  · rw [Nat.testBit_lt_two_pow (Nat.lt_of_lt_of_le hn (Nat.pow_le_pow_right (by omega) (by omega)))]
    simp [hk]

/-- Data with given bits. -/
theorem data_of_bits (f : Nat → Bool) (T : Nat) : ∃ data : List UInt8, T ≤ 8 * data.length ∧
    ∀ i, i < T → bitsAt data i 1 = some (f i).toNat := by
  let fs := (List.range T).map fun i => (1, (f i).toNat)
  have hlt : ∀ g ∈ fs, g.2 < 2 ^ g.1 := by
    intro g hg
    obtain ⟨i, _, rfl⟩ := List.mem_map.1 hg
    show (f i).toNat < 2 ^ 1
    cases f i <;> decide
  have hsum : ∀ l : List Nat, ((l.map fun i => (1, (f i).toNat)).map (·.1)).sum = l.length := by
    intro l
    induction l with
    | nil => rfl
    | cons a l ih => simp only [List.map_cons, List.sum_cons, ih, List.length_cons]; omega
  have hbit : ∀ i, i < T → bitsAt (dataOf fs) i 1 = some (f i).toNat := by
    intro i hi
    have hsplit : fs = (List.range i).map (fun i => (1, (f i).toNat)) ++ (1, (f i).toNat) ::
        ((List.range (T - i - 1)).map (fun k => i + 1 + k)).map (fun i => (1, (f i).toNat)) := by
      show (List.range T).map _ = _
      have : List.range T = List.range i ++ i :: (List.range (T - i - 1)).map (fun k => i + 1 + k) := by
        rw [show T = i + (1 + (T - i - 1)) by omega, List.range_add, List.range_add]
        simp only [List.map_append, List.map_map]
        congr 1
        rw [show i + (1 + (T - i - 1)) - i - 1 = T - i - 1 by omega]
        simp [List.range_one, Function.comp_def, Nat.add_assoc]
      rw [this, List.map_append, List.map_cons]
    have := dataOf_field (a := (List.range i).map fun i => (1, (f i).toNat)) (w := 1) (n := (f i).toNat)
      (b := ((List.range (T - i - 1)).map (fun k => i + 1 + k)).map (fun i => (1, (f i).toNat))) (by rw [← hsplit]; exact hlt)
    rw [← hsplit, hsum, List.length_range] at this
    exact this
  refine ⟨dataOf fs, ?_, hbit⟩
  show T ≤ 8 * (bytesBE _ _).length
  rw [bytesBE_length, hsum, List.length_range]
  omega

/-- The number with given bits. -/
def numOf (f : Nat → Bool) : Nat → Nat
  | 0 => 0
  | w + 1 => numOf f w + (f w).toNat * 2 ^ w

theorem numOf_lt (f : Nat → Bool) (w : Nat) : numOf f w < 2 ^ w := by
  induction w with
  | zero => exact Nat.one_pos
  | succ w ih =>
    rw [numOf, Nat.pow_succ]
    have := Bool.toNat_lt (f w)
    cases f w <;> simp only [Bool.toNat_true, Bool.toNat_false] <;> omega

theorem numOf_bit (f : Nat → Bool) {w k : Nat} (h : k < w) : (numOf f w).testBit k = f k := by
  induction w with
  | zero => omega
  | succ w ih =>
    rw [numOf]
    rcases Nat.lt_or_ge k w with hk | hk
    · rw [Nat.add_comm, Nat.mul_comm, Nat.testBit_two_pow_mul_add _ (numOf_lt f w), if_pos hk, ih hk]
    · obtain rfl : k = w := by omega
      rw [Nat.add_comm, Nat.mul_comm, Nat.testBit_two_pow_mul_add _ (numOf_lt f k), if_neg (by omega)]
      cases f k <;> simp

/-! ### Patterns of a number -/

theorem units_inj {f : FloatFmt} {b c : Nat} (h : f.units b = f.units c) : b = c := by
  rcases Nat.lt_trichotomy b c with hlt | rfl | hlt
  · have := units_lt f hlt
    omega
  · rfl
  · have := units_lt f hlt
    omega

theorem mag_inj {f : FloatFmt} {b c : Nat} (h : mag f b = mag f c) : b = c := by
  apply units_inj (f := f)
  unfold mag at h
  have hp : ((2 ^ f.minExp : Nat) : Rat) ≠ 0 := by
    have : 2 ^ f.minExp ≠ 0 := Nat.ne_of_gt (Nat.two_pow_pos _)
    exact_mod_cast this
  have : ((f.units b : Nat) : Rat) = (f.units c : Nat) := by
    rw [← Rat.div_mul_cancel (a := ((f.units b : Nat) : Rat)) hp, h, Rat.div_mul_cancel hp]
  exact_mod_cast this

theorem ieee_patterns {f : FloatFmt} (hf : FmtOk f) {n n' : Nat} {q : Rat}
    (h : ieee f.expBits (f.prec - 1) n = some q) (h' : ieee f.expBits (f.prec - 1) n' = some q) :
    n % 2 ^ (f.expBits + (f.prec - 1)) = n' % 2 ^ (f.expBits + (f.prec - 1)) ∧
    (q ≠ 0 → n / 2 ^ (f.expBits + (f.prec - 1)) % 2 = n' / 2 ^ (f.expBits + (f.prec - 1)) % 2) := by
  rw [ieee_eq hf] at h h'
  split at h
  · cases h
  split at h'
  · cases h'
  rw [Option.some.injEq] at h h'
  have h0 := mag_nonneg f (n % 2 ^ (f.expBits + (f.prec - 1)))
  have h0' := mag_nonneg f (n' % 2 ^ (f.expBits + (f.prec - 1)))
  generalize hc : n % 2 ^ (f.expBits + (f.prec - 1)) = c at *
  generalize hc' : n' % 2 ^ (f.expBits + (f.prec - 1)) = c' at *
  split at h <;> split at h'
  · rename_i e e'
    refine ⟨mag_inj (f := f) (by grind), fun _ => by rw [e, e']⟩
  · have : mag f c = 0 ∧ mag f c' = 0 := by grind
    exact ⟨mag_inj (f := f) (by rw [this.1, this.2]), fun hq => absurd (by grind) hq⟩
  · have : mag f c = 0 ∧ mag f c' = 0 := by grind
    exact ⟨mag_inj (f := f) (by rw [this.1, this.2]), fun hq => absurd (by grind) hq⟩
  · rename_i e e'
    refine ⟨mag_inj (f := f) (by rw [h, h']), fun _ => ?_⟩
    omega

theorem ieee_zero {f : FloatFmt} (hf : FmtOk f) {n n' : Nat}
    (h : ieee f.expBits (f.prec - 1) n = some 0)
    (hn : n % 2 ^ (f.expBits + (f.prec - 1)) = n' % 2 ^ (f.expBits + (f.prec - 1))) :
    ieee f.expBits (f.prec - 1) n' = some 0 := by
  have e1 : ∀ n, n % 2 ^ (f.expBits + (f.prec - 1)) / 2 ^ (f.prec - 1) = n / 2 ^ (f.prec - 1) % 2 ^ f.expBits := by
    intro n
    rw [Nat.add_comm, Nat.pow_add, Nat.mod_mul_right_div_self]
  rw [ieee_eq hf] at h ⊢
  rw [← e1, hn, e1] at h
  split at h
  · cases h
  · rename_i hx
    rw [if_neg hx]
    rw [Option.some.injEq] at h ⊢
    have : mag f (n' % 2 ^ (f.expBits + (f.prec - 1))) = 0 := by
      split at h <;> grind
    rw [this]
    split <;> rfl

theorem realOf_format {w n : Nat} {q : Rat} (h : realOf w n = some q) : ∃ f : FloatFmt, FmtOk f ∧
    w = f.expBits + (f.prec - 1) + 1 ∧ ∀ n, realOf w n = ieee f.expBits (f.prec - 1) n := by
  unfold realOf at h
  split at h
  · rename_i hw
    exact ⟨binary32, binary32_ok, hw, fun n => by unfold realOf; rw [if_pos hw]; rfl⟩
  · split at h
    · rename_i h32 hw
      exact ⟨binary64, binary64_ok, hw, fun n => by unfold realOf; rw [if_neg h32, if_pos hw]; rfl⟩
    · cases h

theorem signedValue_inj {w n n' : Nat} (hn : n < 2 ^ w) (hn' : n' < 2 ^ w) (h : signedValue w n = signedValue w n') :
    n = n' := by
  have hc : ((2 ^ w : Nat) : Int) = 2 ^ w := by exact_mod_cast rfl
  unfold signedValue at h
  rw [← hc] at h
  split at h <;> split at h <;> omega

/-- Bits that agree with a pattern of a number where all its patterns do are a pattern of the number. -/
theorem isNumber_cube {ds : List Def} (hnd : (ds.map Def.name).Nodup) {w : Nat} {t : AType} {x : Num} {n0 n : Nat}
    (h0 : n0 < 2 ^ w) (hn : n < 2 ^ w) (hx : IsNumber ds w t x n0)
    (h : ∀ k, k < w → (∀ n', n' < 2 ^ w → IsNumber ds w t x n' → n'.testBit k = n0.testBit k) →
      n.testBit k = n0.testBit k) : IsNumber ds w t x n := by
  have hout : ∀ {a : Nat}, a < 2 ^ w → ∀ k, ¬ k < w → a.testBit k = false := by
    intro a ha k hk
    exact Nat.testBit_lt_two_pow (Nat.lt_of_lt_of_le ha (Nat.pow_le_pow_right (by omega) (by omega)))
  have huniq : (∀ n', n' < 2 ^ w → IsNumber ds w t x n' → n' = n0) → IsNumber ds w t x n := by
    intro hu
    have : n = n0 := by
      apply Nat.eq_of_testBit_eq
      intro k
      by_cases hk : k < w
      · exact h k hk fun n' h1 h2 => by rw [hu n' h1 h2]
      · rw [hout hn k hk, hout h0 k hk]
    rw [this]
    exact hx
  have hx0 := hx
  rcases hx with ⟨ht, hv⟩ | ⟨ht, hv⟩ | ⟨ht, q, hq, hr⟩
  · refine huniq fun n' h1 h2 => ?_
    rcases h2 with ⟨_, h2⟩ | ⟨h2, _⟩ | ⟨h2, _⟩
    · rw [hv] at h2; cases h2; rfl
    · exact absurd (itemType_unique hnd ht h2) (by decide)
    · exact absurd (itemType_unique hnd ht h2) (by decide)
  · refine huniq fun n' h1 h2 => ?_
    rcases h2 with ⟨h2, _⟩ | ⟨_, h2⟩ | ⟨h2, _⟩
    · exact absurd (itemType_unique hnd ht h2) (by decide)
    · rw [hv] at h2
      exact (signedValue_inj h0 h1 (Num.int.inj h2)).symm
    · exact absurd (itemType_unique hnd ht h2) (by decide)
  · obtain ⟨f, hf, hw, hreal⟩ := realOf_format hr
    have hpat : ∀ n', n' < 2 ^ w → IsNumber ds w t x n' → realOf w n' = some q := by
      intro n' h1 h2
      rcases h2 with ⟨h2, _⟩ | ⟨h2, _⟩ | ⟨_, q', h2, h3⟩
      · exact absurd (itemType_unique hnd ht h2) (by decide)
      · exact absurd (itemType_unique hnd ht h2) (by decide)
      · rw [hq] at h2; cases h2; exact h3
    have hsame : ∀ n', n' < 2 ^ w → IsNumber ds w t x n' → n' % 2 ^ (w - 1) = n0 % 2 ^ (w - 1) ∧ (q ≠ 0 → n' = n0) := by
      intro n' h1 h2
      have h3 := hpat n' h1 h2
      rw [hreal] at h3
      have hr' := hr
      rw [hreal] at hr'
      obtain ⟨e1, e2⟩ := ieee_patterns hf h3 hr'
      rw [show f.expBits + (f.prec - 1) = w - 1 by omega] at e1 e2
      refine ⟨e1, fun hq => ?_⟩
      have e2 := e2 hq
      have hlt : ∀ {a : Nat}, a < 2 ^ w → a / 2 ^ (w - 1) < 2 := by
        intro a ha
        rw [Nat.div_lt_iff_lt_mul (Nat.two_pow_pos _), ← Nat.pow_succ', show (w - 1).succ = w by omega]
        exact ha
      rw [Nat.mod_eq_of_lt (hlt h1), Nat.mod_eq_of_lt (hlt h0)] at e2
      rw [← Nat.div_add_mod n' (2 ^ (w - 1)), ← Nat.div_add_mod n0 (2 ^ (w - 1)), e1, e2]
    by_cases hq0 : q = 0
    · have hmod : n0 % 2 ^ (w - 1) = n % 2 ^ (w - 1) := by
        apply Nat.eq_of_testBit_eq
        intro k
        rw [Nat.testBit_mod_two_pow, Nat.testBit_mod_two_pow]
        by_cases hk : k < w - 1
        · rw [h k (by omega) fun n' h1 h2 => ?_]
          have := congrArg (fun a => Nat.testBit a k) (hsame n' h1 h2).1
          simp only [Nat.testBit_mod_two_pow, hk, decide_true, Bool.true_and] at this
          exact this
        · simp [hk]
      refine .inr (.inr ⟨ht, q, hq, ?_⟩)
      subst hq0
      rw [hreal] at hr ⊢
      rw [show w - 1 = f.expBits + (f.prec - 1) by omega] at hmod
      exact ieee_zero hf hr hmod
    · exact huniq fun n' h1 h2 => (hsame n' h1 h2).2 hq0

/-! ### Leaves -/

theorem hasNumber_iff {ds : List Def} {data : List UInt8} {pos w : Nat} {t : AType} {x : Num} :
    HasNumber ds data pos w t x ↔ ∃ n, bitsAt data pos w = some n ∧ IsNumber ds w t x n := by
  constructor
  · rintro (⟨i, rfl, n, h1, ⟨h2, rfl⟩ | ⟨h2, rfl⟩⟩ | ⟨h1, q, h2, h3⟩)
    · exact ⟨n, h1, .inl ⟨h2, rfl⟩⟩
    · exact ⟨n, h1, .inr (.inl ⟨h2, rfl⟩)⟩
    · unfold realAt at h3
      obtain ⟨n, h4, h5⟩ := Option.bind_eq_some_iff.1 h3
      exact ⟨n, h4, .inr (.inr ⟨h1, q, h2, h5⟩)⟩
  · rintro ⟨n, h1, ⟨h2, rfl⟩ | ⟨h2, rfl⟩ | ⟨h2, q, h3, h4⟩⟩
    · exact .inl ⟨_, rfl, n, h1, .inl ⟨h2, rfl⟩⟩
    · exact .inl ⟨_, rfl, n, h1, .inr ⟨h2, rfl⟩⟩
    · exact .inr ⟨h2, q, h3, by unfold realAt; rw [h1]; exact h4⟩

theorem canHold_iff {ds : List Def} {w : Nat} {t : AType} {x : Num} :
    CanHold ds w t x ↔ ∃ n, n < 2 ^ w ∧ IsNumber ds w t x n := by
  constructor
  · rintro (⟨h1, i, rfl, h2, h3⟩ | ⟨h1, i, rfl, h2, h3⟩ | ⟨h1, q, h2, n, h3, h4⟩)
    · obtain ⟨n, rfl⟩ : ∃ n : Nat, i = n := ⟨i.toNat, by omega⟩
      exact ⟨n, by exact_mod_cast h3, .inl ⟨h1, rfl⟩⟩
    · obtain ⟨n, h4, rfl⟩ := signedValue_surj h2 h3
      exact ⟨n, h4, .inr (.inl ⟨h1, rfl⟩)⟩
    · exact ⟨n, h3, .inr (.inr ⟨h1, q, h2, h4⟩)⟩
  · rintro ⟨n, hn, ⟨h2, rfl⟩ | ⟨h2, rfl⟩ | ⟨h2, q, h3, h4⟩⟩
    · exact .inl ⟨h2, n, rfl, by omega, by exact_mod_cast hn⟩
    · exact .inr (.inl ⟨h2, _, rfl, signedValue_ge hn⟩)
    · exact .inr (.inr ⟨h2, q, h3, n, hn, h4⟩)

/-- Bits that data have for a message. -/
theorem needs_bit {ds : List Def} {ls : List (List Member)} {data : List UInt8}
    (h : ∀ path m pos w, LeafAt ds ls path m pos w → LeafHas ds data path m pos w) {i : Nat} {β : Bool}
    (hn : Needs ds ls i β) : bitsAt data i 1 = some β.toNat := by
  obtain ⟨path, m, pos, w, hat, h1, h2, ⟨v, hv, hall⟩ | ⟨hb, hno, rfl⟩⟩ := hn
  · obtain ⟨n, hn, hnum⟩ := hasNumber_iff.1 ((h path m pos w hat).1 v hv)
    rw [bitsAt_bit hn h1 h2, hall n (bitsAt_lt hn) hnum]
  · obtain ⟨n, hn, hnum⟩ := (h path m pos w hat).2 hb hno
    have : n = 0 := by
      rcases hnum with ⟨_, h⟩ | ⟨_, h⟩
      · omega
      · refine signedValue_inj (bitsAt_lt hn) (Nat.two_pow_pos _) ?_
        rw [← h]
        unfold signedValue
        rw [if_pos (by have := Nat.two_pow_pos w; omega)]
        rfl
    subst this
    rw [bitsAt_bit hn h1 h2, Nat.zero_testBit]

theorem needs_agree {ds : List Def} {ls ls' : List (List Member)} {data : List UInt8}
    (h : ∀ path m pos w, LeafAt ds ls path m pos w → LeafHas ds data path m pos w)
    (h' : ∀ path m pos w, LeafAt ds ls' path m pos w → LeafHas ds data path m pos w) : Agree ds ls ls' := by
  intro i β β' h1 h2
  have e1 := needs_bit h h1
  rw [needs_bit h' h2, Option.some.injEq] at e1
  exact bit_inj e1.symm

/-- The bits from 0 on that the leaves have. -/
theorem leafAt_bound {ds : List Def} {ls : List (List Member)} {fs : List (Nat × Nat)}
    (h : All2 (FieldFor ds) ls fs) {path : List Member} {m : Member} {pos w : Nat} (hat : LeafAt ds ls path m pos w) :
    pos + w ≤ (fs.map (·.1)).sum := by
  induction h generalizing pos with
  | nil => cases hat
  | @cons p f ls fs h1 _ ih =>
    rw [List.map_cons, List.sum_cons]
    cases hat with
    | here q1 q2 =>
      have := (h1.2 _ _ q1 q2).1
      omega
    | later q1 q2 q3 =>
      have := (h1.2 _ _ q1 q2).1
      have := ih q3
      omega

end Apg
