import Verif.Spec.Binary

/-!
# Lemmas on `struct.pack` of integers and IEEE 754 rounding
-/

namespace Apg
open Spec

/-! ### Integers -/

theorem bytesBE_length (size n : Nat) : (bytesBE size n).length = size := by
  induction size generalizing n with
  | zero => rfl
  | succ k ih => simp [bytesBE, ih]

theorem readBE_append (a b : List UInt8) :
    readBE (a ++ b) = b.foldl (fun a b => a * 256 + b.toNat) (readBE a) := by
  unfold readBE
  rw [List.foldl_append]

theorem readBE_bytesBE (size n : Nat) : readBE (bytesBE size n) = n % 256 ^ size := by
  induction size generalizing n with
  | zero => simp [bytesBE, readBE, Nat.mod_one]
  | succ k ih =>
    rw [bytesBE, readBE_append, ih]
    simp only [List.foldl_cons, List.foldl_nil, UInt8.toNat_ofNat']
    have h1 : n % 256 % 2 ^ 8 = n % 256 := by omega
    rw [h1, Nat.pow_succ, Nat.mul_comm (256 ^ k) 256, Nat.mod_mul]
    omega

theorem readBE_lt (bs : List UInt8) : readBE bs < 256 ^ bs.length := by
  have h : ∀ (l : List UInt8) (a k : Nat), a < 256 ^ k →
      l.foldl (fun a b => a * 256 + b.toNat) a < 256 ^ (k + l.length) := by
    intro l
    induction l with
    | nil => intro a k h; simpa using h
    | cons b l ih =>
      intro a k h
      simp only [List.foldl_cons, List.length_cons]
      have hb : b.toNat < 256 := b.toNat_lt
      have : a * 256 + b.toNat < 256 ^ (k + 1) := by rw [Nat.pow_succ]; omega
      have := ih _ _ this
      rwa [show k + (l.length + 1) = k + 1 + l.length by omega]
  have := h bs 0 0 (by simp)
  simpa [readBE] using this

/-! ### Rounding -/

/-- Distance of natural numbers. -/
def gap (a b : Nat) : Nat := (a - b) + (b - a)

theorem lt_two_pow_natBits (n : Nat) : n < 2 ^ natBits n := by
  unfold natBits
  split
  · omega
  · exact Nat.lt_log2_self

theorem two_pow_le_of_natBits {n k : Nat} (h : natBits n = k + 1) : 2 ^ k ≤ n := by
  unfold natBits at h
  split at h
  · omega
  · rename_i hn
    have : n.log2 = k := by omega
    rw [← this]
    exact Nat.log2_self_le hn

theorem divRound_le (x D : Nat) : x / D ≤ divRound x D ∧ divRound x D ≤ x / D + 1 := by
  unfold divRound
  simp only
  split
  · omega
  · split
    · omega
    · omega

theorem divRound_nearest (x D : Nat) (hD : 0 < D) (k : Nat) :
    gap (divRound x D * D) x ≤ gap (k * D) x ∧
    (gap (divRound x D * D) x = gap (k * D) x → k = divRound x D ∨ divRound x D % 2 = 0) := by
  have hx : x / D * D + x % D = x := by rw [Nat.mul_comm]; exact Nat.div_add_mod x D
  have hr : x % D < D := Nat.mod_lt _ hD
  have hk : (k ≤ x / D ∧ k * D ≤ x / D * D ∧ (k = x / D ∨ k * D + D ≤ x / D * D)) ∨
      (x / D + 1 ≤ k ∧ x / D * D + D ≤ k * D ∧ (k = x / D + 1 ∨ x / D * D + 2 * D ≤ k * D)) := by
    rcases Nat.lt_or_ge (x / D) k with h | h
    · refine Or.inr ⟨h, ?_, ?_⟩
      · have := Nat.mul_le_mul_right D h
        rwa [Nat.succ_mul] at this
      · rcases Nat.lt_or_ge (x / D + 1) k with h2 | h2
        · have := Nat.mul_le_mul_right D h2
          rw [Nat.succ_mul, Nat.succ_mul] at this
          omega
        · omega
    · refine Or.inl ⟨h, Nat.mul_le_mul_right D h, ?_⟩
      rcases Nat.lt_or_ge k (x / D) with h2 | h2
      · have := Nat.mul_le_mul_right D h2
        rw [Nat.succ_mul] at this
        omega
      · omega
  have hq : divRound x D * D = if 2 * (x % D) < D then x / D * D
      else if D < 2 * (x % D) then x / D * D + D else x / D * D + (x / D % 2) * D := by
    unfold divRound
    simp only
    split
    · rfl
    · split
      · rw [Nat.succ_mul]
      · rw [Nat.add_mul]
  have hq' : divRound x D = if 2 * (x % D) < D then x / D
      else if D < 2 * (x % D) then x / D + 1 else x / D + x / D % 2 := rfl
  rw [hq]
  unfold gap
  generalize x / D * D = y at *
  generalize k * D = z at *
  split
  · rename_i h1
    rw [if_pos h1] at hq'
    omega
  · rename_i h1
    rw [if_neg h1] at hq'
    split
    · rename_i h2
      rw [if_pos h2] at hq'
      omega
    · rename_i h2
      rw [if_neg h2] at hq'
      rcases Nat.mod_two_eq_zero_or_one (x / D) with h3 | h3 <;> rw [h3] at hq' ⊢ <;> omega

/-- What `encode` computes. -/
structure Rounded (f : FloatFmt) (n d s q : Nat) : Prop where
  bits : f.encode n d = s * 2 ^ (f.prec - 1) + q
  nearest : q = divRound (n * 2 ^ f.minExp) (d * 2 ^ s)
  hi : q ≤ 2 * 2 ^ (f.prec - 1)
  lo : 0 < s → 2 ^ (f.prec - 1) ≤ q
  below : 0 < s → 2 ^ (f.prec - 1) * 2 ^ s * d ≤ n * 2 ^ f.minExp

theorem encode_rounded (f : FloatFmt) (hp : 1 ≤ f.prec) (n d : Nat) (hd : 0 < d) :
    ∃ s q, Rounded f n d s q ∧ s = natBits (n * 2 ^ f.minExp / d) - f.prec := by
  refine ⟨_, _, ⟨rfl, rfl, ?_, ?_, ?_⟩, rfl⟩
  all_goals
    generalize n * 2 ^ f.minExp = x
    have h2 : 2 * 2 ^ (f.prec - 1) = 2 ^ f.prec := by
      rw [← Nat.pow_succ', show (f.prec - 1).succ = f.prec by omega]
    generalize hs : natBits (x / d) - f.prec = s
  · have h1 := (divRound_le x (d * 2 ^ s)).2
    have h3 : x / (d * 2 ^ s) < 2 ^ f.prec := by
      rw [← Nat.div_div_eq_div_mul]
      apply Nat.div_lt_of_lt_mul
      rw [← Nat.pow_add]
      exact Nat.lt_of_lt_of_le (lt_two_pow_natBits _) (Nat.pow_le_pow_right (by omega) (by omega))
    omega
  · intro h0
    have h1 := (divRound_le x (d * 2 ^ s)).1
    have h3 : 2 ^ (s + (f.prec - 1)) ≤ x / d := two_pow_le_of_natBits (by omega)
    have h4 : 2 ^ (f.prec - 1) ≤ x / (d * 2 ^ s) := by
      rw [← Nat.div_div_eq_div_mul, Nat.le_div_iff_mul_le (Nat.two_pow_pos s), ← Nat.pow_add,
        Nat.add_comm]
      exact h3
    omega
  · intro h0
    have h3 : 2 ^ (s + (f.prec - 1)) ≤ x / d := two_pow_le_of_natBits (by omega)
    rw [Nat.le_div_iff_mul_le hd] at h3
    rwa [← Nat.pow_add, Nat.add_comm (f.prec - 1)]

theorem units_rounded {f : FloatFmt} {n d s q : Nat} (h : Rounded f n d s q) :
    f.units (f.encode n d) = q * 2 ^ s := by
  have hP : 0 < 2 ^ (f.prec - 1) := Nat.two_pow_pos _
  have h1 := h.hi
  have h2 := h.lo
  rw [h.bits]
  unfold FloatFmt.units
  simp only
  generalize 2 ^ (f.prec - 1) = P at *
  rcases Nat.lt_or_ge q P with h3 | h3
  · have hs : s = 0 := by
      rcases Nat.eq_zero_or_pos s with h | h
      · exact h
      · have := h2 h; omega
    subst hs
    simp [Nat.div_eq_of_lt h3, Nat.mod_eq_of_lt h3]
  · rcases Nat.lt_or_ge q (2 * P) with h4 | h4
    · have e1 : (s * P + q) / P = s + 1 := by
        rw [Nat.div_eq_iff hP]
        rw [Nat.succ_mul]
        omega
      have e2 : (s * P + q) % P = q - P := by
        have := Nat.div_add_mod (s * P + q) P
        rw [e1, Nat.mul_comm, Nat.succ_mul] at this
        omega
      rw [e1, e2]
      simp only [Nat.add_one_ne_zero, if_false, Nat.add_sub_cancel]
      rw [show P + (q - P) = q by omega]
    · have hq : q = 2 * P := by omega
      subst hq
      have e0 : s * P + 2 * P = (s + 2) * P := by rw [Nat.add_mul]
      rw [e0, Nat.mul_div_cancel _ hP, Nat.mul_mod_left]
      simp only [Nat.succ_ne_zero, if_false, Nat.add_zero]
      rw [show s + 2 - 1 = s + 1 by omega, Nat.pow_succ]
      rw [Nat.mul_comm 2 P, Nat.mul_assoc, Nat.mul_comm 2]

theorem units_shape (f : FloatFmt) (b s : Nat) :
    (∃ k, f.units b = k * 2 ^ s) ∨ f.units b < 2 ^ (f.prec - 1) * 2 ^ s ∧ 0 < s := by
  have hP : 0 < 2 ^ (f.prec - 1) := Nat.two_pow_pos _
  unfold FloatFmt.units
  simp only
  generalize 2 ^ (f.prec - 1) = P at *
  have hm := Nat.mod_lt b hP
  rcases Nat.eq_zero_or_pos s with rfl | hs
  · exact Or.inl ⟨_, by rw [Nat.pow_zero, Nat.mul_one]⟩
  · split
    · refine Or.inr ⟨?_, hs⟩
      have := Nat.mul_le_mul_left P (Nat.one_le_two_pow (n := s))
      omega
    · rename_i he
      rcases Nat.lt_or_ge (b / P - 1) s with h | h
      · refine Or.inr ⟨?_, hs⟩
        have h2 : (2 * P) * 2 ^ (b / P - 1) ≤ P * 2 ^ s := by
          rw [Nat.mul_comm 2, Nat.mul_assoc, ← Nat.pow_succ']
          exact Nat.mul_le_mul_left _ (Nat.pow_le_pow_right (by omega) (by omega))
        refine Nat.lt_of_lt_of_le ?_ h2
        exact Nat.mul_lt_mul_of_pos_right (by omega) (Nat.two_pow_pos _)
      · refine Or.inl ⟨(P + b % P) * 2 ^ (b / P - 1 - s), ?_⟩
        rw [Nat.mul_assoc, ← Nat.pow_add]
        congr 2
        omega

/-- The encoding is nearest among all patterns, with ties to even. -/
theorem encode_nearest (f : FloatFmt) (hp : 2 ≤ f.prec) (n d : Nat) (hd : 0 < d) (b : Nat) :
    gap (f.units (f.encode n d) * d) (n * 2 ^ f.minExp) ≤ gap (f.units b * d) (n * 2 ^ f.minExp) ∧
    (gap (f.units (f.encode n d) * d) (n * 2 ^ f.minExp) = gap (f.units b * d) (n * 2 ^ f.minExp) →
      f.units b = f.units (f.encode n d) ∨ f.encode n d % 2 = 0) := by
  obtain ⟨s, q, h, _⟩ := encode_rounded f (by omega) n d hd
  rw [units_rounded h]
  have hD : 0 < d * 2 ^ s := Nat.mul_pos hd (Nat.two_pow_pos s)
  have hpar : f.encode n d % 2 = q % 2 := by
    rw [h.bits]
    have : 2 ^ (f.prec - 1) = 2 * 2 ^ (f.prec - 2) := by
      rw [← Nat.pow_succ']; congr 1; omega
    rw [this, show s * (2 * 2 ^ (f.prec - 2)) = 2 * (s * 2 ^ (f.prec - 2)) by
      rw [← Nat.mul_assoc, Nat.mul_comm s 2, Nat.mul_assoc]]
    omega
  rw [hpar]
  have key := fun k => divRound_nearest (n * 2 ^ f.minExp) (d * 2 ^ s) hD k
  rw [← h.nearest] at key
  have e : ∀ k, k * (d * 2 ^ s) = k * 2 ^ s * d := fun k => by
    rw [Nat.mul_comm d, Nat.mul_assoc]
  simp only [e] at key
  rcases units_shape f b s with ⟨k, hk⟩ | ⟨hlt, hs⟩
  · rw [hk]
    refine ⟨(key k).1, fun hg => ?_⟩
    rcases (key k).2 hg with h1 | h1
    · exact Or.inl (by rw [h1])
    · exact Or.inr h1
  · have h1 := (key (2 ^ (f.prec - 1))).1
    have h2 := h.below hs
    have h3 : f.units b * d < 2 ^ (f.prec - 1) * 2 ^ s * d := Nat.mul_lt_mul_of_pos_right hlt hd
    generalize f.units b * d = u at *
    generalize 2 ^ (f.prec - 1) * 2 ^ s * d = w at *
    generalize n * 2 ^ f.minExp = x at *
    generalize q * 2 ^ s * d = y at *
    unfold gap at *
    omega

/-- Numbers that need no more bits than the format has are represented exactly. -/
theorem encode_exact_of (f : FloatFmt) (hp : 1 ≤ f.prec) {n k t : Nat} (hk : k < 2 ^ f.prec)
    (hn : n * 2 ^ f.minExp = k * 2 ^ t) : f.units (f.encode n 1) = n * 2 ^ f.minExp := by
  obtain ⟨s, q, h, hs⟩ := encode_rounded f hp n 1 (by omega)
  rw [units_rounded h]
  have hle : s ≤ t := by
    rw [hs, Nat.div_one, hn]
    have : k * 2 ^ t < 2 ^ (f.prec + t) := by
      rw [Nat.pow_add]
      exact Nat.mul_lt_mul_of_pos_right hk (Nat.two_pow_pos _)
    have hb : natBits (k * 2 ^ t) ≤ f.prec + t := by
      rcases Nat.lt_or_ge (f.prec + t) (natBits (k * 2 ^ t)) with h1 | h1
      · exfalso
        obtain ⟨l, hl⟩ : ∃ l, natBits (k * 2 ^ t) = l + 1 := ⟨natBits (k * 2 ^ t) - 1, by omega⟩
        have h2 := two_pow_le_of_natBits hl
        have h3 : 2 ^ (f.prec + t) ≤ 2 ^ l := Nat.pow_le_pow_right (by omega) (by omega)
        omega
      · exact h1
    omega
  have hx : k * 2 ^ t = k * 2 ^ (t - s) * 2 ^ s := by
    rw [Nat.mul_assoc, ← Nat.pow_add]; congr 2; omega
  have hq : q = k * 2 ^ (t - s) := by
    rw [h.nearest, hn, hx, Nat.one_mul]
    unfold divRound
    simp only [Nat.mul_mod_left, Nat.mul_div_cancel _ (Nat.two_pow_pos s), Nat.mul_zero,
      Nat.two_pow_pos s, if_true]
  rw [hq, hn, hx]

/-- Small integers are represented exactly. -/
theorem encode_exact (f : FloatFmt) (hp : 1 ≤ f.prec) (i : Nat) (hi : i < 2 ^ f.prec) :
    f.units (f.encode i 1) = i * 2 ^ f.minExp := encode_exact_of f hp hi rfl

/-- The units of a pattern have at most as many bits as the format has, and zeros. -/
theorem units_bits (f : FloatFmt) (hp : 1 ≤ f.prec) (b : Nat) : ∃ k t, k < 2 ^ f.prec ∧ f.units b = k * 2 ^ t := by
  have h2 : 2 * 2 ^ (f.prec - 1) = 2 ^ f.prec := by
    rw [← Nat.pow_succ', show (f.prec - 1).succ = f.prec by omega]
  have hm := Nat.mod_lt b (Nat.two_pow_pos (f.prec - 1))
  unfold FloatFmt.units
  simp only
  split
  · exact ⟨b % 2 ^ (f.prec - 1), 0, by omega, by rw [Nat.pow_zero, Nat.mul_one]⟩
  · exact ⟨2 ^ (f.prec - 1) + b % 2 ^ (f.prec - 1), _, by omega, rfl⟩

/-! ### Values -/

/-- The value of a pattern without sign. -/
def mag (f : FloatFmt) (b : Nat) : Rat := (f.units b : Nat) / (2 ^ f.minExp : Nat)

/-- The parameters fit together as in IEEE 754. -/
structure FmtOk (f : FloatFmt) : Prop where
  prec : 2 ≤ f.prec
  min : f.minExp = 2 ^ (f.expBits - 1) - 1 + (f.prec - 1) - 1

theorem binary32_ok : FmtOk binary32 := ⟨by decide, by decide⟩
theorem binary64_ok : FmtOk binary64 := ⟨by decide, by decide⟩

theorem ieee_eq {f : FloatFmt} (hf : FmtOk f) (n : Nat) :
    ieee f.expBits (f.prec - 1) n =
      if n / 2 ^ (f.prec - 1) % 2 ^ f.expBits = 2 ^ f.expBits - 1 then none
      else some (if n / 2 ^ (f.expBits + (f.prec - 1)) % 2 = 1
        then -mag f (n % 2 ^ (f.expBits + (f.prec - 1))) else mag f (n % 2 ^ (f.expBits + (f.prec - 1)))) := by
  have e1 : n % 2 ^ (f.expBits + (f.prec - 1)) / 2 ^ (f.prec - 1) = n / 2 ^ (f.prec - 1) % 2 ^ f.expBits := by
    rw [Nat.add_comm, Nat.pow_add, Nat.mod_mul_right_div_self]
  have e2 : n % 2 ^ (f.expBits + (f.prec - 1)) % 2 ^ (f.prec - 1) = n % 2 ^ (f.prec - 1) := by
    rw [Nat.add_comm, Nat.pow_add, Nat.mod_mul_right_mod]
  have e3 : mag f (n % 2 ^ (f.expBits + (f.prec - 1))) =
      (if n / 2 ^ (f.prec - 1) % 2 ^ f.expBits = 0 then
        ((n % 2 ^ (f.prec - 1) : Nat) : Rat) / (2 ^ (2 ^ (f.expBits - 1) - 1 + (f.prec - 1) - 1) : Nat)
      else (((2 ^ (f.prec - 1) + n % 2 ^ (f.prec - 1)) * 2 ^ (n / 2 ^ (f.prec - 1) % 2 ^ f.expBits - 1) : Nat) : Rat) /
        (2 ^ (2 ^ (f.expBits - 1) - 1 + (f.prec - 1) - 1) : Nat)) := by
    unfold mag FloatFmt.units
    simp only [e1, e2, ← hf.min]
    split <;> rfl
  rw [e3]
  rfl

theorem dist_comm_neg (x y : Rat) : dist (-x) (-y) = dist x y := by
  unfold dist
  split <;> split <;> grind

theorem dist_scale {k : Rat} (hk : 0 < k) (x y : Rat) : dist (x * k) (y * k) = dist x y * k := by
  unfold dist
  have h : x * k ≤ y * k ↔ x ≤ y := ⟨fun h => by
      rcases (Rat.le_total : x ≤ y ∨ y ≤ x) with h1 | h1
      · exact h1
      · have := Rat.mul_le_mul_of_nonneg_right h1 (Rat.le_of_lt hk)
        have h2 : x * k = y * k := Rat.le_antisymm h this
        have : x = y := by
          have hne : k ≠ 0 := by grind
          grind
        grind, fun h => Rat.mul_le_mul_of_nonneg_right h (Rat.le_of_lt hk)⟩
  simp only [h]
  split <;> grind

theorem dist_nat (a b : Nat) : dist (a : Rat) (b : Rat) = (gap a b : Nat) := by
  unfold dist gap
  by_cases h : a ≤ b
  · rw [if_pos (by exact_mod_cast h)]
    obtain ⟨c, rfl⟩ := Nat.exists_eq_add_of_le h
    rw [show a - (a + c) + (a + c - a) = c by omega]
    push_cast
    grind
  · rw [if_neg (by exact_mod_cast h)]
    obtain ⟨c, rfl⟩ := Nat.exists_eq_add_of_le (Nat.le_of_not_le h)
    rw [show b + c - b + (b - (b + c)) = c by omega]
    push_cast
    grind

theorem gap_comm (a b : Nat) : gap a b = gap b a := by unfold gap; omega

theorem mag_scale (f : FloatFmt) (b d : Nat) :
    mag f b * ((d * 2 ^ f.minExp : Nat) : Rat) = ((f.units b * d : Nat) : Rat) := by
  unfold mag
  have : ((2 ^ f.minExp : Nat) : Rat) ≠ 0 := by
    have := Nat.two_pow_pos f.minExp
    intro h
    have h2 : 2 ^ f.minExp = 0 := by exact_mod_cast h
    omega
  rw [Rat.natCast_mul, Rat.natCast_mul]
  generalize ((2 ^ f.minExp : Nat) : Rat) = M at *
  grind

theorem mag_nonneg (f : FloatFmt) (b : Nat) : 0 ≤ mag f b := by
  unfold mag
  rw [Rat.div_def]
  exact Rat.mul_nonneg Rat.natCast_nonneg
    (Rat.le_of_lt (Rat.inv_pos.2 (Rat.natCast_pos.2 (Nat.two_pow_pos _))))

theorem rat_scale {x : Rat} (hx : 0 ≤ x) (k : Nat) :
    x * ((x.den * k : Nat) : Rat) = ((x.num.natAbs * k : Nat) : Rat) := by
  have h1 : x * (x.den : Rat) = (x.num : Rat) := by
    have h := Rat.num_divInt_den x
    rw [Rat.divInt_eq_div] at h
    have hd : (x.den : Rat) ≠ 0 := fun h => x.den_nz (Rat.natCast_eq_zero_iff.1 h)
    have h' := Rat.div_mul_cancel (a := (x.num : Rat)) hd
    rw [Rat.intCast_natCast] at h
    rwa [h] at h'
  have h2 : (x.num : Rat) = ((x.num.natAbs : Nat) : Rat) := by
    have : 0 ≤ x.num := Rat.num_nonneg.2 hx
    have h3 : x.num = (x.num.natAbs : Int) := by omega
    rw [← Rat.intCast_natCast, ← h3]
  rw [Rat.natCast_mul, Rat.natCast_mul, ← h2, ← h1]
  grind

theorem mag_nearest (f : FloatFmt) (hp : 2 ≤ f.prec) {x : Rat} (hx : 0 ≤ x) (b : Nat) :
    dist x (mag f (f.encode x.num.natAbs x.den)) ≤ dist x (mag f b) ∧
    (dist x (mag f (f.encode x.num.natAbs x.den)) = dist x (mag f b) →
      mag f b = mag f (f.encode x.num.natAbs x.den) ∨ f.encode x.num.natAbs x.den % 2 = 0) := by
  have hK : (0 : Rat) < ((x.den * 2 ^ f.minExp : Nat) : Rat) := by
    have := Nat.mul_pos x.den_pos (Nat.two_pow_pos f.minExp)
    exact_mod_cast this
  have key : ∀ c, dist x (mag f c) * ((x.den * 2 ^ f.minExp : Nat) : Rat) =
      ((gap (f.units c * x.den) (x.num.natAbs * 2 ^ f.minExp) : Nat) : Rat) := by
    intro c
    rw [← dist_scale hK, mag_scale, rat_scale hx, dist_nat, gap_comm]
  have hn := encode_nearest f hp x.num.natAbs x.den x.den_pos b
  generalize f.encode x.num.natAbs x.den = e at *
  have k1 := key e
  have k2 := key b
  generalize ((x.den * 2 ^ f.minExp : Nat) : Rat) = K at *
  constructor
  · have h1 : dist x (mag f e) * K ≤ dist x (mag f b) * K := by
      rw [k1, k2]; exact_mod_cast hn.1
    exact Rat.le_of_mul_le_mul_right h1 hK
  · intro he
    rw [he, k2] at k1
    have h2 : gap (f.units e * x.den) (x.num.natAbs * 2 ^ f.minExp) =
        gap (f.units b * x.den) (x.num.natAbs * 2 ^ f.minExp) := by exact_mod_cast k1.symm
    rcases hn.2 h2 with h3 | h3
    · exact Or.inl (by unfold mag; rw [h3])
    · exact Or.inr h3

/-- The sign does not matter. -/
theorem dist_neg_le {x y : Rat} (hx : 0 ≤ x) (hy : 0 ≤ y) :
    dist x y ≤ dist x (-y) ∧ (dist x y = dist x (-y) → y = 0 ∨ x = 0) := by
  unfold dist
  constructor
  · split <;> split <;> grind
  · split <;> split <;> grind

theorem dist_self_le {x y : Rat} : dist x y = 0 → x = y := by
  unfold dist
  split <;> grind

theorem dist_nonneg (x y : Rat) : 0 ≤ dist x y := by
  unfold dist
  split <;> grind

theorem infBits_le (f : FloatFmt) : f.infBits ≤ 2 ^ (f.expBits + (f.prec - 1)) := by
  unfold FloatFmt.infBits
  rw [Nat.pow_add]
  exact Nat.mul_le_mul_right _ (Nat.sub_le _ _)

theorem nearest_zero (f : FloatFmt) (hp : 2 ≤ f.prec) (x : Rat) (hx : x = 0) :
    mag f (f.encode x.num.natAbs x.den) = 0 := by
  have h0 : mag f 0 = 0 := by
    unfold mag FloatFmt.units
    simp [Rat.div_def]
  have h := (mag_nearest f hp (x := x) (by rw [hx]; exact Rat.le_refl) 0).1
  rw [h0] at h
  have h1 : dist x 0 = 0 := by unfold dist; split <;> grind
  rw [h1] at h
  have h2 := dist_self_le (Rat.le_antisymm h (dist_nonneg _ _))
  rw [← h2, hx]

theorem ieee_withSign {f : FloatFmt} (hf : FmtOk f) (neg : Bool) {b : Nat} (hb : b < f.infBits) :
    f.withSign neg b < 2 ^ (1 + f.expBits + (f.prec - 1)) ∧
    ieee f.expBits (f.prec - 1) (f.withSign neg b) = some (if neg then -mag f b else mag f b) := by
  have h1 := infBits_le f
  have hT : 0 < 2 ^ (f.expBits + (f.prec - 1)) := Nat.two_pow_pos _
  have e1 : f.withSign neg b = (if neg then 1 else 0) * 2 ^ (f.expBits + (f.prec - 1)) + b := by
    unfold FloatFmt.withSign
    have := hf.prec
    rw [show f.expBits + f.prec - 1 = f.expBits + (f.prec - 1) by omega]
    cases neg <;> simp
  have hlt : b < 2 ^ (f.expBits + (f.prec - 1)) := by omega
  have e2 : f.withSign neg b % 2 ^ (f.expBits + (f.prec - 1)) = b := by
    rw [e1, Nat.mul_comm, Nat.mul_add_mod, Nat.mod_eq_of_lt hlt]
  have e3 : f.withSign neg b / 2 ^ (f.expBits + (f.prec - 1)) = if neg then 1 else 0 := by
    rw [e1, Nat.mul_comm, Nat.mul_add_div hT, Nat.div_eq_of_lt hlt, Nat.add_zero]
  have e4 : f.withSign neg b / 2 ^ (f.prec - 1) % 2 ^ f.expBits = b / 2 ^ (f.prec - 1) := by
    have : f.withSign neg b % 2 ^ (f.expBits + (f.prec - 1)) / 2 ^ (f.prec - 1) =
        f.withSign neg b / 2 ^ (f.prec - 1) % 2 ^ f.expBits := by
      rw [Nat.add_comm, Nat.pow_add, Nat.mod_mul_right_div_self]
    rw [← this, e2]
  have e5 : b / 2 ^ (f.prec - 1) ≠ 2 ^ f.expBits - 1 := by
    have : b / 2 ^ (f.prec - 1) < 2 ^ f.expBits - 1 := by
      rw [Nat.div_lt_iff_lt_mul (Nat.two_pow_pos _)]
      exact hb
    omega
  constructor
  · rw [e1, Nat.add_assoc, Nat.pow_add 2 1]
    cases neg <;> simp <;> omega
  · rw [ieee_eq hf, e4, if_neg e5, e3, e2]
    cases neg <;> simp

theorem ieee_some {f : FloatFmt} (hf : FmtOk f) {k : Nat} {z : Rat}
    (h : ieee f.expBits (f.prec - 1) k = some z) : ∃ c, z = mag f c ∨ z = -mag f c := by
  rw [ieee_eq hf] at h
  split at h
  · cases h
  · simp only [Option.some.injEq] at h
    refine ⟨k % 2 ^ (f.expBits + (f.prec - 1)), ?_⟩
    split at h
    · exact Or.inr h.symm
    · exact Or.inl h.symm

theorem nearest_nonneg {f : FloatFmt} (hp : 2 ≤ f.prec) {x : Rat} (hx : 0 ≤ x) {z : Rat} {c : Nat}
    (hz : z = mag f c ∨ z = -mag f c) :
    dist x (mag f (f.encode x.num.natAbs x.den)) ≤ dist x z ∧
    (dist x (mag f (f.encode x.num.natAbs x.den)) = dist x z →
      z = mag f (f.encode x.num.natAbs x.den) ∨ f.encode x.num.natAbs x.den % 2 = 0) := by
  have h := mag_nearest f hp hx c
  rcases hz with rfl | rfl
  · exact h
  · have h2 := dist_neg_le hx (mag_nonneg f c)
    refine ⟨Rat.le_trans h.1 h2.1, fun he => ?_⟩
    have h3 : dist x (mag f c) ≤ dist x (mag f (f.encode x.num.natAbs x.den)) := by rw [he]; exact h2.1
    have h4 := Rat.le_antisymm h.1 h3
    rcases h2.2 (by rw [← h4, he]) with h5 | h5
    · rcases h.2 h4 with h6 | h6
      · left; rw [← h6, h5]; grind
      · exact Or.inr h6
    · rcases h.2 h4 with h6 | h6
      · left
        have hz : mag f (f.encode x.num.natAbs x.den) = 0 := by
          exact nearest_zero f hp x h5
        rw [h6, hz]; grind
      · exact Or.inr h6

theorem pack_nearest {f : FloatFmt} (hf : FmtOk f) {q : Rat} {b : Nat} (h : f.pack (.flt q) = .ok b) :
    Nearest f.expBits (f.prec - 1) q b := by
  simp only [FloatFmt.pack] at h
  split at h
  · cases h
  · rename_i hlt
    simp only [Except.ok.injEq] at h
    subst h
    have hi := ieee_withSign hf (q < 0) (Nat.lt_of_not_le hlt)
    refine ⟨hi.1, _, hi.2, ?_⟩
    intro k z hz
    obtain ⟨c, hc⟩ := ieee_some hf hz
    have hpar : f.withSign (decide (q < 0)) (f.encode q.num.natAbs q.den) % 2 =
        f.encode q.num.natAbs q.den % 2 := by
      unfold FloatFmt.withSign
      have := hf.prec
      split
      · rw [show f.expBits + f.prec - 1 = f.expBits + f.prec - 2 + 1 by omega, Nat.pow_succ]
        omega
      · rfl
    rw [hpar]
    by_cases hq : q < 0
    · have hx : 0 ≤ -q := by grind
      have hn := nearest_nonneg hf.prec hx (z := -z) (c := c) (by grind)
      have e1 : (-q).num.natAbs = q.num.natAbs := Int.natAbs_neg _
      have e2 : (-q).den = q.den := rfl
      rw [e1, e2] at hn
      simp only [hq, decide_true, if_true]
      rw [← dist_comm_neg q, ← dist_comm_neg q, Rat.neg_neg]
      refine ⟨hn.1, fun he => ?_⟩
      rcases hn.2 he with h1 | h1
      · left; rw [← h1]; grind
      · exact Or.inr h1
    · have hx : 0 ≤ q := by grind
      simp only [hq, decide_false, Bool.false_eq_true, if_false]
      exact nearest_nonneg hf.prec hx hc

end Apg
