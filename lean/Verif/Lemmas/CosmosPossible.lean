import Verif.Spec.CosmosPossible
import Verif.Props.CosmosReal

/-!
# Lemmas about data with given bits
-/

namespace Apg
open Spec

/-- The bits of fields one after the other, as one number. -/
def packFields : List (Nat × Nat) → Nat
  | [] => 0
  | f :: fs => f.2 * 2 ^ (fs.map (·.1)).sum + packFields fs

theorem packFields_lt {fs : List (Nat × Nat)} (h : ∀ f ∈ fs, f.2 < 2 ^ f.1) :
    packFields fs < 2 ^ (fs.map (·.1)).sum := by
  induction fs with
  | nil => simp [packFields]
  | cons f fs ih =>
    have h1 := h f (.head _)
    have h2 := ih fun g hg => h g (.tail _ hg)
    simp only [packFields, List.map_cons, List.sum_cons, Nat.pow_add]
    generalize 2 ^ (fs.map (·.1)).sum = r at *
    generalize 2 ^ f.1 = q at *
    have : (f.2 + 1) * r ≤ q * r := Nat.mul_le_mul_right _ h1
    rw [Nat.add_mul] at this
    omega

/-- A field of the number. -/
theorem packFields_field {a b : List (Nat × Nat)} {w n : Nat} (h : ∀ f ∈ a ++ (w, n) :: b, f.2 < 2 ^ f.1) :
    packFields (a ++ (w, n) :: b) / 2 ^ (b.map (·.1)).sum % 2 ^ w = n := by
  induction a with
  | nil =>
    have h1 := h (w, n) (.head _)
    have h2 := packFields_lt (fs := b) fun g hg => h g (.tail _ hg)
    simp only [List.nil_append, packFields]
    have hq : 0 < 2 ^ (b.map (·.1)).sum := Nat.two_pow_pos _
    generalize 2 ^ (b.map (·.1)).sum = r at *
    rw [Nat.add_comm, Nat.add_mul_div_right _ _ hq, Nat.div_eq_of_lt h2, Nat.zero_add, Nat.mod_eq_of_lt h1]
  | cons f a ih =>
    have h2 := ih fun g hg => h g (.tail _ hg)
    simp only [List.cons_append, packFields]
    have hsum : ((a ++ (w, n) :: b).map (·.1)).sum = (a.map (·.1)).sum + w + (b.map (·.1)).sum := by
      simp only [List.map_append, List.map_cons, List.sum_append, List.sum_cons]
      omega
    rw [hsum, Nat.pow_add, Nat.pow_add]
    have hq : 0 < 2 ^ (b.map (·.1)).sum := Nat.two_pow_pos _
    generalize packFields (a ++ (w, n) :: b) = N at *
    generalize 2 ^ (b.map (·.1)).sum = r at *
    generalize 2 ^ (a.map (·.1)).sum = s at *
    generalize 2 ^ w = q at *
    rw [← Nat.mul_assoc, Nat.add_comm, Nat.add_mul_div_right _ _ hq, ← Nat.mul_assoc, Nat.add_mul_mod_self_right]
    exact h2

/-- Data with these fields, filled up with zeros to whole bytes. -/
def dataOf (fs : List (Nat × Nat)) : List UInt8 :=
  let total := (fs.map (·.1)).sum
  bytesBE ((total + 7) / 8) (packFields fs * 2 ^ (8 * ((total + 7) / 8) - total))

theorem dataOf_field {a b : List (Nat × Nat)} {w n : Nat} (h : ∀ f ∈ a ++ (w, n) :: b, f.2 < 2 ^ f.1) :
    bitsAt (dataOf (a ++ (w, n) :: b)) (a.map (·.1)).sum w = some n := by
  have hlt := packFields_lt h
  have hf := packFields_field h
  unfold bitsAt dataOf
  have hsum : ((a ++ (w, n) :: b).map (·.1)).sum = (a.map (·.1)).sum + w + (b.map (·.1)).sum := by
    simp only [List.map_append, List.map_cons, List.sum_append, List.sum_cons]
    omega
  rw [hsum] at hlt
  simp only [hsum, bytesBE_length]
  generalize packFields (a ++ (w, n) :: b) = N at *
  generalize (a.map (·.1)).sum = x at *
  generalize (b.map (·.1)).sum = y at *
  generalize hL : (x + w + y + 7) / 8 = L
  have hmod : N * 2 ^ (8 * L - (x + w + y)) < 2 ^ (8 * L) := by
    rw [show 2 ^ (8 * L) = 2 ^ (x + w + y) * 2 ^ (8 * L - (x + w + y)) by rw [← Nat.pow_add]; congr 1; omega]
    exact Nat.mul_lt_mul_of_pos_right hlt (Nat.two_pow_pos _)
  rw [if_pos (by omega), readBE_bytesBE, show 256 ^ L = 2 ^ (8 * L) by rw [Nat.pow_mul], Nat.mod_eq_of_lt hmod,
    show 8 * L - (x + w) = y + (8 * L - (x + w + y)) by omega, Nat.pow_add, Nat.mul_comm (2 ^ y),
    ← Nat.div_div_eq_div_mul, Nat.mul_div_cancel _ (Nat.two_pow_pos _), hf]

/-! ### Leaves -/

/-- The field gives the leaf what it needs. -/
def FieldFor (ds : List Def) (path : List Member) (f : Nat × Nat) : Prop :=
  f.2 < 2 ^ f.1 ∧ ∀ m (w : Nat), path.getLast? = some m → Size ds (.members [m]) w → w = f.1 ∧
    ∀ data pos, bitsAt data pos f.1 = some f.2 → LeafHas ds data path m pos f.1

theorem fields_data {ds : List Def} {ls : List (List Member)} {fs : List (Nat × Nat)}
    (h : All2 (FieldFor ds) ls fs) (pre : List (Nat × Nat)) (hpre : ∀ f ∈ pre, f.2 < 2 ^ f.1) :
    ∀ path m pos w, LeafAt ds ls path m pos w → LeafHas ds (dataOf (pre ++ fs)) path m ((pre.map (·.1)).sum + pos) w := by
  have hlt : ∀ f ∈ pre ++ fs, f.2 < 2 ^ f.1 := by
    intro f hf
    rcases List.mem_append.1 hf with hf | hf
    · exact hpre f hf
    · obtain ⟨path, _, h⟩ := all2_mem_right h hf
      exact h.1
  induction h generalizing pre with
  | nil => intro path m pos w hat; cases hat
  | @cons p f ls fs h1 _ ih =>
    intro path m pos w hat
    obtain ⟨g1, g2⟩ := h1
    cases hat with
    | here q1 q2 =>
      obtain ⟨rfl, g3⟩ := g2 _ _ q1 q2
      exact g3 _ _ (dataOf_field hlt)
    | @later _ _ _ m' _ pos' _ a q1 q2 q3 =>
      obtain ⟨rfl, g3⟩ := g2 _ _ q1 q2
      have := ih (pre ++ [f]) (by
        intro g hg
        rcases List.mem_append.1 hg with hg | hg
        · exact hpre g hg
        · rw [List.mem_singleton.1 hg]; exact g1) (by rw [List.append_assoc]; exact hlt) path m pos' w q3
      rw [List.append_assoc, List.map_append, List.sum_append] at this
      simp only [List.map_cons, List.map_nil, List.sum_cons, List.sum_nil, Nat.add_zero, List.singleton_append] at this
      rw [← Nat.add_assoc]
      exact this

theorem signedValue_ge {w n : Nat} (h : n < 2 ^ w) : -(2 ^ w) ≤ 2 * signedValue w n ∧ 2 * signedValue w n < 2 ^ w := by
  have h' : (n : Int) < 2 ^ w := by exact_mod_cast h
  unfold signedValue
  split
  · rename_i hc
    have hc' : (2 : Int) * n < 2 ^ w := by exact_mod_cast hc
    omega
  · rename_i hc
    have hc' : ¬ (2 : Int) * n < 2 ^ w := fun h => hc (by exact_mod_cast h)
    omega

theorem signedValue_surj {w : Nat} {i : Int} (h1 : -(2 ^ w) ≤ 2 * i) (h2 : 2 * i < 2 ^ w) :
    ∃ n, n < 2 ^ w ∧ signedValue w n = i := by
  have hp : (0 : Int) < 2 ^ w := Int.pow_pos (by omega)
  have hcast : ((2 ^ w : Nat) : Int) = 2 ^ w := by exact_mod_cast rfl
  by_cases hi : 0 ≤ i
  · refine ⟨i.toNat, ?_, ?_⟩
    · have : (i.toNat : Int) < ((2 ^ w : Nat) : Int) := by rw [hcast]; omega
      exact_mod_cast this
    · unfold signedValue
      rw [if_pos]
      · omega
      · have : ((2 * i.toNat : Nat) : Int) < ((2 ^ w : Nat) : Int) := by rw [hcast]; omega
        exact_mod_cast this
  · refine ⟨(i + 2 ^ w).toNat, ?_, ?_⟩
    · have : ((i + 2 ^ w).toNat : Int) < ((2 ^ w : Nat) : Int) := by rw [hcast]; omega
      exact_mod_cast this
    · unfold signedValue
      rw [if_neg]
      · omega
      · intro h
        have : ((2 * (i + 2 ^ w).toNat : Nat) : Int) < ((2 ^ w : Nat) : Int) := by exact_mod_cast h
        rw [hcast] at this
        omega

theorem bitsAt_lt {data : List UInt8} {pos w n : Nat} (h : bitsAt data pos w = some n) : n < 2 ^ w := by
  unfold bitsAt at h
  split at h
  · cases h
    exact Nat.mod_lt _ (Nat.two_pow_pos _)
  · cases h

theorem canHold_of {ds : List Def} {data : List UInt8} {pos w : Nat} {t : AType} {x : Num}
    (h : HasNumber ds data pos w t x) : CanHold ds w t x := by
  rcases h with ⟨i, rfl, n, h1, ⟨h2, rfl⟩ | ⟨h2, rfl⟩⟩ | ⟨h1, q, h2, h3⟩
  · exact .inl ⟨h2, n, rfl, by omega, by exact_mod_cast bitsAt_lt h1⟩
  · exact .inr (.inl ⟨h2, _, rfl, signedValue_ge (bitsAt_lt h1)⟩)
  · exact .inr (.inr ⟨h1, q, h2, exact_of_realAt h3⟩)

theorem canHold_field {ds : List Def} {w : Nat} {t : AType} {x : Num} (h : CanHold ds w t x) :
    ∃ n, n < 2 ^ w ∧ ∀ data pos, bitsAt data pos w = some n → HasNumber ds data pos w t x := by
  rcases h with ⟨h1, i, rfl, h2, h3⟩ | ⟨h1, i, rfl, h2, h3⟩ | ⟨h1, q, h2, n, h3, h4⟩
  · obtain ⟨n, rfl⟩ : ∃ n : Nat, i = n := ⟨i.toNat, by omega⟩
    exact ⟨n, by exact_mod_cast h3, fun data pos hb => .inl ⟨_, rfl, n, hb, .inl ⟨h1, rfl⟩⟩⟩
  · obtain ⟨n, h4, rfl⟩ := signedValue_surj h2 h3
    exact ⟨n, h4, fun data pos hb => .inl ⟨_, rfl, n, hb, .inr ⟨h1, rfl⟩⟩⟩
  · exact ⟨n, h3, fun data pos hb => .inr ⟨h1, q, h2, by unfold realAt; rw [hb]; exact h4⟩⟩

end Apg
