import Verif.Model.Cfs
import Verif.Spec.MsgId
import Verif.Lemmas.Process

namespace Apg
open Spec

/-- Number denoted by a fixed value. -/
def leafNat : Leaf → Nat
  | .int i => i.toNat
  | .bool true => 1
  | _ => 0

theorem leafNat_eq {v : Leaf} {n : Nat} (h : Denotes v n) : leafNat v = n := by
  cases h <;> simp [leafNat]

/-- Contribution of one item to the id. -/
def weight (x : String × Leaf) : Nat :=
  let n := leafNat x.2
  if x.1 = "packet-version-number" then n * 2 ^ 13
  else if x.1 = "packet-type-is-cmd" then n * 2 ^ 12
  else if x.1 = "sec-hdr-flag-is-present" then n * 2 ^ 11
  else n

/-- Items that the id computation accepts. -/
def GoodItem (x : String × Leaf) : Prop :=
  (x.1 = "packet-version-number" ∨ x.1 = "packet-type-is-cmd" ∨ x.1 = "sec-hdr-flag-is-present" ∨
    x.1 = "application-process-identifier") ∧ ∃ n, Denotes x.2 n

theorem msgIdStep_good (id : Nat) (x : String × Leaf) (h : GoodItem x) :
    msgIdStep id x.1 (.leaf x.2) = .ok ((id ||| weight x : Nat) : Int) := by
  obtain ⟨k, v⟩ := x
  obtain ⟨hk, n, hn⟩ := h
  simp only at hk hn ⊢
  have key : ∀ m : Nat, shiftLeft (.leaf v) m = .ok ((n * 2 ^ m : Nat) : Int) := by
    intro m
    cases hn <;> simp [shiftLeft]
  have hor : ∀ a b : Nat, intOr (a : Int) (b : Int) = ((a ||| b : Nat) : Int) := fun _ _ => rfl
  unfold msgIdStep weight
  simp only [leafNat_eq hn, key]
  rcases hk with rfl | rfl | rfl | rfl <;> simp only [bind, Except.bind, hor] <;> simp

theorem msgIdInner_leaves (l : List (String × Leaf)) (id : Nat) (h : ∀ x ∈ l, GoodItem x) :
    msgIdInner id (leavesComps l) =
      .ok ((l.foldl (fun i x => i ||| weight x) id : Nat) : Int) := by
  induction l generalizing id with
  | nil => rfl
  | cons x l ih =>
    obtain ⟨k, v⟩ := x
    have h1 := msgIdStep_good id (k, v) (h _ (by simp))
    simp only [leavesComps, msgIdInner, List.foldl_cons]
    simp only at h1
    rw [h1]
    exact ih _ (fun x hx => h x (by simp [hx]))

theorem msgIdOuter_header (parts : List (List (String × Leaf))) (id : Nat)
    (h : ∀ x ∈ parts.flatten, GoodItem x) :
    msgIdOuter id (headerComps parts) =
      .ok ((parts.flatten.foldl (fun i x => i ||| weight x) id : Nat) : Int) := by
  induction parts generalizing id with
  | nil => rfl
  | cons l parts ih =>
    simp only [headerComps, msgIdOuter, if_true, List.flatten_cons, List.foldl_append]
    rw [msgIdInner_leaves l id (fun x hx => h x (by simp [hx]))]
    exact ih _ (fun x hx => h x (by
      simp only [List.flatten_cons, List.mem_append]; exact Or.inr hx))

/-- The id of a header with the four fields, whatever their size. -/
theorem msgId_or {parts : List (List (String × Leaf))} {V T F A : Nat}
    (h : FixesHeader parts V T F A) :
    msgId (headerComps parts) =
      .ok ((V * 2 ^ 13 ||| T * 2 ^ 12 ||| F * 2 ^ 11 ||| A : Nat) : Int) := by
  obtain ⟨v, t, f, a, hv, ht, hf, ha, hp⟩ := h
  have hgood : ∀ x ∈ parts.flatten, GoodItem x := by
    intro x hx
    have := hp.mem_iff.1 hx
    simp only [List.mem_cons, List.not_mem_nil, or_false] at this
    rcases this with rfl | rfl | rfl | rfl
    · exact ⟨by simp, V, hv⟩
    · exact ⟨by simp, T, ht⟩
    · exact ⟨by simp, F, hf⟩
    · exact ⟨by simp, A, ha⟩
  unfold msgId
  have h0 := msgIdOuter_header parts 0 hgood
  simp only [Int.natCast_zero] at h0
  rw [h0]
  have hcomm : ∀ x ∈ parts.flatten, ∀ y ∈ parts.flatten, ∀ z : Nat,
      (z ||| weight x) ||| weight y = (z ||| weight y) ||| weight x := by
    intro x _ y _ z
    rw [Nat.or_assoc, Nat.or_assoc, Nat.or_comm (weight x)]
  rw [List.Perm.foldl_eq' hp hcomm]
  simp [weight, leafNat_eq hv, leafNat_eq ht, leafNat_eq hf, leafNat_eq ha]

theorem or_eq_add {a i b x : Nat} (h : b < 2 ^ i) (hx : x = a * 2 ^ i) : x ||| b = x + b := by
  subst hx
  have := Nat.shiftLeft_add_eq_or_of_lt h a
  rw [Nat.shiftLeft_eq] at this
  exact this.symm

theorem header_sum {V T F A : Nat} (hT : T < 2) (hF : F < 2) (hA : A < 2 ^ 11) :
    (V * 2 ^ 13 ||| T * 2 ^ 12 ||| F * 2 ^ 11 ||| A) = V * 2 ^ 13 + T * 2 ^ 12 + F * 2 ^ 11 + A := by
  rw [or_eq_add (a := V) (i := 13) (b := T * 2 ^ 12) (by omega) rfl,
    or_eq_add (a := V * 2 + T) (i := 12) (b := F * 2 ^ 11) (by omega) (by omega),
    or_eq_add (a := V * 4 + T * 2 + F) (i := 11) (b := A) hA (by omega)]

theorem hasBit_iff (x k i : Nat) : HasBit x k i ↔ (x * 2 ^ k).testBit i = true := by
  unfold HasBit
  rw [Nat.testBit_mul_two_pow, Bool.and_eq_true, decide_eq_true_iff, Nat.testBit_eq_decide_div_mod_eq, decide_eq_true_iff]

end Apg
