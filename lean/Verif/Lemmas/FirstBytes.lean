import Verif.Spec.FirstBytes
import Verif.Spec.MsgId
import Verif.Lemmas.ApartEither
import Verif.Lemmas.ClearUnique
import Verif.Lemmas.OtherBits
import Verif.Props.Apid

/-!
# Lemmas on packets that begin with their message id
-/

namespace Apg
open Spec

theorem readBE_two (a b : UInt8) (rest : List UInt8) :
    readBE (a :: b :: rest) = (256 * a.toNat + b.toNat) * 2 ^ (8 * rest.length) + readBE rest := by
  have h : ∀ (l : List UInt8) (x : Nat), l.foldl (fun a b => a * 256 + b.toNat) x = x * 2 ^ (8 * l.length) + readBE l := by
    intro l
    induction l with
    | nil => intro x; simp [readBE]
    | cons c l ih =>
      intro x
      have h0 := ih (0 * 256 + c.toNat)
      unfold readBE at h0 ⊢
      rw [List.foldl_cons, ih, List.foldl_cons, h0, List.length_cons,
        show 8 * (l.length + 1) = 8 + 8 * l.length by omega, Nat.pow_add]
      unfold readBE
      generalize 2 ^ (8 * l.length) = z
      generalize List.foldl _ 0 l = y
      rw [show (2 : Nat) ^ 8 = 256 from rfl, Nat.add_mul, Nat.add_mul, Nat.mul_assoc]
      omega
  have := h rest ((0 * 256 + a.toNat) * 256 + b.toNat)
  unfold readBE at this ⊢
  rw [List.foldl_cons, List.foldl_cons, this]
  congr 2
  omega

/-- Bits of the first two bytes. -/
theorem bitsAt_two {a b : UInt8} {rest : List UInt8} {pos w : Nat} (h : pos + w ≤ 16) :
    bitsAt (a :: b :: rest) pos w = some ((256 * a.toNat + b.toNat) / 2 ^ (16 - (pos + w)) % 2 ^ w) := by
  unfold bitsAt
  rw [if_pos (by simp only [List.length_cons]; omega), readBE_two]
  congr 2
  have hlt : readBE rest < 2 ^ (8 * rest.length) := by
    have := readBE_lt rest
    rwa [show (256 : Nat) = 2 ^ 8 from rfl, ← Nat.pow_mul] at this
  rw [show 8 * (a :: b :: rest).length - (pos + w) = 8 * rest.length + (16 - (pos + w)) by
    simp only [List.length_cons]; omega, Nat.pow_add, ← Nat.div_div_eq_div_mul, Nat.add_comm,
    Nat.add_mul_div_right _ _ (Nat.two_pow_pos _), Nat.div_eq_of_lt hlt, Nat.zero_add]

theorem leafNum_denotes {v : Leaf} {n : Nat} (h : Denotes v n) : leafNum v = .int n := by
  cases h <;> rfl

/-- Bits that hold a natural number are this number, unless they are an IEEE 754 number. -/
theorem isNumber_nat {ds : List Def} {w : Nat} {t : AType} {x n : Nat} (hw : w < 16) (hn : n < 2 ^ w)
    (h : IsNumber ds w t (.int x) n) : n = x := by
  rcases h with ⟨_, h⟩ | ⟨_, h⟩ | ⟨_, q, _, h⟩
  · have := Num.int.inj h
    omega
  · have := Num.int.inj h
    unfold signedValue at this
    split at this
    · omega
    · have : ((2 ^ w : Nat) : Int) = 2 ^ w := by norm_cast
      omega
  · unfold realOf at h
    split at h
    · omega
    · split at h
      · omega
      · cases h

/-- The header leaf of a field is fixed to the value in the clause. -/
theorem idFirst_fixed {ds : List Def} {k : Member} {ks : List String} {ls : List (List Member)} {cl : Comps}
    {parts : List (List (String × Leaf))} (hcl : k.comps = some cl) (hh : HeaderIn cl ks (headerComps parts))
    (h : IdFirst ds k ks ls) {x : String × Nat × Nat} (hx : x ∈ idPlaces) {v : Leaf} (hv : (x.1, v) ∈ parts.flatten) :
    ∃ path m, LeafAt ds ls path m x.2.1 x.2.2 ∧ FixedTo path v := by
  obtain ⟨rest, m, h1, h2⟩ := h x hx
  refine ⟨_, m, h1, [], k, rest, cl, rfl, hcl, ?_⟩
  rw [h2]
  exact headerIn_fixes hh (headerComps_fixes hv)

theorem idPlaces_narrow : ∀ x ∈ idPlaces, x.2.1 + x.2.2 ≤ 16 ∧ x.2.2 < 16 ∧ x.2.2 % 8 ≠ 0 := by decide

/-- A fixed field of the header has its number in the data. -/
theorem field_bits {p : Printer} {ds : List Def} {ls : List (List Member)} {items : List CosmosItem}
    (hs : EitherSide p ds ls items) {data : List UInt8} (hd : Accepts p data 0 items)
    {x : String × Nat × Nat} (hx : x ∈ idPlaces) {path : List Member} {m : Member}
    (hat : LeafAt ds ls path m x.2.1 x.2.2) {v : Leaf} (hv : FixedTo path v) {n : Nat} (hn : Denotes v n) :
    bitsAt data x.2.1 x.2.2 = some n ∧ n < 2 ^ x.2.2 := by
  obtain ⟨_, hw, hne⟩ := idPlaces_narrow x hx
  have hbig : isLittle m = false := by
    cases hl : isLittle m with
    | false => rfl
    | true => exact absurd (hs.whole _ _ _ _ hat hl (.inl ⟨v, hv⟩)).2 hne
  obtain ⟨y, h1, h2⟩ := ((accepts_has hs data).1 hd _ _ _ _ hat).1 v hv
  have hlt := itemBits_lt h1
  rw [leafNum_denotes hn] at h2
  cases isNumber_nat hw hlt h2
  rw [hbig] at h1
  exact ⟨h1, hlt⟩

theorem beginsWith_iff {data : List UInt8} {ver ty fl ap : Nat} :
    (bitsAt data 0 3 = some ver ∧ bitsAt data 3 1 = some ty ∧ bitsAt data 4 1 = some fl ∧ bitsAt data 5 11 = some ap) ↔
      BeginsWith data (ver * 2 ^ 13 + ty * 2 ^ 12 + fl * 2 ^ 11 + ap) ∧ ver < 8 ∧ ty < 2 ∧ fl < 2 ∧ ap < 2048 := by
  constructor
  · rintro ⟨h1, h2, h3, h4⟩
    have hlen := itemBits_bound (l := false) h4
    match data, hlen with
    | a :: b :: rest, _ =>
      rw [bitsAt_two (by omega), Option.some.injEq] at h1 h2 h3 h4
      have ha := a.toNat_lt
      have hb := b.toNat_lt
      simp only [Nat.reduceAdd, Nat.reduceSub, Nat.reducePow] at h1 h2 h3 h4 ha hb ⊢
      exact ⟨⟨a, b, rest, rfl, by omega⟩, by omega, by omega, by omega, by omega⟩
    | [], h => simp only [List.length_nil] at h; omega
    | [a], h => simp only [List.length_cons, List.length_nil] at h; omega
  · rintro ⟨⟨a, b, rest, rfl, h⟩, h1, h2, h3, h4⟩
    refine ⟨?_, ?_, ?_, ?_⟩ <;> rw [bitsAt_two (by omega), Option.some.injEq] <;>
      simp only [Nat.reduceAdd, Nat.reduceSub, Nat.reducePow] at h ⊢ <;> omega

/-- Data that COSMOS takes for a packet that begins with its fixed primary header. -/
theorem accepted_begins {p : Printer} {ds : List Def} {ls : List (List Member)} {items : List CosmosItem}
    (hs : EitherSide p ds ls items) {k : Member} {ks : List String} {cl : Comps}
    {parts : List (List (String × Leaf))} (hcl : k.comps = some cl) (hh : HeaderIn cl ks (headerComps parts))
    (h : IdFirst ds k ks ls) {ver ty fl ap : Nat} (hf : FixesHeader parts ver ty fl ap) {data : List UInt8}
    (hd : Accepts p data 0 items) :
    BeginsWith data (ver * 2 ^ 13 + ty * 2 ^ 12 + fl * 2 ^ 11 + ap) ∧ ver < 8 ∧ ty < 2 ∧ fl < 2 ∧ ap < 2048 := by
  obtain ⟨v, t, f, a, d1, d2, d3, d4, hperm⟩ := hf
  refine beginsWith_iff.1 ⟨?_, ?_, ?_, ?_⟩
  · obtain ⟨path, m, g1, g2⟩ := idFirst_fixed hcl hh h (x := ("packet-version-number", 0, 3))
      (List.mem_of_getElem? (i := 0) rfl) (hperm.mem_iff.2 (List.mem_of_getElem? (i := 0) rfl))
    exact (field_bits hs hd (x := ("packet-version-number", 0, 3)) (List.mem_of_getElem? (i := 0) rfl) g1 g2 d1).1
  · obtain ⟨path, m, g1, g2⟩ := idFirst_fixed hcl hh h (x := ("packet-type-is-cmd", 3, 1))
      (List.mem_of_getElem? (i := 1) rfl) (hperm.mem_iff.2 (List.mem_of_getElem? (i := 1) rfl))
    exact (field_bits hs hd (x := ("packet-type-is-cmd", 3, 1)) (List.mem_of_getElem? (i := 1) rfl) g1 g2 d2).1
  · obtain ⟨path, m, g1, g2⟩ := idFirst_fixed hcl hh h (x := ("sec-hdr-flag-is-present", 4, 1))
      (List.mem_of_getElem? (i := 2) rfl) (hperm.mem_iff.2 (List.mem_of_getElem? (i := 2) rfl))
    exact (field_bits hs hd (x := ("sec-hdr-flag-is-present", 4, 1)) (List.mem_of_getElem? (i := 2) rfl) g1 g2 d3).1
  · obtain ⟨path, m, g1, g2⟩ := idFirst_fixed hcl hh h (x := ("application-process-identifier", 5, 11))
      (List.mem_of_getElem? (i := 3) rfl) (hperm.mem_iff.2 (List.mem_of_getElem? (i := 3) rfl))
    exact (field_bits hs hd (x := ("application-process-identifier", 5, 11)) (List.mem_of_getElem? (i := 3) rfl) g1 g2 d4).1

/-- The first two bytes determine items that end in them. -/
theorem itemBits_two {a b : UInt8} {rest rest' : List UInt8} {pos w : Nat} {l : Bool} (h : pos + w ≤ 16) :
    itemBits (a :: b :: rest) pos w l = itemBits (a :: b :: rest') pos w l := by
  cases l with
  | false =>
    show bitsAt _ _ _ = bitsAt _ _ _
    rw [bitsAt_two h, bitsAt_two h]
  | true =>
    have hcut : ∀ r : List UInt8, pos % 8 = 0 → w % 8 = 0 →
        ((a :: b :: r).drop (pos / 8)).take (w / 8) = ([a, b].drop (pos / 8)).take (w / 8) := by
      intro r h1 h2
      rw [show a :: b :: r = [a, b] ++ r from rfl, List.drop_append, List.take_append_of_le_length]
      simp only [List.length_drop, List.length_cons, List.length_nil]
      omega
    unfold itemBits
    simp only [if_pos]
    by_cases hc : pos % 8 = 0 ∧ w % 8 = 0
    · rw [if_pos ⟨hc.1, hc.2, by simp only [List.length_cons]; omega⟩,
        if_pos ⟨hc.1, hc.2, by simp only [List.length_cons]; omega⟩, hcut rest hc.1 hc.2, hcut rest' hc.1 hc.2]
    · rw [if_neg fun h => hc ⟨h.1, h.2.1⟩, if_neg fun h => hc ⟨h.1, h.2.1⟩]

/-- If nothing is fixed after the first two bytes, other data with the same ones are taken, too. -/
theorem accepts_first {p : Printer} {ds : List Def} {ls : List (List Member)} {items : List CosmosItem}
    (hs : EitherSide p ds ls items) (h : FixesOnlyFirst ds ls) {data data0 : List UInt8} {id : Nat}
    (h0 : BeginsWith data0 id) (h1 : BeginsWith data id) (hd : Accepts p data0 0 items) : Accepts p data 0 items := by
  obtain ⟨a, b, rest, rfl, rfl⟩ := h0
  obtain ⟨a', b', rest', rfl, he⟩ := h1
  have ha := a.toNat_lt
  have hb := b.toNat_lt
  have ha' := a'.toNat_lt
  have hb' := b'.toNat_lt
  cases UInt8.toNat_inj.1 (show a.toNat = a'.toNat by omega)
  cases UInt8.toNat_inj.1 (show b.toNat = b'.toNat by omega)
  rw [accepts_has hs] at hd ⊢
  intro path m pos w hat
  obtain ⟨g1, g2⟩ := h path m pos w hat
  refine ⟨fun v hv => ?_, fun hbool hno => ?_⟩
  · obtain ⟨n, k1, k2⟩ := (hd path m pos w hat).1 v hv
    exact ⟨n, by rw [itemBits_two (g1 ⟨v, hv⟩), k1], k2⟩
  · obtain ⟨v, hv⟩ := g2 hbool
    exact absurd hv (hno v)

end Apg
