import Verif.Spec.OtherBits
import Verif.Lemmas.ApartEither
import Verif.Lemmas.ClearUnique

/-!
# Lemmas about the bits of a binary file and the members of another message
-/

namespace Apg
open Spec

theorem size_of_elementary {ds : List Def} {m : Member} {t : AType} (ht : Elementary ds m.type t) {w : Int}
    (h : LeafSize t w) : Size ds (.members [m]) w := by
  generalize hmt : m.type = mt at ht
  rw [← Int.add_zero w]
  cases ht with
  | direct hno =>
    rename_i n lo hi
    refine .leaf ?_ (by rw [hmt]; exact h) .nil
    intro n' lo' hi' h1 d hd
    rw [hmt] at h1
    cases h1
    exact hno d hd
  | named hd => exact .named (d := Def.simple _ _ _) hmt hd (.simple h) .nil

theorem bitPlace_surj {l : Bool} {pos w i : Nat} (h : l = true → pos % 8 = 0 ∧ w % 8 = 0) (hi : pos ≤ i ∧ i < pos + w) :
    ∃ k, k < w ∧ i = bitPlace l pos w k := by
  unfold bitPlace
  cases l with
  | true =>
    have := h rfl
    refine ⟨8 * ((i - pos) / 8) + (7 - i % 8), by omega, ?_⟩
    rw [if_pos rfl]
    omega
  | false =>
    refine ⟨pos + w - 1 - i, by omega, ?_⟩
    rw [if_neg (by decide)]
    omega

theorem itemBits_bound {data : List UInt8} {pos w n : Nat} {l : Bool} (h : itemBits data pos w l = some n) :
    pos + w ≤ 8 * data.length := by
  unfold itemBits at h
  split at h
  · split at h
    · rename_i hc
      exact hc.2.2
    · cases h
  · unfold bitsAt at h
    split at h
    · assumption
    · cases h

theorem fileLeaf_nonzero {ds : List Def} (hnd : (ds.map Def.name).Nodup) {m : Member} {v : Leaf}
    (h : FileLeafIn ds m v) : ItemType ds m.type "FLOAT".toList → ratOf (leafNum v) ≠ some 0 := by
  intro hfl
  rcases h with ⟨lo, hi, hel⟩ | ⟨_, _, q, hq, hne⟩
  · have hty := elementary_itemType hel
    split at hty
    · exact absurd (itemType_unique hnd hty hfl) (by decide)
    · exact absurd (itemType_unique hnd hty hfl) (by decide)
  · rw [hq]
    intro h
    exact hne (Option.some.inj h)

/-- Every bit of the file belongs to a fixed leaf of whole bytes. -/
theorem blocks_cover {ds : List Def} {pre post : List (List Member)}
    {fixed : List (Member × Leaf)} {blocks : List (List UInt8)}
    (hpre : All2 (fun path f => path.getLast? = some f.1 ∧ FixedTo path f.2 ∧ FileLeafIn ds f.1 f.2) pre fixed)
    (hblocks : All2 (fun f (blk : List UInt8) => ∀ t, Elementary ds f.1.type t → LeafSize t (8 * blk.length)) fixed blocks)
    {i : Nat} (hi : i < 8 * blocks.flatten.length) :
    ∃ path m pos w v, LeafAt ds (pre ++ post) path m pos w ∧ FixedTo path v ∧ FileLeafIn ds m v ∧
      (pos ≤ i ∧ i < pos + w) ∧ pos % 8 = 0 ∧ w % 8 = 0 := by
  induction hpre generalizing blocks i with
  | nil =>
    cases hblocks
    simp at hi
  | @cons p f pre fixed h1 _ ih =>
    cases hblocks with
    | @cons _ blk _ blocks k1 k2 =>
      obtain ⟨hlast, hv, hel⟩ := h1
      have hsz : Size ds (.members [f.1]) ((8 * blk.length : Nat) : Int) := by
        rw [Int.natCast_mul]
        rcases hel with ⟨lo, hi, hel⟩ | ⟨⟨lo, hi, hel⟩, _⟩
        · exact size_of_elementary hel (k1 _ hel)
        · exact size_of_elementary hel (k1 _ hel)
      rw [List.flatten_cons, List.length_append] at hi
      by_cases hb : i < 8 * blk.length
      · exact ⟨p, f.1, 0, _, f.2, .here hlast hsz, hv, hel, by omega, by omega, by omega⟩
      · obtain ⟨path, m, pos, w, v, g1, g2, g3, g4, g5, g6⟩ := ih (i := i - 8 * blk.length) k2 (by omega)
        exact ⟨path, m, _, w, v, .later hlast hsz g1, g2, g3, by omega, by omega, g6⟩

/-- When data made of the values of one message are data for another. -/
theorem other_bits_by {p : Printer} {ds : List Def} (hnd : (ds.map Def.name).Nodup)
    {ls ls' : List (List Member)} {items : List CosmosItem} (hs : EitherSide p ds ls' items) {data : List UInt8}
    (little : Member → Bool)
    (hhas : ∀ path m pos w, LeafAt ds ls path m pos w → ∀ v, FixedTo path v →
      HasIn ds data pos w (little m) m.type (leafNum v))
    (hcover : ∀ i, i < 8 * data.length → ∃ path m pos w v, LeafAt ds ls path m pos w ∧ FixedTo path v ∧
      FileLeafIn ds m v ∧ (pos ≤ i ∧ i < pos + w) ∧ pos % 8 = 0 ∧ w % 8 = 0) :
    Accepts p data 0 items ↔ Possible ds ls' ∧ EndsWithin ds ls ls' ∧
      ∀ i β β', (∃ path m pos w k v, LeafAt ds ls path m pos w ∧ FixedTo path v ∧ k < w ∧
        i = bitPlace (little m) pos w k ∧ ∀ n, n < 2 ^ w → IsNumber ds w m.type (leafNum v) n → n.testBit k = β) →
        NeedsIn ds ls' i β' → β = β' := by
  rw [accepts_has hs]
  constructor
  · intro h
    refine ⟨fun path m pos w hat v hv => ?_, fun path m pos w hat hor => ?_, fun i β β' g1 g2 => ?_⟩
    · obtain ⟨n, hn, hnum⟩ := (h path m pos w hat).1 v hv
      exact canHold_iff.2 ⟨n, itemBits_lt hn, hnum⟩
    · have hle : pos + w ≤ 8 * data.length := by
        by_cases hv : ∃ v, FixedTo path v
        · obtain ⟨v, hv⟩ := hv
          obtain ⟨n, hn, _⟩ := (h path m pos w hat).1 v hv
          exact itemBits_bound hn
        · rcases hor with hor | hb
          · exact absurd hor hv
          · obtain ⟨n, hn, _⟩ := (h path m pos w hat).2 hb fun v h => hv ⟨v, h⟩
            exact itemBits_bound hn
      by_cases h0 : pos + w = 0
      · exact .inl h0
      · obtain ⟨path', m', pos', w', v, g1, g2, _, g3, _⟩ := hcover (8 * data.length - 1) (by omega)
        exact .inr ⟨path', m', pos', w', v, g1, g2, by omega⟩
    · obtain ⟨path, m, pos, w, k, v, hat, hv, hk, rfl, hall⟩ := g1
      obtain ⟨n, hn, hnum⟩ := hhas path m pos w hat v hv
      have e1 := itemBits_bit hn hk
      rw [hall n (itemBits_lt hn) hnum, needsIn_bit hnd hs h g2, Option.some.injEq] at e1
      exact bit_inj e1.symm
  · rintro ⟨hpos, hr, hag⟩ path m pos w hat
    have hend : ∀ {path m pos w}, LeafAt ds ls' path m pos w → (∃ v, FixedTo path v) ∨ IsBoolean ds m.type →
        pos + w ≤ 8 * data.length := by
      intro path m pos w hat hor
      rcases hr path m pos w hat hor with h | ⟨path', m', pos', w', v, g1, g2, g3⟩
      · omega
      · obtain ⟨n, hn, _⟩ := hhas path' m' pos' w' g1 v g2
        have := itemBits_bound hn
        omega
    have hf : ∀ i β, NeedsIn ds ls' i β → dataBit data i = β := by
      intro i β hn
      have hi : i < 8 * data.length := by
        obtain ⟨path, m, pos, w, k, hat, hk, rfl, hn⟩ := hn
        have hor : (∃ v, FixedTo path v) ∨ IsBoolean ds m.type := by
          rcases hn with ⟨v, hv, _⟩ | ⟨hb, _⟩
          · exact .inl ⟨v, hv⟩
          · exact .inr hb
        have := hend hat hor
        have := bitPlace_range (pos := pos) (fun hl => (hs.compared hat hor hl).2) hk
        omega
      obtain ⟨path, m, pos, w, v, g1, g2, g3, g4, g5, g6⟩ := hcover i hi
      obtain ⟨k, hk, he⟩ := bitPlace_surj (l := little m) (fun _ => ⟨g5, g6⟩) g4
      obtain ⟨n, hn', hnum⟩ := hhas path m pos w g1 v g2
      have e1 := itemBits_bit hn' hk
      rw [← he, bitsAt_dataBit hi, Option.some.injEq] at e1
      have e2 := hag i (n.testBit k) β ⟨path, m, pos, w, k, v, g1, g2, hk, he, fun n' h1 h2 => by
        rw [isNumber_unique hnd h1 (itemBits_lt hn') h2 hnum (fileLeaf_nonzero hnd g3)]⟩ hn
      rw [bit_inj e1, e2]
    by_cases hor : (∃ v, FixedTo path v) ∨ IsBoolean ds m.type
    · exact needsIn_has hnd hs hpos hf (Nat.le_refl _) (fun i hi => bitsAt_dataBit hi) hat (hend hat hor)
    · exact ⟨fun v hv => absurd (.inl ⟨v, hv⟩) hor, fun hb _ => absurd (.inr hb) hor⟩

/-- When data for one message are data for another. -/
theorem other_bits {p : Printer} {ds : List Def} (hnd : (ds.map Def.name).Nodup)
    {ls ls' : List (List Member)} {items : List CosmosItem} (hs : EitherSide p ds ls' items) {data : List UInt8}
    (hno : ∀ path ∈ ls, ∀ m, path.getLast? = some m → ¬ IsBoolean ds m.type)
    (hhas : ∀ path m pos w, LeafAt ds ls path m pos w → ∀ v, FixedTo path v →
      HasIn ds data pos w (isLittle m) m.type (leafNum v))
    (hcover : ∀ i, i < 8 * data.length → ∃ path m pos w v, LeafAt ds ls path m pos w ∧ FixedTo path v ∧
      FileLeafIn ds m v ∧ (pos ≤ i ∧ i < pos + w) ∧ pos % 8 = 0 ∧ w % 8 = 0) :
    Accepts p data 0 items ↔ Possible ds ls' ∧ EndsWithin ds ls ls' ∧ AgreeIn ds ls ls' := by
  rw [other_bits_by hnd hs isLittle hhas hcover]
  refine and_congr_right fun _ => and_congr_right fun _ => ⟨fun h i β β' g1 g2 => h i β β' ?_ g2,
    fun h i β β' ⟨path, m, pos, w, k, v, a1, a2, a3, a4, a5⟩ g2 =>
      h i β β' ⟨path, m, pos, w, k, a1, a3, a4, .inl ⟨v, a2, a5⟩⟩ g2⟩
  obtain ⟨path, m, pos, w, k, a1, a2, a3, ⟨v, hv, hall⟩ | ⟨hb, _⟩⟩ := g1
  · exact ⟨path, m, pos, w, k, v, a1, hv, a2, a3, hall⟩
  · exact absurd hb (hno path (leafAt_mem a1) m (leafAt_last a1))

end Apg
