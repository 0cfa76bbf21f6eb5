import Verif.Spec.ApartEither
import Verif.Props.CosmosEither
import Verif.Props.CosmosApart

/-!
# Lemmas about the bits of items of either byte order
-/

namespace Apg
open Spec

/-! ### Bits -/

theorem readBE_bit (bs : List UInt8) (k : Nat) :
    (readBE bs.reverse).testBit k = ((bs[k / 8]?).getD 0).toNat.testBit (k % 8) := by
  induction bs generalizing k with
  | nil => simp [readBE]
  | cons b bs ih =>
    rw [List.reverse_cons, readBE_append]
    simp only [List.foldl_cons, List.foldl_nil]
    rw [Nat.mul_comm, show (256 : Nat) = 2 ^ 8 by rfl, Nat.testBit_two_pow_mul_add _ (by have := b.toNat_lt; omega)]
    by_cases hk : k < 8
    · rw [if_pos hk, Nat.div_eq_of_lt hk, Nat.mod_eq_of_lt hk]
      rfl
    · rw [if_neg hk, ih, show k / 8 = (k - 8) / 8 + 1 by omega, List.getElem?_cons_succ,
        show (k - 8) % 8 = k % 8 by omega]

/-- A bit of the data, counted from the first one. -/
def dataBit (data : List UInt8) (i : Nat) : Bool := ((data[i / 8]?).getD 0).toNat.testBit (7 - i % 8)

theorem bitsAt_dataBit {data : List UInt8} {i : Nat} (h : i < 8 * data.length) :
    bitsAt data i 1 = some (dataBit data i).toNat := by
  rw [bitsAt_one h]
  have := readBE_bit data.reverse (8 * data.length - 1 - i)
  rw [List.reverse_reverse] at this
  rw [this, List.getElem?_reverse (by omega)]
  unfold dataBit
  rw [show data.length - 1 - (8 * data.length - 1 - i) / 8 = i / 8 by omega,
    show (8 * data.length - 1 - i) % 8 = 7 - i % 8 by omega]

theorem bitPlace_range {l : Bool} {pos w k : Nat} (h : l = true → w % 8 = 0) (hk : k < w) :
    pos ≤ bitPlace l pos w k ∧ bitPlace l pos w k < pos + w := by
  unfold bitPlace
  cases l with
  | true =>
    have := h rfl
    simp only [if_true]
    omega
  | false =>
    simp only [Bool.false_eq_true, if_false]
    omega

theorem bitPlace_inj {l : Bool} {pos w k k' : Nat} (hk : k < w) (hk' : k' < w)
    (h : bitPlace l pos w k = bitPlace l pos w k') : k = k' := by
  unfold bitPlace at h
  cases l with
  | true =>
    simp only [if_true] at h
    omega
  | false =>
    simp only [Bool.false_eq_true, if_false] at h
    omega

/-- The bits of a little endian item. -/
theorem little_bit {data : List UInt8} {pos w k : Nat} (hp : pos % 8 = 0) (hw : w % 8 = 0)
    (hk : k < w) :
    (readBytes .little ((data.drop (pos / 8)).take (w / 8))).testBit k = dataBit data (bitPlace true pos w k) := by
  unfold readBytes dataBit bitPlace
  simp only [if_true]
  rw [readBE_bit, List.getElem?_take, if_pos (by omega), List.getElem?_drop,
    show (pos + 8 * (k / 8) + (7 - k % 8)) / 8 = pos / 8 + k / 8 by omega,
    show 7 - (pos + 8 * (k / 8) + (7 - k % 8)) % 8 = k % 8 by omega]

theorem itemBits_lt {data : List UInt8} {pos w n : Nat} {l : Bool} (h : itemBits data pos w l = some n) : n < 2 ^ w := by
  unfold itemBits at h
  split at h
  · split at h
    · rename_i hc
      cases h
      have := readBytes_lt .little ((data.drop (pos / 8)).take (w / 8))
      rw [List.length_take, List.length_drop, Nat.min_eq_left (by omega), show 8 * (w / 8) = w by omega] at this
      exact this
    · cases h
  · exact bitsAt_lt h

theorem itemBits_bit {data : List UInt8} {pos w n k : Nat} {l : Bool} (h : itemBits data pos w l = some n) (hk : k < w) :
    bitsAt data (bitPlace l pos w k) 1 = some (n.testBit k).toNat := by
  cases l with
  | true =>
    unfold itemBits at h
    rw [if_pos rfl] at h
    split at h
    · rename_i hc
      cases h
      have hr := bitPlace_range (l := true) (pos := pos) (fun _ => hc.2.1) hk
      rw [little_bit hc.1 hc.2.1 hk, bitsAt_dataBit (by omega)]
    · cases h
  | false =>
    unfold itemBits at h
    rw [if_neg (by decide)] at h
    have hr := bitPlace_range (l := false) (pos := pos) (fun h => by cases h) hk
    rw [bitsAt_bit h hr.1 hr.2]
    unfold bitPlace
    rw [if_neg (by decide), show pos + w - 1 - (pos + w - 1 - k) = k by omega]

theorem itemBits_of_bits {data : List UInt8} {pos w n : Nat} {l : Bool} (hl : l = true → pos % 8 = 0 ∧ w % 8 = 0)
    (hle : pos + w ≤ 8 * data.length) (hn : n < 2 ^ w)
    (h : ∀ k, k < w → bitsAt data (bitPlace l pos w k) 1 = some (n.testBit k).toNat) :
    itemBits data pos w l = some n := by
  cases l with
  | true =>
    obtain ⟨h1, h2⟩ := hl rfl
    unfold itemBits
    rw [if_pos rfl, if_pos ⟨h1, h2, hle⟩]
    congr 1
    apply Nat.eq_of_testBit_eq
    intro k
    by_cases hk : k < w
    · have hr := bitPlace_range (l := true) (pos := pos) (fun _ => h2) hk
      have := h k hk
      rw [bitsAt_dataBit (by omega), Option.some.injEq] at this
      rw [little_bit h1 h2 hk, bit_inj this]
    · have hlt := readBytes_lt .little ((data.drop (pos / 8)).take (w / 8))
      rw [List.length_take, List.length_drop, Nat.min_eq_left (by omega), show 8 * (w / 8) = w by omega] at hlt
      have hpow : 2 ^ w ≤ 2 ^ k := Nat.pow_le_pow_right (by omega) (by omega)
      rw [Nat.testBit_lt_two_pow (Nat.lt_of_lt_of_le hlt hpow), Nat.testBit_lt_two_pow (Nat.lt_of_lt_of_le hn hpow)]
  | false =>
    unfold itemBits
    rw [if_neg (by decide)]
    refine bitsAt_of_bits hle hn fun i h1 h2 => ?_
    have := h (pos + w - 1 - i) (by omega)
    unfold bitPlace at this
    rw [if_neg (by decide), show pos + w - 1 - (pos + w - 1 - i) = i by omega] at this
    exact this

/-! ### Leaves -/

/-- The leaves have one width each. -/
def WidthsOf (ds : List Def) (ls : List (List Member)) (ws : List Nat) : Prop :=
  All2 (fun path w => ∀ m (a : Nat), path.getLast? = some m → Size ds (.members [m]) a → a = w) ls ws

theorem widths_bound {ds : List Def} {ls : List (List Member)} {ws : List Nat} (h : WidthsOf ds ls ws)
    {path : List Member} {m : Member} {pos w : Nat} (hat : LeafAt ds ls path m pos w) : pos + w ≤ ws.sum := by
  unfold WidthsOf at h
  induction h generalizing pos with
  | nil => cases hat
  | @cons p f ls fs h1 _ ih =>
    rw [List.sum_cons]
    cases hat with
    | here q1 q2 =>
      have := h1 _ _ q1 q2
      omega
    | later q1 q2 q3 =>
      have := h1 _ _ q1 q2
      have := ih q3
      omega

/-- A leaf is determined by one of its bits. -/
theorem widths_bit {ds : List Def} {ls : List (List Member)} {ws : List Nat} (h : WidthsOf ds ls ws)
    {path path' : List Member} {m m' : Member} {pos pos' w w' i : Nat}
    (h1 : LeafAt ds ls path m pos w) (h2 : LeafAt ds ls path' m' pos' w') (hi : pos ≤ i ∧ i < pos + w)
    (hi' : pos' ≤ i ∧ i < pos' + w') : path = path' ∧ m = m' ∧ pos = pos' ∧ w = w' := by
  unfold WidthsOf at h
  induction h generalizing pos pos' i with
  | nil => cases h1
  | @cons p f ls fs hw _ ih =>
    cases h1 with
    | here a1 a2 =>
      have e1 := hw _ _ a1 a2
      cases h2 with
      | here b1 b2 =>
        have e2 := hw _ _ b1 b2
        rw [a1] at b1
        cases b1
        exact ⟨rfl, rfl, rfl, by omega⟩
      | later b1 b2 _ =>
        have e2 := hw _ _ b1 b2
        omega
    | later a1 a2 a3 =>
      have e1 := hw _ _ a1 a2
      cases h2 with
      | here b1 b2 =>
        have e2 := hw _ _ b1 b2
        omega
      | later b1 b2 b3 =>
        have e2 := hw _ _ b1 b2
        obtain ⟨g1, g2, g3, g4⟩ := ih (i := i - f) a3 b3 (by omega) (by omega)
        exact ⟨g1, g2, by omega, g4⟩

/-- What is known of the leaves of a message. -/
structure EitherSide (p : Printer) (ds : List Def) (ls : List (List Member)) (items : List CosmosItem) : Prop where
  infos : All2 (fun path it => ∃ m, path.getLast? = some m ∧ MatchInfo p ds path m it) ls items
  whole : WholeBytes ds ls

theorem EitherSide.widths {p : Printer} {ds : List Def} {ls : List (List Member)} {items : List CosmosItem}
    (h : EitherSide p ds ls items) : ∃ ws, WidthsOf ds ls ws := by
  refine all2_exists fun path hpath => ?_
  obtain ⟨it, _, m, hm, w, _, _, hu, _⟩ := all2_mem_left h.infos hpath
  refine ⟨w, fun m' a h1 h2 => ?_⟩
  rw [hm] at h1
  cases h1
  have := hu _ h2
  omega

theorem EitherSide.unique {p : Printer} {ds : List Def} {ls : List (List Member)} {items : List CosmosItem}
    (h : EitherSide p ds ls items) : ∀ path ∈ ls, ∀ v v', FixedTo path v → FixedTo path v' → v = v' := by
  intro path hpath v v' hv hv'
  obtain ⟨it, _, m, _, w, _, _, _, hf⟩ := all2_mem_left h.infos hpath
  rcases hf with ⟨_, hf, _⟩ | ⟨_, x, _, ⟨v0, _, hf, _⟩ | ⟨hf, _⟩⟩
  · exact absurd hv (hf v)
  · rw [hf v hv, hf v' hv']
  · exact absurd hv (hf v)

theorem EitherSide.integer {p : Printer} {ds : List Def} {ls : List (List Member)} {items : List CosmosItem}
    (h : EitherSide p ds ls items) : ∀ path m pos w, LeafAt ds ls path m pos w → IsBoolean ds m.type →
      (∀ v, ¬ FixedTo path v) → ItemType ds m.type "UINT".toList ∨ ItemType ds m.type "INT".toList := by
  intro path m pos w hat hb hno
  obtain ⟨it, _, m', hm', _, _, _, _, hf⟩ := all2_mem_left h.infos (leafAt_mem hat)
  rw [leafAt_last hat] at hm'
  cases hm'
  rcases hf with ⟨_, _, hnb⟩ | ⟨_, x, _, ⟨v, hv, _⟩ | ⟨_, _, _, ht⟩⟩
  · exact absurd hb hnb
  · exact absurd hv (hno v)
  · exact ht

theorem EitherSide.compared {p : Printer} {ds : List Def} {ls : List (List Member)} {items : List CosmosItem}
    (h : EitherSide p ds ls items) {path : List Member} {m : Member} {pos w : Nat} (hat : LeafAt ds ls path m pos w)
    (hor : (∃ v, FixedTo path v) ∨ IsBoolean ds m.type) : isLittle m = true → pos % 8 = 0 ∧ w % 8 = 0 :=
  fun hl => h.whole path m pos w hat hl hor

theorem isNumber_zero {ds : List Def} (hnd : (ds.map Def.name).Nodup) {t : AType}
    (ht : ItemType ds t "UINT".toList ∨ ItemType ds t "INT".toList) {w n : Nat} (hn : n < 2 ^ w) :
    IsNumber ds w t (.int 0) n ↔ n = 0 := by
  have h0 : signedValue w 0 = 0 := by
    unfold signedValue
    rw [if_pos (by have := Nat.two_pow_pos w; omega)]
    rfl
  rw [isNumber_integer hnd ht]
  constructor
  · rintro (⟨_, h⟩ | ⟨_, h⟩)
    · omega
    · exact signedValue_inj hn (Nat.two_pow_pos _) (by rw [← h, h0])
  · rintro rfl
    rcases ht with ht | ht
    · exact .inl ⟨ht, rfl⟩
    · exact .inr ⟨ht, h0.symm⟩

/-- Bits that data have for a message. -/
theorem needsIn_bit {p : Printer} {ds : List Def} (hnd : (ds.map Def.name).Nodup) {ls : List (List Member)}
    {items : List CosmosItem} (hs : EitherSide p ds ls items) {data : List UInt8}
    (h : ∀ path m pos w, LeafAt ds ls path m pos w → MatchHas ds data path m pos w) {i : Nat} {β : Bool}
    (hn : NeedsIn ds ls i β) : bitsAt data i 1 = some β.toNat := by
  obtain ⟨path, m, pos, w, k, hat, hk, rfl, ⟨v, hv, hall⟩ | ⟨hb, hno, rfl⟩⟩ := hn
  · obtain ⟨n, hn, hnum⟩ := (h path m pos w hat).1 v hv
    rw [itemBits_bit hn hk, hall n (itemBits_lt hn) hnum]
  · obtain ⟨n, hn, hnum⟩ := (h path m pos w hat).2 hb hno
    rw [isNumber_zero hnd (hs.integer path m pos w hat hb hno) (itemBits_lt hn)] at hnum
    subst hnum
    rw [itemBits_bit hn hk, Nat.zero_testBit]

theorem agreeIn_self {p : Printer} {ds : List Def} {ls : List (List Member)} {items : List CosmosItem}
    (hs : EitherSide p ds ls items) (hpos : Possible ds ls) : AgreeIn ds ls ls := by
  obtain ⟨ws, hws⟩ := hs.widths
  rintro i β β' ⟨path, m, pos, w, k, hat, hk, rfl, hn⟩ ⟨path', m', pos', w', k', hat', hk', he, hn'⟩
  have hor : (∃ v, FixedTo path v) ∨ IsBoolean ds m.type := by
    rcases hn with ⟨v, hv, _⟩ | ⟨hb, _⟩
    · exact .inl ⟨v, hv⟩
    · exact .inr hb
  have hor' : (∃ v, FixedTo path' v) ∨ IsBoolean ds m'.type := by
    rcases hn' with ⟨v, hv, _⟩ | ⟨hb, _⟩
    · exact .inl ⟨v, hv⟩
    · exact .inr hb
  have hr := bitPlace_range (pos := pos) (fun hl => (hs.compared hat hor hl).2) hk
  have hr' := bitPlace_range (pos := pos') (fun hl => (hs.compared hat' hor' hl).2) hk'
  rw [← he] at hr'
  obtain ⟨rfl, rfl, rfl, rfl⟩ := widths_bit hws hat hat' hr hr'
  cases bitPlace_inj hk hk' he
  rcases hn with ⟨v, hv, hall⟩ | ⟨_, hno, rfl⟩
  · rcases hn' with ⟨v', hv', hall'⟩ | ⟨_, hno, _⟩
    · cases hs.unique path (leafAt_mem hat) v v' hv hv'
      obtain ⟨n, hn, hnum⟩ := canHold_iff.1 (hpos path m pos w hat v hv)
      rw [← hall n hn hnum, ← hall' n hn hnum]
    · exact absurd hv (hno v)
  · rcases hn' with ⟨v', hv', _⟩ | ⟨_, _, rfl⟩
    · exact absurd hv' (hno v')
    · rfl

/-- Data with the needed bits are data for the message. -/
theorem needsIn_has {p : Printer} {ds : List Def} (hnd : (ds.map Def.name).Nodup) {ls : List (List Member)}
    {items : List CosmosItem} (hs : EitherSide p ds ls items) (hpos : Possible ds ls)
    {f : Nat → Bool} (hf : ∀ i β, NeedsIn ds ls i β → f i = β) {data : List UInt8} {T : Nat}
    (hT : T ≤ 8 * data.length) (hdata : ∀ i, i < T → bitsAt data i 1 = some (f i).toNat)
    {path : List Member} {m : Member} {pos w : Nat} (hat : LeafAt ds ls path m pos w) (hle : pos + w ≤ T) :
    MatchHas ds data path m pos w := by
  have hbits : (∃ v, FixedTo path v) ∨ IsBoolean ds m.type → ∀ n, n < 2 ^ w →
      (∀ k, k < w → n.testBit k = f (bitPlace (isLittle m) pos w k)) → itemBits data pos w (isLittle m) = some n := by
    intro hor n hn hk
    refine itemBits_of_bits (hs.compared hat hor) (by omega) hn fun k h => ?_
    have hr := bitPlace_range (pos := pos) (fun hl => (hs.compared hat hor hl).2) h
    rw [hdata _ (by omega), hk k h]
  constructor
  · intro v hv
    obtain ⟨n0, h0, hnum⟩ := canHold_iff.1 (hpos path m pos w hat v hv)
    have hlt := numOf_lt (fun k => f (bitPlace (isLittle m) pos w k)) w
    have hbit : ∀ k, k < w → (numOf (fun k => f (bitPlace (isLittle m) pos w k)) w).testBit k =
        f (bitPlace (isLittle m) pos w k) := fun k hk => numOf_bit _ hk
    refine ⟨_, hbits (.inl ⟨v, hv⟩) _ hlt hbit, isNumber_cube hnd h0 hlt hnum fun k hk hall => ?_⟩
    rw [hbit k hk]
    exact hf _ _ ⟨path, m, pos, w, k, hat, hk, rfl, .inl ⟨v, hv, hall⟩⟩
  · intro hb hno
    refine ⟨0, hbits (.inr hb) 0 (Nat.two_pow_pos _) fun k hk => ?_,
      (isNumber_zero hnd (hs.integer path m pos w hat hb hno) (Nat.two_pow_pos _)).2 rfl⟩
    rw [Nat.zero_testBit]
    exact (hf _ _ ⟨path, m, pos, w, k, hat, hk, rfl, .inr ⟨hb, hno, rfl⟩⟩).symm

theorem accepts_has {p : Printer} {ds : List Def} {ls : List (List Member)} {items : List CosmosItem}
    (h : EitherSide p ds ls items) (data : List UInt8) : Accepts p data 0 items ↔
      ∀ path m pos w, LeafAt ds ls path m pos w → MatchHas ds data path m pos w := by
  rw [accepts_iff h.infos data 0]
  simp only [Nat.zero_add]

theorem either_data {p : Printer} {ds : List Def} (hnd : (ds.map Def.name).Nodup)
    {ls ls' : List (List Member)} {items items' : List CosmosItem} (h : EitherSide p ds ls items)
    (h' : EitherSide p ds ls' items') :
    (∃ data, Accepts p data 0 items ∧ Accepts p data 0 items') ↔
      Possible ds ls ∧ Possible ds ls' ∧ AgreeIn ds ls ls' := by
  constructor
  · rintro ⟨data, h1, h2⟩
    rw [accepts_has h] at h1
    rw [accepts_has h'] at h2
    refine ⟨fun path m pos w hat v hv => ?_, fun path m pos w hat v hv => ?_, fun i β β' g1 g2 => ?_⟩
    · obtain ⟨n, hn, hnum⟩ := (h1 path m pos w hat).1 v hv
      exact canHold_iff.2 ⟨n, itemBits_lt hn, hnum⟩
    · obtain ⟨n, hn, hnum⟩ := (h2 path m pos w hat).1 v hv
      exact canHold_iff.2 ⟨n, itemBits_lt hn, hnum⟩
    · have e1 := needsIn_bit hnd h h1 g1
      rw [needsIn_bit hnd h' h2 g2, Option.some.injEq] at e1
      exact bit_inj e1.symm
  · rintro ⟨hpos, hpos', hag⟩
    obtain ⟨ws, hws⟩ := h.widths
    obtain ⟨ws', hws'⟩ := h'.widths
    have hself := agreeIn_self h hpos
    have hself' := agreeIn_self h' hpos'
    classical
    let f : Nat → Bool := fun i => decide (NeedsIn ds ls i true ∨ NeedsIn ds ls' i true)
    have hf : ∀ i β, NeedsIn ds ls i β → f i = β := by
      intro i β hn
      cases β with
      | true => exact decide_eq_true (.inl hn)
      | false =>
        refine decide_eq_false ?_
        rintro (hn' | hn')
        · exact absurd (hself i _ _ hn hn') (by decide)
        · exact absurd (hag i _ _ hn hn') (by decide)
    have hf' : ∀ i β, NeedsIn ds ls' i β → f i = β := by
      intro i β hn
      cases β with
      | true => exact decide_eq_true (.inr hn)
      | false =>
        refine decide_eq_false ?_
        rintro (hn' | hn')
        · exact absurd (hag i _ _ hn' hn) (by decide)
        · exact absurd (hself' i _ _ hn hn') (by decide)
    obtain ⟨data, hT, hdata⟩ := data_of_bits f (ws.sum + ws'.sum)
    refine ⟨data, (accepts_has h data).2 fun path m pos w hat => ?_, (accepts_has h' data).2 fun path m pos w hat => ?_⟩
    · have := widths_bound hws hat
      exact needsIn_has hnd h hpos hf hT hdata hat (by omega)
    · have := widths_bound hws' hat
      exact needsIn_has hnd h' hpos' hf' hT hdata hat (by omega)

end Apg
