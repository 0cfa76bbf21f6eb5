import Verif.Lemmas.CosmosApart

/-!
# Property C101: messages are told apart
-/

namespace Apg
open Spec

/-! ### Data for two messages -/

/-- A leaf is determined by one of its bits. -/
theorem leafAt_bit_unique {ds : List Def} {ls : List (List Member)} {fs : List (Nat × Nat)}
    (h : All2 (FieldFor ds) ls fs) {path path' : List Member} {m m' : Member} {pos pos' w w' i : Nat}
    (h1 : LeafAt ds ls path m pos w) (h2 : LeafAt ds ls path' m' pos' w') (hi : pos ≤ i ∧ i < pos + w)
    (hi' : pos' ≤ i ∧ i < pos' + w') : path = path' ∧ m = m' ∧ pos = pos' ∧ w = w' := by
  induction h generalizing pos pos' i with
  | nil => cases h1
  | @cons p f ls fs hf _ ih =>
    have hw : ∀ {m : Member} {a : Nat}, p.getLast? = some m → Size ds (.members [m]) a → a = f.1 :=
      fun g1 g2 => (hf.2 _ _ g1 g2).1
    cases h1 with
    | here a1 a2 =>
      have e1 := hw a1 a2
      cases h2 with
      | here b1 b2 =>
        have e2 := hw b1 b2
        rw [a1] at b1
        cases b1
        exact ⟨rfl, rfl, rfl, by omega⟩
      | later b1 b2 _ =>
        have e2 := hw b1 b2
        omega
    | later a1 a2 a3 =>
      have e1 := hw a1 a2
      cases h2 with
      | here b1 b2 =>
        have e2 := hw b1 b2
        omega
      | later b1 b2 b3 =>
        have e2 := hw b1 b2
        obtain ⟨g1, g2, g3, g4⟩ := ih (i := i - f.1) a3 b3 (by omega) (by omega)
        exact ⟨g1, g2, by omega, g4⟩

theorem agree_self {ds : List Def} {ls : List (List Member)} {fs : List (Nat × Nat)}
    (h : All2 (FieldFor ds) ls fs) (huniq : ∀ path ∈ ls, ∀ v v', FixedTo path v → FixedTo path v' → v = v')
    (hpos : Possible ds ls) : Agree ds ls ls := by
  rintro i β β' ⟨path, m, pos, w, hat, h1, h2, hn⟩ ⟨path', m', pos', w', hat', h1', h2', hn'⟩
  obtain ⟨rfl, rfl, rfl, rfl⟩ := leafAt_bit_unique h hat hat' ⟨h1, h2⟩ ⟨h1', h2'⟩
  rcases hn with ⟨v, hv, hall⟩ | ⟨_, hno, rfl⟩
  · rcases hn' with ⟨v', hv', hall'⟩ | ⟨_, hno, _⟩
    · cases huniq path (leafAt_mem hat) v v' hv hv'
      obtain ⟨n, hn, hnum⟩ := canHold_iff.1 (hpos path m pos w hat v hv)
      rw [← hall n hn hnum, ← hall' n hn hnum]
    · exact absurd hv (hno v)
  · rcases hn' with ⟨v', hv', _⟩ | ⟨_, _, rfl⟩
    · exact absurd hv' (hno v')
    · rfl

/-- Data with the needed bits are data for the message. -/
theorem leaves_has {ds : List Def} (hnd : (ds.map Def.name).Nodup) {ls : List (List Member)} (hpos : Possible ds ls)
    (hbool : ∀ path ∈ ls, ∀ m, path.getLast? = some m → IsBoolean ds m.type → (∀ v, ¬ FixedTo path v) →
      ItemType ds m.type "UINT".toList ∨ ItemType ds m.type "INT".toList)
    {f : Nat → Bool} (hf : ∀ i β, Needs ds ls i β → f i = β) {data : List UInt8} {T : Nat}
    (hT : T ≤ 8 * data.length) (hdata : ∀ i, i < T → bitsAt data i 1 = some (f i).toNat)
    {path : List Member} {m : Member} {pos w : Nat} (hat : LeafAt ds ls path m pos w) (hle : pos + w ≤ T) :
    LeafHas ds data path m pos w := by
  have hbits : ∀ n, n < 2 ^ w → (∀ k, k < w → n.testBit k = f (pos + w - 1 - k)) → bitsAt data pos w = some n := by
    intro n hn hk
    refine bitsAt_of_bits (by omega) hn fun i h1 h2 => ?_
    rw [hdata i (by omega), hk (pos + w - 1 - i) (by omega), show pos + w - 1 - (pos + w - 1 - i) = i by omega]
  constructor
  · intro v hv
    obtain ⟨n0, h0, hnum⟩ := canHold_iff.1 (hpos path m pos w hat v hv)
    have hlt := numOf_lt (fun k => f (pos + w - 1 - k)) w
    have hbit : ∀ k, k < w → (numOf (fun k => f (pos + w - 1 - k)) w).testBit k = f (pos + w - 1 - k) :=
      fun k hk => numOf_bit _ hk
    refine hasNumber_iff.2 ⟨_, hbits _ hlt hbit, isNumber_cube hnd h0 hlt hnum fun k hk hall => ?_⟩
    rw [hbit k hk]
    refine hf _ _ ⟨path, m, pos, w, hat, by omega, by omega, .inl ⟨v, hv, fun n' h1 h2 => ?_⟩⟩
    rw [show pos + w - 1 - (pos + w - 1 - k) = k by omega]
    exact hall n' h1 h2
  · intro hb hno
    refine hasValue_zero (hbool path (leafAt_mem hat) m (leafAt_last hat) hb hno)
      (hbits 0 (Nat.two_pow_pos _) fun k hk => ?_)
    rw [Nat.zero_testBit]
    exact (hf _ _ ⟨path, m, pos, w, hat, by omega, by omega, .inr ⟨hb, hno, rfl⟩⟩).symm

/-- What is known of the leaves of a message. -/
structure Side (p : Printer) (ds : List Def) (ls : List (List Member)) (items : List CosmosItem) : Prop where
  infos : All2 (fun path it => ∃ m, path.getLast? = some m ∧ LeafInfo p ds path m it) ls items
  matchable : ∀ path ∈ ls, ∀ m, path.getLast? = some m →
    (∃ v, FixedTo path v) ∨ IsBoolean ds m.type → Matchable ds path m

theorem Side.fields {p : Printer} {ds : List Def} {ls : List (List Member)} {items : List CosmosItem}
    (h : Side p ds ls items) (hpos : Possible ds ls) : ∃ fs, All2 (FieldFor ds) ls fs := by
  have hinfo : ∀ path ∈ ls, ∃ m, path.getLast? = some m ∧ ∃ it, LeafInfo p ds path m it := by
    intro path hpath
    obtain ⟨it, _, m, hm, hf⟩ := all2_mem_left h.infos hpath
    exact ⟨m, hm, it, hf⟩
  have hsz : ∀ path ∈ ls, ∃ m, path.getLast? = some m ∧ ∃ w : Nat, Size ds (.members [m]) w := by
    intro path hpath
    obtain ⟨m, hm, it, w, _, hw, _⟩ := hinfo path hpath
    exact ⟨m, hm, w, hw⟩
  refine all2_exists fun path hpath => ?_
  obtain ⟨m, hm, it, hf⟩ := hinfo path hpath
  refine fieldFor_of hm hf (h.matchable path hpath m hm) fun w hw v hv => ?_
  obtain ⟨pos, hat⟩ := leafAt_exists hsz hpath hm hw
  exact hpos path m pos w hat v hv

theorem Side.unique {p : Printer} {ds : List Def} {ls : List (List Member)} {items : List CosmosItem}
    (h : Side p ds ls items) : ∀ path ∈ ls, ∀ v v', FixedTo path v → FixedTo path v' → v = v' := by
  intro path hpath v v' hv hv'
  obtain ⟨it, _, m, _, w, _, _, _, hf⟩ := all2_mem_left h.infos hpath
  rcases hf with ⟨_, hf, _⟩ | ⟨_, _, _, _, i, _, _, ⟨v0, _, hf, _⟩ | ⟨hf, _⟩⟩ | ⟨_, _, _, _, _, v0, q, _, hf, _⟩
  · exact absurd hv (hf v)
  · rw [hf v hv, hf v' hv']
  · exact absurd hv (hf v)
  · rw [hf v hv, hf v' hv']

theorem Side.boolean {p : Printer} {ds : List Def} {ls : List (List Member)} {items : List CosmosItem}
    (h : Side p ds ls items) : ∀ path ∈ ls, ∀ m, path.getLast? = some m → IsBoolean ds m.type →
      (∀ v, ¬ FixedTo path v) → ItemType ds m.type "UINT".toList ∨ ItemType ds m.type "INT".toList := by
  intro path hpath m hm hb hno
  obtain ⟨it, _, m', hm', w, _, _, _, hf⟩ := all2_mem_left h.infos hpath
  rw [hm] at hm'
  cases hm'
  rcases (h.matchable path hpath m hm (.inr hb)).number with ⟨ht, _⟩ | ⟨ht, _⟩
  · exact ht
  · rcases hf with ⟨_, _, hnb⟩ | ⟨_, _, _, hnf, _⟩ | ⟨_, _, _, _, hnb, _⟩
    · exact absurd hb hnb
    · exact absurd ht hnf
    · exact absurd hb hnb

theorem both_data {p : Printer} (hp : Faithful p) {ds : List Def} (hnd : (ds.map Def.name).Nodup)
    {ls ls' : List (List Member)} {items items' : List CosmosItem} (h : Side p ds ls items) (h' : Side p ds ls' items') :
    (∃ data, Recognised p data 0 items ∧ Recognised p data 0 items') ↔
      Possible ds ls ∧ Possible ds ls' ∧ Agree ds ls ls' := by
  have hrec : ∀ {ls items}, Side p ds ls items → ∀ data, Recognised p data 0 items ↔
      ∀ path m pos w, LeafAt ds ls path m pos w → LeafHas ds data path m pos w := by
    intro ls items h data
    rw [recognised_iff hp hnd h.infos data 0]
    simp only [Nat.zero_add]
  constructor
  · rintro ⟨data, h1, h2⟩
    rw [hrec h] at h1
    rw [hrec h'] at h2
    exact ⟨fun path m pos w hat v hv => canHold_of ((h1 path m pos w hat).1 v hv),
      fun path m pos w hat v hv => canHold_of ((h2 path m pos w hat).1 v hv), needs_agree h1 h2⟩
  · rintro ⟨hpos, hpos', hag⟩
    obtain ⟨fs, hfs⟩ := h.fields hpos
    obtain ⟨fs', hfs'⟩ := h'.fields hpos'
    have hself := agree_self hfs h.unique hpos
    have hself' := agree_self hfs' h'.unique hpos'
    classical
    let f : Nat → Bool := fun i => decide (Needs ds ls i true ∨ Needs ds ls' i true)
    have hf : ∀ i β, Needs ds ls i β → f i = β := by
      intro i β hn
      cases β with
      | true => exact decide_eq_true (.inl hn)
      | false =>
        refine decide_eq_false ?_
        rintro (hn' | hn')
        · exact absurd (hself i _ _ hn hn') (by decide)
        · exact absurd (hag i _ _ hn hn') (by decide)
    have hf' : ∀ i β, Needs ds ls' i β → f i = β := by
      intro i β hn
      cases β with
      | true => exact decide_eq_true (.inr hn)
      | false =>
        refine decide_eq_false ?_
        rintro (hn' | hn')
        · exact absurd (hag i _ _ hn' hn) (by decide)
        · exact absurd (hself' i _ _ hn hn') (by decide)
    obtain ⟨data, hT, hdata⟩ := data_of_bits f ((fs.map (·.1)).sum + (fs'.map (·.1)).sum)
    refine ⟨data, (hrec h data).2 fun path m pos w hat => ?_, (hrec h' data).2 fun path m pos w hat => ?_⟩
    · have := leafAt_bound hfs hat
      exact leaves_has hnd hpos h.boolean hf hT hdata hat (by omega)
    · have := leafAt_bound hfs' hat
      exact leaves_has hnd hpos' h'.boolean hf' hT hdata hat (by omega)

/-! ### The property -/

/-- For two messages of a file, COSMOS takes some data for the packets of both exactly under `P`. -/
def SharedData (P : List Def → List Member → List (List Member) → List Member → List (List Member) → Prop) : Prop :=
  ∀ (fuel : Nat) (p : Printer) (raw : List Module) (b : Bundle)
    (module : String) (messages : List String) (target out : Text), Sources raw b →
    Faithful p → OneLine p → IsTarget target → NaturalSizes b.defs →
    (runCosmos fuel p raw module messages target out).result = .ok () →
    ∃ t, (∀ fs, Adds fs ((runCosmos fuel p raw module messages target out).apply fs) (cosmosPath out target) t) ∧
      Describes b module target (fun ms items => Describes b module target (fun ms' items' =>
        ∀ ls ls', PlainMessage b.defs ms ls → PlainMessage b.defs ms' ls' →
          ((∃ data, Recognised p data 0 items ∧ Recognised p data 0 items') ↔ P b.defs ms ls ms' ls')) messages t) messages t

/-- Full statement of C101: no data are taken for two messages with different members. -/
def C101_full : Prop := SharedData fun ds ms ls ms' _ => ms = ms' ∧ Possible ds ls

/-- **C101, partial.** COSMOS takes some data for the packets of two messages exactly if data for each of them exist
and their fixed values, and the zeros of BOOLEANs without fixed value, need no bit to be both set and clear. Missing:
messages other than those of `PlainMessage`. -/
theorem C101_shared_iff_partial : SharedData fun ds _ ls _ ls' => Possible ds ls ∧ Possible ds ls' ∧ Agree ds ls ls' := by
  intro fuel p raw b module messages target out hi hp ho ht hnat hr
  obtain ⟨t, h1, h2⟩ := cosmos_leafInfos fuel p raw b module messages target out hi hp ho ht hnat hr
  have hnd := (accepted_sized hi).nodup
  refine ⟨t, h1, h2.imp fun n pkt ⟨k1, k2, ms, k3, k4⟩ => ⟨k1, k2, ms, k3, h2.imp fun n' pkt' ⟨g1, g2, ms', g3, g4⟩ =>
    ⟨g1, g2, ms', g3, fun ls ls' hpl hpl' => ?_⟩⟩⟩
  obtain ⟨l, hl, k⟩ := k4 hpl.flat
  obtain ⟨l', hl', g⟩ := g4 hpl'.flat
  cases leaves_unique hnd hpl.leaves hl
  cases leaves_unique hnd hpl'.leaves hl'
  exact both_data hp hnd ⟨k hpl.clear hpl.matchable, hpl.matchable⟩ ⟨g hpl'.clear hpl'.matchable, hpl'.matchable⟩

theorem isNumber_same {ds : List Def} (hnd : (ds.map Def.name).Nodup) {w n : Nat} {t t' : AType} {ty : List Char}
    (ht : ItemType ds t ty) (ht' : ItemType ds t' ty) {x x' : Num} (h : IsNumber ds w t x n)
    (h' : IsNumber ds w t' x' n) : ratOf x = ratOf x' := by
  rcases h with ⟨a, rfl⟩ | ⟨a, rfl⟩ | ⟨a, q, e, r⟩ <;> rcases h' with ⟨a', rfl⟩ | ⟨a', rfl⟩ | ⟨a', q', e', r'⟩ <;>
    first
    | exact absurd ((itemType_unique hnd a ht).trans (itemType_unique hnd ht' a')) (by decide)
    | rfl
    | skip
  rw [r] at r'
  cases r'
  rw [e, e']

theorem isNumber_transfer {ds : List Def} (hnd : (ds.map Def.name).Nodup) {w n : Nat} {t t' : AType} {ty : List Char}
    (ht : ItemType ds t ty) (ht' : ItemType ds t' ty) {x x' : Num} (hx : CanHold ds w t' x')
    (he : ratOf x = ratOf x') (h : IsNumber ds w t x n) : IsNumber ds w t' x' n := by
  rcases h with ⟨a, rfl⟩ | ⟨a, rfl⟩ | ⟨a, q, e, r⟩
  · have hty := itemType_unique hnd ht a
    subst hty
    rcases hx with ⟨a', i, rfl, _⟩ | ⟨a', _⟩ | ⟨a', _⟩
    · have : ((n : Int) : Rat) = (i : Rat) := Option.some.inj he
      have : (n : Int) = i := by exact_mod_cast this
      exact .inl ⟨a', by rw [this]⟩
    · exact absurd (itemType_unique hnd ht' a') (by decide)
    · exact absurd (itemType_unique hnd ht' a') (by decide)
  · have hty := itemType_unique hnd ht a
    subst hty
    rcases hx with ⟨a', _⟩ | ⟨a', i, rfl, _⟩ | ⟨a', _⟩
    · exact absurd (itemType_unique hnd ht' a') (by decide)
    · have : ((signedValue w n : Int) : Rat) = (i : Rat) := Option.some.inj he
      have : signedValue w n = i := by exact_mod_cast this
      exact .inr (.inl ⟨a', by rw [this]⟩)
    · exact absurd (itemType_unique hnd ht' a') (by decide)
  · have hty := itemType_unique hnd ht a
    subst hty
    exact .inr (.inr ⟨ht', q, by rw [← he, e], r⟩)

/-- **C101 (same header), partial.** Two messages whose fixed values are at the same places, as when they begin with the
same members, are told apart exactly by different values of the same member: COSMOS takes some data for both exactly if
data for each exist and no member is fixed to different numbers in the two. Missing: messages other than those of
`PlainMessage`; BOOLEANs without fixed value. -/
theorem C101_header_iff_partial (fuel : Nat) (p : Printer) (raw : List Module) (b : Bundle)
    (module : String) (messages : List String) (target out : Text) (hi : Sources raw b)
    (hp : Faithful p) (ho : OneLine p) (ht : IsTarget target)
    (hnat : NaturalSizes b.defs) (hr : (runCosmos fuel p raw module messages target out).result = .ok ()) :
    ∃ t, (∀ fs, Adds fs ((runCosmos fuel p raw module messages target out).apply fs) (cosmosPath out target) t) ∧
      Describes b module target (fun ms items => Describes b module target (fun ms' items' =>
        ∀ ls ls', PlainMessage b.defs ms ls → PlainMessage b.defs ms' ls' → Aligned b.defs ls ls' →
          ((∃ data, Recognised p data 0 items ∧ Recognised p data 0 items') ↔
            Possible b.defs ls ∧ Possible b.defs ls' ∧ SameValues b.defs ls ls')) messages t) messages t := by
  obtain ⟨t, h1, h2⟩ := cosmos_leafInfos fuel p raw b module messages target out hi hp ho ht hnat hr
  have hnd := (accepted_sized hi).nodup
  refine ⟨t, h1, h2.imp fun n pkt ⟨k1, k2, ms, k3, k4⟩ => ⟨k1, k2, ms, k3, h2.imp fun n' pkt' ⟨g1, g2, ms', g3, g4⟩ =>
    ⟨g1, g2, ms', g3, fun ls ls' hpl hpl' hal => ?_⟩⟩⟩
  obtain ⟨l, hl, k⟩ := k4 hpl.flat
  obtain ⟨l', hl', g⟩ := g4 hpl'.flat
  cases leaves_unique hnd hpl.leaves hl
  cases leaves_unique hnd hpl'.leaves hl'
  have hs : Side p b.defs ls pkt.items := ⟨k hpl.clear hpl.matchable, hpl.matchable⟩
  have hs' : Side p b.defs ls' pkt'.items := ⟨g hpl'.clear hpl'.matchable, hpl'.matchable⟩
  constructor
  · rintro ⟨data, d1, d2⟩
    obtain ⟨e1, e2, _⟩ := (both_data hp hnd hs hs').1 ⟨data, d1, d2⟩
    refine ⟨e1, e2, ?_⟩
    rw [recognised_iff hp hnd hs.infos data 0] at d1
    rw [recognised_iff hp hnd hs'.infos data 0] at d2
    intro path m path' m' pos w ty v v' a1 a2 a3 a4 a5 a6
    obtain ⟨x, b1, b2⟩ := hasNumber_iff.1 ((d1 _ _ _ _ a1).1 v a5)
    obtain ⟨y, c1, c2⟩ := hasNumber_iff.1 ((d2 _ _ _ _ a2).1 v' a6)
    rw [b1] at c1
    cases c1
    exact isNumber_same hnd a3 a4 b2 c2
  · rintro ⟨e1, e2, e3⟩
    refine (both_data hp hnd hs hs').2 ⟨e1, e2, ?_⟩
    rintro i β β' ⟨path, m, pos, w, a1, a2, a3, a4⟩ ⟨path', m', pos', w', b1, b2, b3, b4⟩
    rcases a4 with ⟨v, hv, hall⟩ | ⟨hb, hno, _⟩
    · rcases b4 with ⟨v', hv', hall'⟩ | ⟨hb, hno, _⟩
      · obtain ⟨rfl, rfl, ty, c1, c2⟩ := hal.places path m pos w path' m' pos' w' v v' i a1 b1 hv hv' ⟨a2, a3⟩ ⟨b2, b3⟩
        obtain ⟨x, hx, hnum⟩ := canHold_iff.1 (e1 path m pos w a1 v hv)
        rw [← hall x hx hnum]
        exact hall' x hx (isNumber_transfer hnd c1 c2 (e2 _ _ _ _ b1 v' hv')
          (e3 _ _ _ _ _ _ _ _ _ a1 b1 c1 c2 hv hv') hnum)
      · exact absurd hb (hal.noBoolean' path' m' pos' w' b1 hno)
    · exact absurd hb (hal.noBoolean path m pos w a1 hno)

/-! ### Examples -/

theorem exFrames_slow_plain : PlainMessage exFramesModule.defs [exId, exCount]
    ([[exId, exKind], [exId, exLevel]] ++ [[exCount]]) :=
  have hd : Def.seq "Slow" none [exId, exCount] ∈ exFramesModule.defs := List.mem_of_getElem? (i := 1) rfl
  ⟨exFrames_reached hd, exFrames_slow,
    exFrames_separate.clear exFrames_slow [exId, exCount] "Slow" ⟨none, hd⟩ fun _ h => h, exFrames_matchable⟩

theorem exFrames_id : Leaves exFramesModule.defs [exKind, exLevel] [[exKind], [exLevel]] :=
  .leaf exFrames_leaf (.leaf exFrames_leaf .nil)

theorem exFrames_id_unfixed : ∀ path ∈ [[exKind], [exLevel]], ∀ v, ¬ FixedTo path v := by
  intro path hp
  simp only [List.mem_cons, List.not_mem_nil, or_false] at hp
  rcases hp with rfl | rfl
  · exact exFrames_unfixed rfl
  · exact exFrames_unfixed rfl

theorem exFrames_id_boolean : ∀ path ∈ [[exKind], [exLevel]], ∀ m, path.getLast? = some m →
    ¬ IsBoolean exFramesModule.defs m.type := by
  intro path hp m hm
  simp only [List.mem_cons, List.not_mem_nil, or_false] at hp
  rcases hp with rfl | rfl <;> cases hm
  · exact exFrames_boolean
  · exact exFrames_boolean

theorem exFrames_id_plain : PlainMessage exFramesModule.defs [exKind, exLevel] [[exKind], [exLevel]] :=
  have hd : Def.seq "Id" none [exKind, exLevel] ∈ exFramesModule.defs := List.mem_of_getElem? (i := 0) rfl
  ⟨exFrames_reached hd, exFrames_id,
    exFrames_separate.clear exFrames_id [exKind, exLevel] "Id" ⟨none, hd⟩ fun _ h => h,
    fun path hp m hm hor => by
      rcases hor with ⟨v, hv⟩ | hb
      · exact absurd hv (exFrames_id_unfixed path hp v)
      · exact absurd hb (exFrames_id_boolean path hp m hm)⟩

theorem exFrames_id_needs {i : Nat} {β : Bool} : ¬ Needs exFramesModule.defs [[exKind], [exLevel]] i β := by
  rintro ⟨path, m, pos, w, hat, _, _, ⟨v, hv, _⟩ | ⟨hb, _⟩⟩
  · exact exFrames_id_unfixed path (leafAt_mem hat) v hv
  · exact exFrames_id_boolean path (leafAt_mem hat) m (leafAt_last hat) hb

/-- It fails: data for `Slow` are also taken for `Id`, which has no fixed values. -/
theorem C101_full_false : ¬ C101_full := by
  intro hf
  have hds := exFrames_defs
  have hsrc := sources_of_input exFrames_input
  have hd : Def.seq "Slow" none [exId, exCount] ∈ exFramesModule.defs := List.mem_of_getElem? (i := 1) rfl
  have hd' : Def.seq "Id" none [exKind, exLevel] ∈ exFramesModule.defs := List.mem_of_getElem? (i := 0) rfl
  have hrun : (runCosmos 20 exPrinter exFrames "frames" ["Slow", "Id"] "SAT".toList exOut).result = .ok () := by
    decide +kernel
  obtain ⟨t, h1, h2⟩ := hf 20 exPrinter exFrames _ "frames" ["Slow", "Id"] "SAT".toList exOut
    hsrc exPrinter_faithful exPrinter_oneLine exTlm_target (by rw [hds]; exact exFrames_natural) hrun
  obtain ⟨t', h1', h2'⟩ := C101_shared_iff_partial 20 exPrinter exFrames _ "frames" ["Slow", "Id"] "SAT".toList exOut
    hsrc exPrinter_faithful exPrinter_oneLine exTlm_target (by rw [hds]; exact exFrames_natural) hrun
  have : t' = t := by rw [← newText_eq h1, ← newText_eq h1']
  subst this
  unfold Describes at h2 h2'
  generalize readCosmos t' = l at h2 h2'
  cases h2 with
  | cons h hr =>
    cases h2' with
    | cons g gr =>
      obtain ⟨_, _, ms, hms, h⟩ := h
      obtain ⟨_, _, ms', hms', g⟩ := g
      cases message_eq hsrc hms (by rw [hds]; exact hd)
      cases message_eq hsrc hms' (by rw [hds]; exact hd)
      cases h with
      | cons _ h =>
        cases g with
        | cons _ g =>
          cases h with
          | cons h _ =>
            cases g with
            | cons g _ =>
              obtain ⟨_, _, ms, hms, h⟩ := h
              obtain ⟨_, _, ms', hms', g⟩ := g
              cases message_eq hsrc hms (by rw [hds]; exact hd')
              cases message_eq hsrc hms' (by rw [hds]; exact hd')
              rw [hds] at h g
              have hg := (g _ _ exFrames_slow_plain exFrames_id_plain).2
                ⟨possible_of_inRanges (by decide) exFrames_inRanges,
                  fun path m pos w hat v hv => absurd hv (exFrames_id_unfixed path (leafAt_mem hat) v),
                  fun _ _ _ _ hn => absurd hn exFrames_id_needs⟩
              have := ((h _ _ exFrames_slow_plain exFrames_id_plain).1 hg).1
              have := congrArg (fun l => l.map Member.key) this
              exact absurd this (by decide)

theorem exFrames_fast_fixed {k : Member} {v : Leaf} (hk : k.comps = none) (h : FixedTo [exFastId, k] v) :
    k.key = "kind" ∧ v = .int 8 := by
  rcases fixedTo_cons.1 h with ⟨c, hc, hf⟩ | h
  · cases hc
    simp only [List.map_cons, List.map_nil] at hf
    generalize hks : [k.key] = ks at hf
    cases hf with
    | here => simp only [List.cons.injEq, and_true] at hks; exact ⟨hks, rfl⟩
    | afterLeaf hf => cases hf
  · rcases fixedTo_cons.1 h with ⟨c, hc, _⟩ | h
    · rw [hk] at hc; cases hc
    · exact (fixedTo_nil h).elim

theorem exFrames_fast_plain : PlainMessage exFramesModule.defs [exFastId, exFew]
    ([[exFastId, exKind]] ++ [[exFastId, exLevel], [exFew]]) := by
  have hd : Def.seq "Fast" none [exFastId, exFew] ∈ exFramesModule.defs := List.mem_of_getElem? (i := 2) rfl
  refine ⟨exFrames_reached hd, exFrames_fast,
    exFrames_separate.clear exFrames_fast [exFastId, exFew] "Fast" ⟨none, hd⟩ fun _ h => h, ?_⟩
  intro path hp m hm hor
  simp only [List.cons_append, List.nil_append, List.mem_cons, List.not_mem_nil, or_false] at hp
  rcases hp with rfl | rfl | rfl <;> cases hm
  · refine ⟨fun e len h => (by simp [exKind, intType] at h), fun c h => (by cases h), fun v hv => ?_,
      .inl ⟨.inl (elementary_itemType (exFrames_elementary 0 255)), fun v hv x hx => ?_⟩⟩
    · obtain ⟨_, rfl⟩ := exFrames_fast_fixed rfl hv; exact exFrames_suits (by decide)
    · obtain ⟨_, rfl⟩ := exFrames_fast_fixed rfl hv; cases hx
  · rcases hor with ⟨v, hv⟩ | hb
    · exact absurd (exFrames_fast_fixed rfl hv).1 (by decide)
    · exact absurd hb exFrames_boolean
  · rcases hor with ⟨v, hv⟩ | hb
    · exact absurd hv (exFrames_unfixed rfl v)
    · exact absurd hb exFrames_boolean

theorem exFrames_kind_size : Size exFramesModule.defs (.members [exKind]) ((8 : Nat) : Int) :=
  Size.leaf (ds := exFramesModule.defs) (m := exKind) (ms := []) (a := 8) (v := 0)
    (by
      intro n lo hi h d hd hn
      simp only [exKind, intType, AType.plain.injEq] at h
      obtain ⟨rfl, _⟩ := h
      revert hn
      revert hd
      revert d
      decide) ((leafSize_iff .integerRange (by intro e len h; cases h) 8).1 (by decide +kernel)) .nil

theorem exFrames_kind_width {w : Nat} (h : Size exFramesModule.defs (.members [exKind]) w) : w = 8 := by
  have hg : GrammarType (intType 0 255) := .integerRange
  have : (w : Int) = 8 := leafSize_unique hg (by intro e len h; simp [intType] at h)
    (size_elementary (by decide) (exFrames_elementary 0 255) h)
    ((leafSize_iff hg (by intro e len h; simp [intType] at h) 8).1 (by decide +kernel))
  omega

/-- The fixed leaf of `Fast` has the first 8 bits. -/
theorem exFrames_fast_at {path : List Member} {m : Member} {pos w : Nat} {v : Leaf}
    (hat : LeafAt exFramesModule.defs ([[exFastId, exKind]] ++ [[exFastId, exLevel], [exFew]]) path m pos w)
    (hv : FixedTo path v) : m = exKind ∧ pos = 0 ∧ w = 8 := by
  rw [List.cons_append] at hat
  cases hat with
  | here h1 h2 => cases h1; exact ⟨rfl, rfl, exFrames_kind_width h2⟩
  | later _ _ hat =>
    cases hat with
    | here h1 _ => exact absurd (exFrames_fast_fixed rfl hv).1 (by decide)
    | later _ _ hat =>
      cases hat with
      | here h1 _ => exact absurd hv (exFrames_unfixed rfl v)
      | later _ _ hat => cases hat

/-- A fixed leaf of `Slow` has the first 8 bits or later ones. -/
theorem exFrames_slow_at {path : List Member} {m : Member} {pos w : Nat} {v : Leaf}
    (hat : LeafAt exFramesModule.defs ([[exId, exKind], [exId, exLevel]] ++ [[exCount]]) path m pos w)
    (hv : FixedTo path v) : (m = exKind ∧ pos = 0 ∧ w = 8) ∨ 8 ≤ pos := by
  rw [List.cons_append] at hat
  cases hat with
  | here h1 h2 => cases h1; exact .inl ⟨rfl, rfl, exFrames_kind_width h2⟩
  | later g1 g2 hat =>
    cases g1
    have := exFrames_kind_width g2
    exact .inr (by omega)

theorem exFrames_aligned : Aligned exFramesModule.defs ([[exId, exKind], [exId, exLevel]] ++ [[exCount]])
    ([[exFastId, exKind]] ++ [[exFastId, exLevel], [exFew]]) where
  places := by
    intro path m pos w path' m' pos' w' v v' i h1 h2 hv hv' hi hi'
    obtain ⟨rfl, rfl, rfl⟩ := exFrames_fast_at h2 hv'
    rcases exFrames_slow_at h1 hv with ⟨rfl, rfl, rfl⟩ | h
    · exact ⟨rfl, rfl, _, elementary_itemType (exFrames_elementary 0 255), elementary_itemType (exFrames_elementary 0 255)⟩
    · omega
  noBoolean := by
    intro path m pos w hat _
    have hp := leafAt_mem hat
    have hm := leafAt_last hat
    simp only [List.cons_append, List.nil_append, List.mem_cons, List.not_mem_nil, or_false] at hp
    rcases hp with rfl | rfl | rfl <;> cases hm <;> exact exFrames_boolean
  noBoolean' := by
    intro path m pos w hat _
    have hp := leafAt_mem hat
    have hm := leafAt_last hat
    simp only [List.cons_append, List.nil_append, List.mem_cons, List.not_mem_nil, or_false] at hp
    rcases hp with rfl | rfl | rfl <;> cases hm <;> exact exFrames_boolean

/-- No data are taken for both `Slow` and `Fast`: the kinds 7 and 8 differ. -/
example : ∃ t, Describes (okBundle (buildFromConfig exFrames ["frames"])) "frames" "SAT".toList
    (fun ms items => Describes (okBundle (buildFromConfig exFrames ["frames"])) "frames" "SAT".toList
      (fun ms' items' => ms = [exId, exCount] → ms' = [exFastId, exFew] →
        ¬ ∃ data, Recognised exPrinter data 0 items ∧ Recognised exPrinter data 0 items') ["Slow", "Fast"] t)
    ["Slow", "Fast"] t := by
  have hds := exFrames_defs
  obtain ⟨t, _, h⟩ := C101_header_iff_partial 20 exPrinter exFrames _ "frames" ["Slow", "Fast"] "SAT".toList exOut
    (sources_of_input exFrames_input) exPrinter_faithful exPrinter_oneLine exTlm_target
    (by rw [hds]; exact exFrames_natural) (by decide +kernel)
  refine ⟨t, h.imp fun n pkt ⟨k1, k2, ms, k3, k4⟩ => ⟨k1, k2, ms, k3, k4.imp fun n' pkt' ⟨g1, g2, ms', g3, g4⟩ =>
    ⟨g1, g2, ms', g3, ?_⟩⟩⟩
  rintro rfl rfl hboth
  rw [hds] at g4
  obtain ⟨_, _, h⟩ := (g4 _ _ exFrames_slow_plain exFrames_fast_plain exFrames_aligned).1 hboth
  have := h [exId, exKind] exKind [exFastId, exKind] exKind 0 8 _ (.int 7) (.int 8) (.here rfl exFrames_kind_size)
    (.here rfl exFrames_kind_size) (elementary_itemType (exFrames_elementary 0 255))
    (elementary_itemType (exFrames_elementary 0 255)) ⟨[], exId, [exKind], _, rfl, rfl, .here⟩
    ⟨[], exFastId, [exKind], _, rfl, rfl, .here⟩
  exact absurd this (by decide +kernel)

end Apg
