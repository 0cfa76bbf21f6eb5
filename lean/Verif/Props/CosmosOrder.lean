import Verif.Lemmas.CosmosOrder
import Verif.Props.CosmosData

/-!
# Property C99: the byte order of binary files and of COSMOS packets
-/

namespace Apg
open Spec

/-! ### Bytes and numbers -/

theorem readBE_concat_one (a : List UInt8) (c : UInt8) : readBE (a ++ [c]) = readBE a * 256 + c.toNat := by
  simp [readBE]

theorem readBE_inj : ∀ {a b : List UInt8}, a.length = b.length → readBE a = readBE b → a = b := by
  have h : ∀ (a b : List UInt8), a.length = b.length → readBE a.reverse = readBE b.reverse → a = b := by
    intro a
    induction a with
    | nil => intro b hl _; exact (List.length_eq_zero_iff.1 hl.symm).symm
    | cons x a ih =>
      intro b hl he
      cases b with
      | nil => cases hl
      | cons y b =>
        rw [List.reverse_cons, List.reverse_cons, readBE_concat_one, readBE_concat_one] at he
        have hx := x.toNat_lt
        have hy := y.toNat_lt
        have h1 : x.toNat = y.toNat := by omega
        have h2 : readBE a.reverse = readBE b.reverse := by omega
        rw [UInt8.toNat_inj.1 h1, ih b (by simpa using hl) h2]
  intro a b hl he
  have := h a.reverse b.reverse (by simpa using hl) (by simpa using he)
  exact List.reverse_inj.1 this

/-- The number of the bits as the data type says. -/
def decode (signed : Bool) (w n : Nat) : Int := if signed then signedValue w n else n

theorem decode_mod {signed : Bool} {w n : Nat} (h : n < 2 ^ w) : decode signed w n % 2 ^ w = (n : Int) := by
  have h' : (n : Int) < 2 ^ w := by exact_mod_cast h
  unfold decode signedValue
  split
  · split
    · exact Int.emod_eq_of_lt (by omega) h'
    · rw [Int.sub_emod, Int.emod_self, Int.sub_zero, Int.emod_emod_of_dvd _ (Int.dvd_refl _)]
      exact Int.emod_eq_of_lt (by omega) h'
  · exact Int.emod_eq_of_lt (by omega) h'

theorem readBytes_lt (en : Endian) (bs : List UInt8) : readBytes en bs < 2 ^ (8 * bs.length) := by
  rw [Nat.pow_mul]
  cases en with
  | big => exact readBE_lt bs
  | little =>
    have := readBE_lt bs.reverse
    rw [List.length_reverse] at this
    exact this

theorem readBytes_eq_iff (en en' : Endian) (bs : List UInt8) :
    readBytes en' bs = readBytes en bs ↔ en' = en ∨ bs.reverse = bs := by
  have h : readBE bs = readBE bs.reverse ↔ bs.reverse = bs :=
    ⟨fun h => (readBE_inj (by simp) h).symm, fun h => by rw [h]⟩
  cases en <;> cases en' <;> simp only [readBytes] <;> simp [h]
  rw [eq_comm, h]

theorem bothWays_iff (en : Endian) {signed : Bool} (bs : List UInt8) :
    BothWays (8 * bs.length) (decode signed (8 * bs.length) (readBytes en bs)) ↔ bs.reverse = bs := by
  unfold BothWays
  rw [decode_mod (readBytes_lt en bs)]
  constructor
  · rintro ⟨bs', h1, h2, h3⟩
    have h3 : readBE bs' = readBytes en bs := by exact_mod_cast h3
    have hl : bs'.length = bs.length := by omega
    cases en with
    | big => rw [← readBE_inj hl h3, h2]
    | little =>
      have := readBE_inj (b := bs.reverse) (by simpa using hl) h3
      rw [← this, ← h2, this, List.reverse_reverse]
  · intro h
    refine ⟨bs, rfl, h, ?_⟩
    cases en with
    | big => rfl
    | little => simp only [readBytes, h]

/-- A block in the middle, in either order. -/
theorem itemBits_block (l : Bool) (a b c : List UInt8) :
    itemBits (a ++ (b ++ c)) (8 * a.length) (8 * b.length) l =
      some (readBytes (if l then .little else .big) b) := by
  unfold itemBits
  cases l with
  | false => exact bitsAt_block a b c
  | true =>
    have hl : (a ++ (b ++ c)).length = a.length + (b.length + c.length) := by simp
    simp only [if_true]
    rw [if_pos ⟨by omega, by omega, by omega⟩, Nat.mul_div_cancel_left _ (by omega), Nat.mul_div_cancel_left _ (by omega),
      List.drop_left, List.take_left]

/-! ### Files -/

theorem hasItem_block {ds : List Def} (hnd : (ds.map Def.name).Nodup) {t : AType} {lo hi : Int}
    (hel : Elementary ds t (intType lo hi)) (l : Bool) (done blk rest : List UInt8) (i : Int) :
    HasItem ds (done ++ (blk ++ rest)) (8 * done.length) (8 * blk.length) l t i ↔
      i = decode (decide (lo < 0)) (8 * blk.length) (readBytes (if l then .little else .big) blk) := by
  unfold HasItem decode
  rw [itemBits_block]
  have hty := elementary_itemType hel
  have hne : "UINT".toList ≠ "INT".toList := by decide
  by_cases hneg : lo < 0
  · rw [if_pos hneg] at hty
    simp only [hneg, decide_true, if_true]
    constructor
    · rintro ⟨n, h1, ⟨h2, _⟩ | ⟨_, h2⟩⟩
      · exact absurd (itemType_unique hnd h2 hty) hne
      · cases h1; exact h2
    · intro h; exact ⟨_, rfl, .inr ⟨hty, h⟩⟩
  · rw [if_neg hneg] at hty
    simp only [hneg, decide_false, Bool.false_eq_true, if_false]
    constructor
    · rintro ⟨n, h1, ⟨_, h2⟩ | ⟨h2, _⟩⟩
      · cases h1; exact h2
      · exact absurd (itemType_unique hnd hty h2) hne
    · intro h; exact ⟨_, rfl, .inl ⟨hty, h⟩⟩

theorem decode_inj {signed : Bool} {w n n' : Nat} (h : n < 2 ^ w) (h' : n' < 2 ^ w)
    (he : decode signed w n = decode signed w n') : n = n' := by
  have := decode_mod (signed := signed) h
  rw [he, decode_mod h'] at this
  exact_mod_cast this.symm

theorem reads_decode {ds : List Def} {en : Endian} {f : Member × Leaf} {blk : List UInt8} (h : ReadsAs ds en f blk)
    {lo hi : Int} (hel : Elementary ds f.1.type (intType lo hi)) :
    leafNum f.2 = .int (decode (decide (lo < 0)) (8 * blk.length) (readBytes en blk)) := by
  rw [h lo hi hel]
  congr 1
  unfold decode
  by_cases hneg : lo < 0
  · simp only [hneg, decide_true, if_true]
    unfold readSigned signedValue
    have hc : ((2 : Int) * (readBytes en blk : Int) < 2 ^ (8 * blk.length)) ↔ 2 * readBytes en blk < 2 ^ (8 * blk.length) := by
      constructor
      · intro h; exact_mod_cast h
      · intro h; exact_mod_cast h
    simp only [hc]
  · simp only [hneg, decide_false, Bool.false_eq_true, if_false]
    rfl

/-- Which leaves have their values in blocks one after the other. -/
theorem blocks_order {ds : List Def} (hs : Sized ds) {en : Endian} {pre post : List (List Member)}
    {fixed : List (Member × Leaf)} {blocks : List (List UInt8)}
    (hpre : All2 (fun path f => path.getLast? = some f.1 ∧ (∀ v, FixedTo path v → v = f.2) ∧
      ∃ lo hi, Elementary ds f.1.type (intType lo hi)) pre fixed)
    (hpost : ∀ path ∈ post, ∀ v, ¬ FixedTo path v)
    (hblocks : All2 (fun f blk => ReadsAs ds en f blk ∧
      ∀ t, Elementary ds f.1.type t → LeafSize t (8 * blk.length)) fixed blocks) (done : List UInt8)
    (path : List Member) (m : Member) (pos w : Nat) (hat : LeafAt ds (pre ++ post) path m pos w)
    (v : Leaf) (hv : FixedTo path v) :
    ∃ i, leafNum v = .int i ∧
      (HasItem ds (done ++ blocks.flatten) (8 * done.length + pos) w (isLittle m) m.type i ↔
        (isLittle m = true ↔ en = .little) ∨ BothWays w i) := by
  induction hpre generalizing blocks done path m pos w with
  | nil => exact absurd hv (hpost path (leafAt_mem hat) v)
  | @cons p f pre fixed h1 _ ih =>
    cases hblocks with
    | @cons _ blk _ blocks k1 k2 =>
      obtain ⟨hlast, huniq, lo, hi, hel⟩ := h1
      have hw : ∀ {m' : Member} {a : Nat}, p.getLast? = some m' → Size ds (.members [m']) a →
          m' = f.1 ∧ a = 8 * blk.length := by
        intro m' a g1 g2
        rw [hlast] at g1
        cases g1
        refine ⟨rfl, ?_⟩
        have hg : GrammarType (intType lo hi) := .integerRange
        have := leafSize_unique hg (by intro e len h; simp [intType] at h) (size_elementary hs.nodup hel g2) (k1.2 _ hel)
        omega
      rw [List.cons_append] at hat
      rw [List.flatten_cons]
      cases hat with
      | here q1 q2 =>
        obtain ⟨rfl, rfl⟩ := hw q1 q2
        rw [huniq v hv]
        refine ⟨_, reads_decode k1.1 hel, ?_⟩
        rw [Nat.add_zero, hasItem_block hs.nodup hel, bothWays_iff]
        have hb : (isLittle f.1 = true ↔ en = .little) ↔ (if isLittle f.1 = true then Endian.little else .big) = en := by
          cases isLittle f.1 <;> cases en <;> simp
        rw [hb, ← readBytes_eq_iff]
        exact ⟨fun h => (decode_inj (readBytes_lt _ _) (readBytes_lt _ _) h).symm, fun h => by rw [h]⟩
      | @later _ _ _ m' _ pos' _ a q1 q2 q3 =>
        obtain ⟨rfl, rfl⟩ := hw q1 q2
        obtain ⟨i, e1, e2⟩ := ih k2 (done ++ blk) path m pos' w q3 hv
        refine ⟨i, e1, ?_⟩
        rw [List.append_assoc, List.length_append, Nat.mul_add, Nat.add_assoc] at e2
        exact e2

/-- COSMOS takes the binary file of such a sequence for the packet of the sequence exactly under `P`. -/
def OwnOrder (P : List Def → Endian → List (List Member) → Prop) : Prop :=
  ∀ (fuel fuel' : Nat) (p : Printer) (raw : List Module) (cfg : List String) (b : Bundle) (en : Endian)
    (module : String) (messages : List String) (target out out' : Text) (fs : Files), Input raw cfg b →
    Faithful p → OneLine p → IsTarget target → NaturalSizes b.defs →
    (runCosmos fuel p raw module messages target out).result = .ok () →
    (runBinary fuel' (some en) raw cfg out').result = .ok () →
    ∀ (n : String) (c : Option Comment) (ms : List Member), Def.seq n c ms ∈ b.defs →
    ∀ x, fixedMembers (.seq n c ms) = [x] → ∀ pre post, IntegersFirst b.defs ms x pre post →
    ∃ bytes t, HasBytes ((runBinary fuel' (some en) raw cfg out').apply fs) (binPath out' (.seq n c ms)) bytes ∧
      (∀ fs, Adds fs ((runCosmos fuel p raw module messages target out).apply fs) (cosmosPath out target) t) ∧
      Describes b module target (fun ms' items => ms' = ms →
        (Taken bytes 0 items ↔ P b.defs en (pre ++ post))) messages t

/-- Full statement of C99: COSMOS takes binary files of either byte order for their packets. -/
def C99_full : Prop := OwnOrder fun _ _ _ => True

/-- **C99, partial.** COSMOS takes the binary file of a sequence for the packet of the sequence exactly if the fixed
members are marked as little endian when the file is, and only then, except for values whose bytes are the same in both
orders. Missing: other files; sequences other than those of `IntegersFirst`. -/
theorem C99_order_iff_partial : OwnOrder Marked := by
  intro fuel fuel' p raw cfg b en module messages target out out' fs hin hp ho ht hnat hr hrb n c ms hd x hx pre post hff
  have hsrc := sources_of_input hin
  have hs := accepted_sized hsrc
  obtain ⟨bytes, h1, fixed, blocks, h2, h3, rfl⟩ :=
    C34_own_file_partial fuel' en raw cfg out' b fs hin.grammar hin.accepted hrb _ hd x hx
  obtain ⟨t, h4, h5⟩ := cosmos_describes hsrc hp ho ht hr (P := fun ms items =>
      (∀ m, Reached b.defs ms m → FlatMember b.defs m) →
      ∃ ls, Leaves b.defs ms ls ∧
        ((∀ path ∈ ls, Clear b.defs path) → (∀ path ∈ ls, ∀ m, path.getLast? = some m →
            (∃ v, FixedTo path v) ∨ IsBoolean b.defs m.type → Comparable' b.defs path m) →
          All2 (fun path it => ∃ m, path.getLast? = some m ∧ OrderFact b.defs path m it) ls items))
    fun ms ls es hl _ h hflat => ⟨ls, hl, fun hcl hcmp => by
      refine (h.imp_mem fun path hpath e he => ?_).map_right
      obtain ⟨m, s, c, lo, hi, states, h1, h2, h3, h4, h5⟩ := he
      obtain ⟨c, rfl, h6⟩ := makeEntry_ok h4
      have hre := leaves_reached hl path hpath m h1
      exact ⟨m, h1, orderFact_of hp hs (hflat m hre) hnat h2 (hcmp path hpath m h1) h3 h6 (h5 (hcl path hpath))⟩⟩
  refine ⟨_, t, h1, h4, h5.imp fun n' pkt ⟨k1, k2, ms', k3, k4⟩ => ⟨k1, k2, ms', k3, ?_⟩⟩
  rintro rfl
  obtain ⟨ls, hl', h⟩ := k4 hff.flat
  cases leaves_unique hs.nodup hff.leaves hl'
  have hall := h hff.clear fun path hpath m hm hor => by
    rcases List.mem_append.1 hpath with hpath' | hpath'
    · exact hff.comparable path hpath' m hm
    · rcases hor with ⟨v, hv⟩ | hb
      · exact absurd hv (hff.rest path hpath' v)
      · exact absurd hb (hff.noBoolean path hpath m hm)
  rw [taken_iff hall]
  have huniq : ∀ path ∈ pre ++ post, ∀ v v', FixedTo path v → FixedTo path v' → v = v' := by
    intro path hpath v v' hv hv'
    obtain ⟨it, _, m, _, w, _, _, _, hf⟩ := all2_mem_left hall hpath
    rcases hf with ⟨_, hf, _⟩ | ⟨_, _, i, _, _, ⟨v0, _, hf, _⟩ | ⟨hf, _⟩⟩
    · exact absurd hv (hf v)
    · rw [hf v hv, hf v' hv']
    · exact absurd hv (hf v)
  have hkey := blocks_order hs ((hff.first fixed h2).imp_mem fun path hpath f ⟨q1, q2, q3⟩ =>
      ⟨q1, fun v hv => huniq path (List.mem_append_left _ hpath) v _ hv q2, q3⟩) hff.rest h3 []
  constructor
  · intro hg path m pos w hat v i hv hi
    obtain ⟨j, e1, e2⟩ := hkey path m pos w hat v hv
    obtain ⟨j', e3, e4⟩ := (hg path m pos w hat).1 v hv
    rw [hi] at e1 e3
    cases e1
    cases e3
    exact e2.1 e4
  · intro hg path m pos w hat
    refine ⟨fun v hv => ?_, fun hb => absurd hb (hff.noBoolean path (leafAt_mem hat) m (leafAt_last hat))⟩
    obtain ⟨j, e1, e2⟩ := hkey path m pos w hat v hv
    exact ⟨j, e1, e2.2 (hg path m pos w hat v j hv e1)⟩

/-! ### Examples -/

def exOrderTag (l : Bool) : Member := ⟨"tag", intType 0 65535, if l then some ⟨"", "", true⟩ else none, none⟩
def exOrderId (l : Bool) : Member :=
  ⟨"id", .plain (if l then "Mark" else "Tag") none none, none, some (.leaf "tag" (.int 258) .nil)⟩

/-- Two messages recognised by the integer 258, one of them with it marked as little endian. -/
def exOrdersModule : Module :=
  { name := "orders", defs := [
      .seq "Tag" none [exOrderTag false],
      .seq "Mark" none [exOrderTag true],
      .seq "Plain" none [exOrderId false, exCount],
      .seq "Swapped" none [exOrderId true, exCount]] }

def exOrders : List Module := [exOrdersModule]

theorem exOrders_input : Input exOrders ["orders"] (okBundle (buildFromConfig exOrders ["orders"])) :=
  input_of (by decide +kernel) (by decide +kernel) (by decide +kernel)

theorem exOrders_defs : (okBundle (buildFromConfig exOrders ["orders"])).defs = exOrdersModule.defs := by decide +kernel

theorem exOrders_simple {n : String} {c : Option Comment} {t : AType} (h : Def.simple n c t ∈ exOrdersModule.defs) :
    False := by
  simp [exOrdersModule] at h

theorem exOrders_leaf {m : Member} (hm : (∃ l, m = exOrderTag l) ∨ m = exCount) (n : String) (inner : List Member)
    (hu : UsesName m.type n) : ¬ IsSequence exOrdersModule.defs n inner := by
  rw [usesName_iff] at hu
  have hn : n = "INTEGER" := by
    rw [← hu]
    rcases hm with ⟨l, rfl⟩ | rfl <;> rfl
  subst hn
  rintro ⟨c, hs⟩
  simp only [exOrdersModule, List.mem_cons, Def.seq.injEq, List.not_mem_nil, or_false] at hs
  rcases hs with hs | hs | hs | hs <;> exact absurd hs.1 (by decide)

theorem exOrders_tags (l : Bool) : IsSequence exOrdersModule.defs (if l then "Mark" else "Tag") [exOrderTag l] := by
  cases l
  · exact ⟨none, List.mem_of_getElem? (i := 0) rfl⟩
  · exact ⟨none, List.mem_of_getElem? (i := 1) rfl⟩

theorem exOrders_leaves (l : Bool) :
    Leaves exOrdersModule.defs [exOrderId l, exCount] ([[exOrderId l, exOrderTag l]] ++ [[exCount]]) :=
  Leaves.seq (m := exOrderId l) (n := if l then "Mark" else "Tag") .plain (exOrders_tags l)
    (.leaf (exOrders_leaf (.inl ⟨l, rfl⟩)) .nil) (.leaf (exOrders_leaf (.inr rfl)) .nil)

theorem exOrders_members {d : Def} (hd : d ∈ exOrdersModule.defs) {m : Member} (hm : m ∈ d.members) :
    (∃ l, m = exOrderTag l) ∨ m = exCount ∨ ∃ l, m = exOrderId l := by
  simp only [exOrdersModule, List.mem_cons, List.not_mem_nil, or_false] at hd
  rcases hd with rfl | rfl | rfl | rfl <;> simp only [Def.members, List.mem_cons, List.not_mem_nil, or_false] at hm
  · exact .inl ⟨_, hm⟩
  · exact .inl ⟨_, hm⟩
  · rcases hm with rfl | rfl
    · exact .inr (.inr ⟨_, rfl⟩)
    · exact .inr (.inl rfl)
  · rcases hm with rfl | rfl
    · exact .inr (.inr ⟨_, rfl⟩)
    · exact .inr (.inl rfl)

theorem exOrders_type {m : Member} (h : (∃ l, m = exOrderTag l) ∨ m = exCount ∨ ∃ l, m = exOrderId l) :
    ∃ n lo hi, m.type = .plain n lo hi := by
  rcases h with ⟨l, rfl⟩ | rfl | ⟨l, rfl⟩ <;> exact ⟨_, _, _, rfl⟩

theorem exOrders_natural : NaturalSizes exOrdersModule.defs := by
  intro d hd
  refine ⟨fun m hm h => ?_, fun n c t h => (exOrders_simple (h ▸ hd)).elim⟩
  obtain ⟨_, _, _, h'⟩ := exOrders_type (exOrders_members hd hm)
  rw [h'] at h
  cases h

theorem exOrders_separate : Separate exOrdersModule.defs := by
  rintro n ms ⟨c, hd⟩ m hm cs hcs t _
  simp only [exOrdersModule, List.mem_cons, Def.seq.injEq, List.not_mem_nil, or_false] at hd
  rcases hd with ⟨_, _, rfl⟩ | ⟨_, _, rfl⟩ | ⟨_, _, rfl⟩ | ⟨_, _, rfl⟩ <;>
    simp only [List.mem_cons, List.not_mem_nil, or_false] at hm
  · subst hm; cases hcs
  · subst hm; cases hcs
  · rcases hm with rfl | rfl <;> cases hcs <;> exact ⟨by decide, trivial⟩
  · rcases hm with rfl | rfl <;> cases hcs <;> exact ⟨by decide, trivial⟩

theorem exOrders_boolean {m : Member} (hm : (∃ l, m = exOrderTag l) ∨ m = exCount) :
    ¬ IsBoolean exOrdersModule.defs m.type := by
  rintro (h | ⟨n, c, t, _, h, _⟩)
  · rw [usesName_iff] at h
    rcases hm with ⟨l, rfl⟩ | rfl <;> exact absurd h (by show "INTEGER" ≠ _; decide)
  · exact exOrders_simple h

theorem exOrders_elementary (l : Bool) : Elementary exOrdersModule.defs (exOrderTag l).type (intType 0 65535) :=
  .direct (by decide)

theorem exOrders_fixed {l : Bool} {v : Leaf} (h : FixedTo [exOrderId l, exOrderTag l] v) : v = .int 258 := by
  rcases fixedTo_cons.1 h with ⟨c, hc, hf⟩ | h
  · cases hc
    simp only [List.map_cons, List.map_nil] at hf
    generalize hks : [(exOrderTag l).key] = ks at hf
    cases hf with
    | here => rfl
    | afterLeaf hf => cases hf
  · rcases fixedTo_cons.1 h with ⟨c, hc, _⟩ | h
    · cases hc
    · exact (fixedTo_nil h).elim

theorem exOrders_fixes (l : Bool) (fixed : List (Member × Leaf))
    (h : Fixes exOrdersModule.defs (if l then "Mark" else "Tag") (.leaf "tag" (.int 258) .nil) fixed) :
    fixed = [(exOrderTag l, .int 258)] := by
  have hid : ∀ {ms}, IsSequence exOrdersModule.defs (if l then "Mark" else "Tag") ms → ms = [exOrderTag l] := by
    rintro ms ⟨c, h⟩
    simp only [exOrdersModule, List.mem_cons, Def.seq.injEq, List.not_mem_nil, or_false] at h
    cases l <;> rcases h with h | h | h | h
    · exact h.2.2
    · exact absurd h.1 (by decide)
    · exact absurd h.1 (by decide)
    · exact absurd h.1 (by decide)
    · exact absurd h.1 (by decide)
    · exact h.2.2
    · exact absurd h.1 (by decide)
    · exact absurd h.1 (by decide)
  generalize hc : Comps.leaf "tag" (.int 258) .nil = c at h
  cases h with
  | nil => cases hc
  | node => cases hc
  | @leaf _ ms m v rest l k1 k2 k3 =>
    rw [Comps.leaf.injEq] at hc
    obtain ⟨_, rfl, rfl⟩ := hc
    rw [hid k1] at k2
    rw [List.mem_singleton.1 k2]
    cases k3
    rfl

theorem exOrders_first (l : Bool) {n : String} (hd : Def.seq n none [exOrderId l, exCount] ∈ exOrdersModule.defs) :
    IntegersFirst exOrdersModule.defs [exOrderId l, exCount] (exOrderId l, .leaf "tag" (.int 258) .nil)
      [[exOrderId l, exOrderTag l]] [[exCount]] where
  flat := by
    intro m hm
    obtain ⟨d, hd, hmd⟩ := reached_member hm fun m hm => ⟨_, hd, hm⟩
    have hna : ∀ e len, m.type ≠ .arr e len := by
      intro e len h
      obtain ⟨_, _, _, h'⟩ := exOrders_type (exOrders_members hd hmd)
      rw [h] at h'
      cases h'
    exact ⟨fun _ _ _ _ h => (exOrders_simple h).elim, fun e len h => absurd h (hna e len),
      fun e len h => absurd h (hna e len), fun e len h => absurd h (hna e len)⟩
  leaves := exOrders_leaves l
  clear := exOrders_separate.clear (exOrders_leaves l) [exOrderId l, exCount] n ⟨none, hd⟩ fun _ h => h
  comparable := by
    intro path hp m hm
    rcases List.mem_singleton.1 hp with rfl
    cases hm
    refine ⟨fun e len h => (by simp [exOrderTag, intType] at h), .inl (elementary_itemType (exOrders_elementary l)),
      fun v hv => ?_⟩
    rw [exOrders_fixed hv]
    exact ⟨⟨⟨fun h => absurd h (exOrders_boolean (.inl ⟨l, rfl⟩)), fun ⟨b, h⟩ => (by cases h)⟩,
      fun h => absurd h (by show "tag" ≠ _; decide)⟩, fun x h => (by cases h)⟩
  first := by
    intro fixed hf
    rw [exOrders_fixes l fixed hf]
    exact .cons ⟨rfl, ⟨[], exOrderId l, [exOrderTag l], _, rfl, rfl, .here⟩, _, _, exOrders_elementary l⟩ .nil
  rest := by
    intro path hp v hv
    rcases List.mem_singleton.1 hp with rfl
    rcases fixedTo_cons.1 hv with ⟨c, hc, _⟩ | h
    · cases hc
    · exact (fixedTo_nil h).elim
  noBoolean := by
    intro path hp m hm
    simp only [List.cons_append, List.nil_append, List.mem_cons, List.not_mem_nil, or_false] at hp
    rcases hp with rfl | rfl <;> cases hm
    · exact exOrders_boolean (.inl ⟨l, rfl⟩)
    · exact exOrders_boolean (.inr rfl)

/-- It fails: the little endian file of `Plain` is the bytes 2 and 1, and COSMOS reads them as 513. -/
theorem C99_full_false : ¬ C99_full := by
  intro hf
  have hds := exOrders_defs
  have hd : Def.seq "Plain" none [exOrderId false, exCount] ∈ exOrdersModule.defs := List.mem_of_getElem? (i := 2) rfl
  obtain ⟨bytes, t, h1, h2, h3⟩ := hf 20 20 exPrinter exOrders ["orders"] _ .little "orders" ["Plain"]
    "SAT".toList exOut exOut (fun _ => none) exOrders_input exPrinter_faithful exPrinter_oneLine exTlm_target
    (by rw [hds]; exact exOrders_natural) (by decide +kernel) (by decide +kernel)
    "Plain" none [exOrderId false, exCount] (by rw [hds]; exact hd) _ rfl _ _ (by rw [hds]; exact exOrders_first false hd)
  have hb := fileBytes_eq h1
  rw [show fileBytes ((runBinary 20 (some .little) exOrders ["orders"] exOut).apply fun _ => none)
    (binPath exOut (.seq "Plain" none [exOrderId false, exCount])) = [2, 1] by decide +kernel] at hb
  subst hb
  have hk : (readCosmos t).map (fun x => x.items.map fun it => (it.kind, it.type, itemLength it, idNumber it.value)) =
      [[("APPEND_ID_ITEM".toList, "UINT".toList, some 16, some 258),
        ("APPEND_ITEM".toList, "UINT".toList, some 16, none)]] := by
    rw [← newText_eq h2]; decide +kernel
  have hk' : (readCosmos t).map (fun x => x.items.map fun it => it.little) = [[false, false]] := by
    rw [← newText_eq h2]; decide +kernel
  unfold Describes at h3
  generalize readCosmos t = l at h3 hk hk'
  cases h3 with
  | cons h h' =>
    cases h'
    obtain ⟨_, _, ms, hms, hid⟩ := h
    have hid := (hid (message_eq (sources_of_input exOrders_input) hms (by rw [hds]; exact hd))).2 trivial
    simp only [List.map_cons, List.map_nil, List.cons.injEq, and_true] at hk hk'
    generalize CosmosPacket.items _ = items at hid hk hk'
    cases items with
    | nil => cases hk
    | cons it r =>
      rw [List.map_cons, List.cons.injEq, Prod.mk.injEq, Prod.mk.injEq, Prod.mk.injEq] at hk
      rw [List.map_cons, List.cons.injEq] at hk'
      obtain ⟨⟨k1, k2, k3, k4⟩, _⟩ := hk
      obtain ⟨k5, _⟩ := hk'
      cases hid with
      | other q1 => exact q1 k1
      | @id _ _ _ w v _ q3 q4 q5 _ =>
        rw [k3] at q3
        have hw : w = 16 := by
          have := Option.some.inj q3
          omega
        subst hw
        rw [k4] at q4
        cases q4
        rw [k2, k5] at q5
        exact absurd q5 (by decide +kernel)

theorem exOrders_marked (l : Bool) : Marked exOrdersModule.defs (if l then .little else .big)
    ([[exOrderId l, exOrderTag l]] ++ [[exCount]]) := by
  intro path m pos w hat v i hv hi
  left
  rw [List.cons_append] at hat
  cases hat with
  | here h1 _ => cases h1; cases l <;> decide
  | later _ _ hat =>
    cases hat with
    | here h1 _ =>
      cases h1
      rcases fixedTo_cons.1 hv with ⟨c, hc, _⟩ | h
      · cases hc
      · exact (fixedTo_nil h).elim
    | later _ _ hat => cases hat

/-- The little endian file of `Swapped` has the same bytes and is taken for the packet `Swapped`. -/
example : ∃ t, fileBytes ((runBinary 20 (some .little) exOrders ["orders"] exOut).apply fun _ => none)
      (binPath exOut (.seq "Swapped" none [exOrderId true, exCount])) = [2, 1] ∧
    Describes (okBundle (buildFromConfig exOrders ["orders"])) "orders" "SAT".toList
      (fun ms items => ms = [exOrderId true, exCount] → Taken [2, 1] 0 items) ["Plain", "Swapped"] t := by
  have hds := exOrders_defs
  have hd : Def.seq "Swapped" none [exOrderId true, exCount] ∈ exOrdersModule.defs := List.mem_of_getElem? (i := 3) rfl
  obtain ⟨bytes, t, h1, _, h3⟩ := C99_order_iff_partial 20 20 exPrinter exOrders ["orders"] _ .little "orders"
    ["Plain", "Swapped"]
    "SAT".toList exOut exOut (fun _ => none) exOrders_input exPrinter_faithful exPrinter_oneLine exTlm_target
    (by rw [hds]; exact exOrders_natural) (by decide +kernel) (by decide +kernel)
    "Swapped" none [exOrderId true, exCount] (by rw [hds]; exact hd) _ rfl _ _ (by rw [hds]; exact exOrders_first true hd)
  have hb := fileBytes_eq h1
  have : fileBytes ((runBinary 20 (some .little) exOrders ["orders"] exOut).apply fun _ => none)
    (binPath exOut (.seq "Swapped" none [exOrderId true, exCount])) = [2, 1] := by decide +kernel
  rw [this] at hb
  subst hb
  refine ⟨t, this, h3.imp fun n pkt ⟨k1, k2, ms, k3, k4⟩ => ⟨k1, k2, ms, k3, fun e => (k4 e).2 ?_⟩⟩
  rw [hds]
  exact exOrders_marked true

end Apg
