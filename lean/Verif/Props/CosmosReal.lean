import Verif.Lemmas.CosmosReal
import Verif.Props.CosmosData

/-!
# Property C98: recognition of packets by fixed reals
-/

namespace Apg
open Spec

/-! ### Received data -/

theorem cosmos_leafInfos (fuel : Nat) (p : Printer) (raw : List Module) (b : Bundle)
    (module : String) (messages : List String) (target out : Text) (hi : Sources raw b)
    (hp : Faithful p) (ho : OneLine p) (ht : IsTarget target)
    (hnat : NaturalSizes b.defs) (hr : (runCosmos fuel p raw module messages target out).result = .ok ()) :
    ∃ t, (∀ fs, Adds fs ((runCosmos fuel p raw module messages target out).apply fs)
        (cosmosPath out target) t) ∧
      Describes b module target (fun ms items =>
        (∀ m, Reached b.defs ms m → FlatMember b.defs m) →
        ∃ ls, Leaves b.defs ms ls ∧
          ((∀ path ∈ ls, Clear b.defs path) → (∀ path ∈ ls, ∀ m, path.getLast? = some m →
              (∃ v, FixedTo path v) ∨ IsBoolean b.defs m.type → Matchable b.defs path m) →
            All2 (fun path it => ∃ m, path.getLast? = some m ∧ LeafInfo p b.defs path m it) ls items)) messages t := by
  have hs := accepted_sized hi
  refine cosmos_describes hi hp ho ht hr fun ms ls es hl _ h hflat => ⟨ls, hl, fun hcl hcmp => ?_⟩
  refine (h.imp_mem fun path hpath e he => ?_).map_right
  obtain ⟨m, s, c, lo, hi, states, h1, h2, h3, h4, h5⟩ := he
  obtain ⟨c, rfl, h6⟩ := makeEntry_ok h4
  have hre := leaves_reached hl path hpath m h1
  exact ⟨m, h1, leafInfo_of hp hs (hflat m hre) hnat h2 (hcmp path hpath m h1) h3 h6 (h5 (hcl path hpath))⟩

/-- **C98 (data), partial.** COSMOS takes received data for a packet exactly if the data have the fixed values, reals
included, and all BOOLEAN leaves without fixed value are FALSE. Missing: as for C72, messages with nested arrays, arrays
of sequences or of BOOLEAN; members that several clauses reach; fixed or BOOLEAN leaves that are little endian or arrays;
fixed strings. -/
theorem C98_identified_partial (fuel : Nat) (p : Printer) (raw : List Module) (b : Bundle)
    (module : String) (messages : List String) (target out : Text) (hi : Sources raw b)
    (hp : Faithful p) (ho : OneLine p) (ht : IsTarget target)
    (hnat : NaturalSizes b.defs) (hr : (runCosmos fuel p raw module messages target out).result = .ok ()) :
    ∃ t, (∀ fs, Adds fs ((runCosmos fuel p raw module messages target out).apply fs)
        (cosmosPath out target) t) ∧
      Describes b module target (fun ms items =>
        (∀ m, Reached b.defs ms m → FlatMember b.defs m) →
        ∃ ls, Leaves b.defs ms ls ∧
          ((∀ path ∈ ls, Clear b.defs path) → (∀ path ∈ ls, ∀ m, path.getLast? = some m →
              (∃ v, FixedTo path v) ∨ IsBoolean b.defs m.type → Matchable b.defs path m) →
            ∀ data, Recognised p data 0 items ↔ CarriesAll b.defs data ls ∧ OthersFalse b.defs data ls)) messages t := by
  obtain ⟨t, h1, h2⟩ := cosmos_leafInfos fuel p raw b module messages target out hi hp ho ht hnat hr
  refine ⟨t, h1, h2.imp fun n pkt ⟨k1, k2, ms, k3, k4⟩ => ⟨k1, k2, ms, k3, fun hflat => ?_⟩⟩
  obtain ⟨ls, hl, h⟩ := k4 hflat
  refine ⟨ls, hl, fun hcl hcmp data => ?_⟩
  rw [recognised_iff hp (accepted_sized hi).nodup (h hcl hcmp) data 0]
  constructor
  · intro hg
    constructor
    · intro path m pos w hat v hv
      have := (hg path m pos w hat).1 v hv
      rwa [Nat.zero_add] at this
    · intro path m pos w hat hb hno
      have := (hg path m pos w hat).2 hb hno
      rwa [Nat.zero_add] at this
  · rintro ⟨g1, g2⟩ path m pos w hat
    rw [Nat.zero_add]
    exact ⟨g1 path m pos w hat, g2 path m pos w hat⟩

theorem exact_of_realAt {data : List UInt8} {pos w : Nat} {q : Rat} (h : realAt data pos w = some q) : Exact w q := by
  unfold realAt at h
  obtain ⟨k, e3, e4⟩ := Option.bind_eq_some_iff.1 h
  refine ⟨k, ?_, e4⟩
  unfold bitsAt at e3
  split at e3
  · cases e3
    exact Nat.mod_lt _ (Nat.two_pow_pos _)
  · cases e3

/-- **C98 (rounded reals).** No data have the fixed values of a message with a REAL that is fixed to a number
which cannot be written with its bits without rounding; with `C98_identified_partial`, COSMOS takes no data for the packet
of such a message. -/
theorem C98_rounded (raw : List Module) (b : Bundle) (hi : Sources raw b) (ls : List (List Member))
    (path : List Member) (m : Member) (pos w : Nat) (hat : LeafAt b.defs ls path m pos w)
    (hfl : ItemType b.defs m.type "FLOAT".toList) (v : Leaf) (q : Rat) (hv : FixedTo path v)
    (hq : ratOf (leafNum v) = some q) (hex : ¬ Exact w q) (data : List UInt8) : ¬ CarriesAll b.defs data ls := by
  intro h
  rcases h path m pos w hat v hv with ⟨i, _, e2⟩ | ⟨_, q', e1, e2⟩
  · exact hasValue_not_float (accepted_sized hi).nodup e2 hfl
  · rw [hq] at e1
    cases e1
    exact hex (exact_of_realAt e2)

/-! ### Binary files -/

theorem elementary_float {ds : List Def} {t : AType} {lo hi : Num} (h : Elementary ds t (realType lo hi)) :
    ItemType ds t "FLOAT".toList := by
  generalize hx : realType lo hi = x at h
  cases h with
  | direct h1 =>
    refine .builtIn (fun d hd hu => ?_) (by rw [← hx]; exact .real)
    generalize hn : d.name = n at hu
    cases hu
    exact h1 d hd hn
  | named h1 => exact .named .plain h1 (by rw [← hx]; exact .real)

theorem realBlock_exact {eb fb : Nat} {en : Endian} {v : Leaf} {blk : List UInt8} (h : RealBlock eb fb en v blk)
    {q : Rat} (hq : ratOf (leafNum v) = some q) {k : Nat} (hk : ieee eb fb k = some q) :
    ieee eb fb (readBytes en blk) = some q := by
  generalize hx : leafNum v = x at hq
  cases x with
  | int i =>
    cases hq
    exact h.2.2 i k hx hk
  | flt q' =>
    cases hq
    refine nearest_exact (h.1 q ?_) hk
    cases v with
    | int i => cases hx
    | bool b => cases hx
    | flt y => cases hx; rfl
  | inf n => cases hq

/-- Blocks one after the other carry the values of the leaves they are for. -/
theorem blocks_carry_all {ds : List Def} (hs : Sized ds) {pre post : List (List Member)}
    {fixed : List (Member × Leaf)} {blocks : List (List UInt8)}
    (hpre : All2 (fun path f => path.getLast? = some f.1 ∧ (∀ v, FixedTo path v → v = f.2) ∧
      FileLeaf ds f.1 f.2) pre fixed)
    (hpost : ∀ path ∈ post, ∀ v, ¬ FixedTo path v)
    (hblocks : All2 (fun f blk => ReadsAs ds .big f blk ∧
      (∀ t, Elementary ds f.1.type t → LeafSize t (8 * blk.length)) ∧
      ∀ x y, (f.1.type.name = "REAL" ∨ f.1.type.name = "Float" ∨ f.1.type.name = "Double") →
        Elementary ds f.1.type (.plain "REAL" (some x) (some y)) →
        (blk.length = 4 ∧ RealBlock 8 23 .big f.2 blk) ∨ (blk.length = 8 ∧ RealBlock 11 52 .big f.2 blk)) fixed blocks)
    (done : List UInt8)
    (path : List Member) (m : Member) (pos w : Nat) (hat : LeafAt ds (pre ++ post) path m pos w)
    (v : Leaf) (hv : FixedTo path v)
    (hex : ItemType ds m.type "FLOAT".toList → ∀ q, ratOf (leafNum v) = some q → Exact w q) :
    HasNumber ds (done ++ blocks.flatten) (8 * done.length + pos) w m.type (leafNum v) := by
  induction hpre generalizing blocks done path m pos w with
  | nil => exact absurd hv (hpost path (leafAt_mem hat) v)
  | @cons p f pre fixed h1 _ ih =>
    cases hblocks with
    | @cons _ blk _ blocks k1 k2 =>
      obtain ⟨hlast, huniq, hel⟩ := h1
      have hw : ∀ {m' : Member} {a : Nat}, p.getLast? = some m' → Size ds (.members [m']) a →
          m' = f.1 ∧ a = 8 * blk.length := by
        intro m' a g1 g2
        rw [hlast] at g1
        cases g1
        refine ⟨rfl, ?_⟩
        rcases hel with ⟨lo, hi, hel⟩ | ⟨⟨lo, hi, hel⟩, _⟩
        · have hg : GrammarType (intType lo hi) := .integerRange
          have := leafSize_unique hg (by intro e len h; simp [intType] at h) (size_elementary hs.nodup hel g2)
            (k1.2.1 _ hel)
          omega
        · have hg : GrammarType (realType (.flt lo) (.flt hi)) := .realRange rfl rfl
          have := leafSize_unique hg (by intro e len h; simp [realType] at h) (size_elementary hs.nodup hel g2)
            (k1.2.1 _ hel)
          omega
      rw [List.cons_append] at hat
      rw [List.flatten_cons]
      cases hat with
      | here q1 q2 =>
        obtain ⟨rfl, rfl⟩ := hw q1 q2
        rw [huniq v hv] at hex ⊢
        rcases hel with ⟨lo, hi, hel⟩ | ⟨⟨lo, hi, hel⟩, hn, hval⟩
        · refine .inl ⟨_, k1.1 lo hi hel, readBE blk, bitsAt_block done blk _, ?_⟩
          have hty := elementary_itemType hel
          split at hty
          · rename_i hneg
            refine .inr ⟨hty, ?_⟩
            rw [if_pos hneg]
            unfold readSigned signedValue
            simp only [readBytes]
            have hc : ((2 : Int) * (readBE blk : Int) < 2 ^ (8 * blk.length)) ↔ 2 * readBE blk < 2 ^ (8 * blk.length) := by
              constructor
              · intro h; exact_mod_cast h
              · intro h; exact_mod_cast h
            simp only [hc]
          · rename_i hneg
            refine .inl ⟨hty, ?_⟩
            rw [if_neg hneg]
            rfl
        · have hfl := elementary_float hel
          obtain ⟨q, hq⟩ := hval
          refine .inr ⟨hfl, q, hq, ?_⟩
          obtain ⟨k, _, hk⟩ := hex hfl q hq
          unfold realAt
          rw [Nat.add_zero, bitsAt_block done blk _]
          show realOf _ (readBE blk) = some q
          rcases k1.2.2 _ _ hn hel with ⟨hlen, hblk⟩ | ⟨hlen, hblk⟩
          · rw [hlen] at hk ⊢
            exact realBlock_exact hblk hq hk
          · rw [hlen] at hk ⊢
            exact realBlock_exact hblk hq hk
      | @later _ _ _ m' _ pos' _ a q1 q2 q3 =>
        obtain ⟨rfl, rfl⟩ := hw q1 q2
        have e2 := ih k2 (done ++ blk) path m pos' w q3 hv hex
        rw [List.append_assoc, List.length_append, Nat.mul_add, Nat.add_assoc] at e2
        exact e2

/-- COSMOS takes the big endian binary file of such a sequence for the packet of the sequence exactly under `P`. -/
def OwnFile (P : List Def → List (List Member) → Prop) : Prop :=
  ∀ (fuel fuel' : Nat) (p : Printer) (raw : List Module) (cfg : List String) (b : Bundle)
    (module : String) (messages : List String) (target out out' : Text) (fs : Files), Input raw cfg b →
    Faithful p → OneLine p → IsTarget target → NaturalSizes b.defs →
    (runCosmos fuel p raw module messages target out).result = .ok () →
    (runBinary fuel' (some .big) raw cfg out').result = .ok () →
    ∀ (n : String) (c : Option Comment) (ms : List Member), Def.seq n c ms ∈ b.defs →
    ∀ x, fixedMembers (.seq n c ms) = [x] → ∀ pre post, FileFirst b.defs ms x pre post →
    ∃ bytes t, HasBytes ((runBinary fuel' (some .big) raw cfg out').apply fs) (binPath out' (.seq n c ms)) bytes ∧
      (∀ fs, Adds fs ((runCosmos fuel p raw module messages target out).apply fs) (cosmosPath out target) t) ∧
      Describes b module target (fun ms' items => ms' = ms →
        (Recognised p bytes 0 items ↔ P b.defs (pre ++ post))) messages t

/-- Full statement of C98 for binary files: COSMOS takes them for their packets. -/
def C98_full : Prop := OwnFile fun _ _ => True

/-- **C98 (binary files), partial.** COSMOS takes the big endian binary file of a sequence for the packet of the sequence
exactly if all its fixed reals can be written with the bits they have without rounding. Missing: infinities; sequences
other than those of `FileFirst`. -/
theorem C98_binary_partial : OwnFile ExactReals := by
  intro fuel fuel' p raw cfg b module messages target out out' fs hin hp ho ht hnat hr hrb n c ms hd x hx pre post hff
  have hsrc := sources_of_input hin
  have hs := accepted_sized hsrc
  have hbt := buildFromTexts_of_config hin.accepted
  obtain ⟨x', blocks, e1, ⟨fixed, h2, h3⟩, h1⟩ := bin_exists hin.grammar hin.accepted hrb hd
    (by intro h; rw [h] at hx; cases hx) fs
  rw [hx] at e1
  cases e1
  have hgm := fixes_grammar (fun d hd => (accepted_grammar hin.grammar hbt d hd).1) h2
  have h3 : All2 (fun f blk => ReadsAs b.defs .big f blk ∧
      (∀ t, Elementary b.defs f.1.type t → LeafSize t (8 * blk.length)) ∧
      ∀ x y, (f.1.type.name = "REAL" ∨ f.1.type.name = "Float" ∨ f.1.type.name = "Double") →
        Elementary b.defs f.1.type (.plain "REAL" (some x) (some y)) →
        (blk.length = 4 ∧ RealBlock 8 23 .big f.2 blk) ∨ (blk.length = 8 ∧ RealBlock 11 52 .big f.2 blk)) fixed blocks :=
    h3.imp_mem fun f hf blk hpk => ⟨fun lo hi ht => (by
        obtain ⟨i, k1, k2, _⟩ := packed_int hin.grammar hbt (hgm f hf).2.1 hpk ht
        rw [k1, k2]), fun t ht => packed_width hin.grammar hbt (hgm f hf).2.1 hpk ht,
      fun x y hn ht => packed_real hin.grammar hbt (hgm f hf).2.1 hpk hn ht⟩
  obtain ⟨t, h4, h5⟩ := cosmos_leafInfos fuel p raw b module messages target out hsrc hp ho ht hnat hr
  refine ⟨_, t, h1, h4, h5.imp fun n' pkt ⟨k1, k2, ms', k3, k4⟩ => ⟨k1, k2, ms', k3, ?_⟩⟩
  rintro rfl
  obtain ⟨ls, hl', h⟩ := k4 hff.flat
  cases leaves_unique hs.nodup hff.leaves hl'
  have hall := h hff.clear fun path hpath m hm hor => by
    rcases List.mem_append.1 hpath with hpath' | hpath'
    · exact hff.matchable path hpath' m hm
    · rcases hor with ⟨v, hv⟩ | hb
      · exact absurd hv (hff.rest path hpath' v)
      · exact absurd hb (hff.noBoolean path hpath m hm)
  rw [recognised_iff hp hs.nodup hall]
  have huniq : ∀ path ∈ pre ++ post, ∀ v v', FixedTo path v → FixedTo path v' → v = v' := by
    intro path hpath v v' hv hv'
    obtain ⟨it, _, m, _, w, _, _, _, hf⟩ := all2_mem_left hall hpath
    rcases hf with ⟨_, hf, _⟩ | ⟨_, _, _, _, i, _, _, ⟨v0, _, hf, _⟩ | ⟨hf, _⟩⟩ | ⟨_, _, _, _, _, v0, q, _, hf, _⟩
    · exact absurd hv (hf v)
    · rw [hf v hv, hf v' hv']
    · exact absurd hv (hf v)
    · rw [hf v hv, hf v' hv']
  constructor
  · intro hg path m pos w hat hfl v q hv hq
    rcases (hg path m pos w hat).1 v hv with ⟨i, _, e2⟩ | ⟨_, q', e1, e2⟩
    · exact absurd hfl (hasValue_not_float hs.nodup e2)
    · rw [hq] at e1
      cases e1
      exact exact_of_realAt e2
  · intro hex path m pos w hat
    refine ⟨fun v hv => ?_, fun hb => absurd hb ?_⟩
    · exact blocks_carry_all hs ((hff.first fixed h2).imp_mem fun path hpath f ⟨q1, q2, q3⟩ =>
        ⟨q1, fun v hv => huniq path (List.mem_append_left _ hpath) v _ hv q2, q3⟩) hff.rest h3 [] path m pos w hat v hv
        fun hfl q hq => hex path m pos w hat hfl v q hv hq
    · exact hff.noBoolean path (leafAt_mem hat) m (leafAt_last hat)

/-! ### Examples -/

/-- The double nearest to 0.1. -/
def exTenth : Rat := 3602879701896397 / 36028797018963968

def exGain (q : Rat) : Member :=
  ⟨"id", .plain "Id" none none, none, some (.leaf "scale" (.flt (.flt q)) (.leaf "kind" (.int 7) .nil))⟩
def exScale : Member := ⟨"scale", realType (.flt (-1)) (.flt 1), none, none⟩

/-- Two messages recognised by the reals 0.5 and 0.1 and the integer 7. -/
def exGainsModule : Module :=
  { name := "gains", defs := [
      .seq "Id" none [exScale, exKind],
      .seq "Half" none [exGain (1 / 2), exCount],
      .seq "Tenth" none [exGain exTenth, exCount]] }

def exGains : List Module := [exGainsModule]

theorem exGains_input : Input exGains ["gains"] (okBundle (buildFromConfig exGains ["gains"])) :=
  input_of (by decide +kernel) (by decide +kernel) (by decide +kernel)

theorem exGains_defs : (okBundle (buildFromConfig exGains ["gains"])).defs = exGainsModule.defs := by decide +kernel

theorem exGains_simple {n : String} {c : Option Comment} {t : AType} (h : Def.simple n c t ∈ exGainsModule.defs) :
    False := by
  simp [exGainsModule] at h

theorem exGains_not_seq {n : String} {inner : List Member} (h : n ≠ "Id" ∧ n ≠ "Half" ∧ n ≠ "Tenth") :
    ¬ IsSequence exGainsModule.defs n inner := by
  rintro ⟨c, hs⟩
  simp only [exGainsModule, List.mem_cons, Def.seq.injEq, List.not_mem_nil, or_false] at hs
  rcases hs with hs | hs | hs
  · exact h.1 hs.1
  · exact h.2.1 hs.1
  · exact h.2.2 hs.1

theorem exGains_leaf {m : Member} (hm : m = exScale ∨ m = exKind ∨ m = exCount) (n : String) (inner : List Member)
    (hu : UsesName m.type n) : ¬ IsSequence exGainsModule.defs n inner := by
  rw [usesName_iff] at hu
  subst hu
  rcases hm with rfl | rfl | rfl <;> exact exGains_not_seq (by decide)

theorem exGains_leaves (q : Rat) :
    Leaves exGainsModule.defs [exGain q, exCount] ([[exGain q, exScale], [exGain q, exKind]] ++ [[exCount]]) := by
  have hin : Leaves exGainsModule.defs [exScale, exKind] [[exScale], [exKind]] :=
    .leaf (exGains_leaf (.inl rfl)) (.leaf (exGains_leaf (.inr (.inl rfl))) .nil)
  exact Leaves.seq (m := exGain q) (n := "Id") .plain ⟨none, List.mem_of_getElem? (i := 0) rfl⟩ hin
    (.leaf (exGains_leaf (.inr (.inr rfl))) .nil)

theorem exGains_members {d : Def} (hd : d ∈ exGainsModule.defs) {m : Member} (hm : m ∈ d.members) :
    m = exScale ∨ m = exKind ∨ m = exCount ∨ m = exGain (1 / 2) ∨ m = exGain exTenth := by
  simp only [exGainsModule, List.mem_cons, List.not_mem_nil, or_false] at hd
  rcases hd with rfl | rfl | rfl <;> simp only [Def.members, List.mem_cons, List.not_mem_nil, or_false] at hm <;>
    rcases hm with rfl | rfl <;> simp

theorem exGains_type {m : Member}
    (h : m = exScale ∨ m = exKind ∨ m = exCount ∨ m = exGain (1 / 2) ∨ m = exGain exTenth) :
    ∃ n lo hi, m.type = .plain n lo hi := by
  rcases h with rfl | rfl | rfl | rfl | rfl <;> exact ⟨_, _, _, rfl⟩

theorem exGains_flat {d : Def} (hd : d ∈ exGainsModule.defs) {m : Member} (hm : m ∈ d.members) :
    FlatMember exGainsModule.defs m := by
  have hna : ∀ e len, m.type ≠ .arr e len := by
    intro e len h
    obtain ⟨_, _, _, h'⟩ := exGains_type (exGains_members hd hm)
    rw [h] at h'
    cases h'
  exact ⟨fun _ _ _ _ h => (exGains_simple h).elim, fun e len h => absurd h (hna e len),
    fun e len h => absurd h (hna e len), fun e len h => absurd h (hna e len)⟩

theorem exGains_natural : NaturalSizes exGainsModule.defs := by
  intro d hd
  refine ⟨fun m hm h => ?_, fun n c t h => (exGains_simple (h ▸ hd)).elim⟩
  obtain ⟨_, _, _, h'⟩ := exGains_type (exGains_members hd hm)
  rw [h'] at h
  cases h

theorem exGains_separate : Separate exGainsModule.defs := by
  rintro n ms ⟨c, hd⟩ m hm cs hcs t _
  simp only [exGainsModule, List.mem_cons, Def.seq.injEq, List.not_mem_nil, or_false] at hd
  rcases hd with ⟨_, _, rfl⟩ | ⟨_, _, rfl⟩ | ⟨_, _, rfl⟩ <;>
    simp only [List.mem_cons, List.not_mem_nil, or_false] at hm <;> rcases hm with rfl | rfl <;> cases hcs <;>
    exact ⟨by decide, ⟨by decide, trivial⟩⟩

theorem exGains_boolean {m : Member} (hm : m = exScale ∨ m = exKind ∨ m = exCount) :
    ¬ IsBoolean exGainsModule.defs m.type := by
  rintro (h | ⟨n, c, t, _, h, _⟩)
  · rw [usesName_iff] at h
    rcases hm with rfl | rfl | rfl <;> exact absurd h (by decide)
  · exact exGains_simple h

theorem exGains_fixes (q : Rat) : ∀ fixed, Fixes exGainsModule.defs "Id"
      (.leaf "scale" (.flt (.flt q)) (.leaf "kind" (.int 7) .nil)) fixed →
    fixed = [(exScale, .flt (.flt q)), (exKind, .int 7)] := by
  have hid : ∀ {ms}, IsSequence exGainsModule.defs "Id" ms → ms = [exScale, exKind] := by
    rintro ms ⟨c, h⟩
    simp only [exGainsModule, List.mem_cons, Def.seq.injEq, List.not_mem_nil, or_false] at h
    rcases h with h | h | h
    · exact h.2.2
    · exact absurd h.1 (by decide)
    · exact absurd h.1 (by decide)
  have hkey : ∀ m ∈ [exScale, exKind], (m.key = "scale" → m = exScale) ∧ (m.key = "kind" → m = exKind) := by
    intro m hm
    simp only [List.mem_cons, List.not_mem_nil, or_false] at hm
    rcases hm with rfl | rfl
    · exact ⟨fun _ => rfl, fun h => absurd h (by decide)⟩
    · exact ⟨fun h => absurd h (by decide), fun _ => rfl⟩
  intro fixed h
  generalize hc : Comps.leaf "scale" (.flt (.flt q)) (.leaf "kind" (.int 7) .nil) = c at h
  cases h with
  | nil => cases hc
  | node => cases hc
  | @leaf _ ms m v rest l k1 k2 k3 =>
    rw [Comps.leaf.injEq] at hc
    obtain ⟨e1, rfl, rfl⟩ := hc
    rw [hid k1] at k2
    rw [(hkey m k2).1 e1.symm]
    generalize hc : Comps.leaf "kind" (.int 7) .nil = c at k3
    cases k3 with
    | nil => cases hc
    | node => cases hc
    | @leaf _ ms m v rest l k1 k2 k3 =>
      rw [Comps.leaf.injEq] at hc
      obtain ⟨e1, rfl, rfl⟩ := hc
      rw [hid k1] at k2
      rw [(hkey m k2).2 e1.symm]
      cases k3
      rfl

theorem exGains_fixed {q : Rat} {k : Member} {v : Leaf} (hk : k.comps = none) (h : FixedTo [exGain q, k] v) :
    (k.key = "scale" ∧ v = .flt (.flt q)) ∨ (k.key = "kind" ∧ v = .int 7) := by
  rcases fixedTo_cons.1 h with ⟨c, hc, hf⟩ | h
  · cases hc
    simp only [List.map_cons, List.map_nil] at hf
    generalize hks : [k.key] = ks at hf
    cases hf with
    | here => simp only [List.cons.injEq, and_true] at hks; exact .inl ⟨hks, rfl⟩
    | afterLeaf hf =>
      cases hf with
      | here => simp only [List.cons.injEq, and_true] at hks; exact .inr ⟨hks, rfl⟩
      | afterLeaf hf => cases hf
  · rcases fixedTo_cons.1 h with ⟨c, hc, _⟩ | h
    · rw [hk] at hc; cases hc
    · exact (fixedTo_nil h).elim

theorem exGains_scale : Elementary exGainsModule.defs exScale.type (realType (.flt (-1)) (.flt 1)) :=
  .direct (by decide)

theorem exGains_kind : Elementary exGainsModule.defs exKind.type (intType 0 255) :=
  .direct (by decide)

theorem exGains_first {n : String} (q : Rat) (hd : Def.seq n none [exGain q, exCount] ∈ exGainsModule.defs) :
    FileFirst exGainsModule.defs [exGain q, exCount]
      (exGain q, .leaf "scale" (.flt (.flt q)) (.leaf "kind" (.int 7) .nil))
      [[exGain q, exScale], [exGain q, exKind]] [[exCount]] where
  flat := by
    intro m hm
    obtain ⟨d, hd, hmd⟩ := reached_member hm fun m hm => ⟨_, hd, hm⟩
    exact exGains_flat hd hmd
  leaves := exGains_leaves q
  clear := exGains_separate.clear (exGains_leaves q) [exGain q, exCount] n ⟨none, hd⟩ fun _ h => h
  matchable := by
    intro path hp m hm
    simp only [List.mem_cons, List.not_mem_nil, or_false] at hp
    rcases hp with rfl | rfl <;> cases hm
    · refine ⟨fun e len h => (by simp [exScale, realType] at h), fun c h => (by cases h), fun v hv => ?_,
        .inr ⟨elementary_float exGains_scale, fun v hv => ?_⟩⟩
      · rcases exGains_fixed rfl hv with ⟨_, rfl⟩ | ⟨h, _⟩
        · exact ⟨⟨fun h => absurd h (exGains_boolean (.inl rfl)), fun ⟨b, h⟩ => (by cases h)⟩,
            fun h => absurd h (by show "scale" ≠ _; decide)⟩
        · exact absurd h (by decide)
      · rcases exGains_fixed rfl hv with ⟨_, rfl⟩ | ⟨h, _⟩
        · exact ⟨q, rfl⟩
        · exact absurd h (by decide)
    · refine ⟨fun e len h => (by simp [exKind, intType] at h), fun c h => (by cases h), fun v hv => ?_,
        .inl ⟨.inl (elementary_itemType exGains_kind), fun v hv x hx => ?_⟩⟩
      · rcases exGains_fixed rfl hv with ⟨h, _⟩ | ⟨_, rfl⟩
        · exact absurd h (by decide)
        · exact ⟨⟨fun h => absurd h (exGains_boolean (.inr (.inl rfl))), fun ⟨b, h⟩ => (by cases h)⟩,
            fun h => absurd h (by show "kind" ≠ _; decide)⟩
      · rcases exGains_fixed rfl hv with ⟨h, _⟩ | ⟨_, rfl⟩
        · exact absurd h (by decide)
        · cases hx
  first := by
    intro fixed hf
    rw [exGains_fixes q fixed hf]
    exact .cons ⟨rfl, ⟨[], exGain q, [exScale], _, rfl, rfl, .here⟩, .inr ⟨⟨_, _, exGains_scale⟩, .inl rfl, q, rfl⟩⟩
      (.cons ⟨rfl, ⟨[], exGain q, [exKind], _, rfl, rfl, .afterLeaf .here⟩, .inl ⟨_, _, exGains_kind⟩⟩ .nil)
  rest := by
    intro path hp v hv
    rcases List.mem_singleton.1 hp with rfl
    rcases fixedTo_cons.1 hv with ⟨c, hc, _⟩ | h
    · cases hc
    · exact (fixedTo_nil h).elim
  noBoolean := by
    intro path hp m hm
    simp only [List.cons_append, List.nil_append, List.mem_cons, List.not_mem_nil, or_false] at hp
    rcases hp with rfl | rfl | rfl <;> cases hm
    · exact exGains_boolean (.inl rfl)
    · exact exGains_boolean (.inr (.inl rfl))
    · exact exGains_boolean (.inr (.inr rfl))

/-- It fails: the file of `Tenth` has the single nearest to 0.1, and COSMOS compares it with the double. -/
theorem C98_full_false : ¬ C98_full := by
  intro hf
  have hds := exGains_defs
  have hd : Def.seq "Tenth" none [exGain exTenth, exCount] ∈ exGainsModule.defs := List.mem_of_getElem? (i := 2) rfl
  obtain ⟨bytes, t, h1, h2, h3⟩ := hf 20 20 exPrinter exGains ["gains"] _ "gains" ["Tenth"]
    "SAT".toList exOut exOut (fun _ => none) exGains_input exPrinter_faithful exPrinter_oneLine exTlm_target
    (by rw [hds]; exact exGains_natural) (by decide +kernel) (by decide +kernel)
    "Tenth" none [exGain exTenth, exCount] (by rw [hds]; exact hd) _ rfl _ _ (by rw [hds]; exact exGains_first _ hd)
  have hb := fileBytes_eq h1
  rw [show fileBytes ((runBinary 20 (some .big) exGains ["gains"] exOut).apply fun _ => none)
    (binPath exOut (.seq "Tenth" none [exGain exTenth, exCount])) = [61, 204, 204, 205, 7] by decide +kernel] at hb
  subst hb
  have hk : (readCosmos t).map (fun x => x.items.map fun it => (it.kind, it.type, itemLength it)) =
      [[("APPEND_ID_ITEM".toList, "FLOAT".toList, some 32), ("APPEND_ID_ITEM".toList, "UINT".toList, some 8),
        ("APPEND_ITEM".toList, "UINT".toList, some 16)]] := by
    rw [← newText_eq h2]; decide +kernel
  have hk' : (readCosmos t).map (fun x => x.items.map fun it => it.value) =
      [[["3602879701896397e36028797018963968".toList], [['7']], []]] := by
    rw [← newText_eq h2]; decide +kernel
  unfold Describes at h3
  generalize readCosmos t = l at h3 hk hk'
  cases h3 with
  | cons h h' =>
    cases h'
    obtain ⟨_, _, ms, hms, hid⟩ := h
    have hid := (hid (message_eq (sources_of_input exGains_input) hms (by rw [hds]; exact hd))).2 trivial
    simp only [List.map_cons, List.map_nil, List.cons.injEq, and_true] at hk hk'
    generalize CosmosPacket.items _ = items at hid hk hk'
    cases items with
    | nil => cases hk
    | cons it r =>
      rw [List.map_cons, List.cons.injEq, Prod.mk.injEq, Prod.mk.injEq] at hk
      rw [List.map_cons, List.cons.injEq] at hk'
      obtain ⟨⟨k1, k2, k3⟩, _⟩ := hk
      obtain ⟨k4, _⟩ := hk'
      cases hid with
      | other q1 => exact q1 k1
      | int _ _ _ _ q5 => rw [k2, fieldValue_float] at q5; cases q5
      | @real _ _ _ w x q _ _ q3 _ q5 q6 q7 _ =>
        rw [k3] at q3
        have hw : w = 32 := by
          have := Option.some.inj q3
          omega
        subst hw
        rw [k4, show "3602879701896397e36028797018963968".toList = exPrinter.float (.flt exTenth) by decide +kernel] at q5
        cases wordText_unique exPrinter_faithful q5 (.num (.float (x := .flt exTenth) rfl))
        cases q6
        exact absurd q7 (by decide +kernel)

theorem exGains_size {w : Int} (h : Size exGainsModule.defs (.members [exScale]) w) : w = 32 := by
  have hg : GrammarType (realType (.flt (-1)) (.flt 1)) := .realRange rfl rfl
  exact leafSize_unique hg (by intro e len h; simp [realType] at h)
    (size_elementary (by decide) exGains_scale h)
    ((leafSize_iff hg (by intro e len h; simp [realType] at h) 32).1 (by decide +kernel))

/-- 0.5 can be written with 32 bits. -/
theorem exGains_exact : ExactReals exGainsModule.defs
    ([[exGain (1 / 2), exScale], [exGain (1 / 2), exKind]] ++ [[exCount]]) := by
  have hnd : (exGainsModule.defs.map Def.name).Nodup := by decide
  intro path m pos w hat hfl v q hv hq
  rw [List.cons_append] at hat
  cases hat with
  | here h1 h2 =>
    cases h1
    have := exGains_size h2
    obtain rfl : w = 32 := by omega
    rcases exGains_fixed rfl hv with ⟨_, rfl⟩ | ⟨h, _⟩
    · cases hq
      exact ⟨0x3f000000, by decide, by decide +kernel⟩
    · exact absurd h (by decide)
  | later _ _ hat =>
    rw [List.cons_append] at hat
    cases hat with
    | here h1 _ =>
      cases h1
      exact absurd (itemType_unique hnd hfl (elementary_itemType exGains_kind)) (by decide)
    | later _ _ hat =>
      cases hat with
      | here h1 _ =>
        cases h1
        exact absurd (itemType_unique hnd hfl (elementary_itemType (lo := 0) (hi := 65535) (.direct (by decide)))) (by decide)
      | later _ _ hat => cases hat

/-- The binary file of `Half` is taken for the packet `Half`. -/
example : ∃ t, fileBytes ((runBinary 20 (some .big) exGains ["gains"] exOut).apply fun _ => none)
      (binPath exOut (.seq "Half" none [exGain (1 / 2), exCount])) = [63, 0, 0, 0, 7] ∧
    Describes (okBundle (buildFromConfig exGains ["gains"])) "gains" "SAT".toList
      (fun ms items => ms = [exGain (1 / 2), exCount] → Recognised exPrinter [63, 0, 0, 0, 7] 0 items) ["Half", "Tenth"] t := by
  have hds := exGains_defs
  have hd : Def.seq "Half" none [exGain (1 / 2), exCount] ∈ exGainsModule.defs := List.mem_of_getElem? (i := 1) rfl
  obtain ⟨bytes, t, h1, _, h3⟩ := C98_binary_partial 20 20 exPrinter exGains ["gains"] _ "gains" ["Half", "Tenth"]
    "SAT".toList exOut exOut (fun _ => none) exGains_input exPrinter_faithful exPrinter_oneLine exTlm_target
    (by rw [hds]; exact exGains_natural) (by decide +kernel) (by decide +kernel)
    "Half" none [exGain (1 / 2), exCount] (by rw [hds]; exact hd) _ rfl _ _ (by rw [hds]; exact exGains_first _ hd)
  have hb := fileBytes_eq h1
  have : fileBytes ((runBinary 20 (some .big) exGains ["gains"] exOut).apply fun _ => none)
    (binPath exOut (.seq "Half" none [exGain (1 / 2), exCount])) = [63, 0, 0, 0, 7] := by decide +kernel
  rw [this] at hb
  subst hb
  refine ⟨t, this, h3.imp fun n pkt ⟨k1, k2, ms, k3, k4⟩ => ⟨k1, k2, ms, k3, fun e => (k4 e).2 ?_⟩⟩
  rw [hds]
  exact exGains_exact

/-- Which data COSMOS takes for `Tenth`: no BOOLEAN is in the way. -/
example : ∃ t, Describes (okBundle (buildFromConfig exGains ["gains"])) "gains" "SAT".toList
    (fun ms items => ms = [exGain exTenth, exCount] → ∀ data, Recognised exPrinter data 0 items ↔
      CarriesAll exGainsModule.defs data ([[exGain exTenth, exScale], [exGain exTenth, exKind]] ++ [[exCount]]) ∧
      OthersFalse exGainsModule.defs data ([[exGain exTenth, exScale], [exGain exTenth, exKind]] ++ [[exCount]]))
    ["Tenth"] t := by
  have hds := exGains_defs
  have hd : Def.seq "Tenth" none [exGain exTenth, exCount] ∈ exGainsModule.defs := List.mem_of_getElem? (i := 2) rfl
  obtain ⟨t, _, h⟩ := C98_identified_partial 20 exPrinter exGains _ "gains" ["Tenth"] "SAT".toList exOut
    (sources_of_input exGains_input) exPrinter_faithful exPrinter_oneLine exTlm_target
    (by rw [hds]; exact exGains_natural) (by decide +kernel)
  refine ⟨t, h.imp fun n pkt ⟨k1, k2, ms, k3, k4⟩ => ⟨k1, k2, ms, k3, ?_⟩⟩
  rintro rfl
  rw [hds] at k4
  have hff := exGains_first _ hd
  obtain ⟨ls, hl, k5⟩ := k4 hff.flat
  cases leaves_unique (by decide) hff.leaves hl
  refine k5 hff.clear fun path hp m hm hor => ?_
  rcases List.mem_append.1 hp with hp' | hp'
  · exact hff.matchable path hp' m hm
  · rcases hor with ⟨v, hv⟩ | hb
    · exact absurd hv (hff.rest path hp' v)
    · exact absurd hb (hff.noBoolean path hp m hm)

/-- 0.1 cannot be written with 32 bits. -/
theorem exTenth_rounded : ¬ Exact 32 exTenth := by
  rintro ⟨k, _, hk⟩
  have h := pack_nearest binary32_ok (q := exTenth) (b := 0x3dcccccd) (by decide +kernel)
  exact absurd (nearest_exact h hk) (by decide +kernel)

/-- No data have the values of `Tenth`. -/
example (data : List UInt8) : ¬ CarriesAll (okBundle (buildFromConfig exGains ["gains"])).defs data
    ([[exGain exTenth, exScale], [exGain exTenth, exKind]] ++ [[exCount]]) := by
  have hds := exGains_defs
  have hsz : Size exGainsModule.defs (.members [exScale]) ((32 : Nat) : Int) :=
    Size.leaf (ds := exGainsModule.defs) (m := exScale) (ms := []) (a := 32) (v := 0)
      (by
        intro n lo hi h d hd hn
        simp only [exScale, realType, AType.plain.injEq] at h
        obtain ⟨rfl, _⟩ := h
        revert hn
        revert hd
        revert d
        decide) ((leafSize_iff (.realRange rfl rfl) (by intro e len h; cases h) 32).1 (by decide +kernel)) .nil
  refine C98_rounded exGains _ (sources_of_input exGains_input) _ [exGain exTenth, exScale] exScale 0 32
    (by rw [hds]; exact .here rfl hsz) (by rw [hds]; exact elementary_float exGains_scale)
    (.flt (.flt exTenth)) exTenth ⟨[], exGain exTenth, [exScale], _, rfl, rfl, .here⟩ rfl exTenth_rounded data

end Apg
