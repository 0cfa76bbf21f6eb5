import Verif.Lemmas.CosmosEither
import Verif.Props.CosmosOrder
import Verif.Props.CosmosReal

/-!
# Property C102: recognition of packets by integers and reals in either byte order
-/

namespace Apg
open Spec

/-! ### Received data -/

theorem cosmos_matchInfos (fuel : Nat) (p : Printer) (raw : List Module) (b : Bundle)
    (module : String) (messages : List String) (target out : Text) (hi : Sources raw b)
    (hp : Faithful p) (ho : OneLine p) (ht : IsTarget target)
    (hnat : NaturalSizes b.defs) (hr : (runCosmos fuel p raw module messages target out).result = .ok ()) :
    ∃ t, (∀ fs, Adds fs ((runCosmos fuel p raw module messages target out).apply fs)
        (cosmosPath out target) t) ∧
      Describes b module target (fun ms items =>
        ∃ ls, Leaves b.defs ms ls ∧
          ((∀ path ∈ ls, ∀ m, path.getLast? = some m → FlatMember b.defs m) →
            (∀ path ∈ ls, Clear b.defs path) → (∀ path ∈ ls, ∀ m, path.getLast? = some m →
              (∃ v, FixedTo path v) ∨ IsBoolean b.defs m.type → MatchableIn b.defs path m) →
            All2 (fun path it => ∃ m, path.getLast? = some m ∧ MatchInfo p b.defs path m it) ls items)) messages t := by
  have hs := accepted_sized hi
  refine cosmos_describes hi hp ho ht hr fun ms ls es hl _ h => ⟨ls, hl, fun hflat hcl hcmp => ?_⟩
  refine (h.imp_mem fun path hpath e he => ?_).map_right
  obtain ⟨m, s, c, lo, hi, states, h1, h2, h3, h4, h5⟩ := he
  obtain ⟨c, rfl, h6⟩ := makeEntry_ok h4
  exact ⟨m, h1, matchInfo_of hp hs (hflat path hpath m h1) hnat h2 (hcmp path hpath m h1) h3 h6 (h5 (hcl path hpath))⟩

/-- COSMOS takes received data for a packet exactly if the data have the fixed values in the byte order of their members,
and `Q`. -/
def DataIn (Q : List Def → List UInt8 → List (List Member) → Prop) : Prop :=
  ∀ (fuel : Nat) (p : Printer) (raw : List Module) (b : Bundle)
    (module : String) (messages : List String) (target out : Text), Sources raw b →
    Faithful p → OneLine p → IsTarget target → NaturalSizes b.defs →
    (runCosmos fuel p raw module messages target out).result = .ok () →
    ∃ t, (∀ fs, Adds fs ((runCosmos fuel p raw module messages target out).apply fs)
        (cosmosPath out target) t) ∧
      Describes b module target (fun ms items =>
        ∃ ls, Leaves b.defs ms ls ∧
          ((∀ path ∈ ls, ∀ m, path.getLast? = some m → FlatMember b.defs m) →
            (∀ path ∈ ls, Clear b.defs path) → (∀ path ∈ ls, ∀ m, path.getLast? = some m →
              (∃ v, FixedTo path v) ∨ IsBoolean b.defs m.type → MatchableIn b.defs path m) → WholeBytes b.defs ls →
            ∀ data, Accepts p data 0 items ↔ CarriesIn b.defs data ls ∧ Q b.defs data ls)) messages t

/-- **C102 (data), partial.** COSMOS takes received data for a packet exactly if the data have the fixed values, integers
and reals in the byte order of their members, and all BOOLEANs without fixed value are FALSE. Missing: messages with
nested arrays or arrays of BOOLEAN; members that several clauses reach; fixed or BOOLEAN leaves that are
arrays or are little endian and not whole bytes; fixed strings. -/
theorem C102_identified_partial : DataIn FalseIn := by
  intro fuel p raw b module messages target out hi hp ho ht hnat hr
  obtain ⟨t, h1, h2⟩ := cosmos_matchInfos fuel p raw b module messages target out hi hp ho ht hnat hr
  refine ⟨t, h1, h2.imp fun n pkt ⟨k1, k2, ms, k3, k4⟩ => ⟨k1, k2, ms, k3, ?_⟩⟩
  obtain ⟨ls, hl, h⟩ := k4
  refine ⟨ls, hl, fun hflat hcl hcmp _ data => ?_⟩
  rw [accepts_iff (h hflat hcl hcmp) data 0]
  constructor
  · intro hg
    constructor
    · intro path m pos w hat v hv
      have := (hg path m pos w hat).1 v hv
      rwa [Nat.zero_add] at this
    · intro path m pos w hat hb hno
      have := (hg path m pos w hat).2 hb hno
      rwa [Nat.zero_add] at this
  · rintro ⟨g1, g2⟩ path m pos w hat
    rw [Nat.zero_add]
    exact ⟨g1 path m pos w hat, g2 path m pos w hat⟩

/-! ### Binary files -/

theorem readBE_palindrome (en : Endian) {bs : List UInt8} (h : bs.reverse = bs) : readBytes en bs = readBE bs := by
  cases en with
  | big => rfl
  | little => simp only [readBytes, h]

/-- When a block has its number in a byte order that may be another one. -/
theorem block_either {ds : List Def} (hnd : (ds.map Def.name).Nodup) {t : AType} {x : Num} (en : Endian) (l : Bool)
    {blk : List UInt8} (h0 : ItemType ds t "FLOAT".toList → ratOf x ≠ some 0)
    (hA : CanHold ds (8 * blk.length) t x → IsNumber ds (8 * blk.length) t x (readBytes en blk)) :
    IsNumber ds (8 * blk.length) t x (readBytes (if l then .little else .big) blk) ↔
      ((l = true ↔ en = .little) ∧ CanHold ds (8 * blk.length) t x) ∨ SameReversed ds (8 * blk.length) t x := by
  have hb : (l = true ↔ en = .little) ↔ (if l = true then Endian.little else .big) = en := by
    cases l <;> cases en <;> simp
  rw [hb]
  generalize (if l = true then Endian.little else .big) = en'
  have hlt := readBytes_lt en blk
  have hlt' := readBytes_lt en' blk
  constructor
  · intro h
    have hc : CanHold ds (8 * blk.length) t x := canHold_iff.2 ⟨_, hlt', h⟩
    rcases (readBytes_eq_iff en en' blk).1 (isNumber_unique hnd hlt' hlt h (hA hc) h0) with he | he
    · exact .inl ⟨he, hc⟩
    · refine .inr ⟨blk, rfl, he, ?_⟩
      rw [← readBE_palindrome en' he]
      exact h
  · rintro (⟨rfl, hc⟩ | ⟨bs, hl, hr, hx⟩)
    · exact hA hc
    · have hbs : readBE bs < 2 ^ (8 * blk.length) := by
        have := readBytes_lt .big bs
        rwa [hl] at this
      have hn := hA (canHold_iff.2 ⟨_, hbs, hx⟩)
      have he := isNumber_unique hnd hlt hbs hn hx h0
      have hlen : bs.length = blk.length := by omega
      have hpal : blk.reverse = blk := by
        cases en with
        | big => rw [readBE_inj hlen.symm he, hr]
        | little =>
          have := readBE_inj (a := blk.reverse) (by simpa using hlen.symm) he
          rw [← List.reverse_reverse blk, this, hr, hr]
      rw [(readBytes_eq_iff en en' blk).2 (.inr hpal)]
      exact hn

/-- Which leaves have their values in blocks one after the other. -/
theorem blocks_either {ds : List Def} (hs : Sized ds) {en : Endian} {pre post : List (List Member)}
    {fixed : List (Member × Leaf)} {blocks : List (List UInt8)} (little : Member → Bool)
    (hpre : All2 (fun path f => path.getLast? = some f.1 ∧ (∀ v, FixedTo path v → v = f.2) ∧
      FileLeafIn ds f.1 f.2) pre fixed)
    (hpost : ∀ path ∈ post, ∀ v, ¬ FixedTo path v)
    (hblocks : All2 (fun f blk => ReadsAs ds en f blk ∧
      (∀ t, Elementary ds f.1.type t → LeafSize t (8 * blk.length)) ∧
      ∀ x y, (f.1.type.name = "REAL" ∨ f.1.type.name = "Float" ∨ f.1.type.name = "Double") →
        Elementary ds f.1.type (.plain "REAL" (some x) (some y)) →
        (blk.length = 4 ∧ RealBlock 8 23 en f.2 blk) ∨ (blk.length = 8 ∧ RealBlock 11 52 en f.2 blk)) fixed blocks)
    (done : List UInt8)
    (path : List Member) (m : Member) (pos w : Nat) (hat : LeafAt ds (pre ++ post) path m pos w)
    (v : Leaf) (hv : FixedTo path v) :
    HasIn ds (done ++ blocks.flatten) (8 * done.length + pos) w (little m) m.type (leafNum v) ↔
      ((little m = true ↔ en = .little) ∧ CanHold ds w m.type (leafNum v)) ∨
      SameReversed ds w m.type (leafNum v) := by
  induction hpre generalizing blocks done path m pos w with
  | nil => exact absurd hv (hpost path (leafAt_mem hat) v)
  | @cons p f pre fixed h1 _ ih =>
    cases hblocks with
    | @cons _ blk _ blocks k1 k2 =>
      obtain ⟨hlast, huniq, hel⟩ := h1
      have hw : ∀ {m' : Member} {a : Nat}, p.getLast? = some m' → Size ds (.members [m']) a →
          m' = f.1 ∧ a = 8 * blk.length := by
        intro m' a g1 g2
        rw [hlast] at g1
        cases g1
        refine ⟨rfl, ?_⟩
        rcases hel with ⟨lo, hi, hel⟩ | ⟨⟨lo, hi, hel⟩, _⟩
        · have hg : GrammarType (intType lo hi) := .integerRange
          have := leafSize_unique hg (by intro e len h; simp [intType] at h) (size_elementary hs.nodup hel g2)
            (k1.2.1 _ hel)
          omega
        · have hg : GrammarType (realType (.flt lo) (.flt hi)) := .realRange rfl rfl
          have := leafSize_unique hg (by intro e len h; simp [realType] at h) (size_elementary hs.nodup hel g2)
            (k1.2.1 _ hel)
          omega
      rw [List.cons_append] at hat
      rw [List.flatten_cons]
      cases hat with
      | here q1 q2 =>
        obtain ⟨rfl, rfl⟩ := hw q1 q2
        rw [huniq v hv]
        have hin : HasIn ds (done ++ (blk ++ blocks.flatten)) (8 * done.length + 0) (8 * blk.length) (little f.1)
            f.1.type (leafNum f.2) ↔ IsNumber ds (8 * blk.length) f.1.type (leafNum f.2)
              (readBytes (if little f.1 then .little else .big) blk) := by
          unfold HasIn
          rw [Nat.add_zero, itemBits_block]
          simp
        rw [hin]
        refine block_either hs.nodup en (little f.1) (fun hfl => ?_) fun hc => ?_
        · rcases hel with ⟨lo, hi, hel⟩ | ⟨_, _, q, hq, hne⟩
          · have hty := elementary_itemType hel
            split at hty
            · exact absurd (itemType_unique hs.nodup hty hfl) (by decide)
            · exact absurd (itemType_unique hs.nodup hty hfl) (by decide)
          · rw [hq]
            intro h
            exact hne (Option.some.inj h)
        · rcases hel with ⟨lo, hi, hel⟩ | ⟨⟨lo, hi, hel⟩, hn, q, hq, _⟩
          · rw [reads_decode k1.1 hel]
            have hty := elementary_itemType hel
            unfold decode
            split at hty
            · rename_i hneg
              simp only [hneg, decide_true, if_true]
              exact .inr (.inl ⟨hty, rfl⟩)
            · rename_i hneg
              simp only [hneg, decide_false, Bool.false_eq_true, if_false]
              exact .inl ⟨hty, rfl⟩
          · have hfl := elementary_float hel
            obtain ⟨k, _, hk⟩ := canHold_iff.1 hc
            rw [isNumber_real hs.nodup hfl] at hk ⊢
            obtain ⟨q', e1, e2⟩ := hk
            refine ⟨q', e1, ?_⟩
            rcases k1.2.2 _ _ hn hel with ⟨hlen, hblk⟩ | ⟨hlen, hblk⟩
            · rw [hlen] at e2 ⊢
              exact realBlock_exact hblk e1 e2
            · rw [hlen] at e2 ⊢
              exact realBlock_exact hblk e1 e2
      | @later _ _ _ m' _ pos' _ a q1 q2 q3 =>
        obtain ⟨rfl, rfl⟩ := hw q1 q2
        have e2 := ih k2 (done ++ blk) path m pos' w q3 hv
        rw [List.append_assoc, List.length_append, Nat.mul_add, Nat.add_assoc] at e2
        exact e2

/-- COSMOS takes the binary file of such a sequence for the packet of the sequence exactly under `P`. -/
def OwnIn (P : List Def → Endian → List (List Member) → Prop) : Prop :=
  ∀ (fuel fuel' : Nat) (p : Printer) (raw : List Module) (cfg : List String) (b : Bundle) (en : Endian)
    (module : String) (messages : List String) (target out out' : Text) (fs : Files), Input raw cfg b →
    Faithful p → OneLine p → IsTarget target → NaturalSizes b.defs →
    (runCosmos fuel p raw module messages target out).result = .ok () →
    (runBinary fuel' (some en) raw cfg out').result = .ok () →
    ∀ (n : String) (c : Option Comment) (ms : List Member), Def.seq n c ms ∈ b.defs →
    ∀ x, fixedMembers (.seq n c ms) = [x] → ∀ pre post, NumbersFirst b.defs ms x pre post →
    ∃ bytes t, HasBytes ((runBinary fuel' (some en) raw cfg out').apply fs) (binPath out' (.seq n c ms)) bytes ∧
      (∀ fs, Adds fs ((runCosmos fuel p raw module messages target out).apply fs) (cosmosPath out target) t) ∧
      Describes b module target (fun ms' items => ms' = ms →
        (Accepts p bytes 0 items ↔ P b.defs en (pre ++ post))) messages t

/-- Full statement of C102 for binary files: COSMOS takes files of either byte order for their packets. -/
def C102_full : Prop := OwnIn fun _ _ _ => True

/-- **C102 (binary files), partial.** COSMOS takes the binary file of a sequence for the packet of the sequence exactly
if each fixed member can have its value without rounding and is marked as little endian when the file is, and only then,
except for values whose bytes are the same in both orders. Missing: sequences other than those of `NumbersFirst`. -/
theorem C102_binary_partial : OwnIn MarkedExact := by
  intro fuel fuel' p raw cfg b en module messages target out out' fs hin hp ho ht hnat hr hrb n c ms hd x hx pre post hff
  have hsrc := sources_of_input hin
  have hs := accepted_sized hsrc
  have hbt := buildFromTexts_of_config hin.accepted
  obtain ⟨x', blocks, e1, ⟨fixed, h2, h3⟩, h1⟩ := bin_exists hin.grammar hin.accepted hrb hd
    (by intro h; rw [h] at hx; cases hx) fs
  rw [hx] at e1
  cases e1
  have hgm := fixes_grammar (fun d hd => (accepted_grammar hin.grammar hbt d hd).1) h2
  have h3 : All2 (fun f blk => ReadsAs b.defs en f blk ∧
      (∀ t, Elementary b.defs f.1.type t → LeafSize t (8 * blk.length)) ∧
      ∀ x y, (f.1.type.name = "REAL" ∨ f.1.type.name = "Float" ∨ f.1.type.name = "Double") →
        Elementary b.defs f.1.type (.plain "REAL" (some x) (some y)) →
        (blk.length = 4 ∧ RealBlock 8 23 en f.2 blk) ∨ (blk.length = 8 ∧ RealBlock 11 52 en f.2 blk)) fixed blocks :=
    h3.imp_mem fun f hf blk hpk => ⟨fun lo hi ht => (by
        obtain ⟨i, k1, k2, _⟩ := packed_int hin.grammar hbt (hgm f hf).2.1 hpk ht
        rw [k1, k2]), fun t ht => packed_width hin.grammar hbt (hgm f hf).2.1 hpk ht,
      fun x y hn ht => packed_real hin.grammar hbt (hgm f hf).2.1 hpk hn ht⟩
  obtain ⟨t, h4, h5⟩ := cosmos_matchInfos fuel p raw b module messages target out hsrc hp ho ht hnat hr
  refine ⟨_, t, h1, h4, h5.imp fun n' pkt ⟨k1, k2, ms', k3, k4⟩ => ⟨k1, k2, ms', k3, ?_⟩⟩
  rintro rfl
  obtain ⟨ls, hl', h⟩ := k4
  cases leaves_unique hs.nodup hff.leaves hl'
  have hall := h hff.flat hff.clear fun path hpath m hm hor => by
    rcases List.mem_append.1 hpath with hpath' | hpath'
    · exact hff.matchable path hpath' m hm
    · rcases hor with ⟨v, hv⟩ | hb
      · exact absurd hv (hff.rest path hpath' v)
      · exact absurd hb (hff.noBoolean path hpath m hm)
  rw [accepts_iff hall]
  have huniq : ∀ path ∈ pre ++ post, ∀ v v', FixedTo path v → FixedTo path v' → v = v' := by
    intro path hpath v v' hv hv'
    obtain ⟨it, _, m, _, w, _, _, _, hf⟩ := all2_mem_left hall hpath
    rcases hf with ⟨_, hf, _⟩ | ⟨_, x, _, ⟨v0, _, hf, _⟩ | ⟨hf, _⟩⟩
    · exact absurd hv (hf v)
    · rw [hf v hv, hf v' hv']
    · exact absurd hv (hf v)
  have hkey := blocks_either hs isLittle ((hff.first fixed h2).imp_mem fun path hpath f ⟨q1, q2, q3⟩ =>
      ⟨q1, fun v hv => huniq path (List.mem_append_left _ hpath) v _ hv q2, q3⟩) hff.rest h3 []
  constructor
  · intro hg path m pos w hat v hv
    exact (hkey path m pos w hat v hv).1 ((hg path m pos w hat).1 v hv)
  · intro hg path m pos w hat
    refine ⟨fun v hv => ?_, fun hb => absurd hb (hff.noBoolean path (leafAt_mem hat) m (leafAt_last hat))⟩
    exact (hkey path m pos w hat v hv).2 (hg path m pos w hat v hv)

/-! ### Examples -/

def exWaveTag (l : Bool) : Member := ⟨"tag", realType (.flt (-1)) (.flt 1), if l then some ⟨"", "", true⟩ else none, none⟩
def exWaveId (l : Bool) : Member :=
  ⟨"id", .plain (if l then "Mark" else "Tag") none none, none, some (.leaf "tag" (.flt (.flt (1 / 2))) .nil)⟩

/-- Two messages recognised by the real 0.5, one of them with it marked as little endian. -/
def exWavesModule : Module :=
  { name := "waves", defs := [
      .seq "Tag" none [exWaveTag false],
      .seq "Mark" none [exWaveTag true],
      .seq "Plain" none [exWaveId false, exCount],
      .seq "Swapped" none [exWaveId true, exCount]] }

def exWaves : List Module := [exWavesModule]

theorem exWaves_input : Input exWaves ["waves"] (okBundle (buildFromConfig exWaves ["waves"])) :=
  input_of (by decide +kernel) (by decide +kernel) (by decide +kernel)

theorem exWaves_defs : (okBundle (buildFromConfig exWaves ["waves"])).defs = exWavesModule.defs := by decide +kernel

theorem exWaves_simple {n : String} {c : Option Comment} {t : AType} (h : Def.simple n c t ∈ exWavesModule.defs) :
    False := by
  simp [exWavesModule] at h

theorem exWaves_leaf {m : Member} (hm : (∃ l, m = exWaveTag l) ∨ m = exCount) (n : String) (inner : List Member)
    (hu : UsesName m.type n) : ¬ IsSequence exWavesModule.defs n inner := by
  rw [usesName_iff] at hu
  have hn : n = "REAL" ∨ n = "INTEGER" := by
    rw [← hu]
    rcases hm with ⟨l, rfl⟩ | rfl
    · exact .inl rfl
    · exact .inr rfl
  rintro ⟨c, hs⟩
  simp only [exWavesModule, List.mem_cons, Def.seq.injEq, List.not_mem_nil, or_false] at hs
  rcases hn with rfl | rfl <;> rcases hs with hs | hs | hs | hs <;> exact absurd hs.1 (by decide)

theorem exWaves_tags (l : Bool) : IsSequence exWavesModule.defs (if l then "Mark" else "Tag") [exWaveTag l] := by
  cases l
  · exact ⟨none, List.mem_of_getElem? (i := 0) rfl⟩
  · exact ⟨none, List.mem_of_getElem? (i := 1) rfl⟩

theorem exWaves_leaves (l : Bool) :
    Leaves exWavesModule.defs [exWaveId l, exCount] ([[exWaveId l, exWaveTag l]] ++ [[exCount]]) :=
  Leaves.seq (m := exWaveId l) (n := if l then "Mark" else "Tag") .plain (exWaves_tags l)
    (.leaf (exWaves_leaf (.inl ⟨l, rfl⟩)) .nil) (.leaf (exWaves_leaf (.inr rfl)) .nil)

theorem exWaves_members {d : Def} (hd : d ∈ exWavesModule.defs) {m : Member} (hm : m ∈ d.members) :
    (∃ l, m = exWaveTag l) ∨ m = exCount ∨ ∃ l, m = exWaveId l := by
  simp only [exWavesModule, List.mem_cons, List.not_mem_nil, or_false] at hd
  rcases hd with rfl | rfl | rfl | rfl <;> simp only [Def.members, List.mem_cons, List.not_mem_nil, or_false] at hm
  · exact .inl ⟨_, hm⟩
  · exact .inl ⟨_, hm⟩
  · rcases hm with rfl | rfl
    · exact .inr (.inr ⟨_, rfl⟩)
    · exact .inr (.inl rfl)
  · rcases hm with rfl | rfl
    · exact .inr (.inr ⟨_, rfl⟩)
    · exact .inr (.inl rfl)

theorem exWaves_type {m : Member} (h : (∃ l, m = exWaveTag l) ∨ m = exCount ∨ ∃ l, m = exWaveId l) :
    ∃ n lo hi, m.type = .plain n lo hi := by
  rcases h with ⟨l, rfl⟩ | rfl | ⟨l, rfl⟩ <;> exact ⟨_, _, _, rfl⟩

theorem exWaves_natural : NaturalSizes exWavesModule.defs := by
  intro d hd
  refine ⟨fun m hm h => ?_, fun n c t h => (exWaves_simple (h ▸ hd)).elim⟩
  obtain ⟨_, _, _, h'⟩ := exWaves_type (exWaves_members hd hm)
  rw [h'] at h
  cases h

theorem exWaves_separate : Separate exWavesModule.defs := by
  rintro n ms ⟨c, hd⟩ m hm cs hcs t _
  simp only [exWavesModule, List.mem_cons, Def.seq.injEq, List.not_mem_nil, or_false] at hd
  rcases hd with ⟨_, _, rfl⟩ | ⟨_, _, rfl⟩ | ⟨_, _, rfl⟩ | ⟨_, _, rfl⟩ <;>
    simp only [List.mem_cons, List.not_mem_nil, or_false] at hm
  · subst hm; cases hcs
  · subst hm; cases hcs
  · rcases hm with rfl | rfl <;> cases hcs <;> exact ⟨by decide, trivial⟩
  · rcases hm with rfl | rfl <;> cases hcs <;> exact ⟨by decide, trivial⟩

theorem exWaves_boolean {m : Member} (hm : (∃ l, m = exWaveTag l) ∨ m = exCount) :
    ¬ IsBoolean exWavesModule.defs m.type := by
  rintro (h | ⟨n, c, t, _, h, _⟩)
  · rw [usesName_iff] at h
    rcases hm with ⟨l, rfl⟩ | rfl
    · exact absurd h (by show "REAL" ≠ _; decide)
    · exact absurd h (by show "INTEGER" ≠ _; decide)
  · exact exWaves_simple h

theorem exWaves_elementary (l : Bool) : Elementary exWavesModule.defs (exWaveTag l).type (realType (.flt (-1)) (.flt 1)) :=
  .direct (by decide)

theorem exWaves_fixed {l : Bool} {v : Leaf} (h : FixedTo [exWaveId l, exWaveTag l] v) : v = .flt (.flt (1 / 2)) := by
  rcases fixedTo_cons.1 h with ⟨c, hc, hf⟩ | h
  · cases hc
    simp only [List.map_cons, List.map_nil] at hf
    generalize hks : [(exWaveTag l).key] = ks at hf
    cases hf with
    | here => rfl
    | afterLeaf hf => cases hf
  · rcases fixedTo_cons.1 h with ⟨c, hc, _⟩ | h
    · cases hc
    · exact (fixedTo_nil h).elim

theorem exWaves_fixes (l : Bool) (fixed : List (Member × Leaf))
    (h : Fixes exWavesModule.defs (if l then "Mark" else "Tag") (.leaf "tag" (.flt (.flt (1 / 2))) .nil) fixed) :
    fixed = [(exWaveTag l, .flt (.flt (1 / 2)))] := by
  have hid : ∀ {ms}, IsSequence exWavesModule.defs (if l then "Mark" else "Tag") ms → ms = [exWaveTag l] := by
    rintro ms ⟨c, h⟩
    simp only [exWavesModule, List.mem_cons, Def.seq.injEq, List.not_mem_nil, or_false] at h
    cases l <;> rcases h with h | h | h | h
    · exact h.2.2
    · exact absurd h.1 (by decide)
    · exact absurd h.1 (by decide)
    · exact absurd h.1 (by decide)
    · exact absurd h.1 (by decide)
    · exact h.2.2
    · exact absurd h.1 (by decide)
    · exact absurd h.1 (by decide)
  generalize hc : Comps.leaf "tag" (.flt (.flt (1 / 2))) .nil = c at h
  cases h with
  | nil => cases hc
  | node => cases hc
  | @leaf _ ms m v rest l k1 k2 k3 =>
    rw [Comps.leaf.injEq] at hc
    obtain ⟨_, rfl, rfl⟩ := hc
    rw [hid k1] at k2
    rw [List.mem_singleton.1 k2]
    cases k3
    rfl

theorem exWaves_first (l : Bool) {n : String} (hd : Def.seq n none [exWaveId l, exCount] ∈ exWavesModule.defs) :
    NumbersFirst exWavesModule.defs [exWaveId l, exCount] (exWaveId l, .leaf "tag" (.flt (.flt (1 / 2))) .nil)
      [[exWaveId l, exWaveTag l]] [[exCount]] where
  flat := by
    intro path hp m hm
    obtain ⟨d, hd, hmd⟩ := reached_member (leaves_reached (exWaves_leaves l) path hp m hm) fun m hm => ⟨_, hd, hm⟩
    have hna : ∀ e len, m.type ≠ .arr e len := by
      intro e len h
      obtain ⟨_, _, _, h'⟩ := exWaves_type (exWaves_members hd hmd)
      rw [h] at h'
      cases h'
    exact ⟨fun _ _ _ _ h => (exWaves_simple h).elim, fun e len h => absurd h (hna e len),
      fun e len h => absurd h (hna e len), fun e len h => absurd h (hna e len)⟩
  leaves := exWaves_leaves l
  clear := exWaves_separate.clear (exWaves_leaves l) [exWaveId l, exCount] n ⟨none, hd⟩ fun _ h => h
  matchable := by
    intro path hp m hm
    rcases List.mem_singleton.1 hp with rfl
    cases hm
    refine ⟨fun e len h => (by simp [exWaveTag, realType] at h), fun v hv => ?_,
      .inr ⟨elementary_float (exWaves_elementary l), fun v hv => ?_⟩⟩
    · rw [exWaves_fixed hv]
      exact ⟨⟨fun h => absurd h (exWaves_boolean (.inl ⟨l, rfl⟩)), fun ⟨b, h⟩ => (by cases h)⟩,
        fun h => absurd h (by show "tag" ≠ _; decide)⟩
    · rw [exWaves_fixed hv]
      exact ⟨_, rfl⟩
  first := by
    intro fixed hf
    rw [exWaves_fixes l fixed hf]
    exact .cons ⟨rfl, ⟨[], exWaveId l, [exWaveTag l], _, rfl, rfl, .here⟩,
      .inr ⟨⟨_, _, exWaves_elementary l⟩, .inl rfl, _, rfl, by decide +kernel⟩⟩ .nil
  rest := by
    intro path hp v hv
    rcases List.mem_singleton.1 hp with rfl
    rcases fixedTo_cons.1 hv with ⟨c, hc, _⟩ | h
    · cases hc
    · exact (fixedTo_nil h).elim
  noBoolean := by
    intro path hp m hm
    simp only [List.cons_append, List.nil_append, List.mem_cons, List.not_mem_nil, or_false] at hp
    rcases hp with rfl | rfl <;> cases hm
    · exact exWaves_boolean (.inl ⟨l, rfl⟩)
    · exact exWaves_boolean (.inr rfl)

theorem exWaves_size {l : Bool} {w : Int} (h : Size exWavesModule.defs (.members [exWaveTag l]) w) : w = 32 := by
  have hg : GrammarType (realType (.flt (-1)) (.flt 1)) := .realRange rfl rfl
  exact leafSize_unique hg (by intro e len h; simp [realType] at h)
    (size_elementary (by decide) (exWaves_elementary l) h)
    ((leafSize_iff hg (by intro e len h; simp [realType] at h) 32).1 (by decide +kernel))

theorem exWaves_marked (l : Bool) : MarkedExact exWavesModule.defs (if l then .little else .big)
    ([[exWaveId l, exWaveTag l]] ++ [[exCount]]) := by
  intro path m pos w hat v hv
  left
  rw [List.cons_append] at hat
  cases hat with
  | here h1 h2 =>
    cases h1
    have := exWaves_size h2
    obtain rfl : w = 32 := by omega
    refine ⟨by cases l <;> decide, ?_⟩
    rw [exWaves_fixed hv]
    exact .inr (.inr ⟨elementary_float (exWaves_elementary l), _, rfl, 0x3f000000, by decide, by decide +kernel⟩)
  | later _ _ hat =>
    cases hat with
    | here h1 _ =>
      cases h1
      rcases fixedTo_cons.1 hv with ⟨c, hc, _⟩ | h
      · cases hc
      · exact (fixedTo_nil h).elim
    | later _ _ hat => cases hat

/-- The little endian file of `Plain` has a real that is not marked. -/
theorem exWaves_unmarked : ¬ MarkedExact exWavesModule.defs .little ([[exWaveId false, exWaveTag false]] ++ [[exCount]]) := by
  intro h
  have hel := exWaves_elementary false
  have hfl := elementary_float hel
  have hnd : (exWavesModule.defs.map Def.name).Nodup := by decide
  have hg : GrammarType (realType (.flt (-1)) (.flt 1)) := .realRange rfl rfl
  have hsz : Size exWavesModule.defs (.members [exWaveTag false]) (32 : Nat) := by
    refine .leaf (a := 32) (v := 0) (fun n lo hi h => ?_)
      ((leafSize_iff hg (by intro e len h; simp [realType] at h) 32).1 (by decide +kernel)) .nil
    cases h
    decide
  rcases h [exWaveId false, exWaveTag false] (exWaveTag false) 0 32 (.here rfl hsz) (.flt (.flt (1 / 2)))
      ⟨[], exWaveId false, [exWaveTag false], _, rfl, rfl, .here⟩ with ⟨h, _⟩ | ⟨bs, h1, h2, h3⟩
  · exact absurd (h.2 rfl) (by decide)
  · have hlt : readBE bs < 2 ^ 32 := by
      have := readBytes_lt .big bs
      rwa [h1] at this
    have h4 := isNumber_unique hnd hlt (by decide) h3
      ((isNumber_real hnd hfl (n := 0x3f000000)).2 ⟨_, rfl, by decide +kernel⟩) fun _ h => absurd h (by decide +kernel)
    have h5 := readBE_inj (a := bs) (b := [0x3f, 0, 0, 0]) (by simp only [List.length_cons, List.length_nil]; omega)
      (by rw [h4]; decide)
    rw [h5] at h2
    exact absurd h2 (by decide)

/-- It fails: the little endian file of `Plain` is the bytes 0, 0, 0 and 63, and COSMOS reads the last one first. -/
theorem C102_full_false : ¬ C102_full := by
  intro hf
  have hds := exWaves_defs
  have hd : Def.seq "Plain" none [exWaveId false, exCount] ∈ exWavesModule.defs := List.mem_of_getElem? (i := 2) rfl
  have key : ∀ P, OwnIn P → ∃ bytes t,
      HasBytes ((runBinary 20 (some .little) exWaves ["waves"] exOut).apply fun _ => none)
        (binPath exOut (.seq "Plain" none [exWaveId false, exCount])) bytes ∧
      (∀ fs, Adds fs ((runCosmos 20 exPrinter exWaves "waves" ["Plain"] "SAT".toList exOut).apply fs)
        (cosmosPath exOut "SAT".toList) t) ∧
      Describes (okBundle (buildFromConfig exWaves ["waves"])) "waves" "SAT".toList
        (fun ms items => ms = [exWaveId false, exCount] → (Accepts exPrinter bytes 0 items ↔
          P exWavesModule.defs .little ([[exWaveId false, exWaveTag false]] ++ [[exCount]]))) ["Plain"] t := by
    intro P hP
    have := hP 20 20 exPrinter exWaves ["waves"] _ .little "waves" ["Plain"]
      "SAT".toList exOut exOut (fun _ => none) exWaves_input exPrinter_faithful exPrinter_oneLine exTlm_target
      (by rw [hds]; exact exWaves_natural) (by decide +kernel) (by decide +kernel)
      "Plain" none [exWaveId false, exCount] (by rw [hds]; exact hd) _ rfl _ _ (by rw [hds]; exact exWaves_first false hd)
    rw [← hds]
    exact this
  obtain ⟨bytes, t, h1, h2, h3⟩ := key _ hf
  obtain ⟨bytes', t', h1', h2', h3'⟩ := key _ C102_binary_partial
  have e1 : bytes = bytes' := by rw [← fileBytes_eq h1, ← fileBytes_eq h1']
  have e2 : t = t' := by rw [← newText_eq h2, ← newText_eq h2']
  subst e1 e2
  unfold Describes at h3 h3'
  generalize readCosmos t = pkts at h3 h3'
  cases h3 with
  | cons h _ =>
    cases h3' with
    | cons h' _ =>
      obtain ⟨_, _, ms, hms, hid⟩ := h
      obtain ⟨_, _, ms', hms', hid'⟩ := h'
      have hid := hid (message_eq (sources_of_input exWaves_input) hms (by rw [hds]; exact hd))
      have hid' := hid' (message_eq (sources_of_input exWaves_input) hms' (by rw [hds]; exact hd))
      exact exWaves_unmarked (hid'.1 (hid.2 trivial))

/-- The little endian file of `Swapped` has the same bytes and is taken for the packet `Swapped`. -/
example : ∃ t, fileBytes ((runBinary 20 (some .little) exWaves ["waves"] exOut).apply fun _ => none)
      (binPath exOut (.seq "Swapped" none [exWaveId true, exCount])) = [0, 0, 0, 63] ∧
    Describes (okBundle (buildFromConfig exWaves ["waves"])) "waves" "SAT".toList
      (fun ms items => ms = [exWaveId true, exCount] → Accepts exPrinter [0, 0, 0, 63] 0 items) ["Plain", "Swapped"] t := by
  have hds := exWaves_defs
  have hd : Def.seq "Swapped" none [exWaveId true, exCount] ∈ exWavesModule.defs := List.mem_of_getElem? (i := 3) rfl
  obtain ⟨bytes, t, h1, _, h3⟩ := C102_binary_partial 20 20 exPrinter exWaves ["waves"] _ .little "waves"
    ["Plain", "Swapped"]
    "SAT".toList exOut exOut (fun _ => none) exWaves_input exPrinter_faithful exPrinter_oneLine exTlm_target
    (by rw [hds]; exact exWaves_natural) (by decide +kernel) (by decide +kernel)
    "Swapped" none [exWaveId true, exCount] (by rw [hds]; exact hd) _ rfl _ _ (by rw [hds]; exact exWaves_first true hd)
  have hb := fileBytes_eq h1
  have : fileBytes ((runBinary 20 (some .little) exWaves ["waves"] exOut).apply fun _ => none)
    (binPath exOut (.seq "Swapped" none [exWaveId true, exCount])) = [0, 0, 0, 63] := by decide +kernel
  rw [this] at hb
  subst hb
  refine ⟨t, this, h3.imp fun n pkt ⟨k1, k2, ms, k3, k4⟩ => ⟨k1, k2, ms, k3, fun e => (k4 e).2 ?_⟩⟩
  rw [hds]
  exact exWaves_marked true

/-- Received data with the bytes 0, 0, 0 and 63 and two more are taken for `Swapped`, which needs the real 0.5 in little
endian order, and not if the first byte is another. -/
example : ∃ t, (∀ fs, Adds fs ((runCosmos 20 exPrinter exWaves "waves" ["Swapped"] "SAT".toList exOut).apply fs)
        (cosmosPath exOut "SAT".toList) t) ∧
    Describes (okBundle (buildFromConfig exWaves ["waves"])) "waves" "SAT".toList
      (fun ms items => ms = [exWaveId true, exCount] →
        Accepts exPrinter [0, 0, 0, 63, 1, 2] 0 items ∧ ¬ Accepts exPrinter [1, 0, 0, 63, 1, 2] 0 items) ["Swapped"] t := by
  have hds := exWaves_defs
  have hnd : (exWavesModule.defs.map Def.name).Nodup := by decide
  have hd : Def.seq "Swapped" none [exWaveId true, exCount] ∈ exWavesModule.defs := List.mem_of_getElem? (i := 3) rfl
  have hff := exWaves_first true hd
  obtain ⟨t, h2, h3⟩ := C102_identified_partial 20 exPrinter exWaves _ "waves" ["Swapped"]
    "SAT".toList exOut (sources_of_input exWaves_input) exPrinter_faithful exPrinter_oneLine exTlm_target
    (by rw [hds]; exact exWaves_natural) (by decide +kernel)
  refine ⟨t, h2, h3.imp fun n pkt ⟨k1, k2, ms, k3, k4⟩ => ⟨k1, k2, ms, k3, ?_⟩⟩
  rintro rfl
  rw [hds] at k4
  obtain ⟨ls, hl, h⟩ := k4
  cases leaves_unique hnd hff.leaves hl
  have hrest : ∀ {v}, ¬ FixedTo [exCount] v := fun {v} hv => hff.rest _ (List.mem_singleton.2 rfl) v hv
  have hat : ∀ {path m pos w}, LeafAt exWavesModule.defs ([[exWaveId true, exWaveTag true]] ++ [[exCount]]) path m pos w →
      (path = [exWaveId true, exWaveTag true] ∧ m = exWaveTag true ∧ pos = 0 ∧ w = 32) ∨ path = [exCount] := by
    intro path m pos w hat
    rw [List.cons_append] at hat
    cases hat with
    | here h1 h2 =>
      cases h1
      have := exWaves_size h2
      exact .inl ⟨rfl, rfl, rfl, by omega⟩
    | later _ _ hat =>
      cases hat with
      | here h1 h2 => exact .inr rfl
      | later _ _ hat => cases hat
  have hnb : ∀ {path m pos w}, LeafAt exWavesModule.defs ([[exWaveId true, exWaveTag true]] ++ [[exCount]]) path m pos w →
      ¬ IsBoolean exWavesModule.defs m.type := fun h => hff.noBoolean _ (leafAt_mem h) _ (leafAt_last h)
  have h := h hff.flat hff.clear (fun path hpath m hm hor => by
      rcases List.mem_append.1 hpath with hp | hp
      · exact hff.matchable path hp m hm
      · rcases hor with ⟨v, hv⟩ | hb
        · exact absurd hv (hff.rest path hp v)
        · exact absurd hb (hff.noBoolean path hpath m hm)) (by
      intro path m pos w hx _ hor
      rcases hat hx with ⟨_, _, rfl, rfl⟩ | rfl
      · exact ⟨rfl, rfl⟩
      · rcases hor with ⟨v, hv⟩ | hb
        · exact absurd hv hrest
        · exact absurd hb (hnb hx))
  have hfl := elementary_float (exWaves_elementary true)
  rw [h, h]
  constructor
  · refine ⟨fun path m pos w hx v hv => ?_, fun path m pos w hx hb => absurd hb (hnb hx)⟩
    rcases hat hx with ⟨rfl, rfl, rfl, rfl⟩ | rfl
    · rw [exWaves_fixed hv]
      exact ⟨0x3f000000, by decide +kernel, (isNumber_real hnd hfl).2 ⟨_, rfl, by decide +kernel⟩⟩
    · exact absurd hv hrest
  · rintro ⟨hc, _⟩
    have hsz : Size exWavesModule.defs (.members [exWaveTag true]) (32 : Nat) := by
      have hg : GrammarType (realType (.flt (-1)) (.flt 1)) := .realRange rfl rfl
      refine .leaf (a := 32) (v := 0) (fun n lo hi h => ?_)
        ((leafSize_iff hg (by intro e len h; simp [realType] at h) 32).1 (by decide +kernel)) .nil
      cases h
      decide
    obtain ⟨n, e1, e2⟩ := hc [exWaveId true, exWaveTag true] (exWaveTag true) 0 32 (.here rfl hsz) (.flt (.flt (1 / 2)))
      ⟨[], exWaveId true, [exWaveTag true], _, rfl, rfl, .here⟩
    rw [show itemBits [1, 0, 0, 63, 1, 2] 0 32 (isLittle (exWaveTag true)) = some 0x3f000001 by decide +kernel] at e1
    cases e1
    obtain ⟨q, e3, e4⟩ := (isNumber_real hnd hfl).1 e2
    cases e3
    exact absurd e4 (by decide +kernel)

end Apg
