import Verif.Lemmas.ApartEither
import Verif.Props.CosmosOther

/-!
# Properties C100 and C101 with members of either byte order
-/

namespace Apg
open Spec

theorem eitherSide_of {p : Printer} {ds : List Def} {ms : List Member} {ls : List (List Member)} {items : List CosmosItem}
    (hnd : (ds.map Def.name).Nodup) (hm : EitherMessage ds ms ls) (h : ∃ ls, Leaves ds ms ls ∧
      ((∀ path ∈ ls, ∀ m, path.getLast? = some m → FlatMember ds m) → (∀ path ∈ ls, Clear ds path) → (∀ path ∈ ls, ∀ m, path.getLast? = some m →
          (∃ v, FixedTo path v) ∨ IsBoolean ds m.type → MatchableIn ds path m) →
        All2 (fun path it => ∃ m, path.getLast? = some m ∧ MatchInfo p ds path m it) ls items)) :
    EitherSide p ds ls items := by
  obtain ⟨l, hl, h⟩ := h
  cases leaves_unique hnd hm.leaves hl
  exact ⟨h hm.flat hm.clear hm.matchable, hm.whole⟩

/-! ### One message -/

/-- COSMOS takes some data for the packet of a message exactly under `P`. -/
def SomeDataIn (P : List Def → List (List Member) → Prop) : Prop :=
  ∀ (fuel : Nat) (p : Printer) (raw : List Module) (b : Bundle)
    (module : String) (messages : List String) (target out : Text), Sources raw b →
    Faithful p → OneLine p → IsTarget target → NaturalSizes b.defs →
    (runCosmos fuel p raw module messages target out).result = .ok () →
    ∃ t, (∀ fs, Adds fs ((runCosmos fuel p raw module messages target out).apply fs) (cosmosPath out target) t) ∧
      Describes b module target (fun ms items => ∀ ls, EitherMessage b.defs ms ls →
        ((∃ data, Accepts p data 0 items) ↔ P b.defs ls)) messages t

/-- **C100 (either byte order), partial.** There are data that COSMOS takes for the packet of a message exactly if each
fixed value is one that its member can have with its number of bits, also if members are marked as little endian.
Missing: messages with values that do not fit, which are accepted; messages with nested arrays or
arrays of BOOLEAN; members that several clauses reach; fixed or BOOLEAN leaves that are arrays or are little endian and not
whole bytes; fixed strings. -/
theorem C100_either_iff_partial : SomeDataIn Possible := by
  intro fuel p raw b module messages target out hi hp ho ht hnat hr
  obtain ⟨t, h1, h2⟩ := cosmos_matchInfos fuel p raw b module messages target out hi hp ho ht hnat hr
  have hnd := (accepted_sized hi).nodup
  refine ⟨t, h1, h2.imp fun n pkt ⟨k1, k2, ms, k3, k4⟩ => ⟨k1, k2, ms, k3, fun ls hm => ?_⟩⟩
  have hs := eitherSide_of hnd hm k4
  constructor
  · rintro ⟨data, h⟩
    exact ((either_data hnd hs hs).1 ⟨data, h, h⟩).1
  · intro hpos
    obtain ⟨data, h, _⟩ := (either_data hnd hs hs).2 ⟨hpos, hpos, agreeIn_self hs hpos⟩
    exact ⟨data, h⟩

/-! ### Two messages -/

/-- For two messages of a file, COSMOS takes some data for the packets of both exactly under `P`, if `Q`. -/
def SharedIn (Q : List Def → List (List Member) → List (List Member) → Prop)
    (P : List Def → List (List Member) → List (List Member) → Prop) : Prop :=
  ∀ (fuel : Nat) (p : Printer) (raw : List Module) (b : Bundle)
    (module : String) (messages : List String) (target out : Text), Sources raw b →
    Faithful p → OneLine p → IsTarget target → NaturalSizes b.defs →
    (runCosmos fuel p raw module messages target out).result = .ok () →
    ∃ t, (∀ fs, Adds fs ((runCosmos fuel p raw module messages target out).apply fs) (cosmosPath out target) t) ∧
      Describes b module target (fun ms items => Describes b module target (fun ms' items' =>
        ∀ ls ls', EitherMessage b.defs ms ls → EitherMessage b.defs ms' ls' → Q b.defs ls ls' →
          ((∃ data, Accepts p data 0 items ∧ Accepts p data 0 items') ↔ P b.defs ls ls')) messages t) messages t

/-- **C101 (either byte order), partial.** COSMOS takes some data for the packets of two messages exactly if data for
each of them exist and their fixed values, each in the byte order of its member, and the zeros of BOOLEANs without fixed
value need no bit to be both set and clear. Missing: messages other than those of `EitherMessage`. -/
theorem C101_either_iff_partial :
    SharedIn (fun _ _ _ => True) fun ds ls ls' => Possible ds ls ∧ Possible ds ls' ∧ AgreeIn ds ls ls' := by
  intro fuel p raw b module messages target out hi hp ho ht hnat hr
  obtain ⟨t, h1, h2⟩ := cosmos_matchInfos fuel p raw b module messages target out hi hp ho ht hnat hr
  have hnd := (accepted_sized hi).nodup
  refine ⟨t, h1, h2.imp fun n pkt ⟨k1, k2, ms, k3, k4⟩ => ⟨k1, k2, ms, k3, h2.imp fun n' pkt' ⟨g1, g2, ms', g3, g4⟩ =>
    ⟨g1, g2, ms', g3, fun ls ls' hm hm' _ => ?_⟩⟩⟩
  exact either_data hnd (eitherSide_of hnd hm k4) (eitherSide_of hnd hm' g4)

/-- **C101 (same header, either byte order), partial.** Two messages whose fixed values are at the same places and in the
same byte orders are told apart exactly by different values of the same member. Missing: messages other than those of
`EitherMessage`; BOOLEANs without fixed value. -/
theorem C101_either_header_iff_partial :
    SharedIn AlignedIn fun ds ls ls' => Possible ds ls ∧ Possible ds ls' ∧ SameNumbers ds ls ls' := by
  intro fuel p raw b module messages target out hi hp ho ht hnat hr
  obtain ⟨t, h1, h2⟩ := cosmos_matchInfos fuel p raw b module messages target out hi hp ho ht hnat hr
  have hnd := (accepted_sized hi).nodup
  refine ⟨t, h1, h2.imp fun n pkt ⟨k1, k2, ms, k3, k4⟩ => ⟨k1, k2, ms, k3, h2.imp fun n' pkt' ⟨g1, g2, ms', g3, g4⟩ =>
    ⟨g1, g2, ms', g3, fun ls ls' hm hm' hal => ?_⟩⟩⟩
  have hs := eitherSide_of hnd hm k4
  have hs' := eitherSide_of hnd hm' g4
  rw [either_data hnd hs hs']
  refine and_congr_right fun e1 => and_congr_right fun e2 => ?_
  constructor
  · intro hag path m path' m' pos w ty v v' a1 a2 a3 a4 hl a5 a6
    obtain ⟨data, d1, d2⟩ := (either_data hnd hs hs').2 ⟨e1, e2, hag⟩
    rw [accepts_has hs] at d1
    rw [accepts_has hs'] at d2
    obtain ⟨x, b1, b2⟩ := (d1 _ _ _ _ a1).1 v a5
    obtain ⟨y, c1, c2⟩ := (d2 _ _ _ _ a2).1 v' a6
    rw [hl, c1] at b1
    cases b1
    exact isNumber_same hnd a3 a4 b2 c2
  · rintro e3 i β β' ⟨path, m, pos, w, k, a1, a2, rfl, a4⟩ ⟨path', m', pos', w', k', b1, b2, he, b4⟩
    rcases a4 with ⟨v, hv, hall⟩ | ⟨hb, hno, _⟩
    · rcases b4 with ⟨v', hv', hall'⟩ | ⟨hb, hno, _⟩
      · have hr := bitPlace_range (pos := pos) (fun hl => (hs.compared a1 (.inl ⟨v, hv⟩) hl).2) a2
        have hr' := bitPlace_range (pos := pos') (fun hl => (hs'.compared b1 (.inl ⟨v', hv'⟩) hl).2) b2
        rw [← he] at hr'
        obtain ⟨rfl, rfl, hl, ty, c1, c2⟩ := hal.places path m pos w path' m' pos' w' v v' _ a1 b1 hv hv' hr hr'
        rw [← hl] at he
        cases bitPlace_inj a2 b2 he
        obtain ⟨x, hx, hnum⟩ := canHold_iff.1 (e1 path m pos w a1 v hv)
        rw [← hall x hx hnum]
        exact hall' x hx (isNumber_transfer hnd c1 c2 (e2 _ _ _ _ b1 v' hv')
          (e3 _ _ _ _ _ _ _ _ _ a1 b1 c1 c2 hl hv hv') hnum)
      · exact absurd hb (hal.noBoolean' path' m' pos' w' b1 hno)
    · exact absurd hb (hal.noBoolean path m pos w a1 hno)

/-! ### Examples -/

theorem exWaves_at {l : Bool} {path : List Member} {m : Member} {pos w : Nat}
    (hat : LeafAt exWavesModule.defs ([[exWaveId l, exWaveTag l]] ++ [[exCount]]) path m pos w) :
    (path = [exWaveId l, exWaveTag l] ∧ m = exWaveTag l ∧ pos = 0 ∧ w = 32) ∨ path = [exCount] := by
  rw [List.cons_append] at hat
  cases hat with
  | here h1 h2 =>
    cases h1
    have := exWaves_size h2
    exact .inl ⟨rfl, rfl, rfl, by omega⟩
  | later _ _ hat =>
    cases hat with
    | here h1 h2 => exact .inr rfl
    | later _ _ hat => cases hat

theorem exWaves_either (l : Bool) {n : String} (hd : Def.seq n none [exWaveId l, exCount] ∈ exWavesModule.defs) :
    EitherMessage exWavesModule.defs [exWaveId l, exCount] ([[exWaveId l, exWaveTag l]] ++ [[exCount]]) :=
  have hff := exWaves_first l hd
  ⟨hff.flat, hff.leaves, hff.clear, fun path hp m hm hor => by
    rcases List.mem_append.1 hp with hp' | hp'
    · exact hff.matchable path hp' m hm
    · rcases hor with ⟨v, hv⟩ | hb
      · exact absurd hv (hff.rest path hp' v)
      · exact absurd hb (hff.noBoolean path hp m hm), fun path m pos w hat _ hor => by
    rcases exWaves_at hat with ⟨_, _, rfl, rfl⟩ | rfl
    · exact ⟨rfl, rfl⟩
    · rcases hor with ⟨v, hv⟩ | hb
      · exact absurd hv (hff.rest _ (List.mem_singleton.2 rfl) v)
      · exact absurd hb (hff.noBoolean _ (leafAt_mem hat) m (leafAt_last hat))⟩

theorem exWaves_possible (l : Bool) {n : String} (hd : Def.seq n none [exWaveId l, exCount] ∈ exWavesModule.defs) :
    Possible exWavesModule.defs ([[exWaveId l, exWaveTag l]] ++ [[exCount]]) := by
  intro path m pos w hat v hv
  rcases exWaves_at hat with ⟨rfl, rfl, rfl, rfl⟩ | rfl
  · rw [exWaves_fixed hv]
    exact .inr (.inr ⟨elementary_float (exWaves_elementary l), _, rfl, 0x3f000000, by decide, by decide +kernel⟩)
  · exact absurd hv ((exWaves_first l hd).rest _ (List.mem_singleton.2 rfl) v)

/-- The third bit of the data must be set for `Plain` and clear for `Swapped`. -/
theorem exWaves_needs (l : Bool) : NeedsIn exWavesModule.defs ([[exWaveId l, exWaveTag l]] ++ [[exCount]]) 2 (!l) := by
  have hnd : (exWavesModule.defs.map Def.name).Nodup := by decide
  have hg : GrammarType (realType (.flt (-1)) (.flt 1)) := .realRange rfl rfl
  have hsz : Size exWavesModule.defs (.members [exWaveTag l]) (32 : Nat) := by
    refine .leaf (a := 32) (v := 0) (fun n lo hi h => ?_)
      ((leafSize_iff hg (by intro e len h; simp [realType] at h) 32).1 (by decide +kernel)) .nil
    cases h
    decide
  refine ⟨[exWaveId l, exWaveTag l], exWaveTag l, 0, 32, if l then 5 else 29, .here rfl hsz, by cases l <;> decide,
    by cases l <;> decide, .inl ⟨.flt (.flt (1 / 2)), ⟨[], exWaveId l, [exWaveTag l], _, rfl, rfl, .here⟩,
      fun n hn hnum => ?_⟩⟩
  have := isNumber_unique hnd hn (by decide) hnum ((isNumber_real hnd (elementary_float (exWaves_elementary l))
    (n := 0x3f000000)).2 ⟨_, rfl, by decide +kernel⟩) fun _ h => absurd h (by decide +kernel)
  rw [this]
  cases l <;> decide

/-- COSMOS takes some data for each of `Plain` and `Swapped`, which has 0.5 in little endian order. -/
example : ∃ t, Describes (okBundle (buildFromConfig exWaves ["waves"])) "waves" "SAT".toList
    (fun ms items => (∃ l, ms = [exWaveId l, exCount]) → ∃ data, Accepts exPrinter data 0 items) ["Plain", "Swapped"] t := by
  have hds := exWaves_defs
  obtain ⟨t, _, h⟩ := C100_either_iff_partial 20 exPrinter exWaves _ "waves" ["Plain", "Swapped"] "SAT".toList exOut
    (sources_of_input exWaves_input) exPrinter_faithful exPrinter_oneLine exTlm_target
    (by rw [hds]; exact exWaves_natural) (by decide +kernel)
  refine ⟨t, h.imp fun n pkt ⟨k1, k2, ms, k3, k4⟩ => ⟨k1, k2, ms, k3, ?_⟩⟩
  rintro ⟨l, rfl⟩
  rw [hds] at k4
  have hd : Def.seq (if l then "Swapped" else "Plain") none [exWaveId l, exCount] ∈ exWavesModule.defs := by
    cases l
    · exact List.mem_of_getElem? (i := 2) rfl
    · exact List.mem_of_getElem? (i := 3) rfl
  exact (k4 _ (exWaves_either l hd)).2 (exWaves_possible l hd)

/-- No data are taken for both. -/
example : ∃ t, Describes (okBundle (buildFromConfig exWaves ["waves"])) "waves" "SAT".toList
    (fun ms items => Describes (okBundle (buildFromConfig exWaves ["waves"])) "waves" "SAT".toList
      (fun ms' items' => ms = [exWaveId false, exCount] → ms' = [exWaveId true, exCount] →
        ¬ ∃ data, Accepts exPrinter data 0 items ∧ Accepts exPrinter data 0 items') ["Plain", "Swapped"] t)
    ["Plain", "Swapped"] t := by
  have hds := exWaves_defs
  obtain ⟨t, _, h⟩ := C101_either_iff_partial 20 exPrinter exWaves _ "waves" ["Plain", "Swapped"] "SAT".toList exOut
    (sources_of_input exWaves_input) exPrinter_faithful exPrinter_oneLine exTlm_target
    (by rw [hds]; exact exWaves_natural) (by decide +kernel)
  refine ⟨t, h.imp fun n pkt ⟨k1, k2, ms, k3, k4⟩ => ⟨k1, k2, ms, k3, k4.imp fun n' pkt' ⟨g1, g2, ms', g3, g4⟩ =>
    ⟨g1, g2, ms', g3, ?_⟩⟩⟩
  rintro rfl rfl hboth
  rw [hds] at g4
  obtain ⟨_, _, hag⟩ := (g4 _ _ (exWaves_either false (n := "Plain") (List.mem_of_getElem? (i := 2) rfl))
    (exWaves_either true (n := "Swapped") (List.mem_of_getElem? (i := 3) rfl)) trivial).1 hboth
  exact absurd (hag 2 _ _ (exWaves_needs false) (exWaves_needs true)) (by decide)

/-- Messages without little endian members are covered. -/
theorem either_of_plain {ds : List Def} {ms : List Member} {ls : List (List Member)} (h : PlainMessage ds ms ls) :
    EitherMessage ds ms ls :=
  ⟨fun path hp m hm => h.flat m (leaves_reached h.leaves path hp m hm), h.leaves, h.clear, fun path hp m hm hor => matchableIn_of (h.matchable path hp m hm hor),
    fun path m pos w hat hl hor => by
      have := (h.matchable path (leafAt_mem hat) m (leafAt_last hat) hor).big
      unfold isLittle at hl
      cases hc : m.comment with
      | none => rw [hc] at hl; cases hl
      | some c => rw [hc] at hl; exact absurd ((this c hc).symm.trans hl) (by decide)⟩

theorem exFrames_alignedIn : AlignedIn exFramesModule.defs ([[exId, exKind], [exId, exLevel]] ++ [[exCount]])
    ([[exFastId, exKind]] ++ [[exFastId, exLevel], [exFew]]) := by
  refine ⟨fun path m pos w path' m' pos' w' v v' i h1 h2 hv hv' hi hi' => ?_, exFrames_aligned.noBoolean,
    exFrames_aligned.noBoolean'⟩
  obtain ⟨e1, e2, e3⟩ := exFrames_aligned.places path m pos w path' m' pos' w' v v' i h1 h2 hv hv' hi hi'
  obtain ⟨rfl, rfl, rfl⟩ := exFrames_fast_at h2 hv'
  exact ⟨e1, e2, exFrames_big (leafAt_mem h1) (leafAt_last h1), e3⟩

/-- No data are taken for both `Slow` and `Fast`: the kinds 7 and 8 differ. -/
example : ∃ t, Describes (okBundle (buildFromConfig exFrames ["frames"])) "frames" "SAT".toList
    (fun ms items => Describes (okBundle (buildFromConfig exFrames ["frames"])) "frames" "SAT".toList
      (fun ms' items' => ms = [exId, exCount] → ms' = [exFastId, exFew] →
        ¬ ∃ data, Accepts exPrinter data 0 items ∧ Accepts exPrinter data 0 items') ["Slow", "Fast"] t)
    ["Slow", "Fast"] t := by
  have hds := exFrames_defs
  obtain ⟨t, _, h⟩ := C101_either_header_iff_partial 20 exPrinter exFrames _ "frames" ["Slow", "Fast"] "SAT".toList exOut
    (sources_of_input exFrames_input) exPrinter_faithful exPrinter_oneLine exTlm_target
    (by rw [hds]; exact exFrames_natural) (by decide +kernel)
  refine ⟨t, h.imp fun n pkt ⟨k1, k2, ms, k3, k4⟩ => ⟨k1, k2, ms, k3, k4.imp fun n' pkt' ⟨g1, g2, ms', g3, g4⟩ =>
    ⟨g1, g2, ms', g3, ?_⟩⟩⟩
  rintro rfl rfl hboth
  rw [hds] at g4
  have hty := elementary_itemType (exFrames_elementary 0 255)
  obtain ⟨_, _, h⟩ := (g4 _ _ (either_of_plain exFrames_slow_plain) (either_of_plain exFrames_fast_plain)
    exFrames_alignedIn).1 hboth
  have := h [exId, exKind] exKind [exFastId, exKind] exKind 0 8 _ (.int 7) (.int 8) (.here rfl exFrames_kind_size)
    (.here rfl exFrames_kind_size) hty hty rfl ⟨[], exId, [exKind], _, rfl, rfl, .here⟩
    ⟨[], exFastId, [exKind], _, rfl, rfl, .here⟩
  exact absurd this (by decide +kernel)

end Apg
