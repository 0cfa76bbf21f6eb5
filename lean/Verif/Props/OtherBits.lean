import Verif.Lemmas.OtherBits
import Verif.Props.ApartEither

/-!
# Property C103 for all messages whose packets can be compared
-/

namespace Apg
open Spec

/-- COSMOS takes the binary file of a sequence, which it takes for the packet of this sequence, for the packet of
another message exactly under `P`. -/
def AnyPacket (P : List Def → List (List Member) → List (List Member) → Prop) : Prop :=
  ∀ (fuel fuel' : Nat) (p : Printer) (raw : List Module) (cfg : List String) (b : Bundle) (en : Endian)
    (module : String) (messages : List String) (target out out' : Text) (fs : Files), Input raw cfg b →
    Faithful p → OneLine p → IsTarget target → NaturalSizes b.defs →
    (runCosmos fuel p raw module messages target out).result = .ok () →
    (runBinary fuel' (some en) raw cfg out').result = .ok () →
    ∀ (n : String) (c : Option Comment) (ms : List Member), Def.seq n c ms ∈ b.defs →
    ∀ x, fixedMembers (.seq n c ms) = [x] → ∀ pre post, NumbersFirst b.defs ms x pre post →
    MarkedExact b.defs en (pre ++ post) →
    ∃ bytes t, HasBytes ((runBinary fuel' (some en) raw cfg out').apply fs) (binPath out' (.seq n c ms)) bytes ∧
      (∀ fs, Adds fs ((runCosmos fuel p raw module messages target out).apply fs) (cosmosPath out target) t) ∧
      Describes b module target (fun ms' items => ∀ ls', EitherMessage b.defs ms' ls' →
        (Accepts p bytes 0 items ↔ P b.defs (pre ++ post) ls')) messages t

/-- **C103 (any fixed members), partial.** COSMOS takes the binary file of a message for the packet of another message
exactly if data for that packet exist, its fixed members and BOOLEANs end within the fixed members of the first, and no
bit must be set for one message and clear for the other. Missing: files that are not taken for the packet of their own
message; messages other than those of `NumbersFirst` and `EitherMessage`. -/
theorem C103_any_iff_partial :
    AnyPacket fun ds ls ls' => Possible ds ls' ∧ EndsWithin ds ls ls' ∧ AgreeIn ds ls ls' := by
  intro fuel fuel' p raw cfg b en module messages target out out' fs hin hp ho ht hnat hr hrb n c ms hd x hx pre post hff
    hmark
  have hsrc := sources_of_input hin
  have hs := accepted_sized hsrc
  have hnd := hs.nodup
  have hbt := buildFromTexts_of_config hin.accepted
  obtain ⟨x', blocks, e1, ⟨fixed, h2, h3⟩, h1⟩ := bin_exists hin.grammar hin.accepted hrb hd
    (by intro h; rw [h] at hx; cases hx) fs
  rw [hx] at e1
  cases e1
  have hgm := fixes_grammar (fun d hd => (accepted_grammar hin.grammar hbt d hd).1) h2
  have h3 := h3.imp_mem (S := fun f blk => ReadsAs b.defs en f blk ∧
      (∀ t, Elementary b.defs f.1.type t → LeafSize t (8 * blk.length)) ∧
      ∀ x y, (f.1.type.name = "REAL" ∨ f.1.type.name = "Float" ∨ f.1.type.name = "Double") →
        Elementary b.defs f.1.type (.plain "REAL" (some x) (some y)) →
        (blk.length = 4 ∧ RealBlock 8 23 en f.2 blk) ∨ (blk.length = 8 ∧ RealBlock 11 52 en f.2 blk))
    fun f hf blk hpk => ⟨fun lo hi ht => (by
        obtain ⟨i, k1, k2, _⟩ := packed_int hin.grammar hbt (hgm f hf).2.1 hpk ht
        rw [k1, k2]), fun t ht => packed_width hin.grammar hbt (hgm f hf).2.1 hpk ht,
      fun x y hn ht => packed_real hin.grammar hbt (hgm f hf).2.1 hpk hn ht⟩
  obtain ⟨t, h4, h5⟩ := cosmos_matchInfos fuel p raw b module messages target out hsrc hp ho ht hnat hr
  refine ⟨_, t, h1, h4, h5.imp fun n' pkt ⟨k1, k2, ms', k3, k4⟩ => ⟨k1, k2, ms', k3, fun ls' hm => ?_⟩⟩
  have hkey := blocks_either hs isLittle ((hff.first fixed h2).imp_mem fun path hpath f ⟨q1, q2, q3⟩ =>
      ⟨q1, fun v hv => fixed_unique hff.leaves n ms ⟨c, hd⟩ (fun _ h => h) path (List.mem_append_left _ hpath)
        (hff.clear path (List.mem_append_left _ hpath)) v _ hv q2, q3⟩) hff.rest h3 []
  refine other_bits hnd (eitherSide_of hnd hm k4) hff.noBoolean (fun path m pos w hat v hv => ?_)
    fun i hi => blocks_cover (hff.first fixed h2) (h3.imp_mem fun f _ blk h => h.2.1) hi
  have := (hkey path m pos w hat v hv).2 (hmark path m pos w hat v hv)
  rwa [List.length_nil, Nat.mul_zero, Nat.zero_add, List.nil_append] at this

/-- COSMOS takes the binary file of a sequence for the packet of any message exactly under `P`. -/
def FilePacket (P : List Def → Endian → List (List Member) → List (List Member) → Prop) : Prop :=
  ∀ (fuel fuel' : Nat) (p : Printer) (raw : List Module) (cfg : List String) (b : Bundle) (en : Endian)
    (module : String) (messages : List String) (target out out' : Text) (fs : Files), Input raw cfg b →
    Faithful p → OneLine p → IsTarget target → NaturalSizes b.defs →
    (runCosmos fuel p raw module messages target out).result = .ok () →
    (runBinary fuel' (some en) raw cfg out').result = .ok () →
    ∀ (n : String) (c : Option Comment) (ms : List Member), Def.seq n c ms ∈ b.defs →
    ∀ x, fixedMembers (.seq n c ms) = [x] → ∀ pre post, NumbersFirst b.defs ms x pre post →
    Possible b.defs (pre ++ post) →
    ∃ bytes t, HasBytes ((runBinary fuel' (some en) raw cfg out').apply fs) (binPath out' (.seq n c ms)) bytes ∧
      (∀ fs, Adds fs ((runCosmos fuel p raw module messages target out).apply fs) (cosmosPath out target) t) ∧
      Describes b module target (fun ms' items => ∀ ls', EitherMessage b.defs ms' ls' →
        (Accepts p bytes 0 items ↔ P b.defs en (pre ++ post) ls')) messages t

/-- **C103 (files in any byte order), partial.** COSMOS takes the binary file of a message for a packet exactly if data
for that packet exist, its fixed members and BOOLEANs end within the fixed members of the message of the file, and the
bits of these members in the byte order of the file are the ones the packet needs. Members need not be marked as the
file has them. Missing: files with reals that are rounded; messages other than those of `NumbersFirst` and
`EitherMessage`. -/
theorem C103_file_iff_partial :
    FilePacket fun ds en ls ls' => Possible ds ls' ∧ EndsWithin ds ls ls' ∧ FileAgrees ds en ls ls' := by
  intro fuel fuel' p raw cfg b en module messages target out out' fs hin hp ho ht hnat hr hrb n c ms hd x hx pre post hff
    hmark
  have hsrc := sources_of_input hin
  have hs := accepted_sized hsrc
  have hnd := hs.nodup
  have hbt := buildFromTexts_of_config hin.accepted
  obtain ⟨x', blocks, e1, ⟨fixed, h2, h3⟩, h1⟩ := bin_exists hin.grammar hin.accepted hrb hd
    (by intro h; rw [h] at hx; cases hx) fs
  rw [hx] at e1
  cases e1
  have hgm := fixes_grammar (fun d hd => (accepted_grammar hin.grammar hbt d hd).1) h2
  have h3 := h3.imp_mem (S := fun f blk => ReadsAs b.defs en f blk ∧
      (∀ t, Elementary b.defs f.1.type t → LeafSize t (8 * blk.length)) ∧
      ∀ x y, (f.1.type.name = "REAL" ∨ f.1.type.name = "Float" ∨ f.1.type.name = "Double") →
        Elementary b.defs f.1.type (.plain "REAL" (some x) (some y)) →
        (blk.length = 4 ∧ RealBlock 8 23 en f.2 blk) ∨ (blk.length = 8 ∧ RealBlock 11 52 en f.2 blk))
    fun f hf blk hpk => ⟨fun lo hi ht => (by
        obtain ⟨i, k1, k2, _⟩ := packed_int hin.grammar hbt (hgm f hf).2.1 hpk ht
        rw [k1, k2]), fun t ht => packed_width hin.grammar hbt (hgm f hf).2.1 hpk ht,
      fun x y hn ht => packed_real hin.grammar hbt (hgm f hf).2.1 hpk hn ht⟩
  obtain ⟨t, h4, h5⟩ := cosmos_matchInfos fuel p raw b module messages target out hsrc hp ho ht hnat hr
  refine ⟨_, t, h1, h4, h5.imp fun n' pkt ⟨k1, k2, ms', k3, k4⟩ => ⟨k1, k2, ms', k3, fun ls' hm => ?_⟩⟩
  have hkey := blocks_either hs (fun _ => decide (en = .little)) ((hff.first fixed h2).imp_mem fun path hpath f ⟨q1, q2, q3⟩ =>
      ⟨q1, fun v hv => fixed_unique hff.leaves n ms ⟨c, hd⟩ (fun _ h => h) path (List.mem_append_left _ hpath)
        (hff.clear path (List.mem_append_left _ hpath)) v _ hv q2, q3⟩) hff.rest h3 []
  refine other_bits_by hnd (eitherSide_of hnd hm k4) (fun _ => decide (en = .little)) (fun path m pos w hat v hv => ?_)
    fun i hi => blocks_cover (hff.first fixed h2) (h3.imp_mem fun f _ blk h => h.2.1) hi
  have := (hkey path m pos w hat v hv).2 (.inl ⟨decide_eq_true_iff, hmark path m pos w hat v hv⟩)
  rwa [List.length_nil, Nat.mul_zero, Nat.zero_add, List.nil_append] at this

/-! ### Examples -/

theorem exFrames_fast_fixes : ∀ fixed, Fixes exFramesModule.defs "Id" (.leaf "kind" (.int 8) .nil) fixed →
    fixed = [(exKind, .int 8)] := by
  intro fixed h
  generalize hc : Comps.leaf "kind" (.int 8) .nil = c at h
  cases h with
  | nil => cases hc
  | node => cases hc
  | @leaf _ ms m v rest l k1 k2 k3 =>
    rw [Comps.leaf.injEq] at hc
    obtain ⟨e1, rfl, rfl⟩ := hc
    obtain ⟨c, h⟩ := k1
    simp only [exFramesModule, List.mem_cons, Def.seq.injEq, List.not_mem_nil, or_false] at h
    rcases h with h | h | h
    · have hms : ms = [exKind, exLevel] := h.2.2
      subst hms
      simp only [List.mem_cons, List.not_mem_nil, or_false] at k2
      rcases k2 with rfl | rfl
      · generalize hc : Comps.nil = c at k3
        cases k3 with
        | nil => rfl
        | leaf => cases hc
        | node => cases hc
      · exact absurd e1 (by decide)
    · exact absurd h.1 (by decide)
    · exact absurd h.1 (by decide)

theorem exFrames_fast_numbers : NumbersFirst exFramesModule.defs [exFastId, exFew] (exFastId, .leaf "kind" (.int 8) .nil)
    [[exFastId, exKind]] [[exFastId, exLevel], [exFew]] where
  flat := fun path hp m hm => exFrames_fast_plain.flat m (leaves_reached exFrames_fast path hp m hm)
  leaves := exFrames_fast
  clear := exFrames_fast_plain.clear
  matchable := by
    intro path hp m hm
    refine matchableIn_of (exFrames_fast_plain.matchable path (List.mem_append_left _ hp) m hm (.inl ?_))
    rcases List.mem_singleton.1 hp with rfl
    exact ⟨_, [], exFastId, [exKind], _, rfl, rfl, .here⟩
  first := by
    intro fixed hf
    rw [exFrames_fast_fixes fixed hf]
    exact .cons ⟨rfl, ⟨[], exFastId, [exKind], _, rfl, rfl, .here⟩, .inl ⟨_, _, exFrames_elementary 0 255⟩⟩ .nil
  rest := by
    intro path hp v hv
    simp only [List.mem_cons, List.not_mem_nil, or_false] at hp
    rcases hp with rfl | rfl
    · exact absurd (exFrames_fast_fixed rfl hv).1 (by decide)
    · exact exFrames_unfixed rfl v hv
  noBoolean := by
    intro path hp m hm
    simp only [List.cons_append, List.nil_append, List.mem_cons, List.not_mem_nil, or_false] at hp
    rcases hp with rfl | rfl | rfl <;> cases hm <;> exact exFrames_boolean

theorem exFrames_fast_inRanges : InRanges exFramesModule.defs
    ([[exFastId, exKind]] ++ [[exFastId, exLevel], [exFew]]) := by
  intro path hp m hm v hv
  simp only [List.cons_append, List.nil_append, List.mem_cons, List.not_mem_nil, or_false] at hp
  rcases hp with rfl | rfl | rfl <;> cases hm
  · obtain ⟨_, rfl⟩ := exFrames_fast_fixed rfl hv
    exact ⟨_, _, 8, exFrames_elementary 0 255, rfl, by decide, by decide⟩
  · exact absurd (exFrames_fast_fixed rfl hv).1 (by decide)
  · exact absurd hv (exFrames_unfixed rfl v)

theorem exFrames_fast_marked : MarkedExact exFramesModule.defs .big
    ([[exFastId, exKind]] ++ [[exFastId, exLevel], [exFew]]) := by
  intro path m pos w hat v hv
  refine .inl ⟨?_, possible_of_inRanges (by decide) exFrames_fast_inRanges path m pos w hat v hv⟩
  obtain ⟨rfl, _⟩ := exFrames_fast_at hat hv
  decide

theorem exFrames_level_size : Size exFramesModule.defs (.members [exLevel]) ((8 : Nat) : Int) :=
  size_of_elementary (exFrames_elementary (-128) 127)
    ((leafSize_iff .integerRange (by intro e len h; cases h) 8).1 (by decide +kernel))

/-- The file of `Fast`, the byte 8, is not taken for the packet `Slow`, which also has a fixed level. -/
example : ∃ t, Describes (okBundle (buildFromConfig exFrames ["frames"])) "frames" "SAT".toList
    (fun _ items => ¬ Accepts exPrinter [8] 0 items) ["Slow"] t := by
  have hds := exFrames_defs
  have hd : Def.seq "Fast" none [exFastId, exFew] ∈ exFramesModule.defs := List.mem_of_getElem? (i := 2) rfl
  have hd' : Def.seq "Slow" none [exId, exCount] ∈ exFramesModule.defs := List.mem_of_getElem? (i := 1) rfl
  obtain ⟨bytes, t, h1, _, h3⟩ := C103_any_iff_partial 20 20 exPrinter exFrames ["frames"] _ .big "frames" ["Slow"]
    "SAT".toList exOut exOut (fun _ => none) exFrames_input exPrinter_faithful exPrinter_oneLine exTlm_target
    (by rw [hds]; exact exFrames_natural) (by decide +kernel) (by decide +kernel)
    "Fast" none [exFastId, exFew] (by rw [hds]; exact hd) _ rfl _ _ (by rw [hds]; exact exFrames_fast_numbers)
    (by rw [hds]; exact exFrames_fast_marked)
  have hb := fileBytes_eq h1
  have : fileBytes ((runBinary 20 (some .big) exFrames ["frames"] exOut).apply fun _ => none)
    (binPath exOut (.seq "Fast" none [exFastId, exFew])) = [8] := by decide +kernel
  rw [this] at hb
  subst hb
  refine ⟨t, ?_⟩
  unfold Describes at h3 ⊢
  generalize readCosmos t = pkts at h3 ⊢
  cases h3 with
  | cons h hr =>
    cases hr
    obtain ⟨k1, k2, ms, k3, k4⟩ := h
    cases message_eq (sources_of_input exFrames_input) k3 (by rw [hds]; exact hd')
    rw [hds] at k4
    refine .cons ⟨k1, k2, _, k3, fun hacc => ?_⟩ .nil
    obtain ⟨_, hr, _⟩ := (k4 _ (either_of_plain exFrames_slow_plain)).1 hacc
    rcases hr [exId, exLevel] exLevel _ _ (.later rfl exFrames_kind_size (.here rfl exFrames_level_size))
      (.inl ⟨.int (-2), [], exId, [exLevel], _, rfl, rfl, .afterLeaf .here⟩) with h | ⟨path, m, pos, w, v, h4, h5, h6⟩
    · cases h
    · obtain ⟨_, rfl, rfl⟩ := exFrames_fast_at h4 h5
      omega

/-- The little endian file of `Slow` is taken for the packet `Id`, which has no fixed values. -/
example : ∃ t, Describes (okBundle (buildFromConfig exFrames ["frames"])) "frames" "SAT".toList
    (fun _ items => Accepts exPrinter [7, 254] 0 items) ["Id"] t := by
  have hds := exFrames_defs
  have hd : Def.seq "Slow" none [exId, exCount] ∈ exFramesModule.defs := List.mem_of_getElem? (i := 1) rfl
  have hd' : Def.seq "Id" none [exKind, exLevel] ∈ exFramesModule.defs := List.mem_of_getElem? (i := 0) rfl
  obtain ⟨bytes, t, h1, _, h3⟩ := C103_file_iff_partial 20 20 exPrinter exFrames ["frames"] _ .little "frames" ["Id"]
    "SAT".toList exOut exOut (fun _ => none) exFrames_input exPrinter_faithful exPrinter_oneLine exTlm_target
    (by rw [hds]; exact exFrames_natural) (by decide +kernel) (by decide +kernel)
    "Slow" none [exId, exCount] (by rw [hds]; exact hd) _ rfl _ _ (by rw [hds]; exact exFrames_numbers)
    (by rw [hds]; exact possible_of_inRanges (by decide) exFrames_inRanges)
  have hb := fileBytes_eq h1
  have : fileBytes ((runBinary 20 (some .little) exFrames ["frames"] exOut).apply fun _ => none)
    (binPath exOut (.seq "Slow" none [exId, exCount])) = [7, 254] := by decide +kernel
  rw [this] at hb
  subst hb
  refine ⟨t, ?_⟩
  unfold Describes at h3 ⊢
  generalize readCosmos t = pkts at h3 ⊢
  cases h3 with
  | cons h hr =>
    cases hr
    obtain ⟨k1, k2, ms, k3, k4⟩ := h
    cases message_eq (sources_of_input exFrames_input) k3 (by rw [hds]; exact hd')
    rw [hds] at k4
    refine .cons ⟨k1, k2, _, k3, (k4 _ (either_of_plain exFrames_id_plain)).2 ⟨fun path m pos w hat v hv => ?_,
      fun path m pos w hat hor => ?_, fun i β β' _ hn => ?_⟩⟩ .nil
    · exact absurd hv (exFrames_id_unfixed path (leafAt_mem hat) v)
    · rcases hor with ⟨v, hv⟩ | hb
      · exact absurd hv (exFrames_id_unfixed path (leafAt_mem hat) v)
      · exact absurd hb (exFrames_id_boolean path (leafAt_mem hat) m (leafAt_last hat))
    · obtain ⟨path, m, pos, w, k, hat, _, _, ⟨v, hv, _⟩ | ⟨hb, _⟩⟩ := hn
      · exact absurd hv (exFrames_id_unfixed path (leafAt_mem hat) v)
      · exact absurd hb (exFrames_id_boolean path (leafAt_mem hat) m (leafAt_last hat))

end Apg
