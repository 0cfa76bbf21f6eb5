import Verif.Spec.CosmosOther
import Verif.Props.CosmosEither
import Verif.Props.CosmosApart
import Verif.Lemmas.ClearUnique

/-!
# Property C103: binary files and the packets of other messages
-/

namespace Apg
open Spec

theorem isNumber_move {ds : List Def} (hnd : (ds.map Def.name).Nodup) {w n : Nat} {t t' : AType} {ty : List Char}
    (ht : ItemType ds t ty) (ht' : ItemType ds t' ty) {x x' : Num}
    (hx : ItemType ds t' "FLOAT".toList ∨ ∃ i, x' = .int i) (he : ratOf x = ratOf x') (h : IsNumber ds w t x n) :
    IsNumber ds w t' x' n := by
  rcases h with ⟨a, rfl⟩ | ⟨a, rfl⟩ | ⟨a, q, e, r⟩
  · have hty := itemType_unique hnd ht a
    subst hty
    rcases hx with hx | ⟨i, rfl⟩
    · exact absurd (itemType_unique hnd ht' hx) (by decide)
    · have : ((n : Int) : Rat) = (i : Rat) := Option.some.inj he
      have : (n : Int) = i := by exact_mod_cast this
      exact .inl ⟨ht', by rw [this]⟩
  · have hty := itemType_unique hnd ht a
    subst hty
    rcases hx with hx | ⟨i, rfl⟩
    · exact absurd (itemType_unique hnd ht' hx) (by decide)
    · have : ((signedValue w n : Int) : Rat) = (i : Rat) := Option.some.inj he
      have : signedValue w n = i := by exact_mod_cast this
      exact .inr (.inl ⟨ht', by rw [this]⟩)
  · have hty := itemType_unique hnd ht a
    subst hty
    exact .inr (.inr ⟨ht', q, by rw [← he, e], r⟩)

/-- COSMOS takes the binary file of a sequence, which it takes for the packet of this sequence, for the packets of
messages that have fixed values at the same places exactly under `P`. -/
def OtherPacket (P : List Def → List Member → List (List Member) → List Member → List (List Member) → Prop) : Prop :=
  ∀ (fuel fuel' : Nat) (p : Printer) (raw : List Module) (cfg : List String) (b : Bundle) (en : Endian)
    (module : String) (messages : List String) (target out out' : Text) (fs : Files), Input raw cfg b →
    Faithful p → OneLine p → IsTarget target → NaturalSizes b.defs →
    (runCosmos fuel p raw module messages target out).result = .ok () →
    (runBinary fuel' (some en) raw cfg out').result = .ok () →
    ∀ (n : String) (c : Option Comment) (ms : List Member), Def.seq n c ms ∈ b.defs →
    ∀ x, fixedMembers (.seq n c ms) = [x] → ∀ pre post, NumbersFirst b.defs ms x pre post →
    MarkedExact b.defs en (pre ++ post) →
    ∃ bytes t, HasBytes ((runBinary fuel' (some en) raw cfg out').apply fs) (binPath out' (.seq n c ms)) bytes ∧
      (∀ fs, Adds fs ((runCosmos fuel p raw module messages target out).apply fs) (cosmosPath out target) t) ∧
      Describes b module target (fun ms' items => ∀ ls', ComparedMessage b.defs ms' ls' →
        FixedInside b.defs (pre ++ post) ls' → (Accepts p bytes 0 items ↔ P b.defs ms (pre ++ post) ms' ls')) messages t

/-- Full statement of C103: the file is taken for no packet of a message with other members. -/
def C103_full : Prop := OtherPacket fun _ ms _ ms' _ => ms = ms'

/-- **C103, partial.** COSMOS takes the binary file of a message for the packet of another message with fixed values at
the same places exactly if these are the same numbers. Missing: messages that fix other bits than the first, read them
in another way, or are not covered by `NumbersFirst` and `ComparedMessage`. -/
theorem C103_other_iff_partial : OtherPacket fun ds _ ls _ ls' => SameNumbers ds ls ls' := by
  intro fuel fuel' p raw cfg b en module messages target out out' fs hin hp ho ht hnat hr hrb n c ms hd x hx pre post hff
    hmark
  have hsrc := sources_of_input hin
  have hs := accepted_sized hsrc
  have hnd := hs.nodup
  have hbt := buildFromTexts_of_config hin.accepted
  obtain ⟨x', blocks, e1, ⟨fixed, h2, h3⟩, h1⟩ := bin_exists hin.grammar hin.accepted hrb hd
    (by intro h; rw [h] at hx; cases hx) fs
  rw [hx] at e1
  cases e1
  have hgm := fixes_grammar (fun d hd => (accepted_grammar hin.grammar hbt d hd).1) h2
  have h3 := h3.imp_mem (S := fun f blk => ReadsAs b.defs en f blk ∧
      (∀ t, Elementary b.defs f.1.type t → LeafSize t (8 * blk.length)) ∧
      ∀ x y, (f.1.type.name = "REAL" ∨ f.1.type.name = "Float" ∨ f.1.type.name = "Double") →
        Elementary b.defs f.1.type (.plain "REAL" (some x) (some y)) →
        (blk.length = 4 ∧ RealBlock 8 23 en f.2 blk) ∨ (blk.length = 8 ∧ RealBlock 11 52 en f.2 blk))
    fun f hf blk hpk => ⟨fun lo hi ht => (by
        obtain ⟨i, k1, k2, _⟩ := packed_int hin.grammar hbt (hgm f hf).2.1 hpk ht
        rw [k1, k2]), fun t ht => packed_width hin.grammar hbt (hgm f hf).2.1 hpk ht,
      fun x y hn ht => packed_real hin.grammar hbt (hgm f hf).2.1 hpk hn ht⟩
  obtain ⟨t, h4, h5⟩ := cosmos_matchInfos fuel p raw b module messages target out hsrc hp ho ht hnat hr
  refine ⟨_, t, h1, h4, h5.imp fun n' pkt ⟨k1, k2, ms', k3, k4⟩ => ⟨k1, k2, ms', k3, fun ls' hpl hsame => ?_⟩⟩
  obtain ⟨l', hl', h⟩ := k4
  cases leaves_unique hnd hpl.leaves hl'
  have hkey := blocks_either hs isLittle ((hff.first fixed h2).imp_mem fun path hpath f ⟨q1, q2, q3⟩ =>
      ⟨q1, fun v hv => fixed_unique hff.leaves n ms ⟨c, hd⟩ (fun _ h => h) path (List.mem_append_left _ hpath)
        (hff.clear path (List.mem_append_left _ hpath)) v _ hv q2, q3⟩) hff.rest h3 []
  rw [accepts_iff (h hpl.flat hpl.clear hpl.matchable)]
  constructor
  · intro hg path m path' m' pos w ty v v' hat hat' hty hty' hl hv hv'
    obtain ⟨k, g1, g2⟩ := (hkey path m pos w hat v hv).2 (hmark path m pos w hat v hv)
    obtain ⟨k', g1', g2'⟩ := (hg path' m' pos w hat').1 v' hv'
    rw [hl] at g1
    cases g1.symm.trans g1'
    exact isNumber_same hnd hty hty' g2 g2'
  · intro hg path' m' pos w hat'
    refine ⟨fun v' hv' => ?_, fun hb hno => absurd hb (hpl.noBoolean path' m' pos w hat' hno)⟩
    obtain ⟨path, m, v, ty, hat, hv, hty, hty', hl⟩ := hsame path' m' pos w v' hat' hv'
    obtain ⟨k, g1, g2⟩ := (hkey path m pos w hat v hv).2 (hmark path m pos w hat v hv)
    rw [hl] at g1
    refine ⟨k, g1, isNumber_move hnd hty hty' ?_ (hg path m path' m' pos w ty v v' hat hat' hty hty' hl hv hv') g2⟩
    rcases (hpl.matchable path' (leafAt_mem hat') m' (leafAt_last hat') (.inl ⟨v', hv'⟩)).number with ⟨_, h⟩ | ⟨h, _⟩
    · cases v' with
      | int i => exact .inr ⟨i, rfl⟩
      | bool b => exact .inr ⟨_, rfl⟩
      | flt x => exact absurd rfl (h _ hv' x)
    · exact .inl h

/-! ### Examples -/

theorem matchableIn_of {ds : List Def} {path : List Member} {m : Member} (h : Matchable ds path m) :
    MatchableIn ds path m := ⟨h.single, h.value, h.number⟩

theorem exFrames_slow_boolean {path : List Member} (hp : path ∈ [[exId, exKind], [exId, exLevel]] ++ [[exCount]])
    {m : Member} (hm : path.getLast? = some m) : ¬ IsBoolean exFramesModule.defs m.type := by
  simp only [List.cons_append, List.nil_append, List.mem_cons, List.not_mem_nil, or_false] at hp
  rcases hp with rfl | rfl | rfl <;> cases hm <;> exact exFrames_boolean

theorem exFrames_numbers : NumbersFirst exFramesModule.defs [exId, exCount]
    (exId, .leaf "kind" (.int 7) (.leaf "level" (.int (-2)) .nil)) [[exId, exKind], [exId, exLevel]] [[exCount]] where
  flat := fun path hp m hm => exFrames_slow_plain.flat m (leaves_reached exFrames_slow path hp m hm)
  leaves := exFrames_slow
  clear := exFrames_slow_plain.clear
  matchable := by
    intro path hp m hm
    refine matchableIn_of (exFrames_matchable path (List.mem_append_left _ hp) m hm (.inl ?_))
    simp only [List.mem_cons, List.not_mem_nil, or_false] at hp
    rcases hp with rfl | rfl
    · exact ⟨_, [], exId, [exKind], _, rfl, rfl, .here⟩
    · exact ⟨_, [], exId, [exLevel], _, rfl, rfl, .afterLeaf .here⟩
  first := by
    intro fixed hf
    rw [exFrames_fixes fixed hf]
    exact .cons ⟨rfl, ⟨[], exId, [exKind], _, rfl, rfl, .here⟩, .inl ⟨_, _, exFrames_elementary 0 255⟩⟩
      (.cons ⟨rfl, ⟨[], exId, [exLevel], _, rfl, rfl, .afterLeaf .here⟩, .inl ⟨_, _, exFrames_elementary (-128) 127⟩⟩ .nil)
  rest := by
    intro path hp v
    rcases List.mem_singleton.1 hp with rfl
    exact exFrames_unfixed rfl v
  noBoolean := fun path hp m hm => exFrames_slow_boolean hp hm

theorem exFrames_big {m : Member} {path : List Member} (hp : path ∈ [[exId, exKind], [exId, exLevel]] ++ [[exCount]])
    (hm : path.getLast? = some m) : isLittle m = false := by
  simp only [List.cons_append, List.nil_append, List.mem_cons, List.not_mem_nil, or_false] at hp
  rcases hp with rfl | rfl | rfl <;> cases hm <;> rfl

theorem exFrames_marked : MarkedExact exFramesModule.defs .big ([[exId, exKind], [exId, exLevel]] ++ [[exCount]]) := by
  intro path m pos w hat v hv
  have hl := exFrames_big (leafAt_mem hat) (leafAt_last hat)
  exact .inl ⟨by rw [hl]; simp, possible_of_inRanges (by decide) exFrames_inRanges path m pos w hat v hv⟩

/-- The binary file of `Slow` with the packet of another message. -/
theorem exFrames_other {P : List Def → List Member → List (List Member) → List Member → List (List Member) → Prop}
    (hP : OtherPacket P) {n : String} {ms' : List Member} {ls' : List (List Member)}
    (hrun : (runCosmos 20 exPrinter exFrames "frames" [n] "SAT".toList exOut).result = .ok ())
    (hd' : Def.seq n none ms' ∈ exFramesModule.defs) (hc : ComparedMessage exFramesModule.defs ms' ls')
    (hsame : FixedInside exFramesModule.defs ([[exId, exKind], [exId, exLevel]] ++ [[exCount]]) ls') :
    ∃ t, (∀ fs, Adds fs ((runCosmos 20 exPrinter exFrames "frames" [n] "SAT".toList exOut).apply fs)
        (cosmosPath exOut "SAT".toList) t) ∧
      Describes (okBundle (buildFromConfig exFrames ["frames"])) "frames" "SAT".toList
        (fun _ items => Accepts exPrinter [7, 254] 0 items ↔
          P exFramesModule.defs [exId, exCount] ([[exId, exKind], [exId, exLevel]] ++ [[exCount]]) ms' ls') [n] t := by
  have hds := exFrames_defs
  have hd : Def.seq "Slow" none [exId, exCount] ∈ exFramesModule.defs := List.mem_of_getElem? (i := 1) rfl
  obtain ⟨bytes, t, h1, h2, h3⟩ := hP 20 20 exPrinter exFrames ["frames"] _ .big "frames" [n]
    "SAT".toList exOut exOut (fun _ => none) exFrames_input exPrinter_faithful exPrinter_oneLine exTlm_target
    (by rw [hds]; exact exFrames_natural) hrun (by decide +kernel)
    "Slow" none [exId, exCount] (by rw [hds]; exact hd) _ rfl _ _ (by rw [hds]; exact exFrames_numbers)
    (by rw [hds]; exact exFrames_marked)
  have hb := fileBytes_eq h1
  have : fileBytes ((runBinary 20 (some .big) exFrames ["frames"] exOut).apply fun _ => none)
    (binPath exOut (.seq "Slow" none [exId, exCount])) = [7, 254] := by decide +kernel
  rw [this] at hb
  subst hb
  refine ⟨t, h2, ?_⟩
  unfold Describes at h3 ⊢
  generalize readCosmos t = pkts at h3 ⊢
  cases h3 with
  | cons h hr =>
    cases hr
    obtain ⟨k1, k2, ms, k3, k4⟩ := h
    cases message_eq (sources_of_input exFrames_input) k3 (by rw [hds]; exact hd')
    rw [hds] at k4
    exact .cons ⟨k1, k2, ms', k3, k4 ls' hc hsame⟩ .nil

theorem exFrames_id_compared : ComparedMessage exFramesModule.defs [exKind, exLevel] [[exKind], [exLevel]] where
  flat := fun path hp m hm => exFrames_id_plain.flat m (leaves_reached exFrames_id path hp m hm)
  leaves := exFrames_id
  clear := exFrames_id_plain.clear
  matchable := fun path hp m hm hor => matchableIn_of (exFrames_id_plain.matchable path hp m hm hor)
  whole := by
    intro path m pos w hat _ hor
    rcases hor with ⟨v, hv⟩ | hb
    · exact absurd hv (exFrames_id_unfixed path (leafAt_mem hat) v)
    · exact absurd hb (exFrames_id_boolean path (leafAt_mem hat) m (leafAt_last hat))
  noBoolean := fun path m pos w hat _ => exFrames_id_boolean path (leafAt_mem hat) m (leafAt_last hat)

theorem exFrames_fast_compared : ComparedMessage exFramesModule.defs [exFastId, exFew]
    ([[exFastId, exKind]] ++ [[exFastId, exLevel], [exFew]]) where
  flat := fun path hp m hm => exFrames_fast_plain.flat m (leaves_reached exFrames_fast path hp m hm)
  leaves := exFrames_fast
  clear := exFrames_fast_plain.clear
  matchable := fun path hp m hm hor => matchableIn_of (exFrames_fast_plain.matchable path hp m hm hor)
  whole := by
    intro path m pos w hat hl _
    have hp := leafAt_mem hat
    have hm := leafAt_last hat
    simp only [List.cons_append, List.nil_append, List.mem_cons, List.not_mem_nil, or_false] at hp
    rcases hp with rfl | rfl | rfl <;> cases hm <;> cases hl
  noBoolean := exFrames_aligned.noBoolean'

/-- It fails: the file of `Slow` is also taken for the packet `Id`, which has no fixed values. -/
theorem C103_full_false : ¬ C103_full := by
  intro hf
  have hrun : (runCosmos 20 exPrinter exFrames "frames" ["Id"] "SAT".toList exOut).result = .ok () := by decide +kernel
  have hd' : Def.seq "Id" none [exKind, exLevel] ∈ exFramesModule.defs := List.mem_of_getElem? (i := 0) rfl
  have hsame : FixedInside exFramesModule.defs ([[exId, exKind], [exId, exLevel]] ++ [[exCount]]) [[exKind], [exLevel]] :=
    fun path' m' pos w v' hat hv => absurd hv (exFrames_id_unfixed path' (leafAt_mem hat) v')
  obtain ⟨t, h1, h2⟩ := exFrames_other hf hrun hd' exFrames_id_compared hsame
  obtain ⟨t', h1', h2'⟩ := exFrames_other C103_other_iff_partial hrun hd' exFrames_id_compared hsame
  have : t' = t := by rw [← newText_eq h1, ← newText_eq h1']
  subst this
  unfold Describes at h2 h2'
  generalize readCosmos t' = pkts at h2 h2'
  cases h2 with
  | cons h _ =>
    cases h2' with
    | cons h' _ =>
      obtain ⟨_, _, _, _, h⟩ := h
      obtain ⟨_, _, _, _, h'⟩ := h'
      have := h.1 (h'.2 fun _ _ path' _ _ _ _ _ v' _ hat _ _ _ _ hv =>
        absurd hv (exFrames_id_unfixed path' (leafAt_mem hat) v'))
      have := congrArg (fun l => l.map Member.key) this
      exact absurd this (by decide)

/-- The file of `Slow`, the bytes 7 and 254, is not taken for the packet `Fast`, which has the kind 8. -/
example : ∃ t, Describes (okBundle (buildFromConfig exFrames ["frames"])) "frames" "SAT".toList
    (fun _ items => ¬ Accepts exPrinter [7, 254] 0 items) ["Fast"] t := by
  have hty := elementary_itemType (exFrames_elementary 0 255)
  obtain ⟨t, _, h⟩ := exFrames_other C103_other_iff_partial (by decide +kernel)
    (List.mem_of_getElem? (i := 2) rfl) exFrames_fast_compared (by
      intro path' m' pos w v' hat hv
      obtain ⟨rfl, rfl, rfl⟩ := exFrames_fast_at hat hv
      exact ⟨[exId, exKind], exKind, .int 7, _, .here rfl exFrames_kind_size,
        ⟨[], exId, [exKind], _, rfl, rfl, .here⟩, hty, hty, rfl⟩)
  refine ⟨t, h.imp fun n pkt ⟨k1, k2, ms, k3, k4⟩ => ⟨k1, k2, ms, k3, fun hacc => ?_⟩⟩
  have := k4.1 hacc [exId, exKind] exKind [exFastId, exKind] exKind 0 8 _ (.int 7) (.int 8) (.here rfl exFrames_kind_size)
    (.here rfl exFrames_kind_size) hty hty rfl ⟨[], exId, [exKind], _, rfl, rfl, .here⟩
    ⟨[], exFastId, [exKind], _, rfl, rfl, .here⟩
  exact absurd this (by decide +kernel)

end Apg
