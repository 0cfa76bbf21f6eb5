import Verif.Lemmas.SameRange
import Verif.Props.Cosmos
import Verif.Props.Unfixed

/-!
# C93: a number range counts only by its sign and width
-/

namespace Apg
open Spec

/-- **C93.** Inputs that are the same but for ranges of integers of the same sign and width have the same
runs: the same files, and the same end of the run. -/
theorem C93_integers (fuel : Nat) (p : Printer) (raw raw' : List Module) (args : Args)
    (h : All2 (SameRangeModule false) raw raw') : runMain fuel p raw args = runMain fuel p raw' args := by
  have hm := canon_modules h
  have hk := canonRange_keeps false
  cases args with
  | cosmos m ms target out =>
    show runCosmos .. = runCosmos ..
    rw [← runCosmos_retype hk canonRange_limits raw, hm, runCosmos_retype hk canonRange_limits]
  | cfs ms out =>
    show runCfs .. = runCfs ..
    rw [← runCfs_retype hk raw, hm, runCfs_retype hk]
  | c ms out =>
    show runC .. = runC ..
    rw [← runC_retype hk raw, hm, runC_retype hk]
  | binary ms out e =>
    show runBinary .. = runBinary ..
    rw [← runBinary_retype hk raw, hm, runBinary_retype hk]

/-- **C93, REAL.** Ranges of REAL of the same width are also the same for headers, C files and binary files. -/
theorem C93_reals (fuel : Nat) (p : Printer) (raw raw' : List Module) (args : Args)
    (h : All2 (SameRangeModule true) raw raw') (hc : ∀ m ms target out, args ≠ .cosmos m ms target out) :
    runMain fuel p raw args = runMain fuel p raw' args := by
  have hm := canon_modules h
  have hk := canonRange_keeps true
  cases args with
  | cosmos m ms target out => exact absurd rfl (hc m ms target out)
  | cfs ms out =>
    show runCfs .. = runCfs ..
    rw [← runCfs_retype hk raw, hm, runCfs_retype hk]
  | c ms out =>
    show runC .. = runC ..
    rw [← runC_retype hk raw, hm, runC_retype hk]
  | binary ms out e =>
    show runBinary .. = runBinary ..
    rw [← runBinary_retype hk raw, hm, runBinary_retype hk]

/-- **C93, REAL in COSMOS files.** With other ranges of REAL of the same width generate-cosmos ends in the same way. -/
theorem C93_cosmos_result (fuel : Nat) (p : Printer) (raw raw' : List Module) (module : String) (messages : List String)
    (target out : Text) (h : All2 (SameRangeModule true) raw raw') :
    (runCosmos fuel p raw module messages target out).result = (runCosmos fuel p raw' module messages target out).result := by
  have hm := canon_modules h
  have hk := canonRange_keeps true
  have hl := canonRange_hasLimits true
  rw [← runCosmos_limits hk hl raw, hm, runCosmos_limits hk hl]

/-- **C93, REAL in COSMOS files.** With other ranges of REAL of the same width a telemetry file differs in the limits only. -/
theorem C93_cosmos (fuel : Nat) (p : Printer) (raw raw' : List Module) (b b' : Bundle) (module : String)
    (messages : List String) (target out : Text) (h : All2 (SameRangeModule true) raw raw') (hi : Sources raw b)
    (hi' : Sources raw' b') (hp : Faithful p) (ho : OneLine p) (ht : IsTarget target)
    (hr : (runCosmos fuel p raw module messages target out).result = .ok ()) :
    ∃ t t', (∀ fs, Adds fs ((runCosmos fuel p raw module messages target out).apply fs) (cosmosPath out target) t) ∧
      (∀ fs, Adds fs ((runCosmos fuel p raw' module messages target out).apply fs) (cosmosPath out target) t') ∧
      (readCosmos t).map unlimitedPacket = (readCosmos t').map unlimitedPacket := by
  have hr' := hr
  rw [C93_cosmos_result fuel p raw raw' module messages target out h] at hr'
  have hk := canonRange_keeps true
  have hl := canonRange_hasLimits true
  have hbb : retypeBundle (canonRange true) b = retypeBundle (canonRange true) b' := by
    have e1 := buildFromTexts_retype hk raw
    have e2 := buildFromTexts_retype hk raw'
    rw [canon_modules h, e2, hi.accepted, hi'.accepted] at e1
    exact (Except.ok.inj e1).symm
  obtain ⟨t, xs, h1, rfl, h3, _, h5⟩ := cosmos_run_data hi hp ho ht hr
  obtain ⟨t', xs', h1', rfl, h3', _, h5'⟩ := cosmos_run_data hi' hp ho ht hr'
  refine ⟨_, _, h1, h1', ?_⟩
  rw [readCosmos_text ht.1 h3, readCosmos_text ht.1 h3']
  have e1 := cosmosData_limits (accepted_nodup hi.accepted) hk hl fuel p module messages
  have e2 := cosmosData_limits (accepted_nodup hi'.accepted) hk hl fuel p module messages
  rw [← hbb, e1, h5, h5'] at e2
  have e3 : xs.map noLimitsPacket = xs'.map noLimitsPacket := Except.ok.inj e2
  have key : ∀ l : List PacketData,
      (l.map fun x => (⟨target, x.name, x.entries.map (readItem p)⟩ : CosmosPacket)).map unlimitedPacket =
      ((l.map noLimitsPacket).map fun x => (⟨target, x.name, x.entries.map (readItem p)⟩ : CosmosPacket)).map unlimitedPacket := by
    intro l
    rw [List.map_map, List.map_map, List.map_map]
    refine List.map_congr_left fun x _ => ?_
    simp only [Function.comp_apply, unlimitedPacket, noLimitsPacket, CosmosPacket.mk.injEq, List.map_map, true_and]
    exact List.map_congr_left fun e _ => rfl
  rw [key xs, key xs', e3]

/-! ### Examples -/

/-- A telemetry module with a bit-field, a signed number and a real number. -/
def rangedModule (a b c d : Int) (e f : Num) : Module :=
  { name := "tlm"
    defs := [.simple "Level" none (intType a b),
             .seq "Packet" none [{ key := "level", type := .plain "Level" none none }, { key := "raw", type := intType a b },
               { key := "offset", type := intType c d }, { key := "gain", type := realType e f }]] }

/-- The same module with other ranges. -/
theorem ranged_same : SameRangeModule false (rangedModule 0 10 (-5) 5 (.flt 0) (.flt 1))
    (rangedModule 5 15 (-128) 100 (.flt 0) (.flt 1)) := by
  have hu : SameRange false (intType 0 10) (intType 5 15) :=
    .unsigned (w := 4) (by decide) (by decide) ((leafSize_int _ _ _).1 (by decide +kernel)) ((leafSize_int _ _ _).1 (by decide +kernel))
  have hs : SameRange false (intType (-5) 5) (intType (-128) 100) :=
    .signed (w := 8) (by decide) (by decide) ((leafSize_int _ _ _).1 (by decide +kernel)) ((leafSize_int _ _ _).1 (by decide +kernel))
  exact ⟨_, rfl, .cons (.simple none (by decide) hu) (.cons (.seq "Packet" none (.cons ⟨rfl, rfl, rfl, .same _⟩
    (.cons ⟨rfl, rfl, rfl, hu⟩ (.cons ⟨rfl, rfl, rfl, hs⟩ (.cons ⟨rfl, rfl, rfl, .same _⟩ .nil))))) .nil)⟩

/-- Both ranges give the same headers, and there are headers. -/
example : runMain 20 exPrinter [rangedModule 0 10 (-5) 5 (.flt 0) (.flt 1)] (.cfs "tlm".toList exOut) =
      runMain 20 exPrinter [rangedModule 5 15 (-128) 100 (.flt 0) (.flt 1)] (.cfs "tlm".toList exOut) ∧
    (runMain 20 exPrinter [rangedModule 0 10 (-5) 5 (.flt 0) (.flt 1)] (.cfs "tlm".toList exOut)).result = .ok () ∧
    (runMain 20 exPrinter [rangedModule 0 10 (-5) 5 (.flt 0) (.flt 1)] (.cfs "tlm".toList exOut)).ops.length = 3 :=
  ⟨C93_integers 20 exPrinter _ _ _ (.cons ranged_same .nil), by decide +kernel, by decide +kernel⟩

/-- One more bit, or another sign, gives another header. -/
example : runMain 20 exPrinter [rangedModule 0 15 (-5) 5 (.flt 0) (.flt 1)] (.cfs "tlm".toList exOut) ≠
      runMain 20 exPrinter [rangedModule 0 16 (-5) 5 (.flt 0) (.flt 1)] (.cfs "tlm".toList exOut) ∧
    runMain 20 exPrinter [rangedModule 0 127 (-5) 5 (.flt 0) (.flt 1)] (.cfs "tlm".toList exOut) ≠
      runMain 20 exPrinter [rangedModule (-1) 127 (-5) 5 (.flt 0) (.flt 1)] (.cfs "tlm".toList exOut) := by
  refine ⟨fun h => ?_, fun h => ?_⟩ <;>
    exact absurd (congrArg Run.ops h) (by decide +kernel)

/-- Another range of a real number. -/
theorem ranged_real : SameRangeModule true (rangedModule 0 10 (-5) 5 (.flt 0) (.flt 1))
    (rangedModule 0 10 (-5) 5 (.flt (-3)) (.flt 3)) := by
  have hu : SameRange true (realType (.flt 0) (.flt 1)) (realType (.flt (-3)) (.flt 3)) :=
    .real (w := 32) rfl ((leafSize_real _ _ _).1 (by decide +kernel)) ((leafSize_real _ _ _).1 (by decide +kernel))
  exact ⟨_, rfl, .cons (.same _) (.cons (.seq "Packet" none (.cons ⟨rfl, rfl, rfl, .same _⟩
    (.cons ⟨rfl, rfl, rfl, .same _⟩ (.cons ⟨rfl, rfl, rfl, .same _⟩ (.cons ⟨rfl, rfl, rfl, hu⟩ .nil))))) .nil)⟩

/-- The limits of a telemetry file are not the same, the rest is. -/
example : ∃ t t',
    (∀ fs, Adds fs ((runCosmos 20 exPrinter [rangedModule 0 10 (-5) 5 (.flt 0) (.flt 1)] "tlm" ["Packet"] "SAT".toList exOut).apply fs)
      (cosmosPath exOut "SAT".toList) t) ∧
    (∀ fs, Adds fs ((runCosmos 20 exPrinter [rangedModule 0 10 (-5) 5 (.flt (-3)) (.flt 3)] "tlm" ["Packet"] "SAT".toList exOut).apply fs)
      (cosmosPath exOut "SAT".toList) t') ∧
    (readCosmos t).map unlimitedPacket = (readCosmos t').map unlimitedPacket ∧ readCosmos t ≠ readCosmos t' := by
  obtain ⟨t, t', h1, h2, h3⟩ := C93_cosmos 20 exPrinter [rangedModule 0 10 (-5) 5 (.flt 0) (.flt 1)]
    [rangedModule 0 10 (-5) 5 (.flt (-3)) (.flt 3)] _ _ "tlm" ["Packet"]
    "SAT".toList exOut (.cons ranged_real .nil) (sources_of (by decide +kernel) (by decide +kernel) (by decide +kernel))
    (sources_of (by decide +kernel) (by decide +kernel) (by decide +kernel)) exPrinter_faithful exPrinter_oneLine
    exTlm_target (by decide +kernel)
  refine ⟨t, t', h1, h2, h3, ?_⟩
  rw [← newText_eq h1, ← newText_eq h2]
  decide +kernel

end Apg
