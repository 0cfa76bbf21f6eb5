import Verif.Spec.Whole
import Verif.Props.Shared
import Verif.Props.Order

/-!
# Property C79: a run writes all files of a module or none
-/

namespace Apg
open Spec

/-- The files printed for a module. -/
theorem printed_files {cmd : Command} {fuel : Nat} {out : Text} {raw : List Module} {cfg : List String} {b : Bundle}
    (hin : Input raw cfg b) {bm : BMod} (hbm : bm ∈ b.mods) {cd : CData}
    (h : moduleData fuel (cmd.backend fuel out b) b.defs bm = .ok cd) (q : Text) :
    q ∈ (printed ((cmd.backend fuel out b).print bm.mod cd)).map (·.1) ↔ cmd.filesOf out bm.mod q := by
  have hbt := buildFromTexts_of_config hin.accepted
  have hmm : bm.mod ∈ b.modules := List.mem_map.2 ⟨bm, hbm, rfl⟩
  have hl : isNameLower bm.mod.name = true := accepted_names hin.grammar hbt _ hmm
  cases cmd with
  | cfs p =>
    rw [Command.backend, printed_cfs _ _ _ _ _ hl]
    simp only [List.map_cons, List.map_nil, List.mem_cons, List.not_mem_nil, or_false]
    exact Iff.rfl
  | c p =>
    rw [Command.backend, printed_c _ _ _ _ _ hl]
    simp only [List.map_cons, List.map_nil, List.mem_cons, List.not_mem_nil, or_false]
    exact Iff.rfl
  | binary e =>
    have hcap : ∀ d ∈ bm.mod.defs, isNameCapital d.name = true := fun d hd =>
      def_capital (accepted_grammar hin.grammar hbt d (mem_defs_of_module hmm hd)).1
    obtain ⟨k1, k2⟩ := moduleData_bins h
    rw [Command.backend, printed_bin _ _ _ _ _ _ hl, List.map_cons, List.mem_cons]
    refine or_congr Iff.rfl ?_
    rw [List.map_map]
    constructor
    · intro hq
      obtain ⟨y, hy, rfl⟩ := List.mem_map.1 hq
      obtain ⟨d, hd, x, h1, h2, _⟩ := k1 y hy
      refine ⟨d, hd, fun hc => ?_, ?_⟩
      · rw [hc] at h1; cases h1
      · show joinPath out (y.1 ++ ".bin".toList) = _
        rw [h2]
        exact binPath_eq (hcap d hd) out
    · rintro ⟨d, hd, hf, rfl⟩
      obtain ⟨y, hy, he⟩ := List.mem_map.1 (k2 d hd hf)
      refine List.mem_map.2 ⟨y, hy, ?_⟩
      show joinPath out (y.1 ++ ".bin".toList) = _
      rw [he]
      exact binPath_eq (hcap d hd) out

theorem runModules_rest (fuel : Nat) (be : Backend) (ds : List Def) (bms : List BMod) :
    ∃ done rest cds, bms = done ++ rest ∧
      All2 (fun bm cd => moduleData fuel be ds bm = .ok cd) done cds ∧
      (runModules fuel be ds bms).ops = (done.zip cds).flatMap (fun x => be.print x.1.mod x.2) ∧
      ((runModules fuel be ds bms).result = .ok () ↔ rest = []) := by
  induction bms with
  | nil => exact ⟨[], [], [], rfl, .nil, rfl, by simp [runModules]⟩
  | cons bm bms ih =>
    rw [runModules]
    cases h : moduleData fuel be ds bm with
    | error e => exact ⟨[], bm :: bms, [], rfl, .nil, rfl, by simp⟩
    | ok cd =>
      obtain ⟨done, rest, cds, h1, h2, h3, h4⟩ := ih
      refine ⟨bm :: done, rest, cd :: cds, by simp [h1], .cons h h2, ?_, h4⟩
      simp only [h3]
      simp

/-- **C79.** Whether a run on accepted modules ends well or not: it writes all files of some modules and no other
file, modules that are left out do not import from those, and none is left out exactly if the run succeeds. -/
theorem C79_whole_modules (cmd : Command) (fuel : Nat) (raw : List Module) (cfg : List String) (out : Text)
    (b : Bundle) (hin : Input raw cfg b) (hf : 0 < fuel) :
    ∃ done rest, (done ++ rest).Perm b.modules ∧ (∀ a ∈ rest, ∀ m ∈ done, ¬ Imports a m) ∧
      WritesOf cmd (cmd.run fuel raw cfg out) out done ∧
      ((cmd.run fuel raw cfg out).result = .ok () ↔ rest = []) := by
  have hrun : cmd.run fuel raw cfg out = runCommand fuel (fun b => cmd.backend fuel out b) raw cfg out := by
    cases cmd <;> rfl
  have hn : (b.modules.map (·.name)).Nodup := by
    obtain ⟨ms, h1, h2, _, h4, _⟩ := buildFromConfig_ok.1 hin.accepted
    rw [build_modules h4]; exact h2
  have hops : ∀ q, FileOf (cmd.run fuel raw cfg out) q ↔ q ∈ (cmd.run fuel raw cfg out).writes.map (·.1) :=
    fun q => fileOf_writes (command_noAppend _ _ _ _ _)
  unfold WritesOf
  simp only [hops]
  rw [hrun, runCommand, hin.accepted]
  simp only [generate]
  cases ho : orderModules fuel b.modules with
  | none =>
    refine ⟨[], b.modules, List.Perm.refl _, fun _ _ _ h => absurd h List.not_mem_nil, fun q => ?_, ?_⟩
    · simp [Run.writes, FileOp.written]
    · constructor
      · intro h; cases h
      · intro h
        obtain ⟨n, rfl⟩ : ∃ n, fuel = n + 1 := ⟨fuel - 1, by omega⟩
        rw [h] at ho
        cases ho
  | some ms =>
    obtain ⟨hp, hord⟩ := C21_importers_first b.modules hn fuel ms ho
    obtain ⟨h1, h2⟩ := orderedMods_spec hn hp
    obtain ⟨done, rest, cds, k1, k2, k3, k4⟩ :=
      runModules_rest fuel (cmd.backend fuel out b) b.defs (orderedMods b ms)
    have hms : ms = done.map (·.mod) ++ rest.map (·.mod) := by rw [← h2, k1, List.map_append]
    refine ⟨done.map (·.mod), rest.map (·.mod), hms ▸ hp, ?_, ?_, ?_⟩
    · intro a ha m hm him
      obtain ⟨i, hi⟩ := List.mem_iff_getElem?.1 hm
      obtain ⟨j, hj⟩ := List.mem_iff_getElem?.1 ha
      have hlt : i < (done.map (·.mod)).length := (List.getElem?_eq_some_iff.1 hi).1
      have := hord ((done.map (·.mod)).length + j) i a m (by
        rw [hms, List.getElem?_append_right (by omega)]
        rw [Nat.add_sub_cancel_left]; exact hj) (by
        rw [hms, List.getElem?_append_left hlt]; exact hi) him
      omega
    · intro q
      have hw : (⟨.mkdir out :: (runModules fuel (cmd.backend fuel out b) b.defs (orderedMods b ms)).ops,
          (runModules fuel (cmd.backend fuel out b) b.defs (orderedMods b ms)).result⟩ : Run).writes =
          (done.zip cds).flatMap fun x => printed ((cmd.backend fuel out b).print x.1.mod x.2) := by
        rw [Run.writes, List.filterMap_cons_none (by rfl), k3]
        exact printed_flatMap _ _
      rw [hw]
      have hsub : ∀ bm ∈ done, bm ∈ b.mods := fun bm hbm => h1.mem_iff.1 (k1 ▸ List.mem_append_left _ hbm)
      constructor
      · intro h
        obtain ⟨w, hwm, rfl⟩ := List.mem_map.1 h
        obtain ⟨x, hx, hwx⟩ := List.mem_flatMap.1 hwm
        have hxd := (List.of_mem_zip hx).1
        exact ⟨x.1.mod, List.mem_map.2 ⟨_, hxd, rfl⟩,
          (printed_files hin (hsub _ hxd) (k2.zip_mem hx) _).1 (List.mem_map.2 ⟨w, hwx, rfl⟩)⟩
      · rintro ⟨m, hm, hq⟩
        obtain ⟨bm, hbm, rfl⟩ := List.mem_map.1 hm
        obtain ⟨cd, hz, hcd⟩ := k2.zip_mem_left hbm
        obtain ⟨w, hw, rfl⟩ := List.mem_map.1 ((printed_files hin (hsub _ hbm) hcd q).2 hq)
        exact List.mem_map.2 ⟨w, List.mem_flatMap.2 ⟨_, hz, hw⟩, rfl⟩
    · rw [k4, List.map_eq_nil_iff]

/-- A module that imports one for which no C field can be made. -/
def exHalf : List Module :=
  [{ name := "top", imports := [⟨["Low"], "low"⟩], defs := [.seq "Top" none [⟨"low", .plain "Low" none none, none, none⟩]] },
   { name := "low", defs := [.seq "Low" none [⟨"raw", .plain "INTEGER" none none, none, none⟩]] }]

/-- The run fails and leaves the files of the importing module. -/
example : Input exHalf ["top", "low"] (okBundle (buildFromConfig exHalf ["top", "low"])) ∧
    (runC 20 exPrinter exHalf ["top", "low"] exOut).result ≠ .ok () ∧
    (runC 20 exPrinter exHalf ["top", "low"] exOut).writes.map (·.1) = ["gen/top.h".toList, "gen/top.c".toList] :=
  ⟨input_of (by decide +kernel) (by decide +kernel) (by decide +kernel), by decide +kernel, by decide +kernel⟩

end Apg
