import Verif.Lemmas.InPlaceCosmos
import Verif.Props.Rename

/-!
# C86: a simple type can be written in place of its name
-/

namespace Apg
open Spec

/-- **C86 in full.** Writing the types of some simple types in place of their names keeps the text for every sequence,
its binary file and the COSMOS files. -/
def C86_full : Prop :=
  ∀ (σ : String → Option AType) (fuel : Nat) (raw : List Module) (cfg : List String) (out : Text) (b : Bundle)
    (fs fs' : Files), Input raw cfg b → GivesTypes (defsOf raw) σ →
  (∀ cmd : Command, (cmd.run fuel raw cfg out).result = .ok () →
    (cmd.run fuel (raw.map (inPlace σ)) cfg out).result = .ok () ∧
    ∀ m ∈ b.modules, ∀ d ∈ m.defs, d.isSimple = false →
      ∃ ts, Block (fun _ _ _ => True) (fun t => (dims t).take 1) d ts ∧ ∃ h h' : HeaderParts,
        HasText ((cmd.run fuel raw cfg out).apply fs) (cmd.path out m.name) h.text ∧
        HasText ((cmd.run fuel (raw.map (inPlace σ)) cfg out).apply fs') (cmd.path out m.name) h'.text ∧
        (∃ l r, h.blocks = l ++ ts ++ r) ∧ ∃ l r, h'.blocks = l ++ ts ++ r) ∧
  (∀ e, (runBinary fuel e raw cfg out).result = .ok () → ∀ d ∈ b.defs, fixedMembers d ≠ [] →
    ∃ bytes, HasBytes ((runBinary fuel e raw cfg out).apply fs) (binPath out d) bytes ∧
      HasBytes ((runBinary fuel e (raw.map (inPlace σ)) cfg out).apply fs') (binPath out d) bytes) ∧
  ∀ p module messages target, (runCosmos fuel p raw module messages target out).result = .ok () →
    (runCosmos fuel p (raw.map (inPlace σ)) module messages target out).apply fs =
      (runCosmos fuel p raw module messages target out).apply fs

/-- **C86, success.** A command that succeeds still succeeds with number types in place of their names. Missing: types
that are not numbers, and standard names. -/
theorem C86_success_partial (σ : String → Option AType) (cmd : Command) (fuel : Nat) (raw : List Module) (cfg : List String)
    (out : Text) (b : Bundle) (hi : Input raw cfg b) (ht : GivesNumbers (defsOf raw) σ)
    (hr : (cmd.run fuel raw cfg out).result = .ok ()) : (cmd.run fuel (raw.map (inPlace σ)) cfg out).result = .ok () :=
  run_inPlace hi ht hr

/-- **C86, headers.** The headers contain the same text for a sequence, a choice or an enumeration. Missing: types that
are not numbers, and standard names. -/
theorem C86_headers_partial (σ : String → Option AType) (cmd : Command) (fuel : Nat) (raw : List Module) (cfg : List String)
    (out : Text) (b : Bundle) (fs fs' : Files) (hi : Input raw cfg b) (ht : GivesNumbers (defsOf raw) σ)
    (hr : (cmd.run fuel raw cfg out).result = .ok ()) (m : Module) (hm : m ∈ b.modules) (d : Def) (hd : d ∈ m.defs)
    (hs : d.isSimple = false) :
    ∃ ts, Block (fun _ _ _ => True) (fun t => (dims t).take 1) d ts ∧ ∃ h h' : HeaderParts,
      HasText ((cmd.run fuel raw cfg out).apply fs) (cmd.path out m.name) h.text ∧
      HasText ((cmd.run fuel (raw.map (inPlace σ)) cfg out).apply fs') (cmd.path out m.name) h'.text ∧
      (∃ l r, h.blocks = l ++ ts ++ r) ∧ ∃ l r, h'.blocks = l ++ ts ++ r := by
  have hi' := input_inPlace hi ht.types ht.number
  have hr' := run_inPlace hi ht hr
  have hbt := buildFromTexts_of_config hi.accepted
  have hp := placed_of hi.grammar hbt ht.types ht.number
  obtain ⟨bm, hbm, rfl⟩ := List.mem_map.1 hm
  have hbm' : inPlaceBMod σ bm ∈ (inPlaceBundle σ b).mods := List.mem_map_of_mem hbm
  obtain ⟨cd, k1, k2⟩ := header_parts hi.grammar hi.accepted hr hbm fs
  obtain ⟨cd', k1', k2'⟩ := header_parts hi'.grammar hi'.accepted hr' hbm' fs'
  obtain ⟨p, l, r, p1, p2⟩ := moduleData_at k1 hd
  obtain ⟨p', l', r', p1', p2'⟩ := moduleData_at k1' (d := inPlaceDef σ d) (List.mem_map_of_mem hd)
  have hg := (accepted_grammar hi.grammar hbt d (mem_defs_of_module hm hd)).1
  have hc := (accepted_comments hi.comments hbt bm.mod hm).2 d hd
  have he := defPart_inPlace ht.number (place_backend hi ht fuel cmd out hm)
    (fun k hk => field_inPlace hi hp ht.name hbm hd hk) hs p1
  rw [inPlaceBundle_defs, simpleList_inPlace] at p1'
  have heq : p' = p := by
    have := p1'.symm.trans he
    cases this
    rfl
  subst heq
  exact ⟨_, block_mono (fun _ _ _ _ _ => trivial) (defPart_block (command_quiet cmd fuel out b) p1 hg hc).1, _, _, k2, k2',
    ⟨l, r, p2⟩, l', r', p2'⟩

/-- **C86, binary files.** The binary file of a sequence has the same bytes. Missing: types that are not numbers, and
standard names. -/
theorem C86_binary_partial (σ : String → Option AType) (fuel : Nat) (e : Option Endian) (raw : List Module)
    (cfg : List String) (out : Text) (b : Bundle) (fs fs' : Files) (hi : Input raw cfg b) (ht : GivesNumbers (defsOf raw) σ)
    (hr : (runBinary fuel e raw cfg out).result = .ok ()) (d : Def) (hd : d ∈ b.defs) (hf : fixedMembers d ≠ []) :
    ∃ bytes, HasBytes ((runBinary fuel e raw cfg out).apply fs) (binPath out d) bytes ∧
      HasBytes ((runBinary fuel e (raw.map (inPlace σ)) cfg out).apply fs') (binPath out d) bytes := by
  have hi' := input_inPlace hi ht.types ht.number
  have hr' : (runBinary fuel e (raw.map (inPlace σ)) cfg out).result = .ok () := run_inPlace (cmd := .binary e) hi ht hr
  have hp := placed_of hi.grammar (buildFromTexts_of_config hi.accepted) ht.types ht.number
  have hfm : fixedMembers (inPlaceDef σ d) = (fixedMembers d).map fun x => (inPlaceMember σ x.1, x.2) := by
    cases d with
    | seq n c ms =>
      simp only [inPlaceDef, fixedMembers, List.filterMap_map, List.map_filterMap]
      congr 1
      funext k
      obtain ⟨a, t, c, w⟩ := k
      cases w <;> rfl
    | _ => rfl
  have hd' : inPlaceDef σ d ∈ (inPlaceBundle σ b).defs := by rw [inPlaceBundle_defs]; exact List.mem_map_of_mem hd
  obtain ⟨x, blocks, h1, ⟨bm, hbm, hdm, h2⟩, h4⟩ := bin_clause hi.grammar hi.accepted hr hd hf fs
  obtain ⟨x', blocks', h1', ⟨bm', hbm', hdm', h2'⟩, h4'⟩ := bin_clause hi'.grammar hi'.accepted hr' hd'
    (by rw [hfm]; simpa using hf) fs'
  obtain ⟨bm0, hbm0, rfl⟩ := List.mem_map.1 hbm'
  have hb0 : bm0 = bm := by
    have hdm0 : d ∈ bm0.mod.defs := by
      obtain ⟨y, hy, hye⟩ := List.mem_map.1 hdm'
      have hn : y.name = d.name := by rw [← inPlaceDef_name (σ := σ) y, hye, inPlaceDef_name]
      have : y = d := mem_unique_of_nodup_map hp.nodup
        (mem_defs_of_module (List.mem_map.2 ⟨bm0, hbm0, rfl⟩) hy) hd hn
      rwa [← this]
    exact bmod_of_def hp.nodup hbm0 hbm hdm0 hdm
  subst hb0
  rw [hfm, List.getLast?_map, h1] at h1'
  cases h1'
  obtain ⟨defs, q1, q2⟩ := clauseBytes_inPlace hp ht.name
    (fun d hd => mem_defs_of_module (List.mem_map.2 ⟨bm0, hbm0, rfl⟩) hd) h2
  obtain ⟨defs', q1', q2'⟩ := h2'
  rw [inPlaceBundle_defs] at q1'
  have e1 : defs = defs' := by
    have := q1.symm.trans q1'
    cases this
    rfl
  subst e1
  have e2 : blocks = blocks' := by
    have := q2.symm.trans q2'
    cases this
    rfl
  subst e2
  refine ⟨_, h4, ?_⟩
  have : binPath out (inPlaceDef σ d) = binPath out d := by unfold binPath; rw [inPlaceDef_name]
  rw [← this]
  exact h4'

/-- **C86, COSMOS files.** generate-cosmos does the same, standard names included. Missing: types that are not numbers. -/
theorem C86_cosmos_partial (σ : String → Option AType) (fuel : Nat) (p : Printer) (raw : List Module) (module : String)
    (messages : List String) (target out : Text) (hg : ∀ m ∈ raw, GrammarModule m) (ht : GivesTypes (defsOf raw) σ)
    (hn : ∀ n t, σ n = some t → NumberType t) (h : (runCosmos fuel p raw module messages target out).result = .ok ())
    (fs : Files) :
    (runCosmos fuel p (raw.map (inPlace σ)) module messages target out).result = .ok () ∧
    (runCosmos fuel p (raw.map (inPlace σ)) module messages target out).apply fs =
      (runCosmos fuel p raw module messages target out).apply fs := by
  rw [runCosmos_inPlace hg ht hn h]
  exact ⟨h, rfl⟩

/-! ### The full statement is false -/

/-- A flag, and a message with it. -/
def exFlagged : List Module := [{ name := "m", defs := [.simple "Flag" none (.plain "BOOLEAN" none none),
  .seq "Report" none [⟨"flag", .plain "Flag" none none, none, none⟩]] }]

/-- The flag, written in place of its name. -/
def exFlagType (n : String) : Option AType := if n = "Flag" then some (.plain "BOOLEAN" none none) else none

theorem exFlagType_gives : GivesTypes (defsOf exFlagged) exFlagType := by
  intro n t h
  unfold exFlagType at h
  split at h
  · rename_i e
    cases h
    subst e
    exact ⟨none, List.Mem.head _⟩
  · cases h

theorem exFlagged_input : Input exFlagged ["m"] (okBundle (buildFromConfig exFlagged ["m"])) :=
  input_of (by decide +kernel) (by decide +kernel) (by decide +kernel)

/-- The name of a BOOLEAN loses the states of the item in COSMOS. -/
theorem C86_full_false : ¬ C86_full := by
  intro h
  have h1 := (h exFlagType 20 exFlagged ["m"] exOut _ (fun _ => none) (fun _ => none) exFlagged_input exFlagType_gives).2.2
    exPrinter "m" ["Report"] "SAT".toList (by decide +kernel)
  have h3 : ((runCosmos 20 exPrinter (exFlagged.map (inPlace exFlagType)) "m" ["Report"] "SAT".toList exOut).apply (fun _ => none)
      "gen/SAT.txt".toList).map List.length ≠ ((runCosmos 20 exPrinter exFlagged "m" ["Report"] "SAT".toList exOut).apply (fun _ => none)
      "gen/SAT.txt".toList).map List.length := by decide +kernel
  exact h3 (congrArg (fun f => (f "gen/SAT.txt".toList).map List.length) h1)

/-- The headers differ too: the name gives a whole byte, and the type in its place gives a field of one bit. -/
example :
    containsText "  bool flag;\n".toList
      (fileText (((Command.c exPrinter).run 20 exFlagged ["m"] exOut).apply fun _ => none) "gen/m.h".toList) = true ∧
    containsText "  uint8_t flag : 1;\n".toList
      (fileText (((Command.c exPrinter).run 20 (exFlagged.map (inPlace exFlagType)) ["m"] exOut).apply fun _ => none)
        "gen/m.h".toList) = true := by
  decide +kernel

/-! ### Examples -/

/-- A message with a level and a height; the tag has a level too. -/
def exReportDef : Def := .seq "Report" none [
  ⟨"tag", .plain "Tag" none none, none, some (.leaf "application-process-identifier" (.int 7) .nil)⟩,
  ⟨"level", .plain "Level" none none, none, none⟩, ⟨"height", .plain "Height" none none, none, none⟩]

def exLevels : List Module := [
  { name := "m", imports := [⟨["Height"], "base"⟩], defs := [exReportDef,
    .seq "Tag" none [⟨"application-process-identifier", intType 0 255, none, none⟩, ⟨"level", .plain "Level" none none, none, none⟩],
    .simple "Level" none (intType 0 12)] },
  { name := "base", defs := [.simple "Height" none (intType (-100) 100)] }]

def exLevelType (n : String) : Option AType :=
  if n = "Level" then some (intType 0 12) else if n = "Height" then some (intType (-100) 100) else none

theorem exLevels_input : Input exLevels ["m", "base"] (okBundle (buildFromConfig exLevels ["m", "base"])) :=
  input_of (by decide +kernel) (by decide +kernel) (by decide +kernel)

theorem exLevels_defs : (okBundle (buildFromConfig exLevels ["m", "base"])).defs = defsOf exLevels := by decide +kernel

theorem exLevelType_gives : GivesNumbers (defsOf exLevels) exLevelType := by
  have key : ∀ n t, exLevelType n = some t → (n = "Level" ∧ t = intType 0 12) ∨ (n = "Height" ∧ t = intType (-100) 100) := by
    intro n t h
    unfold exLevelType at h
    split at h
    · cases h; exact .inl ⟨‹_›, rfl⟩
    · split at h
      · cases h; exact .inr ⟨‹_›, rfl⟩
      · cases h
  refine ⟨fun n t h => ?_, fun n t h => ?_, fun n t h => ?_⟩
  · rcases key n t h with ⟨rfl, rfl⟩ | ⟨rfl, rfl⟩
    · exact ⟨none, List.mem_of_getElem? (i := 2) rfl⟩
    · exact ⟨none, List.mem_of_getElem? (i := 3) rfl⟩
  · rcases key n t h with ⟨rfl, rfl⟩ | ⟨rfl, rfl⟩ <;> exact ⟨_, _, _, rfl, .inl rfl⟩
  · rcases key n t h with ⟨rfl, rfl⟩ | ⟨rfl, rfl⟩ <;> decide

example : ((Command.cfs exPrinter).run 20 (exLevels.map (inPlace exLevelType)) ["m", "base"] exOut).result = .ok () :=
  C86_success_partial _ (.cfs exPrinter) 20 exLevels ["m", "base"] exOut _ exLevels_input exLevelType_gives (by decide +kernel)

example : ∃ ts, Block (fun _ _ _ => True) (fun t => (dims t).take 1) exReportDef ts ∧ ∃ h h' : HeaderParts,
    HasText (((Command.c exPrinter).run 20 exLevels ["m", "base"] exOut).apply fun _ => none) "gen/m.h".toList h.text ∧
    HasText (((Command.c exPrinter).run 20 (exLevels.map (inPlace exLevelType)) ["m", "base"] exOut).apply fun _ => none)
      "gen/m.h".toList h'.text ∧
    (∃ l r, h.blocks = l ++ ts ++ r) ∧ ∃ l r, h'.blocks = l ++ ts ++ r := by
  obtain ⟨m, hm, hn, hd⟩ : ∃ m ∈ (okBundle (buildFromConfig exLevels ["m", "base"])).modules,
      m.name = "m" ∧ exReportDef ∈ m.defs :=
    ⟨_, List.mem_of_getElem? (i := 0) rfl, by decide +kernel, by decide +kernel⟩
  have := C86_headers_partial _ (.c exPrinter) 20 exLevels ["m", "base"] exOut _ (fun _ => none) (fun _ => none) exLevels_input
    exLevelType_gives (by decide +kernel) m hm _ hd rfl
  rw [hn] at this
  exact this

example : ∃ bytes, HasBytes ((runBinary 20 (some .big) exLevels ["m", "base"] exOut).apply fun _ => none) "gen/report.bin".toList bytes ∧
    HasBytes ((runBinary 20 (some .big) (exLevels.map (inPlace exLevelType)) ["m", "base"] exOut).apply fun _ => none)
      "gen/report.bin".toList bytes :=
  C86_binary_partial _ 20 (some .big) exLevels ["m", "base"] exOut _ (fun _ => none) (fun _ => none) exLevels_input
    exLevelType_gives (by decide +kernel) exReportDef (by rw [exLevels_defs]; decide +kernel)
    (by decide +kernel)

example (fs : Files) : (runCosmos 20 exPrinter (exLevels.map (inPlace exLevelType)) "m" ["Report"] "SAT".toList exOut).apply fs =
    (runCosmos 20 exPrinter exLevels "m" ["Report"] "SAT".toList exOut).apply fs :=
  (C86_cosmos_partial _ 20 exPrinter exLevels "m" ["Report"] "SAT".toList exOut exLevels_input.grammar exLevelType_gives.types
    exLevelType_gives.number (by decide +kernel) fs).2

/-- The texts of the modules are different. -/
example : exLevels.map (inPlace exLevelType) ≠ exLevels := by decide +kernel

end Apg
