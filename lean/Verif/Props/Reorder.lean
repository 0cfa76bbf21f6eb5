import Verif.Lemmas.Reorder
import Verif.Props.Files
import Verif.Props.Success
import Verif.Props.CosmosLookup

/-!
# Property C58: the order of the input files does not matter
-/

namespace Apg
open Spec

/-- What the commands with a list of modules promise: a run that succeeds also succeeds, and leaves the
same files, when the input files and the names in `--asn1-modules` are given in another order. -/
def Reorderable (run : Nat → List Module → List String → Run) : Prop :=
  ∀ (raw raw' : List Module) (cfg cfg' : List String) (fuel : Nat), (∀ m ∈ raw, GrammarModule m) →
    raw.Perm raw' → cfg.Perm cfg' → (run fuel raw cfg).result = .ok () →
      ∀ fuel', fuel ≤ fuel' → raw.length < fuel' →
        (run fuel' raw' cfg').result = .ok () ∧ ∀ fs, (run fuel' raw' cfg').apply fs = (run fuel raw cfg).apply fs

/-- **C58**, generate-c. -/
theorem C58_generate_c (p : Printer) (out : Text) : Reorderable fun fuel raw cfg => runC fuel p raw cfg out := by
  intro raw raw' cfg cfg' fuel hg hp hc h fuel' hf hl
  obtain ⟨h1, h2⟩ := run_reordered hp hc (fun b b' _ _ _ bm _ => cBackend_extends p out b b' bm.mod) h hf hl
  exact ⟨h1, apply_perm (c_noAppend _ _ _ _ _) (c_noAppend _ _ _ _ _) (C27_c fuel p raw hg cfg out) h2⟩

/-- **C58**, generate-cfs. -/
theorem C58_generate_cfs (p : Printer) (out : Text) : Reorderable fun fuel raw cfg => runCfs fuel p raw cfg out := by
  intro raw raw' cfg cfg' fuel hg hp hc h fuel' hf hl
  refine (fun q => ⟨q.1, apply_perm (cfs_noAppend _ _ _ _ _) (cfs_noAppend _ _ _ _ _) (C27_cfs fuel p raw hg cfg out) q.2⟩)
    (run_reordered (mk' := cfsBackend p out) hp hc ?_ h hf hl)
  intro b b' hb hb' _ bm _
  obtain ⟨ms, h1, h2, _, h4, _⟩ := buildFromConfig_ok.1 hb
  obtain ⟨ms', q1, _, _, q4, _⟩ := buildFromConfig_ok.1 hb'
  obtain ⟨ms2, r1, r2⟩ := processModules_perm hp h1
  rw [q1] at r1
  cases r1
  exact cfsBackend_extends p out r2 h4 q4 bm.mod

/-- **C58**, generate-binary. -/
theorem C58_generate_binary (e : Option Endian) (out : Text) :
    Reorderable fun fuel raw cfg => runBinary fuel e raw cfg out := by
  intro raw raw' cfg cfg' fuel hg hp hc h fuel' hf hl
  refine (fun q => ⟨q.1, apply_perm (binary_noAppend _ _ _ _ _) (binary_noAppend _ _ _ _ _) (C27_binary fuel e raw hg cfg out) q.2⟩)
    (run_reordered (mk' := binBackend fuel' e out) hp hc ?_ h hf hl)
  intro b b' hb _ hperm bm _
  exact binBackend_extends hf e out (K := fun _ => True) (fun _ _ m _ =>
    ⟨resolveType_perm (defs_perm hperm) (accepted_nodup (buildFromTexts_of_config hb)) m.type,
      fun _ _ => trivial⟩) fun _ _ => trivial

/-- The bundle of two modules, read in the other order: the same files. -/
example (p : Printer) (out : Text) :
    ∃ r, (runCfs 9 p exRaw ["geo", "base"] out).result = .ok () ∧ r = runCfs 9 p [exBase, exGeo] ["base", "geo"] out ∧
      r.result = .ok () ∧ ∀ fs, r.apply fs = (runCfs 9 p exRaw ["geo", "base"] out).apply fs := by
  have hg : ∀ m ∈ exRaw, GrammarModule m := grammarB_sound (by decide +kernel)
  have h := (C57_generate_cfs p exRaw ["geo", "base"] out hg).2
    (valid_acceptable exRaw_valid) (by decide) exRaw_generatable 9 ⟨by decide, by decide⟩
  exact ⟨_, h, rfl, C58_generate_cfs p out exRaw _ _ _ 9 hg (.swap ..) (.swap ..) h 9 (Nat.le_refl _) (by decide)⟩

/-! ### generate-cosmos -/

/-- What generate-cosmos promises for lists of files with a property. -/
def ReorderableCosmos (H : List Module → Prop) : Prop :=
  ∀ (raw raw' : List Module), (∀ m ∈ raw, GrammarModule m) → H raw → raw.Perm raw' →
    ∀ (fuel : Nat) (p : Printer) (module : String) (messages : List String) (target out : Text),
      (runCosmos fuel p raw module messages target out).result = .ok () →
        (runCosmos fuel p raw' module messages target out).result = .ok () ∧
        ∀ fs, (runCosmos fuel p raw' module messages target out).apply fs =
          (runCosmos fuel p raw module messages target out).apply fs

/-- Full statement of C58 for generate-cosmos. -/
def C58_full : Prop := ReorderableCosmos fun _ => True

/-- **C58**, generate-cosmos, for files with different module names. Missing: files with the same module
name, which this command does not refuse. -/
theorem C58_generate_cosmos_partial : ReorderableCosmos fun raw => (raw.map (·.name)).Nodup := by
  intro raw raw' _ hn hp fuel p module messages target out h
  suffices hs : runCosmos fuel p raw' module messages target out = runCosmos fuel p raw module messages target out by
    rw [hs]; exact ⟨h, fun _ => rfl⟩
  unfold runCosmos at h ⊢
  cases hb : buildFromTexts raw with
  | error e => rw [hb] at h; cases h
  | ok b =>
    obtain ⟨b', hb', hperm⟩ := buildFromTexts_perm hp hn hb
    rw [hb']
    refine generateCosmos_perm fuel p hperm ?_ (accepted_nodup hb) module messages target out
    obtain ⟨ms, h1, h2, _⟩ := buildFromTexts_ok.1 hb
    have : b.mods.map (fun x => x.mod.name) = b.modules.map (·.name) := by
      unfold Bundle.modules; rw [List.map_map]; rfl
    rw [this, build_modules h2, processModules_names h1]
    exact hn

/-- The diamond of imports, read from the last file to the first. -/
example : (runCosmos 5 exPrinter exDiamond.reverse "top" ["Top"] "SAT".toList exOut).result = .ok () :=
  (C58_generate_cosmos_partial exDiamond _ (grammarB_sound (by decide +kernel)) (by decide) (List.reverse_perm _).symm
    5 exPrinter "top" ["Top"] "SAT".toList exOut (by decide +kernel)).1

/-- Two files with the same module name and one message each. -/
def exTwice : List Module :=
  [{ name := "tlm", defs := [.seq "Foo" none [⟨"a", intType 0 9, none, none⟩]] },
   { name := "tlm", defs := [.seq "Bar" none [⟨"b", intType 0 9, none, none⟩]] }]

/-- C58 fails when two files have the same module name: the message of the second file is not found. -/
theorem C58_full_false : ¬ C58_full := by
  intro h
  have := h exTwice exTwice.reverse (grammarB_sound (by decide +kernel)) trivial (List.reverse_perm _).symm 9
    ⟨fun _ => [], fun _ => []⟩ "tlm" ["Foo"] [] [] (by decide +kernel)
  exact absurd this.1 (by decide +kernel)

end Apg
