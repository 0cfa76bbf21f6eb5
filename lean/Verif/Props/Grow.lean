import Verif.Lemmas.GrowNote
import Verif.Props.Reorder

/-!
# Property C68: adding modules leaves the files of the others as they are
-/

namespace Apg
open Spec

/-- Every file that the first run writes is the same after the second run. -/
def KeepsFiles (r r' : Run) : Prop :=
  ∀ path, (∃ fs, r.apply fs path ≠ fs path) → ∀ fs, r'.apply fs path = r.apply fs path

/-- What the commands with a list of modules promise when modules are added, for runs that succeed before
and after. -/
def Growable (run : Nat → List Module → List String → Run) : Prop :=
  ∀ (raw raw' : List Module) (cfg cfg' : List String) (fuel fuel' : Nat), (∀ m ∈ raw', GrammarModule m) →
    (∀ m ∈ raw, m ∈ raw') → (run fuel raw cfg).result = .ok () → (run fuel' raw' cfg').result = .ok () →
      KeepsFiles (run fuel raw cfg) (run fuel' raw' cfg')

/-- **C68**, generate-c. -/
theorem C68_generate_c (p : Printer) (out : Text) : Growable fun fuel raw cfg => runC fuel p raw cfg out := by
  intro raw raw' cfg cfg' fuel fuel' hg hsub h h'
  refine apply_grown (c_noAppend _ _ _ _ _) (c_noAppend _ _ _ _ _) (C27_c fuel p raw (fun m hm => hg m (hsub m hm)) cfg out)
    (C27_c fuel' p raw' hg cfg' out) ?_
  exact run_grown (F := max fuel fuel') (by omega) (by omega) hg hsub
    (fun b b' _ _ _ bm _ => ⟨cBackend_extends p out b b' bm.mod, cBackend_extends p out b' b' bm.mod⟩) h h'

/-- **C68**, generate-binary. -/
theorem C68_generate_binary (e : Option Endian) (out : Text) :
    Growable fun fuel raw cfg => runBinary fuel e raw cfg out := by
  intro raw raw' cfg cfg' fuel fuel' hg hsub h h'
  refine apply_grown (binary_noAppend _ _ _ _ _) (binary_noAppend _ _ _ _ _)
    (C27_binary fuel e raw (fun m hm => hg m (hsub m hm)) cfg out) (C27_binary fuel' e raw' hg cfg' out) ?_
  have hf : fuel ≤ max fuel fuel' := by omega
  have hf' : fuel' ≤ max fuel fuel' := by omega
  refine run_grown (mkF := binBackend (max fuel fuel') e out) hf hf' hg hsub (fun b b' _ _ hgr bm hbm => ⟨?_, ?_⟩) h h'
  · exact binBackend_extends hf e out hgr.closed (mods_defs hbm)
  · exact binBackend_extends hf' e out (K := fun _ => True) (fun _ _ m _ => ⟨rfl, fun _ _ => trivial⟩) fun _ _ => trivial

/-- Full statement of C68 for generate-cfs. -/
def C68_full : Prop := ∀ (p : Printer) (out : Text), Growable fun fuel raw cfg => runCfs fuel p raw cfg out

/-- The simple type `n` of one of the modules is used, without WITH COMPONENTS, by a member in an added
module. -/
def NewlyUsed (raw raw' : List Module) (n : String) : Prop :=
  (∃ m ∈ raw, ∃ c t, Def.simple n c t ∈ m.defs) ∧ ∃ m ∈ raw', m ∉ raw ∧ UsedPlainly m n

theorem simple_processed {m m' : Module} (h : processModule m = .ok m') (n : String) (c : Option Comment) (t : AType) :
    Def.simple n c t ∈ m'.defs ↔ Def.simple n c t ∈ m.defs := by
  obtain ⟨_, _, ds, h1, rfl, _⟩ := processModule_ok.1 h
  have h1 := processDefs_ok.1 h1
  constructor
  · intro hd
    obtain ⟨d, hd0, h2⟩ := all2_mem_right h1 hd
    cases d with
    | simple n' c' t' => rw [((processDef_ok h2).2.2.2.2.1 _ _ _ rfl).1]; exact hd0
    | seq n' c' ms => cases (processDef_ok h2).2.2.2.2.2.1 _ _ _ rfl
    | choice n' c' ms => cases (processDef_ok h2).2.2.2.2.2.2.1 _ _ _ rfl
    | enum n' c' its => obtain ⟨_, _, h⟩ := (processDef_ok h2).2.2.2.2.2.2.2 _ _ _ rfl; cases h
  · intro hd
    obtain ⟨d, hd0, h2⟩ := all2_mem_left h1 hd
    rw [← ((processDef_ok h2).2.2.2.2.1 _ _ _ rfl).1]
    exact hd0

/-- **C68**, generate-cfs: the files stay the same exactly if no added module uses a simple type of the others
directly. Missing: with such a use the note on the type in the header of its module changes. -/
theorem C68_generate_cfs_partial (p : Printer) (out : Text) (raw raw' : List Module) (cfg cfg' : List String)
    (fuel fuel' : Nat) (hg : ∀ m ∈ raw', GrammarModule m) (hsub : ∀ m ∈ raw, m ∈ raw')
    (h : (runCfs fuel p raw cfg out).result = .ok ()) (h' : (runCfs fuel' p raw' cfg' out).result = .ok ()) :
    KeepsFiles (runCfs fuel p raw cfg out) (runCfs fuel' p raw' cfg' out) ↔ ∀ n, ¬ NewlyUsed raw raw' n := by
  have hg0 : ∀ m ∈ raw, GrammarModule m := fun m hm => hg m (hsub m hm)
  obtain ⟨b, hb⟩ : ∃ b, buildFromConfig raw cfg = .ok b := by
    rcases run_writes fuel (cfsBackend p out) raw cfg out with ⟨_, hx⟩ | ⟨b, hb, _⟩
    · exact absurd h hx
    · exact ⟨b, hb⟩
  obtain ⟨b', hb'⟩ : ∃ b, buildFromConfig raw' cfg' = .ok b := by
    rcases run_writes fuel' (cfsBackend p out) raw' cfg' out with ⟨_, hx⟩ | ⟨b, hb, _⟩
    · exact absurd h' hx
    · exact ⟨b, hb⟩
  obtain ⟨ms, h1, h2, _, h4, _⟩ := buildFromConfig_ok.1 hb
  obtain ⟨ms', q1, q2, _, q4, _⟩ := buildFromConfig_ok.1 hb'
  have hn : (raw.map (·.name)).Nodup := by rwa [processModules_names h1] at h2
  have hn' : (raw'.map (·.name)).Nodup := by rwa [processModules_names q1] at q2
  have hgr := grown hg hsub hn hn' (buildFromTexts_of_config hb) (buildFromTexts_of_config hb')
  obtain ⟨u1, u2, u3⟩ := C18_use_map ms b h4
  obtain ⟨v1, v2, v3⟩ := C18_use_map ms' b' q4
  have hmono := processModules_mono hsub h1 q1
  have hle : ∀ n mod, (∃ s, (n, s) ∈ b.uses ∧ mod ∈ s) → ∃ s, (n, s) ∈ b'.uses ∧ mod ∈ s := by
    intro n mod
    rw [u1, v1]
    rintro ⟨m, hm, r1, r2⟩
    exact ⟨m, hmono m hm, r1, r2⟩
  constructor
  · rintro hk n ⟨⟨m0, hm0, c, t, hd⟩, m1, hm1, hm1', hu⟩
    obtain ⟨x0, hx0, p0⟩ := all2_mem_left (processModules_ok.1 h1) hm0
    obtain ⟨x1, hx1, p1⟩ := all2_mem_left (processModules_ok.1 q1) hm1
    have hmods := build_modules h4
    rw [← hmods] at hx0
    obtain ⟨bm, hbm, rfl⟩ := List.mem_map.1 hx0
    have hdm : Def.simple n c t ∈ bm.mod.defs := (simple_processed p0 n c t).2 hd
    have hnb : ¬ BuiltIn n := by
      intro hbi
      refine builtin_not_def (fun d hd => (accepted_grammar hg0 (buildFromTexts_of_config hb) d hd).1)
        (n := n) (by rcases hbi with rfl | rfl | rfl | rfl | rfl <;> decide) _ (mods_defs hbm _ hdm) rfl
    obtain ⟨cd, c1, c2⟩ := run_module h hb hbm
    obtain ⟨cd', c1', c2'⟩ := run_module h' hb' (hgr.mods bm hbm)
    have hlow : isNameLower bm.mod.name = true := by
      rw [(processModule_name p0).1]; exact (hg0 m0 hm0).1
    rw [printed_cfs p out b bm.mod cd hlow] at c2
    rw [printed_cfs p out b' bm.mod cd' hlow] at c2'
    have e1 := apply_get (cfs_noAppend fuel p raw cfg out) (C27_cfs fuel p raw hg0 cfg out) (fun _ => none)
      (c2 _ (List.Mem.head _))
    have e2 := apply_get (cfs_noAppend fuel' p raw' cfg' out) (C27_cfs fuel' p raw' hg cfg' out) (fun _ => none)
      (c2' _ (List.Mem.head _))
    have e3 := hk _ ⟨fun _ => none, by rw [e1]; simp⟩ fun _ => none
    rw [e1, e2] at e3
    refine moduleData_longer (be := cfsBackend p out b) (be' := cfsBackend p out b') rfl rfl
      (fun d hd => hgr.types d (mods_defs hbm d hd)) ?_ ⟨n, c, t, hdm, ?_⟩ c1 c1' _
      (textContent_inj (Option.some.inj e3)).symm
    · intro n' c' t' x x' _ g1 g2
      exact (cfsNote_longer u3 v2 v3 (hle n') g1 g2).1
    · intro x x' g1 g2
      refine (cfsNote_longer u3 v2 v3 (hle n) g1 g2).2 ⟨x1.name, (v1 n x1.name).2 ⟨x1, hx1, rfl,
        (usedPlainly_processed p1 n).2 hu, hnb⟩, ?_⟩
      rw [u1]
      rintro ⟨m2, hm2, hm2n, _⟩
      obtain ⟨r2, hr2, p2⟩ := all2_mem_right (processModules_ok.1 h1) hm2
      rw [(processModule_name p2).1, (processModule_name p1).1] at hm2n
      exact hm1' (mem_unique_of_nodup_map hn' hm1 (hsub r2 hr2) hm2n.symm ▸ hr2)
  · intro hno
    refine apply_grown (cfs_noAppend _ _ _ _ _) (cfs_noAppend _ _ _ _ _)
      (C27_cfs fuel p raw hg0 cfg out) (C27_cfs fuel' p raw' hg cfg' out) ?_
    refine run_grown (mkF := cfsBackend p out) (F := max fuel fuel') (by omega) (by omega) hg hsub ?_ h h'
    intro c c' hc hc' _ bm hbm
    rw [hb] at hc
    rw [hb'] at hc'
    cases hc
    cases hc'
    refine ⟨⟨rfl, ?_, fun _ _ _ h => h, rfl⟩, cfsBackend_refl p out b' bm.mod⟩
    intro n c t hd v hv
    have hiff : ∀ mod, (∃ m ∈ ms, m.name = mod ∧ UsedPlainly m n) ↔ ∃ m ∈ ms', m.name = mod ∧ UsedPlainly m n := by
      intro mod
      refine ⟨fun ⟨m, hm, r⟩ => ⟨m, hmono m hm, r⟩, fun ⟨m, hm, r1, r2⟩ => ?_⟩
      obtain ⟨m1, hm1, p1⟩ := all2_mem_right (processModules_ok.1 q1) hm
      have hmods := build_modules h4
      have hx0 : bm.mod ∈ ms := by rw [← hmods]; exact List.mem_map.2 ⟨bm, hbm, rfl⟩
      obtain ⟨m0, hm0, p0⟩ := all2_mem_right (processModules_ok.1 h1) hx0
      have hin : m1 ∈ raw := by
        refine Classical.byContradiction fun hni => ?_
        exact hno n ⟨⟨m0, hm0, c, t, (simple_processed p0 n c t).1 hd⟩, m1, hm1, hni, (usedPlainly_processed p1 n).1 r2⟩
      obtain ⟨m2, hm2, p2⟩ := all2_mem_left (processModules_ok.1 h1) hin
      rw [p1] at p2
      cases p2
      exact ⟨m, hm2, r1, r2⟩
    simp only [cfsBackend, cfsNote] at hv ⊢
    rcases uses_grown h4 q4 n hiff with ⟨g1, g2⟩ | ⟨s, s', g1, g2, g3⟩
    · rw [g1] at hv; rw [g2]; exact hv
    · rw [g1] at hv
      rw [g2]
      simp only at hv ⊢
      rw [← mergeSort_names g3]
      exact hv

/-- The note on `Angle` appears when the module that uses it is added. -/
theorem C68_full_false : ¬ C68_full := by
  intro h
  have h1 : (runCfs 9 exPrinter [exBase] ["base"] []).result = .ok () := by decide +kernel
  have h2 : (runCfs 9 exPrinter exRaw ["geo", "base"] []).result = .ok () := by decide +kernel
  have hg : ∀ m ∈ exRaw, GrammarModule m := grammarB_sound (by decide +kernel)
  have hs : ∀ m ∈ [exBase], m ∈ exRaw := by simp [exRaw]
  refine (C68_generate_cfs_partial exPrinter [] [exBase] exRaw _ _ 9 9 hg hs h1 h2).1
    (h exPrinter [] [exBase] exRaw _ _ 9 9 hg hs h1 h2) "Angle" ⟨⟨exBase, by simp, _, _, List.Mem.head _⟩, exGeo,
      by simp [exRaw], by decide, _, List.Mem.head _, _, List.Mem.head _, rfl, .plain⟩

/-- A module that uses no simple type of the two others. -/
def exExtra : Module :=
  { name := "extra", imports := [⟨["Point"], "geo"⟩]
    defs := [.seq "Place" none [⟨"where", .plain "Point" none none, none, none⟩]] }

/-- With it the headers of the two other modules stay as they are, in all three commands. -/
example (p : Printer) (out : Text) (h1 : (runCfs 9 p exRaw ["geo", "base"] out).result = .ok ())
    (h2 : (runCfs 9 p (exExtra :: exRaw) ["geo", "base", "extra"] out).result = .ok ()) :
    KeepsFiles (runCfs 9 p exRaw ["geo", "base"] out) (runCfs 9 p (exExtra :: exRaw) ["geo", "base", "extra"] out) := by
  refine (C68_generate_cfs_partial p out exRaw (exExtra :: exRaw) _ _ 9 9 (grammarB_sound (by decide +kernel))
    (fun m hm => List.Mem.tail _ hm) h1 h2).2 ?_
  rintro n ⟨⟨m, hm, c, t, hd⟩, m', hm', hni, d, hd', k, hk, hc, hu⟩
  rcases List.mem_cons.1 hm' with rfl | hm'
  · simp only [exExtra, List.mem_singleton] at hd'
    subst hd'
    simp only [Def.members, List.mem_singleton] at hk
    subst hk
    cases hu
    simp only [exRaw, List.mem_cons, List.not_mem_nil, or_false] at hm
    rcases hm with rfl | rfl <;> simp [exGeo, exBase] at hd
  · exact hni hm'

example : (runCfs 9 exPrinter exRaw ["geo", "base"] exOut).result = .ok () ∧
    (runCfs 9 exPrinter (exExtra :: exRaw) ["geo", "base", "extra"] exOut).result = .ok () ∧
    (runC 9 exPrinter (exExtra :: exRaw) ["geo", "base", "extra"] exOut).result = .ok () ∧
    (runBinary 20 (some .big) [exPackets[0]] ["base"] exOut).result = .ok () ∧
    (runBinary 20 (some .big) exPackets ["geo", "base"] exOut).result = .ok () :=
  ⟨by decide +kernel, by decide +kernel, by decide +kernel, by decide +kernel, by decide +kernel⟩

/-! ### generate-cosmos -/

/-- What generate-cosmos promises for lists of files with a property: a run that succeeds does the same when
files are added and the input is still accepted. -/
def GrowableCosmos (H : List Module → List Module → Prop) : Prop :=
  ∀ (raw raw' : List Module), (∀ m ∈ raw', GrammarModule m) → (∀ m ∈ raw, m ∈ raw') → H raw raw' →
    (∃ b, buildFromTexts raw' = .ok b) →
    ∀ (fuel : Nat) (p : Printer) (module : String) (messages : List String) (target out : Text),
      (runCosmos fuel p raw module messages target out).result = .ok () →
        runCosmos fuel p raw' module messages target out = runCosmos fuel p raw module messages target out

/-- Full statement of C68 for generate-cosmos. -/
def C68_full_cosmos : Prop := GrowableCosmos fun _ _ => True

/-- **C68**, generate-cosmos, for files with different module names. Missing: files with the same module
name, which this command does not refuse. -/
theorem C68_generate_cosmos_partial :
    GrowableCosmos fun raw raw' => (raw.map (·.name)).Nodup ∧ (raw'.map (·.name)).Nodup := by
  intro raw raw' hg hsub hn hb' fuel p module messages target out h
  obtain ⟨b', hb'⟩ := hb'
  unfold runCosmos at h ⊢
  cases hb : buildFromTexts raw with
  | error e => rw [hb] at h; cases h
  | ok b =>
    rw [hb] at h
    rw [hb']
    exact grown_cosmos (grown hg hsub hn.1 hn.2 hb hb') fuel p module messages target out h

/-- One module of the diamond with what it imports, and the whole diamond. -/
example : runCosmos 5 exPrinter exDiamond "left" ["Left"] "SAT".toList exOut =
    runCosmos 5 exPrinter [exUnits, exLeft] "left" ["Left"] "SAT".toList exOut :=
  C68_generate_cosmos_partial [exUnits, exLeft] exDiamond (grammarB_sound (by decide +kernel))
    (by intro m hm; simp only [List.mem_cons, List.not_mem_nil, or_false] at hm
        rcases hm with rfl | rfl <;> simp [exDiamond]) ⟨by decide, by decide⟩ ⟨_, exDiamond_sources.accepted⟩
    5 exPrinter "left" ["Left"] "SAT".toList exOut (by decide +kernel)

/-- C68 fails when a file with the same module name is added in front. -/
theorem C68_full_cosmos_false : ¬ C68_full_cosmos := by
  intro h
  have := h [exTwice[0]] exTwice.reverse (grammarB_sound (by decide +kernel)) (by simp [exTwice]) trivial
    ⟨_, okBundle_eq (by decide +kernel)⟩ 9 ⟨fun _ => [], fun _ => []⟩ "tlm" ["Foo"] [] [] (by decide +kernel)
  have h2 : (runCosmos 9 ⟨fun _ => [], fun _ => []⟩ exTwice.reverse "tlm" ["Foo"] [] []).result = .ok () := by
    rw [this]; decide +kernel
  exact absurd h2 (by decide +kernel)

end Apg
