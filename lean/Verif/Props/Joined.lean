import Verif.Lemmas.Joined
import Verif.Props.Success
import Verif.Props.Grow
import Verif.Props.Whole

/-!
# C105: inputs can be joined, and parts can be used alone
-/

namespace Apg
open Spec

/-- **C105, validation of joined inputs.** Two inputs that are accepted alone are accepted together exactly if no
module and no type has the same name in both. -/
theorem C105_joined_accepted_iff (raw raw' : List Module) (cfg cfg' : List String) (hg : ∀ m ∈ raw, GrammarModule m)
    (hg' : ∀ m ∈ raw', GrammarModule m) (h : ∃ b, buildFromConfig raw cfg = .ok b)
    (h' : ∃ b, buildFromConfig raw' cfg' = .ok b) :
    (∃ b, buildFromConfig (raw ++ raw') (cfg ++ cfg') = .ok b) ↔ NamesApart raw raw' := by
  rw [C56_exact raw cfg hg] at h
  rw [C56_exact raw' cfg' hg'] at h'
  rw [C56_exact _ _ fun m hm => (List.mem_append.1 hm).elim (hg m) (hg' m), join_acceptable h.1 h'.1]
  refine ⟨fun x => x.1, fun x => ⟨x, ?_⟩⟩
  rw [List.map_append]
  exact h.2.append h'.2

/-- **C105, validation of parts.** Some of the modules of an accepted input are accepted without the others exactly if
they import only from each other. -/
theorem C105_part_accepted_iff (raw sub rest : List Module) (cfg : List String) (hg : ∀ m ∈ raw, GrammarModule m)
    (hp : raw.Perm (sub ++ rest)) (h : ∃ b, buildFromConfig raw cfg = .ok b) :
    (∃ b, buildFromConfig sub (sub.map (·.name)) = .ok b) ↔ ImportsWithin sub := by
  rw [C56_exact raw cfg hg] at h
  rw [C56_exact _ _ fun m hm => hg m (perm_part hp m hm), part_acceptable hg hp h.1]
  exact ⟨fun x => x.1, fun x => ⟨x, .refl _⟩⟩

/-- The condition for the success of a command. -/
theorem succeeds_iff (cmd : Command) (raw : List Module) (cfg : List String) (out : Text)
    (hg : ∀ m ∈ raw, GrammarModule m) : Succeeds cmd raw cfg out ↔
    Acceptable raw ∧ cfg.Perm (raw.map (·.name)) ∧ match cmd with
      | .cfs _ => GeneratableCfs raw
      | .c _ => Generatable raw
      | .binary e => GeneratableBinary raw ∧
          (e = none → ∀ n c l, Def.seq n c l ∈ defsOf raw → ∀ k ∈ l, k.comps = none) := by
  cases cmd with
  | cfs p => exact (C57_generate_cfs p raw cfg out hg).1
  | c p => exact (C57_generate_c p raw cfg out hg).1
  | binary e => exact (C57_generate_binary e raw cfg out hg).1

/-- **C105, runs on joined inputs.** A command that succeeds on two inputs alone succeeds on both together exactly if no
module and no type has the same name in both. -/
theorem C105_joined_iff (cmd : Command) (raw raw' : List Module) (cfg cfg' : List String) (out : Text)
    (hg : ∀ m ∈ raw, GrammarModule m) (hg' : ∀ m ∈ raw', GrammarModule m) (h : Succeeds cmd raw cfg out)
    (h' : Succeeds cmd raw' cfg' out) : Succeeds cmd (raw ++ raw') (cfg ++ cfg') out ↔ NamesApart raw raw' := by
  rw [succeeds_iff cmd raw cfg out hg] at h
  rw [succeeds_iff cmd raw' cfg' out hg'] at h'
  rw [succeeds_iff cmd _ _ out fun m hm => (List.mem_append.1 hm).elim (hg m) (hg' m)]
  obtain ⟨ha, hp, h⟩ := h
  obtain ⟨ha', hp', h'⟩ := h'
  refine ⟨fun x => (join_acceptable ha ha').1 x.1, fun hn => ⟨(join_acceptable ha ha').2 hn, ?_, ?_⟩⟩
  · rw [List.map_append]
    exact hp.append hp'
  · obtain ⟨hw, hw'⟩ := join_within hg hg' ha ha' hn
    cases cmd with
    | cfs p => exact join_generatableCfs ha ha' hn hw hw' h h'
    | c p => exact join_generatable ha ha' hn hw hw' h h'
    | binary e =>
      refine ⟨join_generatableBinary ha ha' hn hw hw' h.1 h'.1, fun he n c l hd => ?_⟩
      rw [defsOf_append'] at hd
      exact (List.mem_append.1 hd).elim (h.2 he n c l) (h'.2 he n c l)

/-- **C105, runs on parts.** If a command succeeds on an input, it succeeds on some of its modules alone exactly if they
import only from each other. -/
theorem C105_part_iff (cmd : Command) (raw sub rest : List Module) (cfg : List String) (out : Text)
    (hg : ∀ m ∈ raw, GrammarModule m) (hp : raw.Perm (sub ++ rest)) (h : Succeeds cmd raw cfg out) :
    Succeeds cmd sub (sub.map (·.name)) out ↔ ImportsWithin sub := by
  rw [succeeds_iff cmd raw cfg out hg] at h
  rw [succeeds_iff cmd sub _ out fun m hm => hg m (perm_part hp m hm)]
  obtain ⟨ha, -, h⟩ := h
  refine ⟨fun x => (part_acceptable hg hp ha).1 x.1, fun hi => ⟨(part_acceptable hg hp ha).2 hi, .refl _, ?_⟩⟩
  have hw := part_within hg hp ha hi
  cases cmd with
  | cfs p => exact part_generatableCfs (perm_part hp) hw h
  | c p => exact part_generatable (perm_part hp) hw h
  | binary e => exact ⟨part_generatableBinary (perm_part hp) hw h.1, fun he n c l hd => h.2 he n c l (hw.sub _ hd)⟩

theorem processModules_append {raw raw' ms ms' ms'' : List Module} (h : processModules raw = .ok ms)
    (h' : processModules raw' = .ok ms') (h'' : processModules (raw ++ raw') = .ok ms'') : ms'' = ms ++ ms' := by
  rw [processModules_ok] at h
  induction h generalizing ms'' with
  | nil => rw [List.nil_append, h'] at h''; cases h''; rfl
  | cons hm _ ih =>
    rw [List.cons_append, processModules, bind_ok] at h''
    obtain ⟨x, hx, h''⟩ := h''
    rw [bind_ok] at h''
    obtain ⟨xs, hxs, h''⟩ := h''
    rw [pure_ok] at h''
    rw [hm] at hx
    cases hx
    rw [← h'', ih hxs]
    rfl

theorem input_modules {raw : List Module} {cfg : List String} {b : Bundle} (h : Input raw cfg b) :
    processModules raw = .ok b.modules := by
  obtain ⟨ms, h1, _, _, h2, _⟩ := buildFromConfig_ok.1 h.accepted
  rw [h1, build_modules h2]

/-- All files of a run that succeeds. -/
theorem run_files {cmd : Command} {fuel : Nat} {raw : List Module} {cfg : List String} {out : Text} {b : Bundle}
    (hi : Input raw cfg b) (hf : 0 < fuel) (h : (cmd.run fuel raw cfg out).result = .ok ()) (q : Text) :
    FileOf (cmd.run fuel raw cfg out) q ↔ ∃ m ∈ b.modules, cmd.filesOf out m q := by
  obtain ⟨done, rest, h1, _, h2, h3⟩ := C79_whole_modules cmd fuel raw cfg out b hi hf
  rw [h3.1 h, List.append_nil] at h1
  rw [h2 q]
  exact exists_congr fun m => by rw [h1.mem_iff]

theorem not_newlyUsed {raw raw' : List Module} (hn : NamesApart raw raw') (ha' : Acceptable raw')
    (hg : ∀ m ∈ raw, GrammarModule m) (ms : List Module) (hms : ∀ m ∈ ms, m ∈ raw ∨ m ∈ raw') (n : String) :
    ¬ NewlyUsed raw ms n := by
  rintro ⟨⟨m, hm, c, t, hd⟩, m', hm', hni, d, hd', k, hk, -, hkn⟩
  have hm' := (hms m' hm').resolve_left hni
  have hdef : Def.simple n c t ∈ defsOf raw := defsOf_mem.2 ⟨m, hm, hd⟩
  rcases ha'.used m' hm' d hd' k hk n hkn with h | ⟨f, hf, hfn⟩ | ⟨i, hi, hin⟩
  · exact capital_notBuiltIn (grammarDef_name ((hg m hm).2.2.1 _ hd)) h
  · exact hn.2 _ hdef f (defsOf_mem.2 ⟨m', hm', hf⟩) hfn.symm
  · obtain ⟨x, hx, _, hx'⟩ := ha'.imports m' hm' i hi
    obtain ⟨f, hf, hfn⟩ := hx' n hin
    exact hn.2 _ hdef f (defsOf_mem.2 ⟨x, hx, hf⟩) hfn.symm

/-- **C105, files of joined inputs.** The files of the run on both inputs are those of the two runs, with the same
contents. -/
theorem C105_joined_files (cmd : Command) (raw raw' : List Module) (cfg cfg' : List String) (out : Text)
    (b b' : Bundle) (hi : Input raw cfg b) (hi' : Input raw' cfg' b') (fuel fuel' fuel'' : Nat)
    (hf : 0 < fuel ∧ 0 < fuel' ∧ 0 < fuel'') (h : (cmd.run fuel raw cfg out).result = .ok ())
    (h' : (cmd.run fuel' raw' cfg' out).result = .ok ())
    (h'' : (cmd.run fuel'' (raw ++ raw') (cfg ++ cfg') out).result = .ok ()) :
    KeepsFiles (cmd.run fuel raw cfg out) (cmd.run fuel'' (raw ++ raw') (cfg ++ cfg') out) ∧
    KeepsFiles (cmd.run fuel' raw' cfg' out) (cmd.run fuel'' (raw ++ raw') (cfg ++ cfg') out) ∧
    ∀ q, FileOf (cmd.run fuel'' (raw ++ raw') (cfg ++ cfg') out) q ↔
      FileOf (cmd.run fuel raw cfg out) q ∨ FileOf (cmd.run fuel' raw' cfg' out) q := by
  have hg := hi.grammar
  have hg' := hi'.grammar
  have hgj : ∀ m ∈ raw ++ raw', GrammarModule m := fun m hm => (List.mem_append.1 hm).elim (hg m) (hg' m)
  have hn := (C105_joined_iff cmd raw raw' cfg cfg' out hg hg' ⟨_, h⟩ ⟨_, h'⟩).1 ⟨_, h''⟩
  have ha := ((succeeds_iff cmd raw cfg out hg).1 ⟨_, h⟩).1
  have ha' := ((succeeds_iff cmd raw' cfg' out hg').1 ⟨_, h'⟩).1
  have hl : ∀ m ∈ raw, m ∈ raw ++ raw' := fun m hm => List.mem_append_left _ hm
  have hr : ∀ m ∈ raw', m ∈ raw ++ raw' := fun m hm => List.mem_append_right _ hm
  refine ⟨?_, ?_, fun q => ?_⟩
  · cases cmd with
    | cfs p =>
      exact (C68_generate_cfs_partial p out raw (raw ++ raw') _ _ _ _ hgj hl h h'').2
        (not_newlyUsed hn ha' hg _ fun m hm => List.mem_append.1 hm)
    | c p => exact C68_generate_c p out raw (raw ++ raw') _ _ _ _ hgj hl h h''
    | binary e => exact C68_generate_binary e out raw (raw ++ raw') _ _ _ _ hgj hl h h''
  · have hn' : NamesApart raw' raw :=
      ⟨fun m hm m' hm' e => hn.1 m' hm' m hm e.symm, fun d hd d' hd' e => hn.2 d' hd' d hd e.symm⟩
    cases cmd with
    | cfs p =>
      exact (C68_generate_cfs_partial p out raw' (raw ++ raw') _ _ _ _ hgj hr h' h'').2
        (not_newlyUsed hn' ha hg' _ fun m hm => (List.mem_append.1 hm).symm)
    | c p => exact C68_generate_c p out raw' (raw ++ raw') _ _ _ _ hgj hr h' h''
    | binary e => exact C68_generate_binary e out raw' (raw ++ raw') _ _ _ _ hgj hr h' h''
  · obtain ⟨b'', hb''⟩ := (C105_joined_accepted_iff raw raw' cfg cfg' hg hg' ⟨_, hi.accepted⟩ ⟨_, hi'.accepted⟩).2 hn
    have hi'' : Input (raw ++ raw') (cfg ++ cfg') b'' :=
      ⟨hgj, fun m hm => (List.mem_append.1 hm).elim (hi.comments m) (hi'.comments m), hb''⟩
    rw [run_files hi hf.1 h, run_files hi' hf.2.1 h', run_files hi'' hf.2.2 h'',
      processModules_append (input_modules hi) (input_modules hi') (input_modules hi'')]
    simp only [List.mem_append, or_and_right, exists_or]

/-- **C105, generate-cosmos.** A run that succeeds on an input does the same when an accepted input is joined to it that
shares no name of a module or type with it. -/
theorem C105_joined_cosmos (raw raw' : List Module) (hg : ∀ m ∈ raw, GrammarModule m)
    (hg' : ∀ m ∈ raw', GrammarModule m) (hu : (raw.map (·.name)).Nodup) (hu' : (raw'.map (·.name)).Nodup)
    (hb' : ∃ b, buildFromTexts raw' = .ok b) (hn : NamesApart raw raw') (fuel : Nat) (p : Printer) (module : String)
    (messages : List String) (target out : Text)
    (h : (runCosmos fuel p raw module messages target out).result = .ok ()) :
    runCosmos fuel p (raw ++ raw') module messages target out = runCosmos fuel p raw module messages target out := by
  have hgj : ∀ m ∈ raw ++ raw', GrammarModule m := fun m hm => (List.mem_append.1 hm).elim (hg m) (hg' m)
  have hb : ∃ b, buildFromTexts raw = .ok b := by
    unfold runCosmos at h
    cases hb : buildFromTexts raw with
    | error e => rw [hb] at h; cases h
    | ok b => exact ⟨b, rfl⟩
  have hj := (join_acceptable ((C56_exact_cosmos raw hg hu).1 hb) ((C56_exact_cosmos raw' hg' hu').1 hb')).2 hn
  exact C68_generate_cosmos_partial raw (raw ++ raw') hgj (fun m hm => List.mem_append_left _ hm)
    ⟨hu, hj.moduleNames⟩ ((C56_exact_cosmos _ hgj hj.moduleNames).2 hj) fuel p module messages target out h

/-! ### Examples -/

/-- A module on its own. -/
def exTank : Module :=
  { name := "tank"
    defs := [.simple "Level" none (intType 0 15), .seq "Tank" none [⟨"level", .plain "Level" none none, none, none⟩]] }

theorem exTank_apart : NamesApart exRaw [exTank] := by
  constructor <;> decide +kernel

example : Succeeds (.c exPrinter) exRaw ["geo", "base"] exOut ∧ Succeeds (.c exPrinter) [exTank] ["tank"] exOut ∧
    Succeeds (.c exPrinter) (exRaw ++ [exTank]) ["geo", "base", "tank"] exOut :=
  ⟨⟨9, by decide +kernel⟩, ⟨9, by decide +kernel⟩,
    (C105_joined_iff (.c exPrinter) exRaw [exTank] ["geo", "base"] ["tank"] exOut (grammarB_sound (by decide +kernel))
      (grammarB_sound (by decide +kernel)) ⟨9, by decide +kernel⟩ ⟨9, by decide +kernel⟩).2 exTank_apart⟩

/-- A module of the same name cannot be joined. -/
example : ¬ NamesApart [exTank] [{ exTank with defs := [.simple "Other" none (intType 0 1)] }] :=
  fun h => h.1 _ (.head _) _ (.head _) rfl

/-- The module without imports can be used alone, the other one cannot. -/
example : exRaw.Perm ([exBase] ++ [exGeo]) ∧ ImportsWithin [exBase] ∧ ¬ ImportsWithin [exGeo] := by
  refine ⟨.swap _ _ _, by unfold ImportsWithin; decide +kernel, by unfold ImportsWithin; decide +kernel⟩

end Apg
