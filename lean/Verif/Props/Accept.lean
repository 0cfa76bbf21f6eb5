import Verif.Lemmas.Accept
import Verif.Props.Parser

/-!
# Property C56: valid input is accepted
-/

namespace Apg

open Parse Spec

/-- **C56, exact conditions (all commands but generate-cosmos).** Modules pass validation exactly
when they are acceptable and `--asn1-modules` lists their names, in any order. -/
theorem C56_exact (raw : List Module) (cfg : List String) (hg : ∀ m ∈ raw, GrammarModule m) :
    (∃ b, buildFromConfig raw cfg = .ok b) ↔ Acceptable raw ∧ cfg.Perm (raw.map (·.name)) :=
  buildFromConfig_iff hg

/-- **C56, exact conditions (generate-cosmos).** The same where module names are not compared. -/
theorem C56_exact_cosmos (raw : List Module) (hg : ∀ m ∈ raw, GrammarModule m)
    (hn : (raw.map (·.name)).Nodup) :
    (∃ b, buildFromTexts raw = .ok b) ↔ Acceptable raw :=
  buildFromTexts_iff hg hn

/-- **C56.** Valid modules are accepted by every command, whatever the order in which they are
listed; the bundle is the same for all of them. -/
theorem C56_valid_accepted (raw : List Module) (hg : ∀ m ∈ raw, GrammarModule m) (h : Valid raw) :
    ∃ b, buildFromTexts raw = .ok b ∧
      ∀ cfg : List String, cfg.Perm (raw.map (·.name)) → buildFromConfig raw cfg = .ok b := by
  obtain ⟨b, hb⟩ := (buildFromTexts_iff hg h.moduleNames).2 (valid_acceptable h)
  refine ⟨b, hb, fun cfg hc => ?_⟩
  obtain ⟨b', hb'⟩ := (buildFromConfig_iff hg).2 ⟨valid_acceptable h, hc⟩
  have := buildFromTexts_of_config hb'
  rw [hb] at this
  cases this
  exact hb'

theorem strict_grammar {ms : List Module} {ts : List Text} (h : All2 (ModuleSyntax strictStyle) ms ts) :
    ∀ m ∈ ms, GrammarModule m := by
  induction h with
  | nil => simp
  | cons h _ ih =>
    intro m hm
    rcases List.mem_cons.1 hm with rfl | hm
    · obtain ⟨sd, _, hp⟩ := parseModule_syntax h
      exact (parseModule_ok hp).1
    · exact ih m hm

/-- **C56, files.** A run of any command on files that write valid modules, all named in
`--asn1-modules`, gets past validation: it is the run of the generator on the bundle. -/
theorem C56_files (F : Bool → Nat → Int → Num) (hF : Rounds F) :
    ∀ raw ts fs, All2 (ModuleSyntax (.strict F)) raw ts → All2 Stored ts fs → Valid raw →
      ∃ b, buildFromTexts raw = .ok b ∧ ∀ fuel p,
        (∀ m ms target out, program fuel p (fs.map some) (.cosmos m ms target out) =
          generateCosmos fuel p b (String.ofList m) (nameList ms) target out) ∧
        ∀ ms, (nameList ms).Perm (raw.map (·.name)) → ∀ out,
          program fuel p (fs.map some) (.cfs ms out) = generate fuel (cfsBackend p out b) out b ∧
          program fuel p (fs.map some) (.c ms out) = generate fuel (cBackend p out b) out b ∧
          ∀ e, program fuel p (fs.map some) (.binary ms out e) =
            generate fuel (binBackend fuel e out b) out b := by
  cases rounds_unique hF
  intro raw ts fs h hs hv
  obtain ⟨b, hb, hc⟩ := C56_valid_accepted raw (strict_grammar h) hv
  refine ⟨b, hb, fun fuel p => ?_⟩
  have hp := program_eq fuel p (readFiles_stored hs) (readModules_syntax h)
  refine ⟨fun m ms target out => ?_, fun ms hms out => ⟨?_, ?_, fun e => ?_⟩⟩
  · rw [hp]; simp only [runMain, runCosmos, hb]
  · rw [hp]; simp only [runMain, runCfs, runCommand, hc _ hms]
  · rw [hp]; simp only [runMain, runC, runCommand, hc _ hms]
  · rw [hp]; simp only [runMain, runBinary, runCommand, hc _ hms]

/-- **C56, refusals.** A run on files that write modules that are not acceptable ends with an error before
anything is written. (For generate-cosmos, where the names of the modules are different.) -/
theorem C56_refused (F : Bool → Nat → Int → Num) (hF : Rounds F) :
    ∀ raw ts fs, All2 (ModuleSyntax (.strict F)) raw ts → All2 Stored ts fs →
      ¬ Acceptable raw → ∀ fuel p args,
      ((∃ m ms target out, args = .cosmos m ms target out) → (raw.map (·.name)).Nodup) →
      ∃ e, program fuel p (fs.map some) args = ⟨[], .error e⟩ := by
  cases rounds_unique hF
  intro raw ts fs h hs hv fuel p args hn
  have hg := strict_grammar h
  rw [program_eq fuel p (readFiles_stored hs) (readModules_syntax h)]
  have h1 : (raw.map (·.name)).Nodup → ∃ e, buildFromTexts raw = .error e := by
    intro hn
    cases hb : buildFromTexts raw with
    | error e => exact ⟨e, rfl⟩
    | ok b => exact absurd ((buildFromTexts_iff hg hn).1 ⟨b, hb⟩) hv
  have h2 : ∀ cfg, ∃ e, buildFromConfig raw cfg = .error e := by
    intro cfg
    cases hb : buildFromConfig raw cfg with
    | error e => exact ⟨e, rfl⟩
    | ok b => exact absurd ((buildFromConfig_iff hg).1 ⟨b, hb⟩).1 hv
  cases args with
  | cosmos m ms target out =>
    obtain ⟨e, he⟩ := h1 (hn ⟨_, _, _, _, rfl⟩)
    exact ⟨e, by simp only [runMain, runCosmos, he]⟩
  | cfs ms out =>
    obtain ⟨e, he⟩ := h2 (nameList ms)
    exact ⟨e, by simp only [runMain, runCfs, runCommand, he]⟩
  | c ms out =>
    obtain ⟨e, he⟩ := h2 (nameList ms)
    exact ⟨e, by simp only [runMain, runC, runCommand, he]⟩
  | binary ms out e' =>
    obtain ⟨e, he⟩ := h2 (nameList ms)
    exact ⟨e, by simp only [runMain, runBinary, runCommand, he]⟩

/-! ### An example -/

theorem exRaw_defs : defsOf exRaw =
    [.seq "Point" none [⟨"lat", .plain "Angle" none none, none, none⟩,
                          ⟨"lon", .plain "Angle" none none, none, none⟩],
     .seq "Track" none [⟨"start", .plain "Point" none none, none,
                            some (.leaf "lat" (.int 3) (.leaf "lon" (.int 4) .nil))⟩,
                          ⟨"rest", .arr (.plain "Point" none none) 4, none, none⟩],
     .simple "Angle" none (.plain "INTEGER" (some (.int 0)) (some (.int 359)))] := rfl

instance (d : Def) : Decidable (DistinctKeys d) := inferInstanceAs (Decidable (List.Nodup _))

theorem no_standard {n : String} (h : posixRange n = none) (b e : Num) : ¬ StandardRange n b e := by
  rw [standardRange_iff, h]; simp

/-- The bundle of two modules with an import, nested sequences and a WITH COMPONENTS clause is
valid. -/
theorem exRaw_valid : Valid exRaw where
  moduleNames := by decide
  typeNames := by decide
  comments := by
    intro m hm
    simp only [exRaw, List.mem_cons, List.not_mem_nil, or_false] at hm
    rcases hm with rfl | rfl <;> constructor <;> simp [exGeo, exBase, commentsOf]
  defs := by
    intro d hd
    simp only [exRaw_defs, List.mem_cons, List.not_mem_nil, or_false] at hd
    rcases hd with rfl | rfl | rfl
    · refine ⟨?_, by decide, fun b e h => absurd h (no_standard (by decide +kernel) _ _),
        fun b e h => absurd h (no_standard (by decide +kernel) _ _)⟩
      intro m hm
      simp only [List.mem_cons, List.not_mem_nil, or_false] at hm
      rcases hm with rfl | rfl <;> exact .named (by decide +kernel)
    · refine ⟨?_, by decide, fun b e h => absurd h (no_standard (by decide +kernel) _ _),
        fun b e h => absurd h (no_standard (by decide +kernel) _ _)⟩
      intro m hm
      simp only [List.mem_cons, List.not_mem_nil, or_false] at hm
      rcases hm with rfl | rfl
      · exact .named (by decide +kernel)
      · exact .arr (.named (by decide +kernel))
    · exact ⟨.integerRange (by decide), by decide, fun b e h => absurd h (no_standard (by decide +kernel) _ _),
        fun b e h => absurd h (no_standard (by decide +kernel) _ _)⟩
  used := by
    intro m hm d hd k hk n hu
    rw [usesName_iff] at hu
    subst hu
    simp only [exRaw, List.mem_cons, List.not_mem_nil, or_false] at hm
    rcases hm with rfl | rfl
    · simp only [exGeo, List.mem_cons, List.not_mem_nil, or_false] at hd
      rcases hd with rfl | rfl
      · simp only [Def.members, List.mem_cons, List.not_mem_nil, or_false] at hk
        rcases hk with rfl | rfl <;> exact .inr (.inr ⟨_, List.mem_cons_self .., by simp [AType.name]⟩)
      · simp only [Def.members, List.mem_cons, List.not_mem_nil, or_false] at hk
        rcases hk with rfl | rfl <;> exact .inr (.inl ⟨_, List.mem_cons_self .., by simp [AType.name, Def.name]⟩)
    · simp only [exBase, List.mem_cons, List.not_mem_nil, or_false] at hd
      subst hd
      cases hk
  imports := by
    intro m hm
    simp only [exRaw, List.mem_cons, List.not_mem_nil, or_false] at hm
    rcases hm with rfl | rfl
    · intro i hi
      simp only [exGeo, List.mem_cons, List.not_mem_nil, or_false] at hi
      subst hi
      refine ⟨exBase, by simp [exRaw], rfl, ?_⟩
      intro n hn
      simp only [List.mem_cons, List.not_mem_nil, or_false] at hn
      subst hn
      exact ⟨_, List.mem_cons_self .., rfl⟩
    · intro i hi; cases hi
  components := by
    intro d hd k hk cs hcs t ht
    rw [usesName_iff] at ht
    simp only [exRaw_defs, List.mem_cons, List.not_mem_nil, or_false] at hd
    have hp : IsSequence (defsOf exRaw) "Point" _ := ⟨none, by rw [exRaw_defs]; exact List.mem_cons_self ..⟩
    rcases hd with rfl | rfl | rfl
    · simp only [Def.members, List.mem_cons, List.not_mem_nil, or_false] at hk
      rcases hk with rfl | rfl <;> cases hcs
    · simp only [Def.members, List.mem_cons, List.not_mem_nil, or_false] at hk
      rcases hk with rfl | rfl
      · cases hcs
        subst ht
        exact .leaf hp (List.mem_cons_self ..) (.leaf hp (List.mem_cons_of_mem _ (List.mem_cons_self ..)) (.nil hp))
      · cases hcs
    · cases hk

example : ∃ b, buildFromConfig exRaw ["base", "geo"] = .ok b := by
  obtain ⟨b, _, h⟩ := C56_valid_accepted exRaw (grammarB_sound (by decide +kernel)) exRaw_valid
  exact ⟨b, h _ (by decide)⟩

/-- A range the wrong way round is not acceptable. -/
example : ¬ AcceptableDef (.simple "T" none (intType 5 2)) := by
  rintro ⟨h, _⟩
  have := (soundType_iff (t := intType 5 2) .integerRange).2 h
  rw [checkTypeObj_int] at this
  omega

end Apg
