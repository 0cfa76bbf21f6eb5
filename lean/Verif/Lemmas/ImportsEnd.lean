import Verif.Lemmas.ImportsRun

/-!
# Runs of the commands on modules that import the same in another way
-/

namespace Apg

open Spec

theorem raw_of_built {raw : List Module} {cfg : List String} {b : Bundle} (h : buildFromConfig raw cfg = .ok b)
    {m : Module} (hm : m ∈ b.modules) : ∃ m0 ∈ raw, m0.name = m.name ∧ m0.imports = m.imports := by
  obtain ⟨ms, h1, _, _, h4, _⟩ := buildFromConfig_ok.1 h
  rw [build_modules h4] at hm
  obtain ⟨m0, h0, hp⟩ := all2_mem_right (processModules_ok.1 h1) hm
  exact ⟨m0, h0, (processModule_name hp).1.symm, (processModule_name hp).2.symm⟩

theorem raw_nodup {raw : List Module} {cfg : List String} {b : Bundle} (h : buildFromConfig raw cfg = .ok b) :
    (raw.map (·.name)).Nodup := by
  obtain ⟨ms, h1, h2, _⟩ := buildFromConfig_ok.1 h
  rw [← processModules_names h1]
  exact h2

theorem raw_pair {raw raw' : List Module} {cfg : List String} {b b' : Bundle} (hs : All2 Reimported raw raw')
    (h : buildFromConfig raw cfg = .ok b) (h' : buildFromConfig raw' cfg = .ok b') {m m' : Module}
    (hm : m ∈ b.modules) (hm' : m' ∈ b'.modules) (hr : Reimported m m') :
    ∃ m0 ∈ raw, ∃ m1 ∈ raw', Reimported m0 m1 ∧ m0.name = m.name ∧ m0.imports = m.imports ∧ m1.imports = m'.imports := by
  obtain ⟨m0, q1, q2, q3⟩ := raw_of_built h hm
  obtain ⟨m1, p1, p2, p3⟩ := raw_of_built h' hm'
  obtain ⟨m2, r1, r2⟩ := all2_mem_left hs q1
  have : m2 = m1 := mem_unique_of_nodup_map (raw_nodup h') r1 p1 (by rw [r2.name, q2, p2, hr.name])
  subst this
  exact ⟨m0, q1, m2, r1, r2, q2, q3, p3⟩

theorem imports_lower {raw : List Module} {cfg : List String} {b : Bundle} (hg : ∀ m ∈ raw, GrammarModule m)
    (h : buildFromConfig raw cfg = .ok b) {m : Module} (hm : m ∈ b.modules) :
    ∀ i ∈ m.imports, isNameLower i.module = true := by
  obtain ⟨ms, h1, h2, _, h4, _⟩ := buildFromConfig_ok.1 h
  have hnames := accepted_names hg (buildFromTexts_of_config h)
  rw [build_modules h4] at hm hnames
  intro i hi
  obtain ⟨x, hx⟩ := Option.isSome_iff_exists.1 (((resolveDeps_nodup h2).1 (build_ok.1 h4).1).1 m hm i hi)
  obtain ⟨q1, q2⟩ := lastNamed_some hx
  exact q2 ▸ hnames x q1

/-- The file of include lines of each command. -/
def fileOfCommand : Command → String → Text
  | .cfs _ => fun n => msgFilename n ++ ".h".toList
  | _ => cFilename

theorem importLines_text (cmd : Command) {m : Module} (h : ∀ i ∈ m.imports, isNameLower i.module = true) :
    (importLines (fileOfCommand cmd) m).flatMap (fun i => i ++ ['\n']) = importLinesOf cmd m.imports := by
  unfold importLines importLinesOf
  rw [List.flatMap_map]
  have : ∀ i ∈ m.imports, fileOfCommand cmd i.module = cmd.included i.module := by
    intro i hi
    have e : cName i.module = ident i.module := cName_eq (.inl (h i hi))
    cases cmd with
    | cfs p =>
      simp only [fileOfCommand, Command.included, Command.header, msgFilename, e, List.append_assoc]
      rfl
    | c p => exact e
    | binary p => exact e
  rw [List.flatMap_def, List.flatMap_def]
  congr 1
  refine List.map_congr_left fun i hi => ?_
  rw [this i hi, List.append_assoc]
  rfl

/-- Contents of a header of a run that only differ in include lines. -/
def OtherRaw (cmd : Command) (out : Text) (raw raw' : List Module) (q : Text) (c d : Content) : Prop :=
  ∃ m ∈ raw, ∃ m' ∈ raw', ∃ pre post, Reimported m m' ∧ q = cmd.path out m.name ∧
    c = textContent (pre ++ importLinesOf cmd m.imports ++ post) ∧ d = textContent (pre ++ importLinesOf cmd m'.imports ++ post)

theorem otherHeader_raw {cmd : Command} {out : Text} {raw raw' : List Module} {cfg : List String} {b b' : Bundle}
    (hs : All2 Reimported raw raw') (hg : ∀ m ∈ raw, GrammarModule m)
    (h : buildFromConfig raw cfg = .ok b) (h' : buildFromConfig raw' cfg = .ok b') {m m' : Module}
    (hm : m ∈ b.modules) (hm' : m' ∈ b'.modules) (hr : Reimported m m') {path q : Text} {c d : Content}
    (hp : path = cmd.path out m.name) (ho : OtherHeader path (fileOfCommand cmd) m m' q c d) :
    OtherRaw cmd out raw raw' q c d := by
  obtain ⟨rfl, pre, post, rfl, rfl⟩ := ho
  obtain ⟨m0, q1, m1, r1, r2, q2, q3, p3⟩ := raw_pair hs h h' hm hm' hr
  have hl := imports_lower hg h hm
  have hl' : ∀ i ∈ m'.imports, isNameLower i.module = true := by
    intro i hi
    obtain ⟨j, hj, e⟩ := (hr.modules i.module).1 ⟨i, hi, rfl⟩
    exact e ▸ hl j hj
  exact ⟨m0, q1, m1, r1, pre, post, r2, by rw [hp, q2], by rw [importLines_text cmd hl, q3],
    by rw [importLines_text cmd hl', p3]⟩

theorem runCommand_reimported {H : Text → Content → Content → Prop} {mk : Bundle → Backend} {raw raw' : List Module}
    (hs : All2 Reimported raw raw') (fuel : Nat) (cfg : List String) (out : Text)
    (hd : ∀ b b', buildFromConfig raw cfg = .ok b → buildFromConfig raw' cfg = .ok b' → ReimportedBundle b b' →
      ∀ bm ∈ b.mods, ∀ bm' ∈ b'.mods, ReimportedB bm bm' → EndsAlike (fun cd cd' =>
        All2 (OpImports H) ((mk b).print bm.mod cd) ((mk b').print bm'.mod cd')) (moduleData fuel (mk b) b.defs bm)
          (moduleData fuel (mk b') b.defs bm')) :
    RunAlike H (runCommand fuel mk raw cfg out) (runCommand fuel mk raw' cfg out) := by
  have hb := buildFromConfig_reimported hs cfg
  unfold runCommand
  cases e : buildFromConfig raw cfg with
  | error x =>
    cases e' : buildFromConfig raw' cfg with
    | error y => rw [e, e'] at hb; cases hb; exact ⟨rfl, .nil⟩
    | ok y => rw [e, e'] at hb; cases hb
  | ok b =>
    cases e' : buildFromConfig raw' cfg with
    | error y => rw [e, e'] at hb; cases hb
    | ok b' =>
      rw [e, e'] at hb
      cases hb with
      | ok hb => exact generate_reimported hb (config_names_nodup e) fuel out (hd b b' e e' hb)

theorem EndsAlike.imp {α : Type} {R S : α → α → Prop} {x y : Except Err α} (h : EndsAlike R x y) (hi : ∀ a c, R a c → S a c) :
    EndsAlike S x y := by
  cases h with
  | error e => exact .error e
  | ok h => exact .ok (hi _ _ h)

theorem all2_opImports_imp {H K : Text → Content → Content → Prop} {l l' : List FileOp} (h : All2 (OpImports H) l l')
    (hi : ∀ q c d, H q c d → K q c d) : All2 (OpImports K) l l' :=
  h.imp fun a c hac => by
    cases a <;> cases c <;> first | exact hac | exact ⟨hac.1, hac.2.imp id (hi _ _ _)⟩

theorem command_reimported (cmd : Command) {raw raw' : List Module} (hs : All2 Reimported raw raw')
    (hg : ∀ m ∈ raw, GrammarModule m) (fuel : Nat) (cfg : List String) (out : Text) :
    RunAlike (OtherRaw cmd out raw raw') (cmd.run fuel raw cfg out) (cmd.run fuel raw' cfg out) := by
  have hmod : ∀ {b : Bundle} {bm : BMod}, bm ∈ b.mods → bm.mod ∈ b.modules := fun h => List.mem_map.2 ⟨_, h, rfl⟩
  cases cmd with
  | cfs p =>
    refine runCommand_reimported hs fuel cfg out fun b b' h h' hr bm hbm bm' hbm' hR => ?_
    refine (moduleData_reimported hR (be := cfsBackend p out b) (be' := cfsBackend p out b')
      ⟨rfl, by simp only [cfsBackend]; funext n t; unfold cfsNote; rw [hr.uses], fun n m => ?_⟩
      (simpleList_unique hg h hbm) fuel).imp fun cd cd' hc => ?_
    · rfl
    · have hn : GrammarName bm.mod.name := .inl (accepted_names hg (buildFromTexts_of_config h) _ (hmod hbm))
      simp only [cfsBackend, hR.mod.name]
      refine all2_append (all2_opImports_imp (printToFile_other hc _ _ _ (by decide)) fun q c d ho => ?_)
        (printToFile_msgids hc _ _ _)
      refine otherHeader_raw hs hg h h' (hmod hbm) (hmod hbm') hR.mod ?_ ho
      rw [msgFilename, cName_eq hn, List.append_assoc, joinPath_eq out (ident_head hn _)]
      rfl
  | c p =>
    refine runCommand_reimported hs fuel cfg out fun b b' h h' hr bm hbm bm' hbm' hR => ?_
    refine (moduleData_reimported hR (be := cBackend p out b) (be' := cBackend p out b')
      ⟨rfl, rfl, fun n m => ?_⟩
      (simpleList_unique hg h hbm) fuel).imp fun cd cd' hc => ?_
    · simp only [cBackend, cHandler, hR.mod.name]
    · have hn : GrammarName bm.mod.name := .inl (accepted_names hg (buildFromTexts_of_config h) _ (hmod hbm))
      simp only [cBackend, hR.mod.name]
      refine all2_opImports_imp (printToFile_other hc _ _ _ (by decide)) fun q c d ho => ?_
      refine otherHeader_raw hs hg h h' (hmod hbm) (hmod hbm') hR.mod ?_ ho
      rw [cFilename, cName_eq hn, joinPath_eq out (ident_head hn _)]
      rfl
  | binary e =>
    refine runCommand_reimported hs fuel cfg out fun b b' h h' hr bm hbm bm' hbm' hR => ?_
    refine (moduleData_reimported hR (be := binBackend fuel e out b) (be' := binBackend fuel e out b')
      ⟨rfl, rfl, fun n m => ?_⟩
      (simpleList_unique hg h hbm) fuel).imp fun cd cd' hc => ?_
    · simp only [binBackend, binHandler, hr.defs, hR.mod.defs]
    · have hn : GrammarName bm.mod.name := .inl (accepted_names hg (buildFromTexts_of_config h) _ (hmod hbm))
      simp only [binBackend, hR.mod.name]
      refine all2_opImports_imp (printToFile_other hc _ _ _ (by decide)) fun q c d ho => ?_
      refine otherHeader_raw hs hg h h' (hmod hbm) (hmod hbm') hR.mod ?_ ho
      rw [cFilename, cName_eq hn, joinPath_eq out (ident_head hn _)]
      rfl

end Apg
