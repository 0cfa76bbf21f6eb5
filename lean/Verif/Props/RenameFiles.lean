import Verif.Props.Rename
import Verif.Props.Relabel

/-!
# Renaming types and modules: macros and C files
-/

namespace Apg

open Spec

variable {ρ ν : String → String}

theorem fixedOfDef_rename (d : Def) :
    fixedOfDef (renameDef ρ d) = (fixedOfDef d).map fun x => (ρ x.1, x.2) := by
  cases d with
  | seq n c ms =>
    simp only [renameDef, fixedOfDef, List.flatMap_map, List.map_flatMap]
    congr 1
    funext m
    rw [List.map_map]
    rfl
  | _ => rfl

theorem clausesOf_rename (d : Def) : clausesOf (renameDef ρ d) = (clausesOf d).map fun x => (ρ x.1, x.2) := by
  cases d with
  | seq n c ms =>
    simp only [renameDef, clausesOf, List.filterMap_map, List.map_filterMap]
    congr 1
    funext k
    obtain ⟨a, t, c, w⟩ := k
    cases w <;> rfl
  | _ => rfl

/-- **C85, macros.** The message id header of a module under its new name has the same macros in the same order with the
same values, and the new name of the sequence in the name of each. -/
theorem C85_macros (h : Renaming ρ ν) (fuel : Nat) (p : Printer) (hp : Faithful p) (raw : List Module)
    (cfg : List String) (out : Text) (b : Bundle) (fs fs' : Files) (hi : Input raw cfg b)
    (hg' : ∀ m ∈ raw, GrammarModule (renameModule ρ ν m)) (hr : (runCfs fuel p raw cfg out).result = .ok ())
    (m : Module) (hm : m ∈ b.modules) :
    ∃ defs : List Def, defs.Perm m.defs ∧
      All2 (MacroOf p) (defs.flatMap fixedOfDef)
        (macrosIn ((runCfs fuel p raw cfg out).apply fs) (inDir out (ident m.name ++ "_msgids.h".toList))) ∧
      All2 (fun x => MacroOf p (ρ x.1, x.2)) (defs.flatMap fixedOfDef)
        (macrosIn ((runCfs fuel p (raw.map (renameModule ρ ν)) (cfg.map ν) out).apply fs')
          (inDir out (ident (ν m.name) ++ "_msgids.h".toList))) := by
  obtain ⟨bm, hbm, rfl⟩ := List.mem_map.1 hm
  have hi' := input_rename h hi hg'
  have hr' : (runCfs fuel p (raw.map (renameModule ρ ν)) (cfg.map ν) out).result = .ok () := by
    have := C85_end h (.cfs p) fuel raw cfg out hi.grammar hg'
    exact this.trans hr
  have hbm' : renameBMod ρ ν bm ∈ (renameBundle ρ ν b).mods := List.mem_map_of_mem hbm
  obtain ⟨defs, k1, k2, k3⟩ := msgids_macros_sorted fuel p hp raw hi.grammar cfg out hr b hi.accepted bm hbm fs
  obtain ⟨defs', q1, q2, q3⟩ := msgids_macros_sorted fuel p hp _ hi'.grammar _ out hr' _ hi'.accepted _ hbm' fs'
  have hs : defs' = defs.map (renameDef ρ) := by
    have e : sortDefs fuel (renameBMod ρ ν bm).mod = (sortDefs fuel bm.mod).map (List.map (renameDef ρ)) :=
      sortDefs_rename h fuel bm.mod
    rw [e, k1] at q1
    exact (Option.some.inj q1).symm
  have e : (defs.map (renameDef ρ)).flatMap fixedOfDef = (defs.flatMap fixedOfDef).map fun x => (ρ x.1, x.2) := by
    rw [List.flatMap_map, List.map_flatMap]
    congr 1
    funext d
    exact fixedOfDef_rename d
  rw [hs, e] at q3
  exact ⟨defs, k2, k3, all2_map_left q3⟩

/-- **C85, C files.** The C file of a module under its new name has the same variables in the same order with the same
initialisers, under the new names of the sequences. It includes its header if it did so before. -/
theorem C85_sources (h : Renaming ρ ν) (fuel : Nat) (p : Printer) (hp : Faithful p) (raw : List Module)
    (cfg : List String) (out : Text) (b : Bundle) (fs fs' : Files) (hi : Input raw cfg b)
    (hg' : ∀ m ∈ raw, GrammarModule (renameModule ρ ν m)) (hr : (runC fuel p raw cfg out).result = .ok ())
    (m : Module) (hm : m ∈ b.modules) :
    ∃ (doc : List Char) (incl : Bool) (vars vars' : List (List Char)) (sorted : List Def),
      HasText ((runC fuel p raw cfg out).apply fs) (inDir out (ident m.name ++ ".c".toList))
        (sourceFile doc (if incl then some (ident m.name ++ ".h".toList) else none) vars) ∧
      HasText ((runC fuel p (raw.map (renameModule ρ ν)) (cfg.map ν) out).apply fs')
        (inDir out (ident (ν m.name) ++ ".c".toList))
        (sourceFile doc (if incl then some (ident (ν m.name) ++ ".h".toList) else none) vars') ∧
      sorted.Perm m.defs ∧ All2 (Initialiser p) (sorted.flatMap clausesOf) vars ∧
      All2 (fun x => Initialiser p (ρ x.1, x.2)) (sorted.flatMap clausesOf) vars' := by
  obtain ⟨bm, hbm, rfl⟩ := List.mem_map.1 hm
  have hi' := input_rename h hi hg'
  have hr' : (runC fuel p (raw.map (renameModule ρ ν)) (cfg.map ν) out).result = .ok () := by
    have := C85_end h (.c p) fuel raw cfg out hi.grammar hg'
    exact this.trans hr
  have hbm' : renameBMod ρ ν bm ∈ (renameBundle ρ ν b).mods := List.mem_map_of_mem hbm
  obtain ⟨sorted, k1, k2, k3⟩ := source_file hi.grammar hi.accepted hr hbm fs
  obtain ⟨sorted', q1, q2, q3⟩ := source_file hi'.grammar hi'.accepted hr' hbm' fs'
  have hs : sorted' = sorted.map (renameDef ρ) := by
    have e : sortDefs fuel (renameBMod ρ ν bm).mod = (sortDefs fuel bm.mod).map (List.map (renameDef ρ)) :=
      sortDefs_rename h fuel bm.mod
    rw [e, k1] at q1
    exact (Option.some.inj q1).symm
  have hcl : sorted'.flatMap clausesOf = (sorted.flatMap clausesOf).map fun x => (ρ x.1, x.2) := by
    rw [hs, List.flatMap_map, List.map_flatMap]
    congr 1
    funext d
    exact clausesOf_rename d
  have hl : lastBlock sorted' = (lastBlock sorted).map (renameDef ρ) := by
    unfold lastBlock
    rw [hs, List.filter_map, List.getLast?_map]
    congr 3
    funext d
    cases d <;> rfl
  let incl : Bool := (inclOf sorted bm.mod.name).isSome
  have e1 : inclOf sorted bm.mod.name = if incl then some (ident bm.mod.name ++ ".h".toList) else none := by
    show _ = if (inclOf sorted bm.mod.name).isSome then _ else _
    unfold inclOf
    cases lastBlock sorted with
    | none => rfl
    | some d =>
      by_cases hc : clausesOf d = []
      · simp only [if_pos hc]; rfl
      · simp only [if_neg hc]; rfl
  have e2 : inclOf sorted' (ν bm.mod.name) = if incl then some (ident (ν bm.mod.name) ++ ".h".toList) else none := by
    show _ = if (inclOf sorted bm.mod.name).isSome then _ else _
    unfold inclOf
    rw [hl]
    cases lastBlock sorted with
    | none => rfl
    | some d =>
      simp only [Option.map_some, clausesOf_rename, List.map_eq_nil_iff]
      by_cases hc : clausesOf d = []
      · simp only [if_pos hc]; rfl
      · simp only [if_neg hc]; rfl
  have k3 : HasText _ _ (sourceFile _ (inclOf sorted bm.mod.name) _) := k3
  have q3 : HasText _ _ (sourceFile _ (inclOf sorted' (ν bm.mod.name)) _) := q3
  rw [e1] at k3
  rw [e2] at q3
  have g : ∀ {raw : List Module} {cfg : List String} {b : Bundle} (_ : Input raw cfg b) {bm : BMod} (_ : bm ∈ b.mods)
      {sorted : List Def} (_ : sorted.Perm bm.mod.defs), ∀ d ∈ sorted, GrammarDef d := fun hi _ hbm _ hp d hd =>
    (accepted_grammar hi.grammar (buildFromTexts_of_config hi.accepted) d
      (mem_defs_of_module (List.mem_map_of_mem hbm) (hp.mem_iff.1 hd))).1
  refine ⟨_, incl, _, _, sorted, k3, q3, k2, clauses_initialisers hp (g hi hbm k2), ?_⟩
  have := clauses_initialisers hp (g hi' hbm' q2)
  rw [hcl] at this
  rw [hcl]
  exact all2_map_left this

/-! ### Examples -/

theorem exNewHere_module : ∃ m ∈ (okBundle (buildFromConfig exHere ["m"])).modules, m.name = "m" ∧ m.defs = defsOf exHere :=
  ⟨_, List.mem_of_getElem? (i := 0) rfl, by decide +kernel, by decide +kernel⟩

example : ∃ defs : List Def, defs.Perm (defsOf exHere) ∧
    All2 (MacroOf exPrinter) (defs.flatMap fixedOfDef)
      (macrosIn ((runCfs 20 exPrinter exHere ["m"] exOut).apply fun _ => none) "gen/m_msgids.h".toList) ∧
    All2 (fun x => MacroOf exPrinter (exNewType x.1, x.2)) (defs.flatMap fixedOfDef)
      (macrosIn ((runCfs 20 exPrinter (exHere.map (renameModule exNewType exNewModule)) ["space-craft"] exOut).apply
        fun _ => none) "gen/space_craft_msgids.h".toList) := by
  obtain ⟨m, hm, hn, hd⟩ := exNewHere_module
  have := C85_macros exNew_renaming 20 exPrinter exPrinter_faithful exHere ["m"] exOut _ (fun _ => none) (fun _ => none)
    exHere_input exNew_grammar (by decide +kernel) m hm
  rw [hn, hd] at this
  exact this

example : macrosIn ((runCfs 20 exPrinter (exHere.map (renameModule exNewType exNewModule)) ["space-craft"] exOut).apply
    fun _ => none) "gen/space_craft_msgids.h".toList = [("FRAME_APPLICATION_PROCESS_IDENTIFIER".toList, "(7)".toList)] := by
  decide +kernel

example : ∃ (doc : List Char) (incl : Bool) (vars vars' : List (List Char)) (sorted : List Def),
    HasText ((runC 20 exPrinter exHere ["m"] exOut).apply fun _ => none) "gen/m.c".toList
      (sourceFile doc (if incl then some "m.h".toList else none) vars) ∧
    HasText ((runC 20 exPrinter (exHere.map (renameModule exNewType exNewModule)) ["space-craft"] exOut).apply fun _ => none)
      "gen/space_craft.c".toList (sourceFile doc (if incl then some "space_craft.h".toList else none) vars') ∧
    sorted.Perm (defsOf exHere) ∧ All2 (Initialiser exPrinter) (sorted.flatMap clausesOf) vars ∧
    All2 (fun x => Initialiser exPrinter (exNewType x.1, x.2)) (sorted.flatMap clausesOf) vars' := by
  obtain ⟨m, hm, hn, hd⟩ := exNewHere_module
  have := C85_sources exNew_renaming 20 exPrinter exPrinter_faithful exHere ["m"] exOut _ (fun _ => none) (fun _ => none)
    exHere_input exNew_grammar (by decide +kernel) m hm
  rw [hn, hd] at this
  exact this

end Apg
