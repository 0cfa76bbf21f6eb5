import Verif.Props.Local
import Verif.Lemmas.RenameRun

/-!
# Renaming types and modules (C85)
-/

namespace Apg
open Spec

variable {ρ ν : String → String}

theorem commentsOf_rename (d : Def) : commentsOf (renameDef ρ d) = commentsOf d := by
  have key : ∀ ms : List Member, (ms.map (renameMember ρ)).filterMap (fun m => m.comment) =
      ms.filterMap (fun m => m.comment) := by
    intro ms
    rw [List.filterMap_map]
    rfl
  cases d with
  | seq n c ms => simp only [renameDef, commentsOf, key]
  | choice n c ms => simp only [renameDef, commentsOf, key]
  | enum n c its => rfl
  | simple n c t => rfl

theorem grammarComments_rename {m : Module} (h : GrammarComments m) : GrammarComments (renameModule ρ ν m) := by
  refine ⟨h.1, fun d hd => ?_⟩
  obtain ⟨x, hx, rfl⟩ := List.mem_map.1 hd
  rw [commentsOf_rename]
  exact h.2 x hx

/-- A definition is in one module. -/
theorem bmod_of_def {b : Bundle} (hnd : (b.defs.map Def.name).Nodup) {bm bm' : BMod} (h : bm ∈ b.mods) (h' : bm' ∈ b.mods)
    {d : Def} (hd : d ∈ bm.mod.defs) (hd' : d ∈ bm'.mod.defs) : bm = bm' := by
  have key : ∀ l : List BMod, ((l.flatMap fun x => x.mod.defs).map Def.name).Nodup → bm ∈ l → bm' ∈ l → bm = bm' := by
    intro l
    induction l with
    | nil => intro _ h _; cases h
    | cons x l ih =>
      intro hn h h'
      rw [List.flatMap_cons, List.map_append, List.nodup_append] at hn
      have off : ∀ {y : BMod}, y ∈ l → d ∈ x.mod.defs → d ∈ y.mod.defs → False := fun hy hx hyd =>
        hn.2.2 _ (List.mem_map_of_mem hx) _ (List.mem_map_of_mem (List.mem_flatMap.2 ⟨_, hy, hyd⟩)) rfl
      rcases List.mem_cons.1 h with e | h <;> rcases List.mem_cons.1 h' with e' | h'
      · rw [e, e']
      · exact (off h' (e ▸ hd) hd').elim
      · exact (off h (e' ▸ hd') hd).elim
      · exact ih hn.2.1 h h'
  refine key b.mods ?_ h h'
  have : (b.mods.flatMap fun x => x.mod.defs) = b.defs := by
    unfold Bundle.defs allDefs Bundle.modules
    rw [List.flatMap_map]
  rw [this]
  exact hnd

theorem input_rename (h : Renaming ρ ν) {raw : List Module} {cfg : List String} {b : Bundle} (hi : Input raw cfg b)
    (hg : ∀ m ∈ raw, GrammarModule (renameModule ρ ν m)) :
    Input (raw.map (renameModule ρ ν)) (cfg.map ν) (renameBundle ρ ν b) := by
  refine ⟨fun m hm => ?_, fun m hm => ?_, ?_⟩
  · obtain ⟨x, hx, rfl⟩ := List.mem_map.1 hm
    exact hg x hx
  · obtain ⟨x, hx, rfl⟩ := List.mem_map.1 hm
    exact grammarComments_rename (hi.comments x hx)
  · rw [buildFromConfig_rename h, hi.accepted]; rfl

/-- **C85, end of a run.** When the types and the modules have other names, generate-cfs, generate-c and
generate-binary end in the same way. -/
theorem C85_end (h : Renaming ρ ν) (cmd : Command) (fuel : Nat) (raw : List Module) (cfg : List String) (out : Text)
    (hg : ∀ m ∈ raw, GrammarModule m) (hg' : ∀ m ∈ raw, GrammarModule (renameModule ρ ν m)) :
    (cmd.run fuel (raw.map (renameModule ρ ν)) (cfg.map ν) out).result = (cmd.run fuel raw cfg out).result := by
  cases cmd with
  | cfs p => exact runCommand_rename h hg hg' fuel cfg out fun b mod => cfs_end h p out b mod
  | c p => exact runCommand_rename h hg hg' fuel cfg out fun b mod => c_end p out b _ mod
  | binary e => exact runCommand_rename h hg hg' fuel cfg out fun b mod => binary_end h fuel e out b mod

/-- **C85, headers.** The header of a module under its new name has the same definitions in the same order with the
same fields, under new names: a field changes its type only from the old to the new name of the type of its member. -/
theorem C85_headers (h : Renaming ρ ν) (cmd : Command) (fuel : Nat) (raw : List Module) (cfg : List String) (out : Text)
    (b : Bundle) (fs fs' : Files) (hi : Input raw cfg b) (hg' : ∀ m ∈ raw, GrammarModule (renameModule ρ ν m))
    (hr : (cmd.run fuel raw cfg out).result = .ok ()) (m : Module) (hm : m ∈ b.modules) :
    ∃ (F : AType → List Char × List Char) (sorted : List Def) (hd hd' : HeaderParts) (tss tss' : List (List (List Char))),
      HasText ((cmd.run fuel raw cfg out).apply fs) (cmd.path out m.name) hd.text ∧
      HasText ((cmd.run fuel (raw.map (renameModule ρ ν)) (cfg.map ν) out).apply fs') (cmd.path out (ν m.name)) hd'.text ∧
      sorted.Perm m.defs ∧ hd.blocks = tss.flatten ∧ hd'.blocks = tss'.flatten ∧
      All2 (Block (fun t ct sfx => (ct, sfx) = F t) fun t => (dims t).take 1) sorted tss ∧
      All2 (Block (fun t' ct sfx => ∃ t, t' = renameType ρ t ∧ (ct, sfx) = renameField ρ t (F t))
        fun t => (dims t).take 1) (sorted.map (renameDef ρ)) tss' ∧
      hd'.doc = hd.doc ∧ hd'.stdbool = hd.stdbool := by
  obtain ⟨bm, hbm, rfl⟩ := List.mem_map.1 hm
  have hi' := input_rename h hi hg'
  have hr' : (cmd.run fuel (raw.map (renameModule ρ ν)) (cfg.map ν) out).result = .ok () := by
    rw [C85_end h cmd fuel raw cfg out hi.grammar hg', hr]
  have hbm' : renameBMod ρ ν bm ∈ (renameBundle ρ ν b).mods := List.mem_map_of_mem hbm
  obtain ⟨hd, sorted, tss, _, k1, k2, k3, k4, k5, k6, _, k7, _⟩ := header_faithful_data fs hi hr hbm
  obtain ⟨hd', sorted', tss', _, q1, q2, q3, q4, q5, q6, _, q7, _⟩ := header_faithful_data fs' hi' hr' hbm'
  have hs : sorted' = sorted.map (renameDef ρ) := by
    have e : sortDefs fuel (renameBMod ρ ν bm).mod = (sortDefs fuel bm.mod).map (List.map (renameDef ρ)) :=
      sortDefs_rename h fuel bm.mod
    rw [e, k2] at q2
    exact (Option.some.inj q2).symm
  subst hs
  have hbt := buildFromTexts_of_config hi.accepted
  have hcap : ∀ d ∈ b.defs, isNameCapital d.name = true := fun d hd => def_capital (accepted_grammar hi.grammar hbt d hd).1
  have hcap' : ∀ d ∈ b.defs, isNameCapital (ρ d.name) = true := fun d hd => by
    have := def_capital (accepted_grammar hi'.grammar (buildFromTexts_of_config hi'.accepted) (renameDef ρ d) (by
      rw [renameBundle_defs]; exact List.mem_map_of_mem hd)).1
    rwa [renameDef_name] at this
  let F : AType → List Char × List Char := fun t =>
    match fieldType b.defs (simpleList bm) t with
    | .ok f => (f.ctype, f.bits)
    | .error _ => ([], [])
  have hF : ∀ {t f}, fieldType b.defs (simpleList bm) t = .ok f → F t = (f.ctype, f.bits) := by
    intro t f hf
    show (match fieldType b.defs (simpleList bm) t with
      | .ok f => (f.ctype, f.bits)
      | .error _ => ([], [])) = _
    rw [hf]
  refine ⟨F, sorted, hd, hd', tss, tss', k1, q1, k3, k5, q5,
    k4.imp fun d ts hb => block_mono (fun k _ ct sfx hk => ?_) hb,
    q4.imp_mem fun d hd ts hb => block_mono (fun k hk ct sfx ht => ?_) hb, ?_, by rw [k6, q6]⟩
  · obtain ⟨⟨f, f1, rfl, rfl, _⟩, _⟩ := hk
    exact (hF f1).symm
  · obtain ⟨d0, hd0, rfl⟩ := List.mem_map.1 hd
    rw [renameDef_members] at hk
    obtain ⟨k0, hk0, rfl⟩ := List.mem_map.1 hk
    obtain ⟨⟨f, f1, rfl, rfl, _⟩, _⟩ := ht
    have hw := member_writable h hi.grammar hg' hi.accepted hbm (k3.mem_iff.1 hd0) hk0
    have e := fieldType_rename h b.defs (simpleList bm) hw
      (fun x hx => hcap x (simpleList_defs hi.accepted hbm x hx)) fun x hx => hcap' x (simpleList_defs hi.accepted hbm x hx)
    rw [renameBundle_defs, simpleList_rename] at f1
    rw [show (renameMember ρ k0).type = renameType ρ k0.type from rfl, e] at f1
    refine ⟨k0.type, rfl, ?_⟩
    cases hf0 : fieldType b.defs (simpleList bm) k0.type with
    | error e => rw [hf0] at f1; cases f1
    | ok f0 =>
      rw [hf0] at f1
      cases f1
      rw [hF hf0]
      unfold renameField
      rcases hw with hw | ⟨w1, w2⟩
      · have hn := predefined_same h hw
        rw [retype_same hn, hn]
        simp only
        split
        · rename_i e; rw [e]
        · rfl
      · rw [← cName_eq (Or.inr w1), ← cName_eq (Or.inr w2)]
        rfl
  · rw [k7, q7]; rfl

/-- **C85, binary files.** The binary file of a sequence has the same bytes under the new name of the sequence. -/
theorem C85_binary (h : Renaming ρ ν) (fuel : Nat) (e : Option Endian) (raw : List Module) (cfg : List String) (out : Text)
    (b : Bundle) (fs fs' : Files) (hi : Input raw cfg b) (hg' : ∀ m ∈ raw, GrammarModule (renameModule ρ ν m))
    (hr : (runBinary fuel e raw cfg out).result = .ok ()) (d : Def) (hd : d ∈ b.defs) (hf : fixedMembers d ≠ []) :
    ∃ bytes, HasBytes ((runBinary fuel e raw cfg out).apply fs) (binPath out d) bytes ∧
      HasBytes ((runBinary fuel e (raw.map (renameModule ρ ν)) (cfg.map ν) out).apply fs') (binPath out (renameDef ρ d)) bytes := by
  have hi' := input_rename h hi hg'
  have hr' : (runBinary fuel e (raw.map (renameModule ρ ν)) (cfg.map ν) out).result = .ok () := by
    have := C85_end h (.binary e) fuel raw cfg out hi.grammar hg'
    exact this.trans hr
  have hfm : fixedMembers (renameDef ρ d) = (fixedMembers d).map fun x => (renameMember ρ x.1, x.2) := by
    cases d with
    | seq n c ms =>
      simp only [renameDef, fixedMembers, List.filterMap_map, List.map_filterMap]
      congr 1
      funext k
      obtain ⟨a, t, c, w⟩ := k
      cases w <;> rfl
    | _ => rfl
  have hd' : renameDef ρ d ∈ (renameBundle ρ ν b).defs := by rw [renameBundle_defs]; exact List.mem_map_of_mem hd
  obtain ⟨x, blocks, h1, ⟨bm, hbm, hdm, defs, h2, h3⟩, h4⟩ := bin_clause hi.grammar hi.accepted hr hd hf fs
  obtain ⟨x', blocks', h1', ⟨bm', hbm', hdm', defs', h2', h3'⟩, h4'⟩ := bin_clause hi'.grammar hi'.accepted hr' hd'
    (by rw [hfm]; simpa using hf) fs'
  obtain ⟨bm0, hbm0, rfl⟩ := List.mem_map.1 hbm'
  have hb0 : bm0 = bm := by
    have hdm0 : d ∈ bm0.mod.defs := by
      obtain ⟨y, hy, hye⟩ := List.mem_map.1 hdm'
      rwa [← renameDef_inj h hye]
    exact bmod_of_def (accepted_nodup (buildFromTexts_of_config hi.accepted)) hbm0 hbm hdm0 hdm
  subst hb0
  rw [hfm, List.getLast?_map, h1] at h1'
  cases h1'
  have e2 : binDefs (b.defs.map (renameDef ρ)) fuel (bm0.mod.defs.map (renameDef ρ)) = .ok (defs.map (renameSpecs ρ)) := by
    rw [binDefs_rename h, h2]; rfl
  have e3 : binDefs (b.defs.map (renameDef ρ)) fuel (bm0.mod.defs.map (renameDef ρ)) = .ok defs' := by
    rw [← renameBundle_defs]; exact h2'
  rw [e2] at e3
  cases e3
  have e4 : compBytes (defs.map (renameSpecs ρ)) e (ρ x.1.type.name) x.2 = .ok blocks' := by
    have e5 : (renameMember ρ x.1).type.name = ρ x.1.type.name := renameType_name _
    rw [← e5]; exact h3'
  rw [compBytes_rename h, h3] at e4
  cases e4
  exact ⟨_, h4, h4'⟩

/-- **C85, COSMOS files.** generate-cosmos ends in the same way, and its file differs only in the names of the
messages. In particular the names of the modules and of all other types are not in the file. -/
theorem C85_cosmos (h : Renaming ρ ν) (fuel : Nat) (p : Printer) (raw : List Module) (module : String)
    (messages : List String) (target out : Text) (ht : target.head? ≠ some '/') :
    (∃ e, (runCosmos fuel p raw module messages target out).result = .error e ∧
      (runCosmos fuel p (raw.map (renameModule ρ ν)) (ν module) (messages.map ρ) target out).result = .error e) ∨
    ((runCosmos fuel p raw module messages target out).result = .ok () ∧
      (runCosmos fuel p (raw.map (renameModule ρ ν)) (ν module) (messages.map ρ) target out).result = .ok () ∧
      ∃ rests : List (List Char), rests.length = messages.length ∧
        (∀ fs, Adds fs ((runCosmos fuel p raw module messages target out).apply fs) (cosmosPath out target)
          (packetFile target messages rests)) ∧
        ∀ fs, Adds fs ((runCosmos fuel p (raw.map (renameModule ρ ν)) (ν module) (messages.map ρ) target out).apply fs)
          (cosmosPath out target) (packetFile target (messages.map ρ) rests)) := by
  have hpath : joinPath out (target ++ ".txt".toList) = cosmosPath out target := by
    refine joinPath_eq out ?_
    cases target with
    | nil => decide
    | cons c r => exact ht
  have htext : ∀ ns rests, cosmosText (packetsNamed target ns rests) = packetFile target ns rests := by
    intro ns rests
    unfold cosmosText packetsNamed packetFile
    rw [List.flatMap_map]
    have : "\nTELEMETRY ".toList = '\n' :: "TELEMETRY ".toList := by decide
    rw [this]
    rfl
  rcases runCosmos_rename h fuel p raw module messages target out with ⟨e, e1, e2⟩ | ⟨rests, e0, e1, e2⟩
  · exact .inl ⟨e, by rw [e1], by rw [e2]⟩
  · rw [htext] at e1 e2
    refine .inr ⟨by rw [e1], by rw [e2], rests, e0, fun fs => ?_, fun fs => ?_⟩
    · rw [e1, ← hpath]; exact adds_run _ _ _
    · rw [e2, ← hpath]; exact adds_run _ _ _

/-! ### Examples -/

/-- `a` and `b` change places. -/
def swapNames (a b n : String) : String := if n = a then b else if n = b then a else n

theorem swapNames_inj (a b : String) : ∀ x y, swapNames a b x = swapNames a b y → x = y := by
  intro x y h
  unfold swapNames at h
  grind

/-- The packet is called Frame, its tag is called Whole, and the module is called space-craft. -/
def exNewType (n : String) : String := swapNames "Whole" "Frame" (swapNames "Tag" "Frame" n)

def exNewModule (n : String) : String := swapNames "m" "space-craft" n

theorem exNew_renaming : Renaming exNewType exNewModule where
  types := fun x y h => swapNames_inj _ _ x y (swapNames_inj _ _ _ _ h)
  modules := swapNames_inj _ _
  reserved := by decide

example : exNewType "Tag" = "Whole" ∧ exNewType "Whole" = "Frame" ∧ exNewType "Mode" = "Mode" := by decide

theorem exNew_grammar : ∀ m ∈ exHere, GrammarModule (renameModule exNewType exNewModule m) := by
  have h : ∀ m ∈ exHere.map (renameModule exNewType exNewModule), GrammarModule m :=
    grammarB_sound (by decide +kernel)
  exact fun m hm => h _ (List.mem_map_of_mem hm)

example : ((Command.c exPrinter).run 20 (exHere.map (renameModule exNewType exNewModule)) ["space-craft"] exOut).result = .ok () := by
  have := C85_end exNew_renaming (.c exPrinter) 20 exHere ["m"] exOut exHere_input.grammar exNew_grammar
  exact this.trans (by decide +kernel)

example : ∃ bytes, HasBytes ((runBinary 20 (some .big) exHere ["m"] exOut).apply fun _ => none) "gen/whole.bin".toList bytes ∧
    HasBytes ((runBinary 20 (some .big) (exHere.map (renameModule exNewType exNewModule)) ["space-craft"] exOut).apply fun _ => none)
      "gen/frame.bin".toList bytes :=
  C85_binary exNew_renaming 20 (some .big) exHere ["m"] exOut _ (fun _ => none) (fun _ => none) exHere_input exNew_grammar
    (by decide +kernel) exWholeDef (by rw [exHere_defs]; decide +kernel) (by simp [fixedMembers, exWholeDef])

example : ∃ rests : List (List Char), rests.length = 1 ∧
    (∀ fs, Adds fs ((runCosmos 20 exPrinter exHere "m" ["Whole"] "SAT".toList exOut).apply fs) "gen/SAT.txt".toList
      (packetFile "SAT".toList ["Whole"] rests)) ∧
    ∀ fs, Adds fs ((runCosmos 20 exPrinter (exHere.map (renameModule exNewType exNewModule)) "space-craft" ["Frame"]
      "SAT".toList exOut).apply fs) "gen/SAT.txt".toList (packetFile "SAT".toList ["Frame"] rests) := by
  rcases C85_cosmos exNew_renaming 20 exPrinter exHere "m" ["Whole"] "SAT".toList exOut (by decide) with ⟨e, h, _⟩ | ⟨_, _, h⟩
  · have : (runCosmos 20 exPrinter exHere "m" ["Whole"] "SAT".toList exOut).result = .ok () := by decide +kernel
    rw [this] at h
    cases h
  · exact h

example : ∃ (F : AType → List Char × List Char) (sorted : List Def) (hd hd' : HeaderParts) (tss tss' : List (List (List Char))),
    HasText (((Command.cfs exPrinter).run 20 exHere ["m"] exOut).apply fun _ => none) "gen/m_msg.h".toList hd.text ∧
    HasText (((Command.cfs exPrinter).run 20 (exHere.map (renameModule exNewType exNewModule)) ["space-craft"] exOut).apply
      fun _ => none) "gen/space_craft_msg.h".toList hd'.text ∧
    sorted.Perm (defsOf exHere) ∧ hd.blocks = tss.flatten ∧ hd'.blocks = tss'.flatten ∧
    All2 (Block (fun t ct sfx => (ct, sfx) = F t) fun t => (dims t).take 1) sorted tss ∧
    All2 (Block (fun t' ct sfx => ∃ t, t' = renameType exNewType t ∧ (ct, sfx) = renameField exNewType t (F t))
      fun t => (dims t).take 1) (sorted.map (renameDef exNewType)) tss' ∧
    hd'.doc = hd.doc ∧ hd'.stdbool = hd.stdbool := by
  obtain ⟨m, hm, hn, hd⟩ : ∃ m ∈ (okBundle (buildFromConfig exHere ["m"])).modules, m.name = "m" ∧ m.defs = defsOf exHere :=
    ⟨_, List.mem_of_getElem? (i := 0) rfl, by decide +kernel, by decide +kernel⟩
  have := C85_headers exNew_renaming (.cfs exPrinter) 20 exHere ["m"] exOut _ (fun _ => none) (fun _ => none) exHere_input
    exNew_grammar (by decide +kernel) m hm
  rw [hn, hd] at this
  exact this

end Apg
