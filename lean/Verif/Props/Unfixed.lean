import Verif.Lemmas.UnfixRun
import Verif.Lemmas.UnfixCosmos
import Verif.Props.CSource
import Verif.Props.Cosmos

/-!
# C83: fixed values do not change the layout
-/

namespace Apg
open Spec

/-- **C83, success.** A run that writes headers and succeeds also succeeds on the same modules without clauses. -/
theorem C83_success (cmd : Command) (fuel : Nat) (raw : List Module) (cfg : List String) (out : Text)
    (h : (cmd.run fuel raw cfg out).result = .ok ()) : (cmd.run fuel (raw.map unfixed) cfg out).result = .ok () :=
  run_unfixed h

theorem unfixed_same {raw raw' : List Module} {cfg : List String} {b b' : Bundle} (hs : SameButValues raw raw')
    (hb : buildFromConfig raw cfg = .ok b) (hb' : buildFromConfig raw' cfg = .ok b') : unfixedBundle b = unfixedBundle b' := by
  have e1 := buildFromConfig_unfixed hb
  have e2 := buildFromConfig_unfixed hb'
  rw [hs, e2] at e1
  exact (Except.ok.inj e1).symm

/-- The object of a module after validation. -/
theorem bmod_of_raw {raw : List Module} {cfg : List String} {b : Bundle} (hb : buildFromConfig raw cfg = .ok b)
    {m : Module} (hm : m ∈ raw) : ∃ bm ∈ b.mods, bm.mod.name = m.name ∧
      ∀ n c ms, Def.seq n c ms ∈ bm.mod.defs → Def.seq n c ms ∈ m.defs := by
  obtain ⟨ms, h1, _, _, h4, _⟩ := buildFromConfig_ok.1 hb
  obtain ⟨m', hm', hmm⟩ := all2_mem_left (processModules_ok.1 h1) hm
  rw [← build_modules h4] at hm'
  obtain ⟨bm, hbm, rfl⟩ := List.mem_map.1 hm'
  obtain ⟨_, _, ds, k1, k2, _⟩ := processModule_ok.1 hmm
  refine ⟨bm, hbm, by rw [k2], ?_⟩
  intro n c l hd
  rw [k2] at hd
  obtain ⟨d0, hd0, hp⟩ := all2_mem_right (processDefs_ok.1 k1) hd
  obtain ⟨_, _, _, _, p5, p6, p7, p8⟩ := processDef_ok hp
  cases d0 with
  | simple n' c' t' => have := (p5 n' c' t' rfl).1; cases this
  | seq n' c' ms' => rw [p6 n' c' ms' rfl]; exact hd0
  | choice n' c' ms' => have := p7 n' c' ms' rfl; cases this
  | enum n' c' its' => obtain ⟨_, _, h⟩ := p8 n' c' its' rfl; cases h

/-- The declarations of a header. -/
def declText (ds : List Text) : Text := if ds = [] then [] else ds.flatMap (· ++ ['\n']) ++ ['\n']

/-- A header before its declarations. -/
def topText (h : HeaderParts) : Text :=
  "#ifndef ".toList ++ h.symbol ++ "\n#define ".toList ++ h.symbol ++
  "\n\n/*\nThis file was autogenerated from ASN.1 model.".toList ++
  (if h.doc = [] then [] else "\n\n".toList ++ h.doc) ++ "\n*/\n\n".toList ++
  (if h.stdbool then "#include <stdbool.h>\n".toList else []) ++
  (if h.stdint then "#include <stdint.h>\n".toList else []) ++
  h.includes.flatMap (· ++ ['\n']) ++ ['\n'] ++
  h.blocks.flatMap (· ++ "\n\n".toList)

/-- A header after its declarations. -/
def bottomText (h : HeaderParts) : Text := "#endif // ".toList ++ h.symbol ++ ['\n']

theorem text_split (h : HeaderParts) : h.text = topText h ++ declText h.decls ++ bottomText h := by
  unfold HeaderParts.text topText declText bottomText
  generalize "#endif // ".toList = a
  simp only [List.append_assoc]

theorem parts_visible (ty : HeaderType) (f : Text) {cd cd' : CData} (h : visible cd' = visible cd) :
    topText (partsOf ty f cd') = topText (partsOf ty f cd) ∧ bottomText (partsOf ty f cd') = bottomText (partsOf ty f cd) := by
  have h1 : cd'.headerComment = cd.headerComment := show (visible cd').headerComment = (visible cd).headerComment by rw [h]
  have h2 : cd'.stdbool = cd.stdbool := show (visible cd').stdbool = (visible cd).stdbool by rw [h]
  have h3 : cd'.stdint = cd.stdint := show (visible cd').stdint = (visible cd).stdint by rw [h]
  have h4 : cd'.includes = cd.includes := show (visible cd').includes = (visible cd).includes by rw [h]
  have h5 : cd'.data = cd.data := show (visible cd').data = (visible cd).data by rw [h]
  refine ⟨?_, rfl⟩
  unfold topText partsOf
  rw [h1, h2, h3, h4, h5]

theorem declares_parts {fuel : Nat} {cmd : Command} {raw : List Module} {cfg : List String} {out : Text} {b : Bundle}
    (hi : Input raw cfg b) {m : Module} {bm : BMod} (hbm : bm ∈ b.mods)
    (hsub : ∀ n c ms, Def.seq n c ms ∈ bm.mod.defs → Def.seq n c ms ∈ m.defs) {cd : CData} (f : Text)
    (h : moduleData fuel (cmd.backend fuel out b) b.defs bm = .ok cd) :
    DeclaresVars m (declText (partsOf cmd.headerType f cd).decls) ∧
      ((∀ p, cmd ≠ .c p) → declText (partsOf cmd.headerType f cd).decls = []) := by
  cases cmd with
  | cfs p => exact ⟨.inl rfl, fun _ => rfl⟩
  | binary e => exact ⟨.inl rfl, fun _ => rfl⟩
  | c p =>
    refine ⟨?_, fun h => absurd rfl (h p)⟩
    have hbt := buildFromTexts_of_config hi.accepted
    have hmm : bm.mod ∈ b.modules := List.mem_map.2 ⟨bm, hbm, rfl⟩
    have hgd : ∀ d ∈ bm.mod.defs, GrammarDef d := fun d hd =>
      (accepted_grammar hi.grammar hbt d (mem_defs_of_module hmm hd)).1
    obtain ⟨sorted, _, hp, hpre⟩ := predefs_objects (b := b) h hgd
    show DeclaresVars m (declText cd.predefs)
    rw [hpre]
    unfold declText
    by_cases h0 : sorted.flatMap clausesOf = []
    · left
      rw [h0]
      rfl
    · right
      refine ⟨(sorted.flatMap clausesOf).map (·.1), fun h => h0 (List.map_eq_nil_iff.1 h), ?_, ?_⟩
      · intro n hn
        obtain ⟨x, hx, rfl⟩ := List.mem_map.1 hn
        obtain ⟨d, hd, hx⟩ := List.mem_flatMap.1 hx
        obtain ⟨n, c, ms, rfl, k, hk, cs, hcs, rfl⟩ := mem_clausesOf.1 hx
        exact ⟨ms, ⟨c, hsub _ _ _ (hp.mem_iff.1 hd)⟩, k, hk, by rw [Option.mem_def.1 hcs]; simp⟩
      · rw [if_neg fun h => h0 (List.map_eq_nil_iff.1 h), List.flatMap_map, List.flatMap_map]
        congr 2
        funext x
        show (_ ++ [';']) ++ ['\n'] = _ ++ ";\n".toList
        rw [List.append_assoc]
        rfl

/-- The headers of two versions of a module only differ in the declarations of variables. -/
theorem header_versions {cmd : Command} {fuel : Nat} {raw raw' : List Module} {cfg : List String} {out : Text} {b b' : Bundle}
    (fs : Files) (hs : SameButValues raw raw') (hi : Input raw cfg b) (hi' : Input raw' cfg b')
    (hr : (cmd.run fuel raw cfg out).result = .ok ()) (hr' : (cmd.run fuel raw' cfg out).result = .ok ())
    {bm bm' : BMod} (hbm : bm ∈ b.mods) (hbm' : bm' ∈ b'.mods) (hn : bm'.mod.name = bm.mod.name) :
    ∃ cd cd', moduleData fuel (cmd.backend fuel out b) b.defs bm = .ok cd ∧
      moduleData fuel (cmd.backend fuel out b') b'.defs bm' = .ok cd' ∧
      HasText ((cmd.run fuel raw cfg out).apply fs) (cmd.path out bm.mod.name)
        (topText (partsOf cmd.headerType (cmd.header bm.mod.name) cd) ++
          declText (partsOf cmd.headerType (cmd.header bm.mod.name) cd).decls ++
          bottomText (partsOf cmd.headerType (cmd.header bm.mod.name) cd)) ∧
      HasText ((cmd.run fuel raw' cfg out).apply fs) (cmd.path out bm.mod.name)
        (topText (partsOf cmd.headerType (cmd.header bm.mod.name) cd) ++
          declText (partsOf cmd.headerType (cmd.header bm.mod.name) cd').decls ++
          bottomText (partsOf cmd.headerType (cmd.header bm.mod.name) cd)) := by
  have hu := unfixed_same hs hi.accepted hi'.accepted
  have hmm : bm.mod ∈ b.modules := List.mem_map.2 ⟨bm, hbm, rfl⟩
  have hmm' : bm'.mod ∈ b'.modules := List.mem_map.2 ⟨bm', hbm', rfl⟩
  have hbe : unfixedBMod bm = unfixedBMod bm' := by
    have h1 : unfixedBMod bm ∈ (unfixedBundle b).mods := List.mem_map.2 ⟨bm, hbm, rfl⟩
    have h2 : unfixedBMod bm' ∈ (unfixedBundle b).mods := by rw [hu]; exact List.mem_map.2 ⟨bm', hbm', rfl⟩
    have hnd : ((unfixedBundle b).mods.map fun x => x.mod.name).Nodup := by
      have : ((unfixedBundle b).modules.map (·.name)).Nodup := by
        rw [unfixedBundle_modules, map_unfixed_name]
        exact config_names_nodup hi.accepted
      unfold Bundle.modules at this
      rwa [List.map_map] at this
    exact mem_unique_of_nodup_map hnd h1 h2 hn.symm
  obtain ⟨cd, k1, k2⟩ := header_parts hi.grammar hi.accepted hr hbm fs
  obtain ⟨cd', k1', k2'⟩ := header_parts hi'.grammar hi'.accepted hr' hbm' fs
  obtain ⟨x, q1, q2⟩ := moduleData_visible (unfix_backend hi.accepted fuel cmd out hmm) k1
  obtain ⟨x', q1', q2'⟩ := moduleData_visible (unfix_backend hi'.accepted fuel cmd out hmm') k1'
  rw [← unfixedBundle_defs, ← hu, ← hbe, unfixedBundle_defs, q1] at q1'
  have hxx : x = x' := Except.ok.inj q1'
  subst hxx
  have hv := q2'.symm.trans q2
  rw [hn] at k2'
  obtain ⟨t1, t2⟩ := parts_visible cmd.headerType (cmd.header bm.mod.name) hv
  refine ⟨cd, cd', k1, k1', ?_, ?_⟩
  · rw [← text_split]; exact k2
  · rw [← t1, ← t2, ← text_split]; exact k2'

/-- **C83, headers.** Modules that are the same but for their clauses have the same header, up to declarations of
variables for sequences with clauses, which only generate-c writes. -/
theorem C83_headers (cmd : Command) (fuel : Nat) (raw raw' : List Module) (cfg : List String) (out : Text) (b b' : Bundle)
    (fs : Files) (hs : SameButValues raw raw') (hi : Input raw cfg b) (hi' : Input raw' cfg b')
    (hr : (cmd.run fuel raw cfg out).result = .ok ()) (hr' : (cmd.run fuel raw' cfg out).result = .ok ())
    (m m' : Module) (hm : m ∈ raw) (hm' : m' ∈ raw') (hn : m'.name = m.name) :
    ∃ top vars vars' bottom,
      HasText ((cmd.run fuel raw cfg out).apply fs) (cmd.path out m.name) (top ++ vars ++ bottom) ∧
      HasText ((cmd.run fuel raw' cfg out).apply fs) (cmd.path out m.name) (top ++ vars' ++ bottom) ∧
      DeclaresVars m vars ∧ DeclaresVars m' vars' ∧ ((∀ p, cmd ≠ .c p) → vars = [] ∧ vars' = []) := by
  obtain ⟨bm, hbm, hbn, hsub⟩ := bmod_of_raw hi.accepted hm
  obtain ⟨bm', hbm', hbn', hsub'⟩ := bmod_of_raw hi'.accepted hm'
  obtain ⟨cd, cd', k1, k1', k2, k2'⟩ := header_versions fs hs hi hi' hr hr' hbm hbm' (by rw [hbn, hbn', hn])
  rw [hbn] at k2 k2'
  obtain ⟨d1, d2⟩ := declares_parts hi hbm hsub (cmd.header m.name) k1
  obtain ⟨d1', d2'⟩ := declares_parts hi' hbm' hsub' (cmd.header m.name) k1'
  exact ⟨_, _, _, _, k2, k2', d1, d1', fun h => ⟨d2 h, d2' h⟩⟩

/-! ### COSMOS files -/

theorem unvalued_readItem (p : Printer) (e : Entry) : unvalued (readItem p e) = unvalued (readItem p (blankEntry e)) := by
  have key : ∀ e : Entry, e.isArray = false → unvalued (readItem p e) =
      { readItem p e with kind := "APPEND_ITEM".toList, value := [] } := by
    intro e ha
    have hk : (itemFields e).2.2 = .id ∨ (itemFields e).2.2 = .plain := by
      unfold itemFields
      rw [ha]
      generalize (if e.ctype = .bool then (if e.specific = "True".toList then ['1'] else ['0']) else e.specific) = spec
      simp only [Bool.false_eq_true, if_false]
      split
      · exact .inl rfl
      · exact .inr rfl
    have hk : (readItem p e).kind ≠ "APPEND_ARRAY_ITEM".toList := by
      show (itemFields e).2.2.text ≠ _
      rcases hk with hk | hk <;> rw [hk] <;> decide
    unfold unvalued
    rw [if_neg hk]
  cases ha : e.isArray with
  | true =>
    have : blankEntry e = e := by unfold blankEntry; rw [ha]; rfl
    rw [this]
  | false =>
    have hb : blankEntry e = { e with specific := [] } := by unfold blankEntry; rw [ha]; rfl
    rw [key e ha, hb, key { e with specific := [] } ha]
    rfl

/-- **C83, COSMOS files.** Modules that are the same but for their clauses have the same packets with the same items,
up to the values of the items. -/
theorem C83_cosmos (fuel : Nat) (p : Printer) (raw raw' : List Module) (b b' : Bundle) (module : String)
    (messages : List String) (target out : Text) (hs : SameButValues raw raw') (hi : Sources raw b) (hi' : Sources raw' b')
    (hp : Faithful p) (ho : OneLine p) (ht : IsTarget target)
    (hr : (runCosmos fuel p raw module messages target out).result = .ok ())
    (hr' : (runCosmos fuel p raw' module messages target out).result = .ok ()) :
    ∃ t t', (∀ fs, Adds fs ((runCosmos fuel p raw module messages target out).apply fs) (cosmosPath out target) t) ∧
      (∀ fs, Adds fs ((runCosmos fuel p raw' module messages target out).apply fs) (cosmosPath out target) t') ∧
      (readCosmos t).map unvaluedPacket = (readCosmos t').map unvaluedPacket := by
  have hbb : unfixedBundle b = unfixedBundle b' := by
    have e1 := buildFromTexts_unfixed hi.accepted
    have e2 := buildFromTexts_unfixed hi'.accepted
    rw [hs, e2] at e1
    exact (Except.ok.inj e1).symm
  obtain ⟨t, xs, h1, rfl, h3, _, h5⟩ := cosmos_run_data hi hp ho ht hr
  obtain ⟨t', xs', h1', rfl, h3', _, h5'⟩ := cosmos_run_data hi' hp ho ht hr'
  refine ⟨_, _, h1, h1', ?_⟩
  rw [readCosmos_text ht.1 h3, readCosmos_text ht.1 h3']
  have e1 := cosmosData_unfixed (accepted_nodup hi.accepted) h5
  have e2 := cosmosData_unfixed (accepted_nodup hi'.accepted) h5'
  rw [← hbb, e1] at e2
  have e3 : xs.map blankPacket = xs'.map blankPacket := Except.ok.inj e2
  have key : ∀ l : List PacketData,
      (l.map fun x => (⟨target, x.name, x.entries.map (readItem p)⟩ : CosmosPacket)).map unvaluedPacket =
      ((l.map blankPacket).map fun x => (⟨target, x.name, x.entries.map (readItem p)⟩ : CosmosPacket)).map unvaluedPacket := by
    intro l
    rw [List.map_map, List.map_map, List.map_map]
    refine List.map_congr_left fun x _ => ?_
    simp only [Function.comp_apply, unvaluedPacket, blankPacket, CosmosPacket.mk.injEq, List.map_map, true_and]
    exact List.map_congr_left fun e _ => unvalued_readItem p e
  rw [key xs, key xs', e3]

/-! ### Examples -/

/-- A header with a declaration, and the header of the same module without clause. -/
example : ∃ top vars vars' bottom,
    HasText (((Command.c exPrinter).run 20 exInit ["m"] exOut).apply fun _ => none) "gen/m.h".toList (top ++ vars ++ bottom) ∧
    HasText (((Command.c exPrinter).run 20 (exInit.map unfixed) ["m"] exOut).apply fun _ => none) "gen/m.h".toList
      (top ++ vars' ++ bottom) ∧
    DeclaresVars exInitModule vars ∧ vars ≠ vars' := by
  have hr : ((Command.c exPrinter).run 20 exInit ["m"] exOut).result = .ok () := by decide +kernel
  obtain ⟨top, vars, vars', bottom, h1, h2, h3, _⟩ := C83_headers (.c exPrinter) 20 exInit (exInit.map unfixed) ["m"] exOut _ _
    (fun _ => none) (by unfold SameButValues; decide +kernel)
    (input_of (by decide +kernel) (by decide +kernel) (by decide +kernel))
    (input_of (by decide +kernel) (by decide +kernel) (by decide +kernel)) hr (C83_success _ _ _ _ _ hr)
    exInitModule (unfixed exInitModule) (List.Mem.head _) (List.Mem.head _) rfl
  refine ⟨top, vars, vars', bottom, h1, h2, h3, ?_⟩
  rintro rfl
  have := (fileText_eq h1).trans (fileText_eq h2).symm
  exact absurd this (by decide +kernel)

/-- Other values in the clauses of a definition. -/
def revaluedDef : Def → Def
  | .seq n c ms => .seq n c (ms.map fun k => { k with comps := k.comps.map fun _ => .leaf "application-process-identifier" (.int 77) (.leaf "live" (.bool false) .nil) })
  | d => d

/-- Other values in the clauses of a module. -/
def revalued (m : Module) : Module := { m with defs := m.defs.map revaluedDef }

/-- The packets of two sources with different values. -/
example : ∃ t t',
    (∀ fs, Adds fs ((runCosmos 20 exPrinter exTlm "tlm" ["Packet", "Switch"] "SAT".toList exOut).apply fs)
      (cosmosPath exOut "SAT".toList) t) ∧
    (∀ fs, Adds fs ((runCosmos 20 exPrinter (exTlm.map revalued) "tlm" ["Packet", "Switch"] "SAT".toList exOut).apply fs)
      (cosmosPath exOut "SAT".toList) t') ∧
    (readCosmos t).map unvaluedPacket = (readCosmos t').map unvaluedPacket ∧ readCosmos t ≠ readCosmos t' := by
  obtain ⟨t, t', h1, h2, h3⟩ := C83_cosmos 20 exPrinter exTlm (exTlm.map revalued) _ _ "tlm" ["Packet", "Switch"]
    "SAT".toList exOut (by unfold SameButValues; decide +kernel) exTlm_sources
    (sources_of (by decide +kernel) (by decide +kernel) (by decide +kernel)) exPrinter_faithful exPrinter_oneLine
    exTlm_target (by decide +kernel) (by decide +kernel)
  refine ⟨t, t', h1, h2, h3, ?_⟩
  rw [← newText_eq h1, ← newText_eq h2]
  decide +kernel

/-- Without the clause that fixes the application process identifier, generate-cosmos fails. -/
example : (runCosmos 20 exPrinter exTlm "tlm" ["Packet", "Switch"] "SAT".toList exOut).result = .ok () ∧
    (runCosmos 20 exPrinter (exTlm.map unfixed) "tlm" ["Packet", "Switch"] "SAT".toList exOut).result = .error .valueError := by
  decide +kernel

end Apg
