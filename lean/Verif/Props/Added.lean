import Verif.Lemmas.AddedNote
import Verif.Props.Grow
import Verif.Props.Shuffle

/-!
# Property C82: adding definitions leaves what is generated for the others as it is
-/

namespace Apg
open Spec

/-- Every file that the first run writes is the same after the second run, or it belongs to a module and has kept the
text of the definitions of the module. -/
def KeepsDefs (raw raw' : List Module) (owns : Module → Text → Prop) (r r' : Run) : Prop :=
  ∀ q, (∃ fs, r.apply fs q ≠ fs q) → ∀ fs, r'.apply fs q = r.apply fs q ∨
    ∃ m ∈ raw, ∃ m' ∈ raw', Added m m' ∧ owns m q ∧ ∃ t t', r.apply fs q = some (textContent t) ∧
      r'.apply fs q = some (textContent t') ∧ Kept (m.defs.map Def.name) (m'.defs.map Def.name) t t'

/-- What the commands with a list of modules promise when definitions, imports and modules are added, for runs that
succeed before and after. -/
def Extendable (owns : Module → Text → Prop) (run : Nat → List Module → List String → Run) : Prop :=
  ∀ (raw raw' : List Module) (cfg cfg' : List String) (fuel fuel' : Nat), (∀ m ∈ raw, GrammarModule m) →
    (∀ m ∈ raw', GrammarModule m) → (∀ m ∈ raw, ∃ m' ∈ raw', Added m m') →
    (run fuel raw cfg).result = .ok () → (run fuel' raw' cfg').result = .ok () →
      KeepsDefs raw raw' owns (run fuel raw cfg) (run fuel' raw' cfg')

theorem added_names {raw raw' : List Module} {cfg cfg' : List String} {b b' : Bundle}
    (hb : buildFromConfig raw cfg = .ok b) (hb' : buildFromConfig raw' cfg' = .ok b')
    (ha : ∀ m ∈ raw, ∃ m' ∈ raw', Added m m') {bm bm' : BMod} (hbm : bm ∈ b.mods) (hbm' : bm' ∈ b'.mods)
    (had : Added bm.mod bm'.mod) : ∃ m ∈ raw, ∃ m' ∈ raw', Added m m' ∧ m.name = bm.mod.name ∧
      m.defs.map Def.name = bm.mod.defs.map Def.name ∧ m'.defs.map Def.name = bm'.mod.defs.map Def.name ∧
      ∀ n c t, Def.simple n c t ∈ bm.mod.defs → Def.simple n c t ∈ m.defs := by
  obtain ⟨m, hm, h1, h2⟩ := processed_names hb (List.mem_map.2 ⟨bm, hbm, rfl⟩)
  obtain ⟨m', hm', h3, h4⟩ := processed_names hb' (List.mem_map.2 ⟨bm', hbm', rfl⟩)
  obtain ⟨m2, hm2, h5⟩ := ha m hm
  have hn : ∀ {raw : List Module} {cfg : List String} {b : Bundle}, buildFromConfig raw cfg = .ok b →
      (raw.map (·.name)).Nodup := by
    intro raw cfg b hb
    obtain ⟨ms, q1, q2, _⟩ := buildFromConfig_ok.1 hb
    rwa [processModules_names q1] at q2
  have : m2 = m' := mem_unique_of_nodup_map (hn hb') hm2 hm' (by rw [h5.name, h1, h3, had.name])
  subst this
  refine ⟨m, hm, m2, hm', h5, h1, h2, h4, fun n c t hd => ?_⟩
  obtain ⟨ms, q1, _, _, q4, _⟩ := buildFromConfig_ok.1 hb
  have hbmm : bm.mod ∈ b.modules := List.mem_map.2 ⟨bm, hbm, rfl⟩
  rw [build_modules q4] at hbmm
  obtain ⟨m3, hm3, hp⟩ := all2_mem_right (processModules_ok.1 q1) hbmm
  have : m3 = m := mem_unique_of_nodup_map (hn hb) hm3 hm (by rw [h1, (processModule_name hp).1])
  subst this
  exact (simple_processed hp n c t).1 hd

/-- **C82**, generate-binary: the headers keep their definitions, the binary files stay the same. -/
theorem C82_generate_binary (e : Option Endian) (out : Text) :
    Extendable (FileOf out ".h") fun fuel raw cfg => runBinary fuel e raw cfg out := by
  intro raw raw' cfg cfg' fuel fuel' hg hg' ha h h' q hq fs
  have key := run_added (mk := binBackend fuel e out) (mk' := binBackend fuel' e out)
    (R := fun m m' q c c' => c' = c ∨ (FileOf out ".h" m q ∧ ∃ t t', c = textContent t ∧
      c' = textContent t' ∧ Kept (m.defs.map Def.name) (m'.defs.map Def.name) t t')) hg' ha ?_ h h'
  · obtain ⟨b, b', hb, hb', key⟩ := key
    obtain ⟨c, c', h1, h2, bm, hbm, bm', hbm', had, rfl | ⟨h3, t, t', rfl, rfl, h4⟩⟩ :=
      apply_added (binary_noAppend _ _ _ _ _) (binary_noAppend _ _ _ _ _)
        (C27_binary fuel e raw hg cfg out) (C27_binary fuel' e raw' hg' cfg' out) key q hq fs
    · exact .inl (h2.trans h1.symm)
    · obtain ⟨m, hm, m', hm', q1, q2, q3, q4, q5⟩ := added_names hb hb' ha hbm hbm' had
      refine .inr ⟨m, hm, m', hm', q1, ?_, t, t', h1, h2, by rw [q3, q4]; exact h4⟩
      unfold FileOf at h3 ⊢
      rw [q2]; exact h3
  · intro b b' hb hb' hgr bm hbm bm' hbm' hab cd cd' hcd hcd'
    have hcap : ∀ d ∈ bm'.mod.defs, isNameCapital d.name = true := fun d hd =>
      def_capital (accepted_grammar hg' (buildFromTexts_of_config hb') d (mods_defs hbm' d hd)).1
    obtain ⟨l, l', e1, e2, e3, e4⟩ := moduleData_added hab (module_defs_nodup hgr.nodup' (List.mem_map.2 ⟨bm', hbm', rfl⟩))
      (fun d hd p p' => defPart_added (fun k hk => field_added hg' hb hb' hgr hbm hbm' hab hd hk)
        (fun n c t _ v v' h1 h2 => by rw [show (binBackend fuel e out b).note = (binBackend fuel' e out b').note from rfl, h2] at h1
                                      cases h1; rfl)
        (fun n m _ v v' => binHandler_added hgr hbm hbm')) hcd hcd'
    have hown := namedPart_own (fuel := fuel') (e := e) (out := out) (b := b') (simple := simpleList bm') hcap
    have hs : ∀ x ∈ l, x ∈ l' := by
      intro x hx
      obtain ⟨d, hd, rfl⟩ := List.mem_map.1 (e1.mem_iff.1 hx)
      exact e2.mem_iff.2 (List.mem_map_of_mem (hab.mod.defs d hd))
    have hownl : ∀ {k : List String}, (∀ x ∈ k, x ∈ l') →
        OwnBins (namedPart (binBackend fuel' e out b') b'.defs (simpleList bm') bm'.mod) k := by
      intro k hk n hn
      obtain ⟨q1, q2⟩ := hown n (e2.mem_iff.1 (hk n hn))
      exact ⟨q1, fun n' hn' => q2 n' (e2.mem_iff.1 (hk n' hn'))⟩
    have hbins : ∀ x ∈ cd.bins, x ∈ cd'.bins := by
      intro x hx
      rw [e3.bins, mem_bins (hownl hs)] at hx
      rw [e4.bins, mem_bins (hownl fun _ h => h)]
      obtain ⟨n, h1, h2⟩ := hx
      exact ⟨n, hs n h1, h2⟩
    have hlow := bundle_module_lower hg hb hbm
    rw [printed_bin fuel e out b bm.mod cd hlow, printed_bin fuel' e out b' bm'.mod cd' (by rw [hab.mod.name]; exact hlow),
      hab.mod.name]
    intro w hw
    rcases List.mem_cons.1 hw with rfl | hw
    · exact ⟨_, List.Mem.head _, rfl, .inr ⟨rfl, _, _, rfl, rfl, header_kept hab.mod e1 e2 e3 e4 _ _⟩⟩
    · obtain ⟨x, hx, rfl⟩ := List.mem_map.1 hw
      exact ⟨_, List.Mem.tail _ (List.mem_map_of_mem (hbins x hx)), rfl, .inl rfl⟩

/-- **C82**, generate-cosmos: the description is the same to the last character, even if the definitions are spread
over the modules in another way. -/
theorem C82_generate_cosmos (raw raw' : List Module) (hd : ∀ m ∈ raw, ∀ d ∈ m.defs, ∃ m' ∈ raw', d ∈ m'.defs)
    (fuel fuel' : Nat) (p : Printer) (module module' : String) (messages : List String) (target out : Text)
    (h : (runCosmos fuel p raw module messages target out).result = .ok ())
    (h' : (runCosmos fuel' p raw' module' messages target out).result = .ok ()) (fs : Files) :
    (runCosmos fuel' p raw' module' messages target out).apply fs =
      (runCosmos fuel p raw module messages target out).apply fs := by
  unfold runCosmos at h h' ⊢
  cases hb : buildFromTexts raw with
  | error e => rw [hb] at h; cases h
  | ok b =>
  cases hb' : buildFromTexts raw' with
  | error e => rw [hb'] at h'; cases h'
  | ok b' =>
  rw [hb] at h
  rw [hb'] at h'
  simp only at h h' ⊢
  rw [cosmos_agree (accepted_nodup hb') ?_ (accepted_nodup hb) fuel fuel' p module module' messages target out h h']
  intro d hdb
  rw [← defsOf_eq] at hdb ⊢
  obtain ⟨m1, hm1, hd1⟩ := List.mem_flatMap.1 hdb
  obtain ⟨ms, h1, h2, _⟩ := buildFromTexts_ok.1 hb
  obtain ⟨ms', q1, q2, _⟩ := buildFromTexts_ok.1 hb'
  rw [build_modules h2] at hm1
  rw [build_modules q2]
  obtain ⟨m, hm, hp⟩ := all2_mem_right (processModules_ok.1 h1) hm1
  obtain ⟨_, _, ds, hds, rfl, _⟩ := processModule_ok.1 hp
  obtain ⟨d0, hd0, hpd⟩ := all2_mem_right (processDefs_ok.1 hds) hd1
  obtain ⟨m', hm', hd'⟩ := hd m hm d0 hd0
  obtain ⟨m1', hm1', hp'⟩ := all2_mem_left (processModules_ok.1 q1) hm'
  obtain ⟨_, _, ds', hds', rfl, _⟩ := processModule_ok.1 hp'
  obtain ⟨d2, hd2, hpd2⟩ := all2_mem_left (processDefs_ok.1 hds') hd'
  rw [hpd] at hpd2
  cases hpd2
  exact List.mem_flatMap.2 ⟨_, hm1', hd2⟩

/-- Full statement of C82 for generate-c. -/
def C82_full_c : Prop := ∀ (p : Printer) (out : Text),
  Extendable (fun m q => FileOf out ".h" m q ∨ FileOf out ".c" m q) fun fuel raw cfg => runC fuel p raw cfg out

/-- **C82**, generate-c: the headers keep their definitions, the C files do too apart from the include line. Missing:
the include line, which depends on the last definition (C45). -/
theorem C82_generate_c_partial (p : Printer) (out : Text) (raw raw' : List Module) (cfg cfg' : List String)
    (fuel fuel' : Nat) (hg : ∀ m ∈ raw, GrammarModule m) (hg' : ∀ m ∈ raw', GrammarModule m)
    (ha : ∀ m ∈ raw, ∃ m' ∈ raw', Added m m')
    (h : (runC fuel p raw cfg out).result = .ok ()) (h' : (runC fuel' p raw' cfg' out).result = .ok ())
    (q : Text) (hq : ∃ fs, (runC fuel p raw cfg out).apply fs q ≠ fs q) (fs : Files) :
    ∃ m ∈ raw, ∃ m' ∈ raw', Added m m' ∧ ∃ t t', (runC fuel p raw cfg out).apply fs q = some (textContent t) ∧
      (runC fuel' p raw' cfg' out).apply fs q = some (textContent t') ∧
      ((FileOf out ".h" m q ∧ Kept (m.defs.map Def.name) (m'.defs.map Def.name) t t') ∨
        (FileOf out ".c" m q ∧ KeptSource m.name (m.defs.map Def.name) (m'.defs.map Def.name) t t')) := by
  have key := run_added (mk := cBackend p out) (mk' := cBackend p out)
    (R := fun m m' q c c' => ∃ t t', c = textContent t ∧ c' = textContent t' ∧
      ((FileOf out ".h" m q ∧ Kept (m.defs.map Def.name) (m'.defs.map Def.name) t t') ∨
        (FileOf out ".c" m q ∧ KeptSource m.name (m.defs.map Def.name) (m'.defs.map Def.name) t t'))) hg' ha ?_ h h'
  · obtain ⟨b, b', hb, hb', key⟩ := key
    obtain ⟨c, c', h1, h2, bm, hbm, bm', hbm', had, t, t', rfl, rfl, h4⟩ :=
      apply_added (c_noAppend _ _ _ _ _) (c_noAppend _ _ _ _ _) (C27_c fuel p raw hg cfg out)
        (C27_c fuel' p raw' hg' cfg' out) key q hq fs
    obtain ⟨m, hm, m', hm', q1, q2, q3, q4, q5⟩ := added_names hb hb' ha hbm hbm' had
    refine ⟨m, hm, m', hm', q1, t, t', h1, h2, ?_⟩
    unfold FileOf at h4 ⊢
    rw [q2, q3, q4]; exact h4
  · intro b b' hb hb' hgr bm hbm bm' hbm' hab cd cd' hcd hcd'
    obtain ⟨l, l', e1, e2, e3, e4⟩ := moduleData_added hab (module_defs_nodup hgr.nodup' (List.mem_map.2 ⟨bm', hbm', rfl⟩))
      (fun d hd p' p'' => defPart_added (fun k hk => field_added hg' hb hb' hgr hbm hbm' hab hd hk)
        (fun n c t _ v v' h1 h2 => by
          rw [show (cBackend p out b).note = (cBackend p out b').note from rfl, h2] at h1; cases h1; rfl)
        (fun n m _ v v' h1 h2 => by
          simp only [cBackend, cHandler] at h1 h2
          rw [hab.mod.name, h1] at h2
          cases h2; rfl)) hcd hcd'
    have hlow := bundle_module_lower hg hb hbm
    have hinc := moduleData_include hcd
    have hinc' := moduleData_include hcd'
    rw [hab.mod.name] at hinc'
    rw [printed_c p out b bm.mod cd hlow, printed_c p out b' bm'.mod cd' (by rw [hab.mod.name]; exact hlow), hab.mod.name]
    intro w hw
    rcases List.mem_cons.1 hw with rfl | hw
    · exact ⟨_, List.Mem.head _, rfl, _, _, rfl, rfl, .inl ⟨rfl, header_kept hab.mod e1 e2 e3 e4 _ _⟩⟩
    · rw [List.mem_singleton] at hw
      subst hw
      exact ⟨_, List.Mem.tail _ (List.Mem.head _), rfl, _, _, rfl, rfl,
        .inr ⟨rfl, source_kept e1 e2 e3 e4 hlow hinc hinc'⟩⟩

/-- Full statement of C82 for generate-cfs. -/
def C82_full_cfs : Prop := ∀ (p : Printer) (out : Text),
  Extendable (fun m q => FileOf out "_msg.h" m q ∨ FileOf out "_msgids.h" m q) fun fuel raw cfg => runCfs fuel p raw cfg out

/-- The type `n` is used, without WITH COMPONENTS, in a module that did not use it before. -/
def UseAdded (raw raw' : List Module) (n : String) : Prop :=
  ∃ m' ∈ raw', UsedPlainly m' n ∧ ∀ m ∈ raw, m.name = m'.name → ¬ UsedPlainly m n

/-- **C82**, generate-cfs: the headers with the message ids keep their definitions, and so do the headers with the
types of the modules whose simple types are not used in further modules. Missing: the note on a simple type changes
when it is used in a further module. -/
theorem C82_generate_cfs_partial (p : Printer) (out : Text) (raw raw' : List Module) (cfg cfg' : List String)
    (fuel fuel' : Nat) (hg : ∀ m ∈ raw, GrammarModule m) (hg' : ∀ m ∈ raw', GrammarModule m)
    (ha : ∀ m ∈ raw, ∃ m' ∈ raw', Added m m')
    (h : (runCfs fuel p raw cfg out).result = .ok ()) (h' : (runCfs fuel' p raw' cfg' out).result = .ok ())
    (q : Text) (hq : ∃ fs, (runCfs fuel p raw cfg out).apply fs q ≠ fs q) (fs : Files) :
    ∃ m ∈ raw, ∃ m' ∈ raw', Added m m' ∧ ∃ t t', (runCfs fuel p raw cfg out).apply fs q = some (textContent t) ∧
      (runCfs fuel' p raw' cfg' out).apply fs q = some (textContent t') ∧
      (FileOf out "_msg.h" m q ∨ FileOf out "_msgids.h" m q) ∧
      ((FileOf out "_msgids.h" m q ∨ ∀ n c t, Def.simple n c t ∈ m.defs → ¬ UseAdded raw raw' n) →
        Kept (m.defs.map Def.name) (m'.defs.map Def.name) t t') := by
  have key := run_added (mk := cfsBackend p out) (mk' := cfsBackend p out)
    (R := fun m m' q c c' => ∃ t t', c = textContent t ∧ c' = textContent t' ∧
      ((FileOf out "_msg.h" m q ∧ ((∀ n c t, Def.simple n c t ∈ m.defs → ¬ UseAdded raw raw' n) →
          Kept (m.defs.map Def.name) (m'.defs.map Def.name) t t')) ∨
        (FileOf out "_msgids.h" m q ∧ Kept (m.defs.map Def.name) (m'.defs.map Def.name) t t'))) hg' ha ?_ h h'
  · obtain ⟨b, b', hb, hb', key⟩ := key
    obtain ⟨c, c', h1, h2, bm, hbm, bm', hbm', had, t, t', rfl, rfl, h4⟩ :=
      apply_added (cfs_noAppend _ _ _ _ _) (cfs_noAppend _ _ _ _ _) (C27_cfs fuel p raw hg cfg out)
        (C27_cfs fuel' p raw' hg' cfg' out) key q hq fs
    obtain ⟨m, hm, m', hm', q1, q2, q3, q4, q5⟩ := added_names hb hb' ha hbm hbm' had
    refine ⟨m, hm, m', hm', q1, t, t', h1, h2, ?_, ?_⟩
    · unfold FileOf at h4 ⊢
      rw [q2]; exact h4.imp (·.1) (·.1)
    · intro hc
      rw [q3, q4]
      rcases h4 with ⟨h4, h5⟩ | ⟨_, h5⟩
      · rcases hc with hc | hc
        · unfold FileOf at h4 hc
          rw [q2] at hc
          have := inDir_inj (h4.symm.trans hc)
          rw [List.append_cancel_left_eq] at this
          exact absurd this (by decide)
        · exact h5 fun n c t hd => hc n c t (q5 n c t hd)
      · exact h5
  · intro b b' hb hb' hgr bm hbm bm' hbm' hab cd cd' hcd hcd'
    have hnd' := module_defs_nodup hgr.nodup' (List.mem_map.2 ⟨bm', hbm', rfl⟩)
    have hh : ∀ d ∈ bm.mod.defs, ∀ n, ∀ m ∈ d.members, ∀ v v', (cfsBackend p out b).handler n m bm.mod = .ok v →
        (cfsBackend p out b').handler n m bm'.mod = .ok v' → v = v' := by
      intro d _ n m _ v v' h1 h2
      have : (cfsBackend p out b').handler n m bm'.mod = (cfsBackend p out b).handler n m bm.mod := rfl
      rw [this, h1] at h2
      cases h2; rfl
    have hf := fun d hd k hk => field_added hg' hb hb' hgr hbm hbm' hab (d := d) (k := k) hd hk
    have hlow := bundle_module_lower hg hb hbm
    rw [printed_cfs p out b bm.mod cd hlow, printed_cfs p out b' bm'.mod cd' (by rw [hab.mod.name]; exact hlow), hab.mod.name]
    intro w hw
    rcases List.mem_cons.1 hw with rfl | hw
    · refine ⟨_, List.Mem.head _, rfl, _, _, rfl, rfl, .inl ⟨rfl, fun hno => ?_⟩⟩
      obtain ⟨l, l', e1, e2, e3, e4⟩ := moduleData_added hab hnd'
        (fun d hd p' p'' => defPart_added (hf d hd) (fun n c t hdn v v' h1 h2 => by
          subst hdn
          refine cfsNote_added hb hb' ha (fun m' hm' hu => ?_) h1 h2
          refine Classical.byContradiction fun hne => hno n c t hd ⟨m', hm', hu, fun m hm hmn hum => hne ⟨m, hm, hmn, hum⟩⟩)
          (hh d hd)) hcd hcd'
      exact header_kept hab.mod e1 e2 e3 e4 _ _
    · rw [List.mem_singleton] at hw
      subst hw
      refine ⟨_, List.Mem.tail _ (List.Mem.head _), rfl, _, _, rfl, rfl, .inr ⟨rfl, ?_⟩⟩
      obtain ⟨f, l, l', e1, e2, e3, e4⟩ := moduleData_ids hab hnd'
        (fun d hd p' p'' => defPart_noIncludes (hf d hd) (hh d hd)) hcd hcd'
      have := header_kept hab.mod e1 e2 e3 e4 .msgids (ident bm.mod.name ++ "_msgids.h".toList)
      rwa [headerText_msgids, headerText_msgids] at this

/-! ### Examples -/

/-- Every line of a file that the first run writes is still there after the second run. -/
theorem KeepsDefs.lines {raw raw' : List Module} {owns : Module → Text → Prop} {r r' : Run}
    (h : KeepsDefs raw raw' owns r r') {q : Text} (hq : (r.apply (fun _ => none) q).isSome = true) :
    ∀ x ∈ linesOf (fileText (r.apply fun _ => none) q), x ∈ linesOf (fileText (r'.apply fun _ => none) q) := by
  intro x hx
  rcases h q ⟨fun _ => none, by rw [Option.isSome_iff_ne_none] at hq; exact hq⟩ fun _ => none with
    he | ⟨m, _, m', _, had, _, t, t', h1, h2, hk⟩
  · have : fileText (r'.apply fun _ => none) q = fileText (r.apply fun _ => none) q := by
      unfold fileText
      rw [he]
    rw [this]
    exact hx
  · rw [fileText_eq h1] at hx
    rw [fileText_eq h2]
    refine hk.lines (fun n hn => ?_) x hx
    obtain ⟨d, hd, rfl⟩ := List.mem_map.1 hn
    exact List.mem_map_of_mem (had.defs d hd)

/-- A sequence that contains the packet. -/
def exMoreDef : Def := .seq "More" none [⟨"pkt", .plain "Pkt" none none, none, none⟩,
  ⟨"flag", .plain "BOOLEAN" none none, none, none⟩]
def exMore : List Module := [{ name := "m", defs := [exApidDef, exOther, exIdPkt, exMoreDef] },
  { name := "extra", imports := [⟨["More"], "m"⟩], defs := [.seq "Last" none [⟨"m", .plain "More" none none, none, none⟩]] }]

theorem exForth_more : ∀ m ∈ exForth, ∃ m' ∈ exMore, Added m m' := by
  intro m hm
  simp only [exForth, List.mem_singleton] at hm
  subst hm
  refine ⟨_, List.Mem.head _, rfl, rfl, rfl, .slnil, ?_⟩
  intro d hd
  simp only [List.mem_cons, List.not_mem_nil, or_false] at hd ⊢
  rcases hd with rfl | rfl | rfl <;> simp

theorem exMore_grammar : ∀ m ∈ exMore, GrammarModule m := grammarB_sound (by decide +kernel)
theorem exForth_grammar : ∀ m ∈ exForth, GrammarModule m := grammarB_sound (by decide +kernel)

/-- The binary file of the packet is the same, and the header has all its lines. -/
example : KeepsDefs exForth exMore (FileOf exOut ".h") (runBinary 9 (some .big) exForth ["m"] exOut)
    (runBinary 9 (some .big) exMore ["m", "extra"] exOut) :=
  C82_generate_binary (some .big) exOut exForth exMore ["m"] ["m", "extra"] 9 9 exForth_grammar exMore_grammar exForth_more
    (by decide +kernel) (by decide +kernel)

example : ∃ q, ((runBinary 9 (some .big) exForth ["m"] exOut).apply (fun _ => none) q).isSome = true :=
  ⟨inDir exOut "pkt.bin".toList, by decide +kernel⟩

/-- The packet may be asked for under the name of another module as long as it is there. -/
example (fs : Files) : (runCosmos 9 exPrinter exMore "m" ["Pkt", "Other"] "SAT".toList exOut).apply fs =
    (runCosmos 9 exPrinter exForth "m" ["Pkt", "Other"] "SAT".toList exOut).apply fs :=
  C82_generate_cosmos exForth exMore (fun m hm d hd => by
    obtain ⟨m', hm', h⟩ := exForth_more m hm
    exact ⟨m', hm', h.defs d hd⟩) 9 9 exPrinter "m" "m" ["Pkt", "Other"] "SAT".toList exOut (by decide +kernel) (by decide +kernel) fs

/-- The files kept by generate-cfs in the example: no simple type is used. -/
example : (runCfs 9 exPrinter exForth ["m"] exOut).result = .ok () ∧
    (runCfs 9 exPrinter exMore ["m", "extra"] exOut).result = .ok () ∧
    ∀ m ∈ exForth, ∀ n c t, Def.simple n c t ∈ m.defs → ¬ UseAdded exForth exMore n := by
  refine ⟨by decide +kernel, by decide +kernel, ?_⟩
  intro m hm n c t hd
  simp only [exForth, List.mem_singleton] at hm
  subst hm
  simp [exApidDef, exOther, exIdPkt] at hd

/-- The definition added at the end hides the include line: C82 fails for generate-c. -/
theorem C82_full_c_false : ¬ C82_full_c := by
  intro h
  have h1 : (runC 9 exPrinter exForth ["m"] exOut).result = .ok () := by decide +kernel
  have h2 : (runC 9 exPrinter exMore ["m", "extra"] exOut).result = .ok () := by decide +kernel
  have hk := h exPrinter exOut exForth exMore ["m"] ["m", "extra"] 9 9 exForth_grammar exMore_grammar exForth_more h1 h2
  have hl := hk.lines (q := inDir exOut "m.c".toList) (by decide +kernel) "#include \"m.h\"".toList (by decide +kernel)
  exact absurd hl (by decide +kernel)

/-- A third module that uses the angle. -/
def exThird : Module :=
  { name := "third", imports := [⟨["Angle"], "base"⟩]
    defs := [.seq "Turn" none [⟨"by", .plain "Angle" none none, none, none⟩]] }

/-- Sorting with the case of two names spelled out. -/
def pairSort : List String → List String
  | [a, b] => if a ≤ b then [a, b] else [b, a]
  | l => l.mergeSort (fun a b => decide (a ≤ b))

/-- The note with the sorting of two names spelled out. -/
def pairNote (b : Bundle) (name : String) (t : AType) : Except Err (List Text) :=
  match b.uses.find? (fun u => u.1 = name) with
  | none => .ok []
  | some u =>
    unresolvedSizeBits t >>= fun size =>
    .ok ["// NOTE: The simple type '".toList ++ name.toList ++ "' has been generated to a C ".toList ++
      (if size = 8 ∨ size = 16 ∨ size = 32 ∨ size = 64 then "builtin".toList else "bitfield".toList) ++
      " type and is used directly in ".toList ++
      joinComma ((pairSort u.2).map fun n => '\'' :: n.toList ++ ['\''])]

theorem pair_sorted (l : List String) : pairSort l = l.mergeSort (fun a b => decide (a ≤ b)) := by
  unfold pairSort
  split
  · rename_i a b
    split
    · rename_i hab
      exact (List.mergeSort_of_pairwise (by simp [hab])).symm
    · rename_i hab
      have hba : b ≤ a := (String.le_total b a).resolve_right hab
      rw [mergeSort_names (List.Perm.swap b a [])]
      exact (List.mergeSort_of_pairwise (by simp [hba])).symm
  · rfl

theorem pairNote_eq (b : Bundle) : cfsNote b = pairNote b := by
  funext name t
  unfold cfsNote pairNote
  cases b.uses.find? (fun u => u.1 = name) with
  | none => rfl
  | some u =>
    dsimp only
    rw [← pair_sorted u.2]

theorem pair_run (fuel : Nat) (p : Printer) (raw : List Module) (cfg : List String) (out : Text) :
    runCfs fuel p raw cfg out =
      runCommand fuel (fun b => { cfsBackend p out b with note := pairNote b }) raw cfg out := by
  unfold runCfs
  congr 1
  funext b
  rw [← pairNote_eq]
  rfl

/-- The note on the angle changes when a further module uses it: C82 fails for generate-cfs. -/
theorem C82_full_cfs_false : ¬ C82_full_cfs := by
  intro h
  have h1 : (runCfs 9 exPrinter exRaw ["geo", "base"] exOut).result = .ok () := by decide +kernel
  have h2 : (runCfs 9 exPrinter (exRaw ++ [exThird]) ["geo", "base", "third"] exOut).result = .ok () := by decide +kernel
  have hk := h exPrinter exOut exRaw (exRaw ++ [exThird]) ["geo", "base"] ["geo", "base", "third"] 9 9
    (grammarB_sound (by decide +kernel)) (grammarB_sound (by decide +kernel))
    (fun m hm => ⟨m, List.mem_append_left _ hm, rfl, rfl, rfl, .refl _, fun _ h => h⟩) h1 h2
  have hl := hk.lines (q := inDir exOut "base_msg.h".toList) (by decide +kernel)
    "// NOTE: The simple type 'Angle' has been generated to a C bitfield type and is used directly in 'geo'".toList
    (by decide +kernel)
  simp only [pair_run] at hl
  exact absurd hl (by decide +kernel)

end Apg
