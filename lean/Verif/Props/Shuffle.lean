import Verif.Lemmas.ShuffleRun
import Verif.Props.Files
import Verif.Props.CInit
import Verif.Props.Success
import Verif.Props.Cosmos

/-!
# Property C81: the order of the definitions in a module does not matter
-/

namespace Apg
open Spec

/-- The files left by two runs are the same, except that the files which belong to a module go through the
definitions of the module in another order. -/
def SameTexts (raw : List Module) (owns : Module → Text → Prop) (r r' : Run) : Prop :=
  ∀ fs q, r'.apply fs q = r.apply fs q ∨ ∃ m ∈ raw, owns m q ∧ ∃ t t',
    r.apply fs q = some (textContent t) ∧ r'.apply fs q = some (textContent t') ∧
    Rearranged (m.defs.map Def.name) t t'

/-- What the commands with a list of modules promise: a run that succeeds also succeeds, and leaves the same texts,
when the definitions of the modules are written in another order. -/
def Shufflable (owns : Module → Text → Prop) (run : Nat → List Module → List String → Run) : Prop :=
  ∀ (raw raw' : List Module) (cfg : List String) (fuel : Nat), (∀ m ∈ raw, GrammarModule m) →
    All2 Shuffled raw raw' → (run fuel raw cfg).result = .ok () →
      ∀ fuel', fuel ≤ fuel' → raw.length < fuel' → (∀ m ∈ raw, m.defs.length < fuel') →
        (run fuel' raw' cfg).result = .ok () ∧ SameTexts raw owns (run fuel raw cfg) (run fuel' raw' cfg)

/-- The file with a suffix for a module. -/
def FileOf (out : Text) (suffix : String) (m : Module) (q : Text) : Prop := q = inDir out (ident m.name ++ suffix.toList)

theorem processed_names {raw : List Module} {cfg : List String} {b : Bundle} (h : buildFromConfig raw cfg = .ok b)
    {m1 : Module} (hm : m1 ∈ b.modules) :
    ∃ m ∈ raw, m.name = m1.name ∧ m.defs.map Def.name = m1.defs.map Def.name := by
  obtain ⟨ms, h1, _, _, h4, _⟩ := buildFromConfig_ok.1 h
  rw [build_modules h4] at hm
  obtain ⟨m, hmr, hp⟩ := all2_mem_right (processModules_ok.1 h1) hm
  refine ⟨m, hmr, (processModule_name hp).1.symm, ?_⟩
  obtain ⟨_, _, ds, hd, rfl, _⟩ := processModule_ok.1 hp
  replace hd := processDefs_ok.1 hd
  clear hp hm h1 h4
  dsimp only at *
  generalize m.defs = l at hd
  rename_i hu
  clear hu
  induction hd with
  | nil => rfl
  | cons h _ ih => rw [List.map_cons, List.map_cons, ih, (processDef_ok h).1]

section
variable {raw raw' : List Module} {cfg : List String} {b b' : Bundle} (hg : ∀ m ∈ raw, GrammarModule m)
  (hb : buildFromConfig raw cfg = .ok b)
include hg hb

theorem bundle_module_lower {bm : BMod} (hbm : bm ∈ b.mods) : isNameLower bm.mod.name = true :=
  accepted_names hg (buildFromTexts_of_config hb) _ (List.mem_map.2 ⟨bm, hbm, rfl⟩)

omit hg in
theorem bundle_module_length {bm : BMod} (hbm : bm ∈ b.mods) {fuel : Nat} (hl : ∀ m ∈ raw, m.defs.length < fuel) :
    bm.mod.defs.length < fuel := by
  obtain ⟨m, hm, _, hn⟩ := processed_names hb (List.mem_map.2 ⟨bm, hbm, rfl⟩)
  have := hl m hm
  rw [← List.length_map (f := Def.name), hn, List.length_map] at this
  exact this

end

/-- **C81**, generate-cfs. -/
theorem C81_generate_cfs (p : Printer) (out : Text) :
    Shufflable (fun m q => FileOf out "_msg.h" m q ∨ FileOf out "_msgids.h" m q)
      fun fuel raw cfg => runCfs fuel p raw cfg out := by
  intro raw raw' cfg fuel hg hs h fuel' hf hl hd
  have key := run_shuffled (mk := cfsBackend p out) (mk' := cfsBackend p out) (fuel' := fuel')
    (R := fun m q c c' => (FileOf out "_msg.h" m q ∨ FileOf out "_msgids.h" m q) ∧ ∃ t t', c = textContent t ∧
      c' = textContent t' ∧ Rearranged (m.defs.map Def.name) t t') hs ?_ h hl
  · obtain ⟨h1, b, hb, h2⟩ := key
    refine ⟨h1, fun fs q => ?_⟩
    rcases apply_alike (cfs_noAppend _ _ _ _ _) (cfs_noAppend _ _ _ _ _) (C27_cfs fuel p raw hg cfg out)
      (C27_cfs fuel' p raw' (grammar_shuffled hs hg) cfg out) h2 fs q with ⟨h3, h4⟩ | ⟨c, c', h3, h4, bm, hbm, h5, t, t', rfl, rfl, h6⟩
    · exact .inl (h4.trans h3.symm)
    · obtain ⟨m, hm, hn, hdn⟩ := processed_names hb (List.mem_map.2 ⟨bm, hbm, rfl⟩)
      refine .inr ⟨m, hm, ?_, t, t', h3, h4, by rw [hdn]; exact h6⟩
      unfold FileOf at h5 ⊢
      dsimp only
      rw [hn]; exact h5
  · intro b b' hb hb' hsb bm hbm bm' hbm' hsbm cd hcd
    obtain ⟨ms, h1, _, _, h4, _⟩ := buildFromConfig_ok.1 hb
    obtain ⟨ms', q1, _, _, q4, _⟩ := buildFromConfig_ok.1 hb'
    obtain ⟨ms2, r1, r2⟩ := processModules_shuffled hs h1
    rw [q1] at r1
    cases r1
    have hnd := accepted_nodup (buildFromTexts_of_config hb)
    obtain ⟨cd', e1, l, l', e2, e3, e4, e5⟩ := moduleData_shuffled (be := cfsBackend p out b) (be' := cfsBackend p out b')
      (fuel' := fuel') hsbm
      (resolveType_perm (defs_shuffled hsb) hnd) (simpleList_unique hg hb hbm)
      (module_defs_nodup hnd (List.mem_map.2 ⟨bm, hbm, rfl⟩)) rfl (fun n t => cfsNote_shuffled r2 h4 q4 n t)
      (fun _ _ v hv => hv) (bundle_module_length hb hbm hd) hcd
    refine ⟨cd', e1, ?_⟩
    have hlow := bundle_module_lower hg hb hbm
    rw [printed_cfs p out b bm.mod cd hlow, printed_cfs p out b' bm'.mod cd' (by rw [hsbm.mod.name]; exact hlow), hsbm.mod.name]
    constructor
    · intro w hw
      rcases List.mem_cons.1 hw with rfl | hw
      · exact ⟨_, List.Mem.head _, rfl, .inl rfl, _, _, rfl, rfl, header_rearranged e2 e3 e4 e5 _ _⟩
      · rw [List.mem_singleton] at hw
        subst hw
        exact ⟨_, List.Mem.tail _ (List.Mem.head _), rfl, .inr rfl, _, _, rfl, rfl, header_rearranged e2 e3 e4 e5 _ _⟩
    · intro w hw
      rcases List.mem_cons.1 hw with rfl | hw
      · exact ⟨_, List.Mem.head _, rfl⟩
      · rw [List.mem_singleton] at hw
        subst hw
        exact ⟨_, List.Mem.tail _ (List.Mem.head _), rfl⟩

/-- **C81**, generate-binary: only the headers are rearranged. -/
theorem C81_generate_binary (e : Option Endian) (out : Text) :
    Shufflable (FileOf out ".h") fun fuel raw cfg => runBinary fuel e raw cfg out := by
  intro raw raw' cfg fuel hg hs h fuel' hf hl hd
  have key := run_shuffled (mk := binBackend fuel e out) (mk' := binBackend fuel' e out) (fuel' := fuel')
    (R := fun m q c c' => c' = c ∨ (FileOf out ".h" m q ∧ ∃ t t', c = textContent t ∧
      c' = textContent t' ∧ Rearranged (m.defs.map Def.name) t t')) hs ?_ h hl
  · obtain ⟨h1, b, hb, h2⟩ := key
    refine ⟨h1, fun fs q => ?_⟩
    rcases apply_alike (binary_noAppend _ _ _ _ _) (binary_noAppend _ _ _ _ _) (C27_binary fuel e raw hg cfg out)
      (C27_binary fuel' e raw' (grammar_shuffled hs hg) cfg out) h2 fs q with
      ⟨h3, h4⟩ | ⟨c, c', h3, h4, bm, hbm, rfl | ⟨h5, t, t', rfl, rfl, h6⟩⟩
    · exact .inl (h4.trans h3.symm)
    · exact .inl (h4.trans h3.symm)
    · obtain ⟨m, hm, hn, hdn⟩ := processed_names hb (List.mem_map.2 ⟨bm, hbm, rfl⟩)
      refine .inr ⟨m, hm, ?_, t, t', h3, h4, by rw [hdn]; exact h6⟩
      unfold FileOf at h5 ⊢
      rw [hn]; exact h5
  · intro b b' hb hb' hsb bm hbm bm' hbm' hsbm cd hcd
    have hbt := buildFromTexts_of_config hb
    have hnd := accepted_nodup hbt
    have hr := resolveType_perm (defs_shuffled hsb) hnd
    have hmn := module_defs_nodup hnd (List.mem_map.2 ⟨bm, hbm, rfl⟩)
    obtain ⟨cd', e1, l, l', e2, e3, e4, e5⟩ := moduleData_shuffled (be := binBackend fuel e out b)
      (be' := binBackend fuel' e out b') (fuel' := fuel') hsbm hr (simpleList_unique hg hb hbm) hmn rfl (fun _ _ v hv => hv)
      (fun n m => binHandler_shuffled hf hr hsbm.mod hmn e n m) (bundle_module_length hb hbm hd) hcd
    refine ⟨cd', e1, ?_⟩
    have hlow := bundle_module_lower hg hb hbm
    have hcap : ∀ d ∈ bm'.mod.defs, isNameCapital d.name = true := fun d hd =>
      def_capital (accepted_grammar hg hbt d (module_defs_sub (List.mem_map.2 ⟨bm, hbm, rfl⟩) (hsbm.mod.defs.mem_iff.2 hd))).1
    have hown := namedPart_own (fuel := fuel') (e := e) (out := out) (b := b') (simple := simpleList bm') hcap
    have hownl : ∀ {k : List String}, k.Perm (bm.mod.defs.map Def.name) →
        OwnBins (namedPart (binBackend fuel' e out b') b'.defs (simpleList bm') bm'.mod) k := by
      intro k hk n hn
      have hk' := hk.trans hsbm.mod.names
      obtain ⟨q1, q2⟩ := hown n (hk'.mem_iff.1 hn)
      exact ⟨q1, fun n' hn' => q2 n' (hk'.mem_iff.1 hn')⟩
    have hbins : ∀ x, x ∈ cd.bins ↔ x ∈ cd'.bins := by
      intro x
      rw [e4.bins, e5.bins, mem_bins (hownl e2), mem_bins (hownl e3)]
      simp only [e2.mem_iff, e3.mem_iff]
    rw [printed_bin fuel e out b bm.mod cd hlow, printed_bin fuel' e out b' bm'.mod cd' (by rw [hsbm.mod.name]; exact hlow),
      hsbm.mod.name]
    constructor
    · intro w hw
      rcases List.mem_cons.1 hw with rfl | hw
      · exact ⟨_, List.Mem.head _, rfl, .inr ⟨rfl, _, _, rfl, rfl, header_rearranged e2 e3 e4 e5 _ _⟩⟩
      · obtain ⟨x, hx, rfl⟩ := List.mem_map.1 hw
        exact ⟨_, List.Mem.tail _ (List.mem_map_of_mem ((hbins x).1 hx)), rfl, .inl rfl⟩
    · intro w hw
      rcases List.mem_cons.1 hw with rfl | hw
      · exact ⟨_, List.Mem.head _, rfl⟩
      · obtain ⟨x, hx, rfl⟩ := List.mem_map.1 hw
        exact ⟨_, List.Mem.tail _ (List.mem_map_of_mem ((hbins x).2 hx)), rfl⟩

/-- **C81**, generate-cosmos: the file is the same to the last character, and a run fails in the same way. -/
theorem C81_generate_cosmos (raw raw' : List Module) (hs : All2 Shuffled raw raw') (b : Bundle)
    (hb : buildFromTexts raw = .ok b) (fuel : Nat) (p : Printer) (module : String) (messages : List String)
    (target out : Text) :
    (runCosmos fuel p raw' module messages target out).result = (runCosmos fuel p raw module messages target out).result ∧
    ∀ fs, (runCosmos fuel p raw' module messages target out).apply fs =
      (runCosmos fuel p raw module messages target out).apply fs := by
  rw [runCosmos_shuffled hs hb]
  exact ⟨rfl, fun _ => rfl⟩

/-- Full statement of C81 for generate-c. -/
def C81_full : Prop := ∀ (p : Printer) (out : Text),
  Shufflable (fun m q => FileOf out ".h" m q ∨ FileOf out ".c" m q) fun fuel raw cfg => runC fuel p raw cfg out

/-- **C81**, generate-c: the headers are rearranged, the C files are too apart from the include line. Missing: the
include line, which depends on the last definition (C45). -/
theorem C81_generate_c_partial (p : Printer) (out : Text) (raw raw' : List Module) (cfg : List String) (fuel : Nat)
    (hg : ∀ m ∈ raw, GrammarModule m) (hs : All2 Shuffled raw raw') (h : (runC fuel p raw cfg out).result = .ok ())
    (fuel' : Nat) (hl : raw.length < fuel') (hd : ∀ m ∈ raw, m.defs.length < fuel') :
    (runC fuel' p raw' cfg out).result = .ok () ∧
    ∀ fs q, (runC fuel' p raw' cfg out).apply fs q = (runC fuel p raw cfg out).apply fs q ∨
      ∃ m ∈ raw, ∃ t t', (runC fuel p raw cfg out).apply fs q = some (textContent t) ∧
        (runC fuel' p raw' cfg out).apply fs q = some (textContent t') ∧
        ((FileOf out ".h" m q ∧ Rearranged (m.defs.map Def.name) t t') ∨
          (FileOf out ".c" m q ∧ RearrangedSource m.name (m.defs.map Def.name) t t')) := by
  have key := run_shuffled (mk := cBackend p out) (mk' := cBackend p out) (fuel' := fuel')
    (R := fun m q c c' => ∃ t t', c = textContent t ∧ c' = textContent t' ∧
        ((FileOf out ".h" m q ∧ Rearranged (m.defs.map Def.name) t t') ∨
          (FileOf out ".c" m q ∧ RearrangedSource m.name (m.defs.map Def.name) t t'))) hs ?_ h hl
  · obtain ⟨h1, b, hb, h2⟩ := key
    refine ⟨h1, fun fs q => ?_⟩
    rcases apply_alike (c_noAppend _ _ _ _ _) (c_noAppend _ _ _ _ _) (C27_c fuel p raw hg cfg out)
      (C27_c fuel' p raw' (grammar_shuffled hs hg) cfg out) h2 fs q with
      ⟨h3, h4⟩ | ⟨c, c', h3, h4, bm, hbm, t, t', rfl, rfl, h6⟩
    · exact .inl (h4.trans h3.symm)
    · obtain ⟨m, hm, hn, hdn⟩ := processed_names hb (List.mem_map.2 ⟨bm, hbm, rfl⟩)
      refine .inr ⟨m, hm, t, t', h3, h4, ?_⟩
      unfold FileOf at h6 ⊢
      rw [hn, hdn]; exact h6
  · intro b b' hb hb' hsb bm hbm bm' hbm' hsbm cd hcd
    have hnd := accepted_nodup (buildFromTexts_of_config hb)
    obtain ⟨cd', e1, l, l', e2, e3, e4, e5⟩ := moduleData_shuffled (be := cBackend p out b) (be' := cBackend p out b')
      (fuel' := fuel') hsbm (resolveType_perm (defs_shuffled hsb) hnd) (simpleList_unique hg hb hbm)
      (module_defs_nodup hnd (List.mem_map.2 ⟨bm, hbm, rfl⟩)) rfl (fun _ _ v hv => hv) (fun _ m v hv => by
        simp only [cBackend, cHandler] at hv ⊢
        rw [hsbm.mod.name]
        exact hv) (bundle_module_length hb hbm hd) hcd
    refine ⟨cd', e1, ?_⟩
    have hlow := bundle_module_lower hg hb hbm
    have hinc := moduleData_include hcd
    have hinc' := moduleData_include e1
    rw [hsbm.mod.name] at hinc'
    rw [printed_c p out b bm.mod cd hlow, printed_c p out b' bm'.mod cd' (by rw [hsbm.mod.name]; exact hlow), hsbm.mod.name]
    constructor
    · intro w hw
      rcases List.mem_cons.1 hw with rfl | hw
      · exact ⟨_, List.Mem.head _, rfl, _, _, rfl, rfl, .inl ⟨rfl, header_rearranged e2 e3 e4 e5 _ _⟩⟩
      · rw [List.mem_singleton] at hw
        subst hw
        exact ⟨_, List.Mem.tail _ (List.Mem.head _), rfl, _, _, rfl, rfl,
          .inr ⟨rfl, source_rearranged e2 e3 e4 e5 hlow hinc hinc'⟩⟩
    · intro w hw
      rcases List.mem_cons.1 hw with rfl | hw
      · exact ⟨_, List.Mem.head _, rfl⟩
      · rw [List.mem_singleton] at hw
        subst hw
        exact ⟨_, List.Mem.tail _ (List.Mem.head _), rfl⟩

/-! ### Examples -/

theorem Spec.Rearranged.length_eq {names : List String} {t t' : List Char} (h : Rearranged names t t') :
    t.length = t'.length := by
  obtain ⟨ps, l, l', hw, h1, h2, rfl, rfl⟩ := h
  have hp := h1.trans h2.symm
  clear hw
  unfold layout
  induction ps with
  | nil => rfl
  | cons a ps ih =>
    simp only [List.flatMap_cons, List.length_append, ih]
    cases a with
    | fixed t => rfl
    | each f => simp only [(hp.flatMap_right f).length_eq]

/-- An id, a packet with a fixed id, and a sequence of its own. -/
def exApidDef : Def := .seq "Id" none [⟨"apid", .plain "INTEGER" (some (.int 0)) (some (.int 255)), none, none⟩]
def exIdPkt : Def := .seq "Pkt" none [⟨"id", .plain "Id" none none, none, some (.leaf "apid" (.int 7) .nil)⟩]
def exOther : Def := .seq "Other" none [⟨"n", .plain "INTEGER" (some (.int 0)) (some (.int 9)), none, none⟩]
def exForth : List Module := [{ name := "m", defs := [exApidDef, exOther, exIdPkt] }]
def exBack : List Module := [{ name := "m", defs := [exIdPkt, exOther, exApidDef] }]

theorem exForth_shuffled : All2 Shuffled exForth exBack :=
  .cons ⟨rfl, rfl, rfl, rfl, (List.reverse_perm [exApidDef, exOther, exIdPkt]).symm⟩ .nil

example : (runBinary 9 (some .big) exBack ["m"] exOut).result = .ok () ∧
    SameTexts exForth (FileOf exOut ".h") (runBinary 9 (some .big) exForth ["m"] exOut)
      (runBinary 9 (some .big) exBack ["m"] exOut) :=
  C81_generate_binary (some .big) exOut exForth exBack ["m"] 9 (grammarB_sound (by decide +kernel)) exForth_shuffled
    (by decide +kernel) 9 (Nat.le_refl _) (by decide) (by decide)

example : (runCfs 9 exPrinter exBack ["m"] exOut).result = .ok () :=
  (C81_generate_cfs exPrinter exOut exForth exBack ["m"] 9 (grammarB_sound (by decide +kernel)) exForth_shuffled
    (by decide +kernel) 9 (Nat.le_refl _) (by decide) (by decide)).1

/-- The definition that follows the clause hides the include line: C81 fails for generate-c. -/
theorem C81_full_false : ¬ C81_full := by
  intro h
  have hp : (runC 9 exPrinter exForth ["m"] exOut).result = .ok () := by decide +kernel
  have hq := (h exPrinter exOut exForth [{ name := "m", defs := [exApidDef, exIdPkt, exOther] }] ["m"] 9
    (grammarB_sound (by decide +kernel))
    (.cons ⟨rfl, rfl, rfl, rfl, .cons _ (.swap ..)⟩ .nil) hp 9 (Nat.le_refl _) (by decide) (by decide)).2
    (fun _ => none) (inDir exOut "m.c".toList)
  have hlen : ∀ c c', (runC 9 exPrinter exForth ["m"] exOut).apply (fun _ => none) (inDir exOut "m.c".toList) = some c →
      (runC 9 exPrinter [{ name := "m", defs := [exApidDef, exIdPkt, exOther] }] ["m"] exOut).apply (fun _ => none)
        (inDir exOut "m.c".toList) = some c' → c.length ≠ c'.length := by
    have : ((runC 9 exPrinter exForth ["m"] exOut).apply (fun _ => none) (inDir exOut "m.c".toList)).map List.length ≠
      ((runC 9 exPrinter [{ name := "m", defs := [exApidDef, exIdPkt, exOther] }] ["m"] exOut).apply (fun _ => none)
        (inDir exOut "m.c".toList)).map List.length := by decide +kernel
    intro c c' h1 h2 he
    rw [h1, h2] at this
    exact this (by simp [he])
  have hsome : ((runC 9 exPrinter exForth ["m"] exOut).apply (fun _ => none) (inDir exOut "m.c".toList)).isSome = true := by
    decide +kernel
  obtain ⟨c, hc⟩ := Option.isSome_iff_exists.1 hsome
  rcases hq with hq | ⟨m, _, _, t, t', h1, h2, h3⟩
  · exact hlen c c hc (hq.trans hc) rfl
  · exact hlen _ _ h1 h2 (by simp [textContent, h3.length_eq])

/-- The packet is described from either order. -/
example : (runCosmos 9 exPrinter exBack "m" ["Pkt"] "SAT".toList exOut).result = .ok () := by
  have h := (C81_generate_cosmos exForth exBack exForth_shuffled _ (okBundle_eq (by decide +kernel)) 9 exPrinter "m"
    ["Pkt"] "SAT".toList exOut).1
  exact h.trans (by decide +kernel)

end Apg
