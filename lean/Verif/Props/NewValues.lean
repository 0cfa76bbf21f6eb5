import Verif.Lemmas.NewValuesCosmos
import Verif.Lemmas.ClauseOrderRun
import Verif.Props.Unfixed
import Verif.Props.Defines
import Verif.Props.ClauseOrder

/-!
# C95: changing fixed values changes nothing else
-/

namespace Apg
open Spec

/-- generate-c succeeds for both versions, or for none. -/
theorem C95_generate_c (K : String → Prop) (fuel : Nat) (p : Printer) (raw raw' : List Module) (cfg : List String) (out : Text)
    (hs : All2 (AlteredModule (NewValues K)) raw raw') :
    (runC fuel p raw cfg out).result = .ok () ↔ (runC fuel p raw' cfg out).result = .ok () := by
  have hmod : ∀ {b : Bundle} {bm : BMod}, bm ∈ b.mods → bm.mod ∈ b.modules := fun h => List.mem_map.2 ⟨_, h, rfl⟩
  refine (runCommand_reordered (H := fun _ _ _ => True) (mk := cBackend p out) hs fuel cfg out
    fun b b' h h' hr bm hbm bm' hbm' hR => ?_).result
  refine (moduleData_reordered (V := fun _ _ => True) (B := NoB) hr.defs hR
    (module_defs_nodup (accepted_nodup (buildFromTexts_of_config h)) (hmod hbm)) (be := cBackend p out b)
    (be' := cBackend p out b') ⟨rfl, rfl, ?_⟩ fuel).imp fun cd cd' hc => ?_
  · intro n c ms ms' _ _ m _ m' _ hmm c c' hc hc' _
    show Both _ (cHandler p (cName n) m bm.mod) (cHandler p (cName n) m' bm'.mod)
    unfold cHandler
    rw [hc, hc', hR.mod.name, hmm.key]
    exact .ok ⟨rfl, rfl, rfl, rfl, rfl, rfl, rfl, .refl _, fun _ h => (by cases h), .cons trivial .nil, .nil⟩
  · simp only [cBackend, hR.mod.name, printToFile]
    exact .cons ⟨rfl, .inr trivial⟩ (.cons ⟨rfl, .inr trivial⟩ .nil)

/-- The headers stay the same. -/
theorem C95_headers (K : String → Prop) (cmd : Command) (fuel : Nat) (raw raw' : List Module) (cfg : List String) (out : Text)
    (b b' : Bundle) (fs : Files) (hs : All2 (AlteredModule (NewValues K)) raw raw') (hi : Input raw cfg b) (hi' : Input raw' cfg b')
    (hr : (cmd.run fuel raw cfg out).result = .ok ()) (hr' : (cmd.run fuel raw' cfg out).result = .ok ())
    (m : Module) (hm : m ∈ b.modules) :
    ∃ t, HasText ((cmd.run fuel raw cfg out).apply fs) (cmd.path out m.name) t ∧
      HasText ((cmd.run fuel raw' cfg out).apply fs) (cmd.path out m.name) t := by
  have hb := newValues_built hs hi.accepted hi'.accepted
  obtain ⟨bm, hbm, rfl⟩ := List.mem_map.1 hm
  obtain ⟨bm', hbm', hR⟩ := all2_mem_left hb.mods hbm
  have hm' : bm'.mod ∈ b'.modules := List.mem_map.2 ⟨bm', hbm', rfl⟩
  obtain ⟨cd, cd', k1, k1', k2, k2'⟩ := header_versions fs (unfixedModules_reordered hs).symm hi hi' hr hr' hbm hbm' hR.mod.name
  have hd : (partsOf cmd.headerType (cmd.header bm.mod.name) cd').decls = (partsOf cmd.headerType (cmd.header bm.mod.name) cd).decls := by
    cases cmd with
    | cfs p => rfl
    | binary e => rfl
    | c p =>
      have hgd := fun d hd => (accepted_grammar hi.grammar (buildFromTexts_of_config hi.accepted) d (mem_defs_of_module hm hd)).1
      have hgd' := fun d hd => (accepted_grammar hi'.grammar (buildFromTexts_of_config hi'.accepted) d (mem_defs_of_module hm' hd)).1
      obtain ⟨s, e1, _, e2⟩ := predefs_objects (b := b) k1 hgd
      obtain ⟨s', e1', _, e2'⟩ := predefs_objects (b := b') k1' hgd'
      show cd'.predefs = cd.predefs
      have := flatMap_alike (fun _ _ h => clausesOf_newValues h)
        (newValues_sorted hR.mod (module_defs_nodup (accepted_nodup (buildFromTexts_of_config hi.accepted)) hm) e1 e1')
      rw [e2, e2']
      generalize s.flatMap clausesOf = l at this
      generalize s'.flatMap clausesOf = l' at this
      induction this with
      | nil => rfl
      | cons h _ ih => rw [List.map_cons, List.map_cons, ih, h.1]
  rw [hd] at k2'
  exact ⟨_, k2, k2'⟩

theorem lastBlock_newValues {K : String → Prop} {s s' : List Def} (hss : All2 (AlteredDef (NewValues K)) s s') :
    (lastBlock s = none ∧ lastBlock s' = none) ∨
      ∃ d d', lastBlock s = some d ∧ lastBlock s' = some d' ∧ (clausesOf d' = [] ↔ clausesOf d = []) := by
  have hf : All2 (AlteredDef (NewValues K)) (s.filter fun d => !d.isSimple) (s'.filter fun d => !d.isSimple) := by
    induction hss with
    | nil => exact .nil
    | @cons d d' l l' hd _ ih =>
      have e : d'.isSimple = d.isSimple := by cases hd <;> rfl
      rw [List.filter_cons, List.filter_cons, e]
      split
      · exact .cons hd ih
      · exact ih
  rcases all2_getLast hf with h | ⟨x, x', q1, q2, q3⟩
  · exact .inl h
  · refine .inr ⟨x, x', q1, q2, ?_⟩
    have hc := clausesOf_newValues q3
    generalize clausesOf x = l at hc
    generalize clausesOf x' = l' at hc
    cases hc <;> simp

/-- Two versions of the C file of a module have the same comment and include line and a variable for each clause. -/
theorem C95_variables (K : String → Prop) (fuel : Nat) (p : Printer) (hp : Faithful p) (raw raw' : List Module) (cfg : List String)
    (out : Text) (b b' : Bundle) (fs : Files) (hs : All2 (AlteredModule (NewValues K)) raw raw') (hi : Input raw cfg b)
    (hi' : Input raw' cfg b') (hr : (runC fuel p raw cfg out).result = .ok ()) (m : Module) (hm : m ∈ b.modules) :
    ∃ (doc : Text) (incl : Option Text) (rows : List (Change (String × String × Comps) Text)),
      HasText ((runC fuel p raw cfg out).apply fs) (inDir out (ident m.name ++ ".c".toList))
        (sourceFile doc incl (rows.map (·.oldOut))) ∧
      HasText ((runC fuel p raw' cfg out).apply fs) (inDir out (ident m.name ++ ".c".toList))
        (sourceFile doc incl (rows.map (·.newOut))) ∧
      OnlyChanges (NewClause K) (Initialiser p) rows ∧
      (∃ m' ∈ b'.modules, m'.name = m.name ∧ (rows.map (·.old)).Perm (m.defs.flatMap clausesOf) ∧
        (rows.map (·.new)).Perm (m'.defs.flatMap clausesOf)) := by
  have hr' := (C95_generate_c K fuel p raw raw' cfg out hs).1 hr
  have hb := newValues_built hs hi.accepted hi'.accepted
  obtain ⟨bm, hbm, rfl⟩ := List.mem_map.1 hm
  obtain ⟨bm', hbm', hR⟩ := all2_mem_left hb.mods hbm
  have hm' : bm'.mod ∈ b'.modules := List.mem_map.2 ⟨bm', hbm', rfl⟩
  obtain ⟨s, h1, h2, h3⟩ := source_file hi.grammar hi.accepted hr hbm fs
  obtain ⟨s', h1', h2', h3'⟩ := source_file hi'.grammar hi'.accepted hr' hbm' fs
  have hss := newValues_sorted hR.mod (module_defs_nodup (accepted_nodup (buildFromTexts_of_config hi.accepted)) hm) h1 h1'
  have hcl := flatMap_alike (fun _ _ h => clausesOf_newValues h) hss
  obtain ⟨rows, r1, r2, r3, r4, r5⟩ := rows_of (clauseText p) hcl
  have hdoc : headerDoc bm'.mod = headerDoc bm.mod := by unfold headerDoc; rw [hR.mod.comment]
  have hlast := lastBlock_newValues hss
  rw [hR.mod.name, hdoc, ← r4] at h3'
  rw [← r3] at h3
  obtain ⟨incl, i1, i2⟩ : ∃ incl, HasText ((runC fuel p raw cfg out).apply fs) (inDir out (ident bm.mod.name ++ ".c".toList))
        (sourceFile (headerDoc bm.mod) incl (rows.map (·.oldOut))) ∧
      HasText ((runC fuel p raw' cfg out).apply fs) (inDir out (ident bm.mod.name ++ ".c".toList))
        (sourceFile (headerDoc bm.mod) incl (rows.map (·.newOut))) := by
    rcases hlast with ⟨q1, q2⟩ | ⟨x, x', q1, q2, q3⟩
    · rw [q1] at h3; rw [q2] at h3'; exact ⟨_, h3, h3'⟩
    · rw [q1] at h3; rw [q2] at h3'
      simp only [q3] at h3'
      exact ⟨_, h3, h3'⟩
  have hgr : ∀ {b : Bundle} {raw : List Module} {mod : Module}, Input raw cfg b → mod ∈ b.modules → ∀ {s : List Def}, s.Perm mod.defs →
      ∀ x ∈ s.flatMap clausesOf, Initialiser p x (clauseText p x) := by
    intro b raw mod hi hm s hperm x hx
    obtain ⟨d, hd, hxd⟩ := List.mem_flatMap.1 hx
    have hg := (accepted_grammar hi.grammar (buildFromTexts_of_config hi.accepted) d (mem_defs_of_module hm (hperm.mem_iff.1 hd))).1
    cases d with
    | seq n c ms =>
      simp only [clausesOf, List.mem_filterMap, Option.map_eq_some_iff] at hxd
      obtain ⟨m, hm, cs, hc, rfl⟩ := hxd
      exact cInitStart_initialiser hp hg.1 (hg.2.2 m hm).1 ((hg.2.2 m hm).2.2 cs hc).2
    | _ => cases hxd
  refine ⟨_, incl, rows, i1, i2, fun r hrow => ?_, bm'.mod, hm', hR.mod.name, ?_, ?_⟩
  · obtain ⟨q1, q2, q3, q4, q5⟩ := r5 r hrow
    rw [q4, q5]
    exact ⟨q3, hgr hi hm h2 _ q1, hgr hi' hm' h2' _ q2, fun h => by rw [h]⟩
  · rw [r1]; exact h2.flatMap_right _
  · rw [r2]; exact h2'.flatMap_right _

/-- The text of a message id header with the lines. -/
def msgidsText (s : Text) (lines : List Text) : Text :=
  ("#ifndef ".toList ++ s ++ "\n#define ".toList ++ s ++ "\n".toList ++ msgidsComment) ++ (lines.flatten ++
    ((if lines = [] then [] else "\n".toList) ++ "#endif // ".toList ++ s ++ "\n".toList))

/-- The message id header with the very lines. -/
theorem msgids_exact {fuel : Nat} {p : Printer} {raw : List Module} {cfg : List String} {out : Text} {b : Bundle}
    (hi : Input raw cfg b) (h : (runCfs fuel p raw cfg out).result = .ok ()) {bm : BMod} (hbm : bm ∈ b.mods) (fs : Files) :
    ∃ defs : List Def, sortDefs fuel bm.mod = some defs ∧ defs.Perm bm.mod.defs ∧
      (∀ x ∈ defs.flatMap fixedOfDef, DefineLine p x (lineOf p x)) ∧
      (runCfs fuel p raw cfg out).apply fs (inDir out (ident bm.mod.name ++ "_msgids.h".toList)) =
        some (textContent (msgidsText (guardSymbol (ident bm.mod.name ++ "_msgids.h".toList))
          ((defs.flatMap fixedOfDef).map (lineOf p)))) := by
  have hm : bm.mod ∈ b.modules := List.mem_map_of_mem hbm
  have hbt := buildFromTexts_of_config hi.accepted
  have hn := accepted_names hi.grammar hbt _ hm
  obtain ⟨cd, hcd, hw⟩ := run_module h hi.accepted hbm
  obtain ⟨defs, hs, hp, hl⟩ := cfs_module_defines
    (fun d hd => (accepted_grammar hi.grammar hbt d (mem_defs_of_module hm hd)).1) hcd
  obtain ⟨defs', hs', hl'⟩ := module_lines hcd
  rw [hs] at hs'
  obtain rfl := Option.some.inj hs'
  rw [printed_cfs _ _ _ _ _ hn] at hw
  have h1 := apply_get (cfs_noAppend fuel p raw cfg out) (C27_cfs fuel p raw hi.grammar cfg out) fs
    (hw _ (List.Mem.tail _ (List.Mem.head _)))
  rw [msgids_text, hl'] at h1
  rw [hl'] at hl
  refine ⟨defs, hs, hp, fun x hx => ?_, ?_⟩
  · clear h1 hl' hs hp
    generalize defs.flatMap fixedOfDef = l at hl hx
    induction l with
    | nil => cases hx
    | cons y l ih =>
      cases hl with
      | cons h1 h2 =>
        rcases List.mem_cons.1 hx with rfl | hx
        · exact h1
        · exact ih h2 hx
  · rw [h1]
    unfold msgidsText
    generalize guardSymbol _ = s
    generalize List.map (lineOf p) _ = ls
    generalize (if ls = [] then _ else _) = z
    generalize "#ifndef ".toList = a
    generalize "\n#define ".toList = a'
    generalize "#endif // ".toList = a''
    generalize "\n".toList = a3
    simp only [List.append_assoc]

/-- Two versions of the message id header of a module only differ in the values of macros. -/
theorem C95_macros (K : String → Prop) (fuel : Nat) (p : Printer) (raw raw' : List Module) (cfg : List String)
    (out : Text) (b b' : Bundle) (fs : Files) (hs : All2 (AlteredModule (NewValues K)) raw raw') (hi : Input raw cfg b)
    (hi' : Input raw' cfg b') (hr : (runCfs fuel p raw cfg out).result = .ok ())
    (hr' : (runCfs fuel p raw' cfg out).result = .ok ()) (m : Module) (hm : m ∈ b.modules) :
    ∃ (pre post : Text) (rows : List (Change (String × Fixed) Text)),
      HasText ((runCfs fuel p raw cfg out).apply fs) (inDir out (ident m.name ++ "_msgids.h".toList))
        (pre ++ (rows.map (·.oldOut)).flatten ++ post) ∧
      HasText ((runCfs fuel p raw' cfg out).apply fs) (inDir out (ident m.name ++ "_msgids.h".toList))
        (pre ++ (rows.map (·.newOut)).flatten ++ post) ∧
      OnlyChanges (NewFixed K) (DefineLine p) rows ∧
      (∃ m' ∈ b'.modules, m'.name = m.name ∧ (rows.map (·.old)).Perm (m.defs.flatMap fixedOfDef) ∧
        (rows.map (·.new)).Perm (m'.defs.flatMap fixedOfDef)) := by
  have hb := newValues_built hs hi.accepted hi'.accepted
  obtain ⟨bm, hbm, rfl⟩ := List.mem_map.1 hm
  obtain ⟨bm', hbm', hR⟩ := all2_mem_left hb.mods hbm
  have hm' : bm'.mod ∈ b'.modules := List.mem_map.2 ⟨bm', hbm', rfl⟩
  obtain ⟨s, h1, h2, h3, h4⟩ := msgids_exact hi hr hbm fs
  obtain ⟨s', h1', h2', h3', h4'⟩ := msgids_exact hi' hr' hbm' fs
  have hss := newValues_sorted hR.mod (module_defs_nodup (accepted_nodup (buildFromTexts_of_config hi.accepted)) hm) h1 h1'
  obtain ⟨rows, r1, r2, r3, r4, r5⟩ := rows_of (lineOf p) (flatMap_alike (fun _ _ h => fixedOfDef_newValues h) hss)
  rw [hR.mod.name, ← r4] at h4'
  rw [← r3] at h4
  have he : (rows.map (·.newOut) = []) ↔ (rows.map (·.oldOut) = []) := by simp
  unfold msgidsText at h4 h4'
  simp only [he] at h4'
  have key : ∀ {F : Files} {path x y z : Text}, F path = some (textContent (x ++ (y ++ z))) → HasText F path (x ++ y ++ z) := by
    intro F path x y z h
    rw [List.append_assoc]
    exact h
  refine ⟨_, _, rows, key h4, key h4', fun r hrow => ?_, bm'.mod, hm', hR.mod.name, ?_, ?_⟩
  · obtain ⟨q1, q2, q3, q4, q5⟩ := r5 r hrow
    rw [q4, q5]
    exact ⟨q3, h3 _ q1, h3' _ q2, fun h => by rw [h]⟩
  · rw [r1]; exact h2.flatMap_right _
  · rw [r2]; exact h2'.flatMap_right _

/-- Two versions of the binary file of a sequence have the same blocks but for the values that differ. -/
theorem C95_binary (K : String → Prop) (fuel : Nat) (e : Option Endian) (raw raw' : List Module) (cfg : List String)
    (out : Text) (b b' : Bundle) (fs : Files) (hs : All2 (AlteredModule (NewValues K)) raw raw') (hi : Input raw cfg b)
    (hi' : Input raw' cfg b') (hr : (runBinary fuel e raw cfg out).result = .ok ())
    (hr' : (runBinary fuel e raw' cfg out).result = .ok ()) (d : Def) (hd : d ∈ b.defs) (hf : fixedMembers d ≠ []) :
    ∃ (k : Member) (c c' : Comps) (rows : List (Change (String × Leaf) (List UInt8))), (fixedMembers d).getLast? = some (k, c) ∧
      NewValues K c c' ∧ rows.map (·.old) = valuesOf c ∧ rows.map (·.new) = valuesOf c' ∧
      HasBytes ((runBinary fuel e raw cfg out).apply fs) (binPath out d) (rows.map (·.oldOut)).flatten ∧
      HasBytes ((runBinary fuel e raw' cfg out).apply fs) (binPath out d) (rows.map (·.newOut)).flatten ∧
      ∀ r ∈ rows, r.new.1 = r.old.1 ∧ (¬ K r.old.1 → r.new = r.old) ∧ r.newOut.length = r.oldOut.length ∧
        (r.old = r.new → r.oldOut = r.newOut) := by
  have hb := newValues_built hs hi.accepted hi'.accepted
  obtain ⟨x, bl, h1, ⟨bm, hbm, hdm, h2⟩, h3⟩ := bin_clause hi.grammar hi.accepted hr hd hf fs
  obtain ⟨bm1, hbm1, hR⟩ := all2_mem_left hb.mods hbm
  obtain ⟨d', hdm', hdd⟩ := all2_mem_left hR.mod.defs hdm
  have hd' : d' ∈ b'.defs := List.mem_flatMap.2 ⟨_, List.mem_map.2 ⟨bm1, hbm1, rfl⟩, hdm'⟩
  have hfm := fixedMembers_newValues hdd
  obtain ⟨x', hx', hxx⟩ : ∃ x', (fixedMembers d').getLast? = some x' ∧ AlteredMember (NewValues K) x.1 x'.1 ∧ NewValues K x.2 x'.2 := by
    rcases all2_getLast hfm with ⟨q1, _⟩ | ⟨y, y', q1, q2, q3⟩
    · rw [h1] at q1; cases q1
    · rw [h1] at q1; cases q1; exact ⟨y', q2, q3⟩
  obtain ⟨x1, bl', h1', ⟨bm', hbm', hdm1, h2'⟩, h3'⟩ := bin_clause hi'.grammar hi'.accepted hr' hd'
    (fun h => by rw [h] at hx'; cases hx') fs
  rw [hx'] at h1'
  obtain rfl := Option.some.inj h1'
  have hmod : bm'.mod = bm1.mod := flatMap_owner (accepted_nodup (buildFromTexts_of_config hi'.accepted))
    (List.mem_map.2 ⟨bm', hbm', rfl⟩) (List.mem_map.2 ⟨bm1, hbm1, rfl⟩) hdm1 hdm'
  obtain ⟨defs, e1, e2⟩ := h2
  obtain ⟨defs', e1', e2'⟩ := h2'
  rw [hmod, binDefs_reordered hb.defs fuel hR.mod.defs, e1] at e1'
  obtain rfl := Except.ok.inj e1'
  rw [hxx.1.type] at e2'
  obtain ⟨rows, r1, r2, r3, r4, r5⟩ := compBytes_rows defs e hxx.2 _ _ _ e2 e2'
  have hp : binPath out d' = binPath out d := by unfold binPath; rw [hdd.name]
  rw [hp] at h3'
  exact ⟨x.1, x.2, x'.2, rows, h1, hxx.2, r1, r2, by rw [r3]; exact h3, by rw [r4]; exact h3', r5⟩

/-- Two versions of the COSMOS file only differ in values of items for members in `K`. -/
theorem C95_cosmos (K : String → Prop) (fuel : Nat) (p : Printer) (raw raw' : List Module) (b b' : Bundle) (module : String)
    (messages : List String) (target out : Text) (hs : All2 (AlteredModule (NewValues K)) raw raw') (hi : Sources raw b)
    (hi' : Sources raw' b') (hp : Faithful p) (ho : OneLine p) (hobj : ∀ c c', NewValues K c c' → p.object c' = p.object c)
    (ht : IsTarget target)
    (hr : (runCosmos fuel p raw module messages target out).result = .ok ())
    (hr' : (runCosmos fuel p raw' module messages target out).result = .ok ()) :
    ∃ t t', (∀ fs, Adds fs ((runCosmos fuel p raw module messages target out).apply fs) (cosmosPath out target) t) ∧
      (∀ fs, Adds fs ((runCosmos fuel p raw' module messages target out).apply fs) (cosmosPath out target) t') ∧
      All2 (NewPacket K) (readCosmos t) (readCosmos t') := by
  have hb : AlteredBundle (NewValues K) b b' := by
    have := buildFromTexts_reordered hs
    rw [hi.accepted, hi'.accepted] at this
    cases this with
    | ok h => exact h
  obtain ⟨t, xs, h1, rfl, h3, hdata, h5⟩ := cosmos_run_data hi hp ho ht hr
  obtain ⟨t', xs', h1', rfl, h3', hdata', h5'⟩ := cosmos_run_data hi' hp ho ht hr'
  refine ⟨_, _, h1, h1', ?_⟩
  rw [readCosmos_text ht.1 h3, readCosmos_text ht.1 h3']
  have := cosmosData_newValues hb (accepted_nodup hi.accepted) hobj xs xs' h5 h5'
  clear h1 h1' h3 h3' h5 h5' hdata hdata'
  induction this with
  | nil => exact .nil
  | @cons x x' l l' hx _ ih =>
    refine .cons ⟨rfl, hx.1, ?_⟩ ih
    show All2 _ (x.entries.map _) (x'.entries.map _)
    have he := hx.2
    generalize x.entries = es at he
    generalize x'.entries = es' at he
    induction he with
    | nil => exact .nil
    | @cons a a' es es' ha _ ih =>
      refine .cons ?_ ih
      rcases ha with rfl | ⟨k, hk, hname, harr, ha⟩
      · exact .inl rfl
      · refine .inr ⟨k, hk, hname, ?_⟩
        have harr' : a'.isArray = false := by rw [ha]; exact harr
        rw [unvalued_readItem p a', unvalued_readItem p a]
        have : blankEntry a' = blankEntry a := by
          unfold blankEntry
          rw [if_neg (by rw [harr']; decide), if_neg (by rw [harr]; decide)]
          rw [ha]
        rw [this]

/-! ### Examples -/

/-- The module of C91 with another number of the application. -/
def exFixedNew : List Module :=
  exFixing (.node "id" (.leaf "version" (.int 1) (.leaf "apid" (.int 515) .nil)) (.leaf "count" (.int 9) .nil))

theorem exFixed_new : All2 (AlteredModule (NewValues (· = "apid"))) exFixed exFixedNew := by
  refine .cons ⟨rfl, rfl, rfl, rfl, .cons (.same _) (.cons (.same _) (.cons (.seq (.cons ⟨rfl, rfl, rfl, .some ?_⟩
    (.cons (.refl _) .nil))) .nil))⟩ .nil
  exact .node (.leaf (fun _ => rfl) (.leaf (fun h => absurd rfl h) .nil)) (.leaf (fun _ => rfl) .nil)

/-- Both versions are accepted and all commands succeed. -/
example : isOk (runC 20 exPrinter exFixed ["m"] exOut).result ∧ isOk (runC 20 exPrinter exFixedNew ["m"] exOut).result ∧
    isOk (runCfs 20 exPrinter exFixed ["m"] exOut).result ∧ isOk (runCfs 20 exPrinter exFixedNew ["m"] exOut).result ∧
    isOk (runBinary 20 (some .big) exFixed ["m"] exOut).result ∧ isOk (runBinary 20 (some .big) exFixedNew ["m"] exOut).result := by
  decide +kernel

/-- In the binary file only the bytes of the number differ. -/
example : fileBytes ((runBinary 20 (some .big) exFixed ["m"] exOut).apply fun _ => none) "gen/pkt.bin".toList = [1, 1, 2, 9] ∧
    fileBytes ((runBinary 20 (some .big) exFixedNew ["m"] exOut).apply fun _ => none) "gen/pkt.bin".toList = [1, 2, 3, 9] := by
  decide +kernel

/-- Both versions have the same header. -/
example : ∃ t, HasText (((Command.c exPrinter).run 20 exFixed ["m"] exOut).apply fun _ => none) "gen/m.h".toList t ∧
    HasText (((Command.c exPrinter).run 20 exFixedNew ["m"] exOut).apply fun _ => none) "gen/m.h".toList t := by
  obtain ⟨m, hm⟩ : ∃ m, exFixed = [m] := ⟨_, rfl⟩
  exact C95_headers (· = "apid") (.c exPrinter) 20 exFixed exFixedNew ["m"] exOut _ _ (fun _ => none) exFixed_new
    (input_of (by decide +kernel) (by decide +kernel) (by decide +kernel))
    (input_of (by decide +kernel) (by decide +kernel) (by decide +kernel)) (by decide +kernel) (by decide +kernel)
    _ (List.Mem.head _)

/-- A clause with another application process identifier. -/
def newComps : Comps → Comps
  | .nil => .nil
  | .leaf k v r => .leaf k (if k = "application-process-identifier" then .int 301 else v) (newComps r)
  | .node k c r => .node k (newComps c) (newComps r)

/-- A definition with another application process identifier. -/
def newApid : Def → Def
  | .seq n c ms => .seq n c (ms.map fun k => { k with comps := k.comps.map newComps })
  | d => d

/-- The module of the COSMOS examples with another application process identifier. -/
def exTlmNew : List Module := [{ exTlmModule with defs := exTlmModule.defs.map newApid }]

theorem newComps_new : ∀ c, NewValues (· = "application-process-identifier") c (newComps c)
  | .nil => .nil
  | .leaf _ _ r => .leaf (fun h => if_neg h) (newComps_new r)
  | .node _ c r => .node (newComps_new c) (newComps_new r)

theorem newApid_new : ∀ d, AlteredDef (NewValues (· = "application-process-identifier")) d (newApid d)
  | .seq _ _ ms => .seq (by
    induction ms with
    | nil => exact .nil
    | cons m ms ih =>
      refine .cons ⟨rfl, rfl, rfl, ?_⟩ ih
      show AlteredClause _ m.comps (m.comps.map newComps)
      cases m.comps with
      | none => exact .none
      | some c => exact .some (newComps_new c))
  | .choice .. => .same _
  | .enum .. => .same _
  | .simple .. => .same _

theorem exTlm_new : All2 (AlteredModule (NewValues (· = "application-process-identifier"))) exTlm exTlmNew := by
  refine .cons ⟨rfl, rfl, rfl, rfl, ?_⟩ .nil
  show All2 _ exTlmModule.defs (exTlmModule.defs.map newApid)
  generalize exTlmModule.defs = ds
  induction ds with
  | nil => exact .nil
  | cons d ds ih => exact .cons (newApid_new d) ih

example : ∃ t t',
    (∀ fs, Adds fs ((runCosmos 20 exPrinter exTlm "tlm" ["Packet", "Switch"] "SAT".toList exOut).apply fs)
      (cosmosPath exOut "SAT".toList) t) ∧
    (∀ fs, Adds fs ((runCosmos 20 exPrinter exTlmNew "tlm" ["Packet", "Switch"] "SAT".toList exOut).apply fs)
      (cosmosPath exOut "SAT".toList) t') ∧
    All2 (NewPacket (· = "application-process-identifier")) (readCosmos t) (readCosmos t') ∧ readCosmos t ≠ readCosmos t' := by
  obtain ⟨t, t', h1, h2, h3⟩ := C95_cosmos (· = "application-process-identifier") 20 exPrinter exTlm exTlmNew _ _ "tlm"
    ["Packet", "Switch"] "SAT".toList exOut exTlm_new exTlm_sources
    (sources_of (by decide +kernel) (by decide +kernel) (by decide +kernel)) exPrinter_faithful exPrinter_oneLine
    (fun _ _ _ => rfl) exTlm_target (by decide +kernel) (by decide +kernel)
  refine ⟨t, t', h1, h2, h3, ?_⟩
  rw [← newText_eq h1, ← newText_eq h2]
  decide +kernel

end Apg
