import Verif.Spec.CommentOnly
import Verif.Lemmas.BareRun
import Verif.Lemmas.BareCosmos
import Verif.Props.CSource
import Verif.Props.CosmosNotes

/-!
# Property C70: comments change nothing but comments
-/

namespace Apg
open Spec

theorem bare_names {raw raw' : List Module} (h : SameButComments raw raw') : raw.map (·.name) = raw'.map (·.name) := by
  have := congrArg (List.map Module.name) h
  rwa [map_bare_name, map_bare_name] at this

theorem blind_bare (cmd : Command) (fuel : Nat) (out : Text) (b : Bundle) (m : Module) :
    BareBackend (cmd.backend fuel out b) (cmd.backend fuel out (bareBundle b)) m := by
  cases cmd with
  | cfs p => exact ⟨rfl, fun _ _ => rfl⟩
  | c p => exact ⟨rfl, fun _ _ => rfl⟩
  | binary e =>
    refine ⟨rfl, fun cn k => ?_⟩
    simp only [Command.backend, binBackend, binHandler]
    have h1 : (bareMember k).comps = k.comps := rfl
    have h2 : binDefs (bareBundle b).defs fuel (bare m).defs = binDefs b.defs fuel m.defs := by
      rw [bareBundle_defs]
      exact binDefs_bare b.defs fuel m.defs
    rw [h1, h2]
    rfl

theorem print_bare (cmd : Command) (fuel : Nat) (out : Text) (b : Bundle) {m : Module} (hm : isNameLower m.name = true)
    {P : Text → Prop} (hP : ∀ q ∈ cmd.commented out m.name, P q) {cd cd' : CData} (h : coreOf cd' = coreOf cd) :
    All2 (OpAlike P) ((cmd.backend fuel out b).print m cd)
      ((cmd.backend fuel out (bareBundle b)).print (bare m) cd') := by
  have hname : (bare m).name = m.name := rfl
  cases cmd with
  | cfs p =>
    have hp : joinPath out (msgFilename m.name ++ ".h".toList) = inDir out (ident m.name ++ "_msg.h".toList) := by
      have h1 : cName m.name ++ "_msg".toList ++ ".h".toList = ident m.name ++ "_msg.h".toList := by
        rw [cName_eq (Or.inl hm), List.append_assoc]; rfl
      rw [msgFilename, h1, joinPath_eq out (ident_head (Or.inl hm) _)]
    have hd : cd'.defines = cd.defines := show (coreOf cd').defines = (coreOf cd).defines by rw [h]
    refine .cons (.inr ⟨_, _, _, hP _ (List.Mem.head _), congrArg (FileOp.write · _) hp, congrArg (FileOp.write · _) hp⟩)
      (.cons (.inl ?_) .nil)
    simp only [headerText, hd, if_true, true_and]
    rfl
  | c p =>
    have h1 : joinPath out (cFilename m.name ++ ".h".toList) = inDir out (ident m.name ++ ".h".toList) := by
      rw [cFilename, cName_eq (Or.inl hm), joinPath_eq out (ident_head (Or.inl hm) _)]
    have h2 : joinPath out (cFilename m.name ++ ".c".toList) = inDir out (ident m.name ++ ".c".toList) := by
      rw [cFilename, cName_eq (Or.inl hm), joinPath_eq out (ident_head (Or.inl hm) _)]
    exact .cons (.inr ⟨_, _, _, hP _ (List.Mem.head _), congrArg (FileOp.write · _) h1, congrArg (FileOp.write · _) h1⟩)
      (.cons (.inr ⟨_, _, _, hP _ (List.Mem.tail _ (List.Mem.head _)), congrArg (FileOp.write · _) h2,
        congrArg (FileOp.write · _) h2⟩) .nil)
  | binary e =>
    have h1 : joinPath out (cFilename m.name ++ ".h".toList) = inDir out (ident m.name ++ ".h".toList) := by
      rw [cFilename, cName_eq (Or.inl hm), joinPath_eq out (ident_head (Or.inl hm) _)]
    have hb : cd'.bins = cd.bins := show (coreOf cd').bins = (coreOf cd).bins by rw [h]
    refine .cons (.inr ⟨_, _, _, hP _ (List.Mem.head _), congrArg (FileOp.write · _) h1, congrArg (FileOp.write · _) h1⟩) ?_
    have e0 : (HeaderType.storedBinary = HeaderType.stored) = False := by simp
    simp only [e0, if_false, if_true, hb]
    exact OpAlike.refl _

theorem run_backend (cmd : Command) (fuel : Nat) (raw : List Module) (cfg : List String) (out : Text) :
    cmd.run fuel raw cfg out = runCommand fuel (cmd.backend fuel out) raw cfg out := by
  cases cmd <;> rfl

/-- A run without comments. -/
theorem run_bare (cmd : Command) {raw : List Module} (hg : ∀ m ∈ raw, GrammarModule m) (hc : ∀ m ∈ raw, CleanComments m)
    (fuel : Nat) (cfg : List String) (out : Text) :
    (cmd.run fuel raw cfg out).result = (cmd.run fuel (raw.map bare) cfg out).result ∧
    All2 (OpAlike fun q => ∃ m ∈ raw, q ∈ cmd.commented out m.name) (cmd.run fuel raw cfg out).ops
      (cmd.run fuel (raw.map bare) cfg out).ops := by
  rw [run_backend, run_backend]
  refine runCommand_bare hc fuel cfg out (fun b _ m _ => blind_bare cmd fuel out b m) fun b hb m hm cd cd' h =>
    print_bare cmd fuel out b (accepted_names hg (buildFromTexts_of_config hb) m hm) (fun q hq => ?_) h
  obtain ⟨ms, h1, _, _, h4, _⟩ := buildFromConfig_ok.1 hb
  rw [build_modules h4] at hm
  have : m.name ∈ ms.map (·.name) := List.mem_map.2 ⟨m, hm, rfl⟩
  rw [processModules_names h1] at this
  obtain ⟨m0, hm0, he⟩ := List.mem_map.1 this
  exact ⟨m0, hm0, by rw [he]; exact hq⟩

/-- **C70, results.** Two sources that differ only in comments, none of which is refused, have runs that end in the
same way, with the same error if any. -/
theorem C70_result (cmd : Command) (fuel : Nat) (raw raw' : List Module) (cfg : List String) (out : Text)
    (hg : ∀ m ∈ raw, GrammarModule m) (hg' : ∀ m ∈ raw', GrammarModule m) (hs : SameButComments raw raw')
    (hc : ∀ m ∈ raw, CleanComments m) (hc' : ∀ m ∈ raw', CleanComments m) :
    (cmd.run fuel raw cfg out).result = (cmd.run fuel raw' cfg out).result := by
  rw [(run_bare cmd hg hc fuel cfg out).1, (run_bare cmd hg' hc' fuel cfg out).1, hs]

/-- **C70, results of generate-cosmos.** -/
theorem C70_cosmos_result (fuel : Nat) (p : Printer) (raw raw' : List Module) (module : String) (messages : List String)
    (target out : Text) (hs : SameButComments raw raw') (hc : ∀ m ∈ raw, CleanComments m)
    (hc' : ∀ m ∈ raw', CleanComments m) :
    (runCosmos fuel p raw module messages target out).result = (runCosmos fuel p raw' module messages target out).result := by
  rw [← runCosmos_bare hc, ← runCosmos_bare hc', hs]

/-- **C70, files.** After the runs on such sources every file that has no comments of the source in it is the same: all
but the headers of the modules and the C files of generate-c. In particular binary files and files of message
identifiers are the same. -/
theorem C70_files (cmd : Command) (fuel : Nat) (raw raw' : List Module) (cfg : List String) (out : Text)
    (hg : ∀ m ∈ raw, GrammarModule m) (hg' : ∀ m ∈ raw', GrammarModule m) (hs : SameButComments raw raw')
    (hc : ∀ m ∈ raw, CleanComments m) (hc' : ∀ m ∈ raw', CleanComments m) (fs : Files) (path : Text)
    (hp : ∀ m ∈ raw, path ∉ cmd.commented out m.name) :
    (cmd.run fuel raw cfg out).apply fs path = (cmd.run fuel raw' cfg out).apply fs path := by
  have h1 := (run_bare cmd hg hc fuel cfg out).2
  have h2 := (run_bare cmd hg' hc' fuel cfg out).2
  rw [hs] at h1
  refine opAlike_apply (OpAlike.trans_all h1 (h2.imp fun _ _ h => ?_)) (q := path) ?_ rfl
  · rcases h with h | ⟨q, c, c', ⟨m, hm, hq⟩, r⟩
    · exact .inl h
    · have : m.name ∈ raw.map (·.name) := by rw [bare_names hs]; exact List.mem_map.2 ⟨m, hm, rfl⟩
      obtain ⟨m0, hm0, he⟩ := List.mem_map.1 this
      exact .inr ⟨q, c, c', ⟨m0, hm0, by rw [he]; exact hq⟩, r⟩
  · rintro ⟨m, hm, hq⟩
    exact hp m hm hq

/-! ### Headers -/

theorem fieldOf_unique {T T' : TypeMap} (hT : ∀ t ct sfx ct' sfx', T t ct sfx → T' t ct' sfx' → ct = ct' ∧ sfx = sfx')
    {k k' : Member} (hk : bareMember k = bareMember k') {f f' : CField} (h : FieldOf T k f) (h' : FieldOf T' k' f') :
    f = f' := by
  obtain ⟨h1, h2, ct, sfx, h3, h4, h5⟩ := h
  obtain ⟨k1, k2, ct', sfx', k3, k4, k5⟩ := h'
  have hkey : k.key = k'.key := show (bareMember k).key = (bareMember k').key by rw [hk]
  have hty : k.type = k'.type := show (bareMember k).type = (bareMember k').type by rw [hk]
  rw [← hty] at k2 k3
  rw [← hkey] at k1
  obtain ⟨rfl, rfl⟩ := hT _ _ _ _ _ h3 k3
  have hw : f.width = f'.width := by
    rcases h5 with ⟨e, h5⟩ | ⟨d, i, e, h5, h6⟩
    · rcases k5 with ⟨_, k5⟩ | ⟨d', i', e', _⟩
      · rw [h5, k5]
      · rw [e] at e'; cases e'
    · rcases k5 with ⟨e', _⟩ | ⟨d', i', e', k5, k6⟩
      · rw [e] at e'; cases e'
      · rw [e] at e'
        have hd : d = d' := List.append_cancel_left e'
        rw [hd, k5] at h5
        cases h5
        rw [h6, k6]
  cases f
  cases f'
  simp_all

theorem declOf_unique {T T' : TypeMap} (hT : ∀ t ct sfx ct' sfx', T t ct sfx → T' t ct' sfx' → ct = ct' ∧ sfx = sfx')
    {d d' : Def} (hd : bareDef d = bareDef d') {x x' : CDecl} (h : DeclOf T d x) (h' : DeclOf T' d' x') : x = x' := by
  cases d <;> cases d' <;> simp only [bareDef] at hd <;> (try (cases h; done)) <;> try (cases h'; done)
  all_goals first | (cases hd; done) | skip
  · rename_i n c ms n' c' ms'
    rw [Def.seq.injEq] at hd
    obtain ⟨rfl, _, hms⟩ := hd
    obtain ⟨fs, rfl, hf⟩ := h
    obtain ⟨fs', rfl, hf'⟩ := h'
    congr 1
    clear c c'
    induction hf generalizing ms' fs' with
    | nil =>
      cases ms' with
      | nil => cases hf'; rfl
      | cons k ms' => cases hms
    | cons k1 _ ih =>
      cases ms' with
      | nil => cases hms
      | cons k ms' =>
        rw [List.map_cons, List.map_cons, List.cons.injEq] at hms
        cases hf' with
        | cons k2 k3 => rw [fieldOf_unique hT hms.1 k1 k2, ih ms' hms.2 _ k3]
  · rename_i n c ms n' c' ms'
    rw [Def.choice.injEq] at hd
    obtain ⟨rfl, _, hms⟩ := hd
    cases h
    cases h'
    have : (ms.map bareMember).map (fun k : Member => (⟨[unionType k.type], ident k.key, none, []⟩ : CField)) =
      (ms'.map bareMember).map (fun k => ⟨[unionType k.type], ident k.key, none, []⟩) := by rw [hms]
    rw [List.map_map, List.map_map] at this
    congr 1
  · rename_i n c ms n' c' ms'
    rw [Def.enum.injEq] at hd
    obtain ⟨rfl, _, hms⟩ := hd
    cases h
    cases h'
    have : (ms.map bareItem).map (fun i : EnumItem => (ident i.key, i.pos)) =
      (ms'.map bareItem).map (fun i : EnumItem => (ident i.key, i.pos)) := by rw [hms]
    rw [List.map_map, List.map_map] at this
    congr 1

theorem decls_unique {T T' : TypeMap} (hT : ∀ t ct sfx ct' sfx', T t ct sfx → T' t ct' sfx' → ct = ct' ∧ sfx = sfx')
    {l l' : List Def} (hl : l.map bareDef = l'.map bareDef) {xs xs' : List CDecl} (h : All2 (DeclOf T) l xs)
    (h' : All2 (DeclOf T') l' xs') : xs = xs' := by
  induction h generalizing l' xs' with
  | nil =>
    cases l' with
    | nil => cases h'; rfl
    | cons k ms' => cases hl
  | cons k1 _ ih =>
    cases l' with
    | nil => cases hl
    | cons k l' =>
      rw [List.map_cons, List.map_cons, List.cons.injEq] at hl
      cases h' with
      | cons k2 k3 => rw [declOf_unique hT hl.1 k1 k2, ih hl.2 k3]

theorem clausesOf_bare (d : Def) : clausesOf (bareDef d) = clausesOf d := by
  cases d with
  | seq n c ms =>
    simp only [bareDef, clausesOf, List.filterMap_map]
    rfl
  | _ => rfl

theorem objectsOf_bare (cmd : Command) (l : List Def) : objectsOf cmd (l.map bareDef) = objectsOf cmd l := by
  cases cmd with
  | c p =>
    simp only [objectsOf, List.flatMap_map]
    congr 2
    funext d
    exact clausesOf_bare d
  | _ => rfl

theorem filter_bare (l : List Def) : (l.map bareDef).filter (fun d => !d.isSimple) =
    (l.filter fun d => !d.isSimple).map bareDef := by
  rw [List.filter_map]
  congr 2
  funext d
  simp only [Function.comp_apply, isSimple_bare]

theorem input_clean {raw : List Module} {cfg : List String} {b : Bundle} (h : Input raw cfg b) :
    ∀ m ∈ raw, CleanComments m := by
  obtain ⟨ms, h1, _⟩ := buildFromConfig_ok.1 h.accepted
  exact accepted_clean h1

/-- The bundles of sources that differ only in comments. -/
theorem bundles_bare {raw raw' : List Module} {cfg : List String} {b b' : Bundle} (hs : SameButComments raw raw')
    (h : Input raw cfg b) (h' : Input raw' cfg b') : bareBundle b = bareBundle b' := by
  have e1 := buildFromConfig_map (input_clean h) cfg
  have e2 := buildFromConfig_map (input_clean h') cfg
  rw [hs, e2, h.accepted, h'.accepted] at e1
  exact (Except.ok.inj e1).symm

theorem bare_bmod {b b' : Bundle} (h : bareBundle b = bareBundle b') {bm : BMod} (hm : bm ∈ b.mods) :
    ∃ bm' ∈ b'.mods, bareBMod bm' = bareBMod bm := by
  have : bareBMod bm ∈ (bareBundle b).mods := List.mem_map.2 ⟨bm, hm, rfl⟩
  rw [h] at this
  exact List.mem_map.1 this

theorem regular_bare {ds ds' : List Def} (h : ds.map bareDef = ds'.map bareDef) (hr : Regular ds) : Regular ds' := by
  have back : ∀ d' ∈ ds', ∃ d ∈ ds, bareDef d = bareDef d' := by
    intro d' hd
    have : bareDef d' ∈ ds.map bareDef := by rw [h]; exact List.mem_map.2 ⟨d', hd, rfl⟩
    exact List.mem_map.1 this
  have hname : ∀ {d d' : Def}, bareDef d = bareDef d' → d.name = d'.name := by
    intro d d' he
    rw [← bareDef_name d, he, bareDef_name]
  have hsimple : ∀ {d d' : Def}, bareDef d = bareDef d' → d.isSimple = d'.isSimple := by
    intro d d' he
    rw [← isSimple_bare d, he, isSimple_bare]
  have hmem : ∀ {d d' : Def}, bareDef d = bareDef d' → ∀ k' ∈ d'.members, ∃ k ∈ d.members, k.type = k'.type := by
    intro d d' he k' hk
    have : bareMember k' ∈ d.members.map bareMember := by
      have e : d.members.map bareMember = d'.members.map bareMember := by
        rw [← bareDef_members, he, bareDef_members]
      rw [e]
      exact List.mem_map.2 ⟨k', hk, rfl⟩
    obtain ⟨k, hk1, hk2⟩ := List.mem_map.1 this
    exact ⟨k, hk1, show (bareMember k).type = (bareMember k').type by rw [hk2]⟩
  have hsim : ∀ {n : String} {c : Option Comment} {t : AType} {d : Def}, bareDef d = bareDef (.simple n c t) →
      ∃ c', d = .simple n c' t := by
    intro n c t d he
    cases d <;> simp only [bareDef] at he <;> try (cases he; done)
    rw [Def.simple.injEq] at he
    obtain ⟨rfl, _, rfl⟩ := he
    exact ⟨_, rfl⟩
  refine ⟨?_, ?_, ?_, ?_⟩
  · intro d' hd ct hp
    obtain ⟨d, h1, h2⟩ := back d' hd
    rw [← hsimple h2]
    exact hr.posix d h1 ct (by rw [hname h2]; exact hp)
  · intro n c t hd
    obtain ⟨d, h1, h2⟩ := back _ hd
    obtain ⟨c', rfl⟩ := hsim h2
    exact hr.simple n c' t h1
  · intro d' hd k' hk b e ht hb
    obtain ⟨d, h1, h2⟩ := back d' hd
    obtain ⟨k, h3, h4⟩ := hmem h2 k' hk
    exact hr.range d h1 k h3 b e (h4.trans ht) hb
  · intro d' hd k' hk e len ht
    obtain ⟨d, h1, h2⟩ := back d' hd
    obtain ⟨k, h3, h4⟩ := hmem h2 k' hk
    obtain ⟨n, q1, q2, q3⟩ := hr.array d h1 k h3 e len (h4.trans ht)
    refine ⟨n, q1, q2, ?_⟩
    intro c t hs
    obtain ⟨d0, h5, h6⟩ := back _ hs
    obtain ⟨c', rfl⟩ := hsim h6
    exact q3 c' t h5

/-- The modules of a name in the bundles. -/
theorem bare_module {raw raw' : List Module} {cfg : List String} {b b' : Bundle} (hs : SameButComments raw raw')
    (h : Input raw cfg b) (h' : Input raw' cfg b') {m m' : Module} (hm : m ∈ b.modules) (hm' : m' ∈ b'.modules)
    (hn : m.name = m'.name) : ∃ bm ∈ b.mods, ∃ bm' ∈ b'.mods, bm.mod = m ∧ bm'.mod = m' ∧ bareBMod bm = bareBMod bm' := by
  obtain ⟨bm, hbm, rfl⟩ := List.mem_map.1 hm
  obtain ⟨bm', hbm', he⟩ := bare_bmod (bundles_bare hs h h') hbm
  refine ⟨bm, hbm, bm', hbm', rfl, ?_, he.symm⟩
  have hnn : bm'.mod.name = m'.name := by
    rw [← hn]
    exact show (bareBMod bm').mod.name = (bareBMod bm).mod.name by rw [he]
  exact mem_unique_of_nodup_map (config_names_nodup h'.accepted) (List.mem_map.2 ⟨bm', hbm', rfl⟩) hm' hnn

/-- Full statement of C70 for headers: what a C compiler reads in the header of a module does not depend on the
comments of the source. -/
def C70_full : Prop :=
  ∀ (cmd : Command) fuel raw raw' cfg out b b' fs, SameButComments raw raw' → Input raw cfg b → Input raw' cfg b' →
    (cmd.run fuel raw cfg out).result = .ok () → Regular b.defs → ∀ m ∈ b.modules,
      ∃ text text' pieces, HasText ((cmd.run fuel raw cfg out).apply fs) (cmd.path out m.name) text ∧
        HasText ((cmd.run fuel raw' cfg out).apply fs) (cmd.path out m.name) text' ∧
        readFile text = some pieces ∧ readFile text' = some pieces

/-- **C70, headers, partial.** What a C compiler reads in the header of a module, whatever the comments are, is the same.
Missing: comments that end the C comment they are copied to, or hide what comes after them. -/
theorem C70_headers_partial (cmd : Command) (fuel : Nat) (raw raw' : List Module) (cfg : List String) (out : Text)
    (b b' : Bundle) (fs : Files) (hs : SameButComments raw raw') (hin : Input raw cfg b) (hin' : Input raw' cfg b')
    (hr : (cmd.run fuel raw cfg out).result = .ok ()) (hreg : Regular b.defs) (m m' : Module) (hm : m ∈ b.modules)
    (hm' : m' ∈ b'.modules) (hn : m.name = m'.name) (ht : Tame m) (ht' : Tame m') :
    ∃ text text' pieces, HasText ((cmd.run fuel raw cfg out).apply fs) (cmd.path out m.name) text ∧
      HasText ((cmd.run fuel raw' cfg out).apply fs) (cmd.path out m.name) text' ∧
      readFile text = some pieces ∧ readFile text' = some pieces := by
  obtain ⟨bm, hbm, bm', hbm', rfl, rfl, he⟩ := bare_module hs hin hin' hm hm' hn
  have hbb := bundles_bare hs hin hin'
  have hdefs : b.defs.map bareDef = b'.defs.map bareDef := by
    rw [← bareBundle_defs, ← bareBundle_defs, hbb]
  have hr' : (cmd.run fuel raw' cfg out).result = .ok () := by
    rw [← hr]
    exact (C70_result cmd fuel raw raw' cfg out hin.grammar hin'.grammar hs (input_clean hin) (input_clean hin')).symm
  obtain ⟨h, sorted, tss, ⟨cd, c1, c2⟩, h1, h2, h3, h4, h5, h6, h7, h8, h9, h10⟩ := header_typed_data fs hin hr hreg hbm
  obtain ⟨h', sorted', tss', ⟨cd', c1', c2'⟩, h1', h2', h3', h4', h5', h6', h7', h8', h9', h10'⟩ :=
    header_typed_data fs hin' hr' (regular_bare hdefs hreg) hbm'
  -- the order
  have hso : sorted.map bareDef = sorted'.map bareDef := by
    have e1 := sortDefs_bare fuel bm.mod
    have e2 := sortDefs_bare fuel bm'.mod
    have e3 : bare bm.mod = bare bm'.mod := show (bareBMod bm).mod = (bareBMod bm').mod by rw [he]
    rw [h2] at e1
    rw [h2', ← e3, e1] at e2
    exact Option.some.inj e2
  -- stdint.h
  have hst : h.stdint = h'.stdint := by
    have e1 := moduleData_core (blind_bare cmd fuel out b bm.mod) fuel b.defs
    have e2 := moduleData_core (blind_bare cmd fuel out b' bm'.mod) fuel b'.defs
    rw [← hbb, ← hdefs, ← he, e1, c1, c1'] at e2
    have e3 : coreOf cd = coreOf cd' := Except.ok.inj e2
    rw [c2, c2']
    exact show (coreOf cd).stdint = (coreOf cd').stdint by rw [e3]
  have good : ∀ {raw : List Module} {b : Bundle} (hin : Input raw cfg b) (P : Bool → TypeMap) (s : Bool),
      GoodMap (fun t ct sfx => P s t ct sfx ∧ Typed b.defs s t ct sfx) := by
    intro raw b hin P s t ct sfx hg hx
    refine goodMap_typed ?_ s t ct sfx hg hx.2
    intro d hd
    have := (accepted_grammar hin.grammar (buildFromTexts_of_config hin.accepted) d hd).1
    cases d <;> exact this.1
  have imports : ∀ {raw : List Module} {b : Bundle} (hin : Input raw cfg b) {m : Module} (hm : m ∈ b.modules),
      ∀ i ∈ m.imports, isNameLower i.module = true := by
    intro raw b hin m hm i hi
    obtain ⟨m', q1, q2, _⟩ := C13_imports raw cfg b hin.accepted m hm i hi
    rw [← q2]
    exact accepted_names hin.grammar (buildFromTexts_of_config hin.accepted) m' q1
  obtain ⟨decls, q1, q2⟩ := header_says (T := fun s t ct sfx => ModelType b.defs (simpleList bm) s t ct sfx ∧ Typed b.defs s t ct sfx)
    (cmd := cmd) (good hin _ _)
    (fun d hd => (accepted_grammar hin.grammar (buildFromTexts_of_config hin.accepted) d (mem_defs_of_module hm hd)).1)
    (accepted_comments hin.comments (buildFromTexts_of_config hin.accepted) _ hm) (imports hin hm) ht h3 h4 h5 h6 h7 h8 h9 h10
  obtain ⟨decls', q1', q2'⟩ := header_says
    (T := fun s t ct sfx => ModelType b'.defs (simpleList bm') s t ct sfx ∧ Typed b'.defs s t ct sfx)
    (cmd := cmd) (good hin' _ _)
    (fun d hd => (accepted_grammar hin'.grammar (buildFromTexts_of_config hin'.accepted) d (mem_defs_of_module hm' hd)).1)
    (accepted_comments hin'.comments (buildFromTexts_of_config hin'.accepted) _ hm') (imports hin' hm') ht' h3' h4' h5' h6' h7' h8'
      h9' h10'
  refine ⟨h.text, h'.text, _, h1, hn ▸ h1', q2, ?_⟩
  rw [q2']
  have hobj : objectsOf cmd sorted' = objectsOf cmd sorted := by rw [← objectsOf_bare, ← hso, objectsOf_bare]
  have hincl : includeLines cmd bm'.mod = includeLines cmd bm.mod := by
    have : bm'.mod.imports = bm.mod.imports := show (bareBMod bm').mod.imports = (bareBMod bm).mod.imports by rw [he]
    unfold includeLines
    rw [this]
  have hdecl : decls' = decls := by
    refine decls_unique ?_ ?_ q1' q1
    · rintro t ct sfx ct' sfx' ⟨⟨f, f1, rfl, rfl, _⟩, _⟩ ⟨⟨g, g1, rfl, rfl, _⟩, _⟩
      have e1 := fieldType_bare b.defs (simpleList bm) t
      rw [← simpleList_bare, hdefs, he, simpleList_bare, fieldType_bare, f1, g1] at e1
      cases e1
      exact ⟨rfl, rfl⟩
    · rw [← filter_bare, ← filter_bare, hso]
  rw [hobj, hincl, hdecl, ← hst, hn]

/-- Comments are all that is tame about comments. -/
theorem tame_bare {m : Module} (h : Tame m) : Tame (bare m) := by
  refine ⟨(by intro c hc; cases hc), (by intro c hc; cases hc), ?_⟩
  intro d' hd
  obtain ⟨d, hd', rfl⟩ := List.mem_map.1 hd
  have := h.defs d hd'
  cases d with
  | seq n c ms =>
    obtain ⟨_, h2, h3⟩ := this
    refine ⟨(by intro c hc; cases hc), ?_, ?_⟩
    · intro k' hk
      obtain ⟨k, hk', rfl⟩ := List.mem_map.1 hk
      exact ⟨(by intro c hc; cases hc), (h2 k hk').2⟩
    · rintro ⟨k', hk, hc⟩
      obtain ⟨k, hk', rfl⟩ := List.mem_map.1 hk
      exact h3 ⟨k, hk', hc⟩
  | enum n c its =>
    refine ⟨(by intro c hc; cases hc), ?_⟩
    intro k' hk
    obtain ⟨k, hk', rfl⟩ := List.mem_map.1 hk
    exact ⟨(by intro c hc; cases hc), (this.2 k hk').2⟩
  | choice n c ms =>
    refine ⟨(by intro c hc; cases hc), ?_, this.2.2⟩
    intro k' hk
    obtain ⟨k, hk', rfl⟩ := List.mem_map.1 hk
    exact ⟨rfl, (this.2.1 k hk').2⟩
  | simple => trivial

/-! ### C files -/

/-- The header that the C file of a module includes. -/
def inclOf (sorted : List Def) (n : String) : Option Text :=
  match lastBlock sorted with
  | none => none
  | some d => if clausesOf d = [] then none else some (ident n ++ ".h".toList)

/-- **C70, C files.** The C files of generate-c have the same variables and includes, so they differ in the comment at
the top only; a C compiler reads the same from them if that comment does not end early. -/
theorem C70_sources (p : Printer) (fuel : Nat) (raw raw' : List Module) (cfg : List String) (out : Text)
    (b b' : Bundle) (fs : Files) (hs : SameButComments raw raw') (hin : Input raw cfg b) (hin' : Input raw' cfg b')
    (hr : (runC fuel p raw cfg out).result = .ok ()) (m m' : Module) (hm : m ∈ b.modules)
    (hm' : m' ∈ b'.modules) (hn : m.name = m'.name) :
    ∃ doc doc' incl vars,
      HasText ((runC fuel p raw cfg out).apply fs) (inDir out (ident m.name ++ ".c".toList)) (sourceFile doc incl vars) ∧
      HasText ((runC fuel p raw' cfg out).apply fs) (inDir out (ident m.name ++ ".c".toList))
        (sourceFile doc' incl vars) ∧
      (Faithful p → Tame m → Tame m' → ∃ r, readSource (sourceFile doc incl vars) = some r ∧
        readSource (sourceFile doc' incl vars) = some r) := by
  obtain ⟨bm, hbm, bm', hbm', rfl, rfl, he⟩ := bare_module hs hin hin' hm hm' hn
  have hr' : (runC fuel p raw' cfg out).result = .ok () := by
    rw [← hr]
    exact (C70_result (.c p) fuel raw raw' cfg out hin.grammar hin'.grammar hs (input_clean hin) (input_clean hin')).symm
  obtain ⟨sorted, h1, h2, h4⟩ := source_file hin.grammar hin.accepted hr hbm fs
  obtain ⟨sorted', h1', h2', h4'⟩ := source_file hin'.grammar hin'.accepted hr' hbm' fs
  have hso : sorted.map bareDef = sorted'.map bareDef := by
    have e1 := sortDefs_bare fuel bm.mod
    have e2 := sortDefs_bare fuel bm'.mod
    have e3 : bare bm.mod = bare bm'.mod := show (bareBMod bm).mod = (bareBMod bm').mod by rw [he]
    rw [h1] at e1
    rw [h1', ← e3, e1] at e2
    exact Option.some.inj e2
  have hcl : sorted'.flatMap clausesOf = sorted.flatMap clausesOf := by
    have hf : ∀ l : List Def, (l.map bareDef).flatMap clausesOf = l.flatMap clausesOf := by
      intro l
      rw [List.flatMap_map]
      congr 1
      funext d
      exact clausesOf_bare d
    rw [← hf, ← hso, hf]
  have h4 : HasText _ _ (sourceFile _ (inclOf sorted bm.mod.name) _) := h4
  have h4' : HasText _ _ (sourceFile _ (inclOf sorted' bm'.mod.name) _) := h4'
  have hincl : inclOf sorted' bm'.mod.name = inclOf sorted bm.mod.name := by
    unfold inclOf
    have hl : (lastBlock sorted).map bareDef = (lastBlock sorted').map bareDef := by
      unfold lastBlock
      rw [← List.getLast?_map, ← List.getLast?_map, ← filter_bare, ← filter_bare, hso]
    rw [hn]
    cases e1 : lastBlock sorted with
    | none => cases e2 : lastBlock sorted' with
      | none => rfl
      | some d' => rw [e1, e2] at hl; cases hl
    | some d => cases e2 : lastBlock sorted' with
      | none => rw [e1, e2] at hl; cases hl
      | some d' =>
        rw [e1, e2] at hl
        have hb : bareDef d = bareDef d' := Option.some.inj hl
        have : clausesOf d = clausesOf d' := by rw [← clausesOf_bare d, hb, clausesOf_bare]
        simp only [this]
  rw [hcl, hincl] at h4'
  rw [← hn] at h4'
  refine ⟨_, _, _, _, h4, h4', ?_⟩
  intro hp ht ht'
  have hdoc : ∀ {raw : List Module} {b : Bundle} (hin : Input raw cfg b) {m : Module} (hm : m ∈ b.modules) (ht : Tame m),
      '\n' ∉ headerDoc m ∧ ¬ "*/".toList <:+: headerDoc m := by
    intro raw b hin m hm ht
    unfold headerDoc
    split
    · exact ⟨by simp, by decide⟩
    · rename_i c hc
      exact ⟨comment_newline ((accepted_comments hin.comments (buildFromTexts_of_config hin.accepted) m hm).1 c (by simp [hc])),
        ht.doc c hc⟩
  have hbt := buildFromTexts_of_config hin.accepted
  have hcap := accepted_capital hin.grammar hbt
  have hgood : ∀ x ∈ sorted.flatMap clausesOf, GoodClause x := by
    intro x hx
    obtain ⟨d, hd, hx⟩ := List.mem_flatMap.1 hx
    obtain ⟨n, c, ms, rfl, k, hk, cs, hcs, rfl⟩ := mem_clausesOf.1 hx
    have hd := h2.mem_iff.1 hd
    have hdb := mem_defs_of_module hm hd
    have hg : GrammarDef _ := (accepted_grammar hin.grammar hbt _ hdb).1
    have hres : NotReserved (lowerFirst (ident n)) :=
      (ht.defs _ hd).2.2 ⟨k, hk, by rw [Option.mem_def.1 hcs]; simp⟩
    refine ⟨hcap _ hdb, name_capital (hcap _ hdb), name_lowered (hcap _ hdb) hres, ?_⟩
    exact ⟨(hg.2.2 k hk).1, (hg.2.2 k hk).2.2 cs hcs, trivial⟩
  have hlow := accepted_names hin.grammar hbt _ hm
  have hi : ∀ f ∈ inclOf sorted bm.mod.name, Plain1 f := by
    intro f hf
    unfold inclOf at hf
    split at hf
    · cases hf
    · split at hf
      · cases hf
      · cases hf
        exact (plain1_word (ident_wordChar (.inl hlow))).append (plain1_lit (by decide))
  exact ⟨_, readSource_file hp (hdoc hin hm ht).1 (hdoc hin hm ht).2 hi hgood,
    readSource_file hp (hdoc hin' hm' ht').1 (hdoc hin' hm' ht').2 hi hgood⟩

/-! ### COSMOS files -/

theorem unsaid_readItem (p : Printer) (e : Entry) : unsaid (readItem p e) = readItem p (bareEntry e) := by
  unfold unsaid readItem bareEntry itemFields
  rfl

/-- **C70, COSMOS files.** Comments change nothing in the packets of a COSMOS file but descriptions, units and the byte
order of items. -/
theorem C70_cosmos (fuel : Nat) (p : Printer) (raw raw' : List Module) (b b' : Bundle) (module : String)
    (messages : List String) (target out : Text) (hs : SameButComments raw raw') (hi : Sources raw b) (hi' : Sources raw' b')
    (hp : Faithful p) (ho : OneLine p) (ht : IsTarget target)
    (hr : (runCosmos fuel p raw module messages target out).result = .ok ()) :
    ∃ t t', (∀ fs, Adds fs ((runCosmos fuel p raw module messages target out).apply fs) (cosmosPath out target) t) ∧
      (∀ fs, Adds fs ((runCosmos fuel p raw' module messages target out).apply fs) (cosmosPath out target) t') ∧
      (readCosmos t).map unsaidPacket = (readCosmos t').map unsaidPacket := by
  have clean : ∀ {raw : List Module} {b : Bundle}, Sources raw b → ∀ m ∈ raw, CleanComments m := by
    intro raw b h
    obtain ⟨ms, h1, _⟩ := buildFromTexts_ok.1 h.accepted
    exact accepted_clean h1
  have hr' : (runCosmos fuel p raw' module messages target out).result = .ok () := by
    rw [← hr]
    exact (C70_cosmos_result fuel p raw raw' module messages target out hs (clean hi) (clean hi')).symm
  have hbb : bareBundle b = bareBundle b' := by
    have e1 := buildFromTexts_map (clean hi)
    have e2 := buildFromTexts_map (clean hi')
    rw [hs, e2, hi.accepted, hi'.accepted] at e1
    exact (Except.ok.inj e1).symm
  obtain ⟨t, xs, h1, rfl, h3, _, h5⟩ := cosmos_run_data hi hp ho ht hr
  obtain ⟨t', xs', h1', rfl, h3', _, h5'⟩ := cosmos_run_data hi' hp ho ht hr'
  refine ⟨_, _, h1, h1', ?_⟩
  rw [readCosmos_text ht.1 h3, readCosmos_text ht.1 h3']
  have e1 := cosmosData_bare (accepted_nodup hi.accepted) fuel p module messages
  have e2 := cosmosData_bare (accepted_nodup hi'.accepted) fuel p module messages
  rw [h5] at e1
  rw [h5', ← hbb, e1] at e2
  have e3 : xs.map barePacket = xs'.map barePacket := Except.ok.inj e2
  have key : ∀ l : List PacketData,
      (l.map fun x => (⟨target, x.name, x.entries.map (readItem p)⟩ : CosmosPacket)).map unsaidPacket =
      (l.map barePacket).map fun x => ⟨target, x.name, x.entries.map (readItem p)⟩ := by
    intro l
    rw [List.map_map, List.map_map]
    refine List.map_congr_left fun x _ => ?_
    simp only [Function.comp_apply, unsaidPacket, barePacket, CosmosPacket.mk.injEq, List.map_map, true_and]
    exact List.map_congr_left fun e _ => unsaid_readItem p e
  rw [key, key, e3]

/-! ### Counterexample -/

/-- A comment that ends in a backslash takes the next field away; the same source without comments keeps it. -/
theorem C70_full_false : ¬ C70_full := by
  intro h
  obtain ⟨t, t', ps, h1, h2, h3, h4⟩ := h (.cfs exPrinter) 20 [exBackslash] [bare exBackslash] ["m"] exOut _ _ (fun _ => none)
    (by unfold SameButComments; decide +kernel) (input_of (by decide +kernel) (by decide +kernel) (by decide +kernel))
    (input_of (by decide +kernel) (by decide +kernel) (by decide +kernel)) (by decide +kernel)
    (regular_of (by decide +kernel) (by decide +kernel) (by decide +kernel)) exBackslash (by decide +kernel)
  have e1 := fileText_eq h1
  have e2 := fileText_eq h2
  rw [← e1] at h3
  rw [← e2, ← h3] at h4
  exact absurd h4 (by decide +kernel)

/-! ### Examples -/

/-- Comments that look like C, and none. -/
example : ∃ text text' pieces,
    HasText (((Command.cfs exPrinter).run 20 [exTame] ["m"] exOut).apply fun _ => none) ((Command.cfs exPrinter).path exOut "m") text ∧
    HasText (((Command.cfs exPrinter).run 20 [bare exTame] ["m"] exOut).apply fun _ => none)
      ((Command.cfs exPrinter).path exOut "m") text' ∧
    readFile text = some pieces ∧ readFile text' = some pieces ∧ text ≠ text' := by
  obtain ⟨t, t', ps, h1, h2, h3, h4⟩ := C70_headers_partial (.cfs exPrinter) 20 [exTame] [bare exTame] ["m"] exOut _ _ (fun _ => none)
    (by unfold SameButComments; decide +kernel) (input_of (by decide +kernel) (by decide +kernel) (by decide +kernel))
    (input_of (by decide +kernel) (by decide +kernel) (by decide +kernel)) (by decide +kernel)
    (regular_of (by decide +kernel) (by decide +kernel) (by decide +kernel)) exTame (bare exTame) (by decide +kernel)
    (by decide +kernel) rfl exTame_tame (tame_bare exTame_tame)
  refine ⟨t, t', ps, h1, h2, h3, h4, ?_⟩
  rw [← fileText_eq h1, ← fileText_eq h2]
  decide +kernel

/-- Descriptions, units and a mark in one source, none in the other. -/
example : ∃ t t',
    (∀ fs, Adds fs ((runCosmos 20 exPrinter exNotes "notes" ["Report", "Beep"] "SAT".toList exOut).apply fs)
      (cosmosPath exOut "SAT".toList) t) ∧
    (∀ fs, Adds fs ((runCosmos 20 exPrinter (exNotes.map bare) "notes" ["Report", "Beep"] "SAT".toList exOut).apply fs)
      (cosmosPath exOut "SAT".toList) t') ∧
    (readCosmos t).map unsaidPacket = (readCosmos t').map unsaidPacket ∧ readCosmos t ≠ readCosmos t' := by
  obtain ⟨t, t', h1, h2, h3⟩ := C70_cosmos 20 exPrinter exNotes (exNotes.map bare) _ _ "notes" ["Report", "Beep"]
    "SAT".toList exOut (by unfold SameButComments; decide +kernel) exNotes_sources
    (sources_of (by decide +kernel) (by decide +kernel) (by decide +kernel)) exPrinter_faithful exPrinter_oneLine
    exTlm_target exNotes_runs
  refine ⟨t, t', h1, h2, h3, ?_⟩
  rw [← newText_eq h1, ← newText_eq h2]
  decide +kernel

/-- The sources of `exInit` with a comment on each module and each definition. -/
def exInitNoted : List Module :=
  exInit.map fun m => { m with
    comment := some ⟨"flight software", "", false⟩
    defs := m.defs.map fun d => match d with
      | .seq n _ ms => .seq n (some ⟨"see // below", "", false⟩) (ms.map fun k => { k with comment := some ⟨"*/ x", "m", true⟩ })
      | d => d }

theorem exInitNoted_same : SameButComments exInit exInitNoted := by
  unfold SameButComments
  decide +kernel

/-- The results are the same; the C file has another comment and the same variables. -/
example : ((Command.c exPrinter).run 20 exInit ["m"] exOut).result = .ok () ∧
    ((Command.c exPrinter).run 20 exInitNoted ["m"] exOut).result = .ok () ∧
    ∃ doc doc' incl vars, doc ≠ doc' ∧
      HasText ((runC 20 exPrinter exInit ["m"] exOut).apply fun _ => none) "gen/m.c".toList (sourceFile doc incl vars) ∧
      HasText ((runC 20 exPrinter exInitNoted ["m"] exOut).apply fun _ => none) "gen/m.c".toList
        (sourceFile doc' incl vars) := by
  have h : Input exInit ["m"] (okBundle (buildFromConfig exInit ["m"])) :=
    input_of (by decide +kernel) (by decide +kernel) (by decide +kernel)
  have h' : Input exInitNoted ["m"] (okBundle (buildFromConfig exInitNoted ["m"])) :=
    input_of (by decide +kernel) (by decide +kernel) (by decide +kernel)
  have hr : ((Command.c exPrinter).run 20 exInit ["m"] exOut).result = .ok () := by decide +kernel
  have hr' := C70_result (.c exPrinter) 20 exInit exInitNoted ["m"] exOut h.grammar h'.grammar exInitNoted_same (input_clean h)
    (input_clean h')
  refine ⟨hr, hr'.symm.trans hr, ?_⟩
  obtain ⟨doc, doc', incl, vars, h1, h2, _⟩ := C70_sources exPrinter 20 exInit exInitNoted ["m"] exOut _ _ (fun _ => none)
    exInitNoted_same h h' hr exInitModule { exInitModule with
      comment := some ⟨"flight software", "", false⟩
      defs := exInitModule.defs.map fun d => match d with
        | .seq n _ ms => .seq n (some ⟨"see // below", "", false⟩) (ms.map fun k => { k with comment := some ⟨"*/ x", "m", true⟩ })
        | d => d } (by decide +kernel) (by decide +kernel) rfl
  refine ⟨doc, doc', incl, vars, ?_, h1, h2⟩
  rintro rfl
  have := (fileText_eq h1).trans (fileText_eq h2).symm
  exact absurd this (by decide +kernel)

end Apg
