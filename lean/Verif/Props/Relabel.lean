import Verif.Props.Rename
import Verif.Props.CommentOnly
import Verif.Lemmas.RelabelRun
import Verif.Lemmas.RelabelCosmos

/-!
# Renaming members and items (C89)
-/

namespace Apg
open Spec

variable {κ ι : String → String}

theorem commentsOf_relabel (d : Def) : commentsOf (relabelDef κ ι d) = commentsOf d := by
  have key : ∀ ms : List Member, (ms.map (relabelMember κ)).filterMap (fun m => m.comment) =
      ms.filterMap (fun m => m.comment) := by
    intro ms
    rw [List.filterMap_map]
    rfl
  have key' : ∀ ms : List EnumItem, (ms.map (relabelEnumItem ι)).filterMap (fun m => m.comment) =
      ms.filterMap (fun m => m.comment) := by
    intro ms
    rw [List.filterMap_map]
    rfl
  cases d with
  | seq n c ms => simp only [relabelDef, commentsOf, key]
  | choice n c ms => simp only [relabelDef, commentsOf, key]
  | enum n c its => simp only [relabelDef, commentsOf, key']
  | simple n c t => rfl

theorem grammarComments_relabel {m : Module} (h : GrammarComments m) : GrammarComments (relabelModule κ ι m) := by
  refine ⟨h.1, fun d hd => ?_⟩
  obtain ⟨x, hx, rfl⟩ := List.mem_map.1 hd
  rw [commentsOf_relabel]
  exact h.2 x hx

theorem input_relabel (h : Relabelling κ ι) {raw : List Module} {cfg : List String} {b : Bundle} (hi : Input raw cfg b)
    (hg : ∀ m ∈ raw, GrammarModule (relabelModule κ ι m)) :
    Input (raw.map (relabelModule κ ι)) cfg (relabelBundle κ ι b) := by
  refine ⟨fun m hm => ?_, fun m hm => ?_, ?_⟩
  · obtain ⟨x, hx, rfl⟩ := List.mem_map.1 hm
    exact hg x hx
  · obtain ⟨x, hx, rfl⟩ := List.mem_map.1 hm
    exact grammarComments_relabel (hi.comments x hx)
  · rw [buildFromConfig_relabel h, hi.accepted]; rfl

theorem sources_relabel (h : Relabelling κ ι) {raw : List Module} {b : Bundle} (hi : Sources raw b)
    (hg : ∀ m ∈ raw, GrammarModule (relabelModule κ ι m)) :
    Sources (raw.map (relabelModule κ ι)) (relabelBundle κ ι b) := by
  refine ⟨fun m hm => ?_, fun m hm => ?_, ?_⟩
  · obtain ⟨x, hx, rfl⟩ := List.mem_map.1 hm
    exact hg x hx
  · obtain ⟨x, hx, rfl⟩ := List.mem_map.1 hm
    exact grammarComments_relabel (hi.comments x hx)
  · rw [buildFromTexts_relabel h, hi.accepted]; rfl

/-- **C89, end of a run.** When members and items have other names, generate-cfs, generate-c and generate-binary end in
the same way. -/
theorem C89_end (h : Relabelling κ ι) (cmd : Command) (fuel : Nat) (raw : List Module) (cfg : List String) (out : Text) :
    (cmd.run fuel (raw.map (relabelModule κ ι)) cfg out).result = (cmd.run fuel raw cfg out).result := by
  cases cmd with
  | cfs p => exact runCommand_relabel h fuel raw cfg out fun b mod => cfs_relabel h p out b mod
  | c p => exact runCommand_relabel h fuel raw cfg out fun b mod => c_relabel p out b _ mod
  | binary e => exact runCommand_relabel h fuel raw cfg out fun b mod => binary_relabel h fuel e out b mod

theorem clausesOf_relabel (d : Def) :
    clausesOf (relabelDef κ ι d) = (clausesOf d).map fun x => (x.1, κ x.2.1, relabelComps κ x.2.2) := by
  cases d with
  | seq n c ms =>
    simp only [relabelDef, clausesOf, List.filterMap_map, List.map_filterMap]
    congr 1
    funext k
    obtain ⟨a, t, c, w⟩ := k
    cases w <;> rfl
  | _ => rfl

/-- **C89, headers.** The header of a module has the same definitions in the same order, and every member has a field of
the same C type and width as before, under its new name. -/
theorem C89_headers (h : Relabelling κ ι) (cmd : Command) (fuel : Nat) (raw : List Module) (cfg : List String) (out : Text)
    (b : Bundle) (fs fs' : Files) (hi : Input raw cfg b) (hg' : ∀ m ∈ raw, GrammarModule (relabelModule κ ι m))
    (hr : (cmd.run fuel raw cfg out).result = .ok ()) (m : Module) (hm : m ∈ b.modules) :
    ∃ (F : AType → List Char × List Char) (sorted : List Def) (hd hd' : HeaderParts) (tss tss' : List (List (List Char))),
      HasText ((cmd.run fuel raw cfg out).apply fs) (cmd.path out m.name) hd.text ∧
      HasText ((cmd.run fuel (raw.map (relabelModule κ ι)) cfg out).apply fs') (cmd.path out m.name) hd'.text ∧
      sorted.Perm m.defs ∧ hd.blocks = tss.flatten ∧ hd'.blocks = tss'.flatten ∧
      All2 (Block (fun t ct sfx => (ct, sfx) = F t) fun t => (dims t).take 1) sorted tss ∧
      All2 (Block (fun t ct sfx => (ct, sfx) = F t) fun t => (dims t).take 1) (sorted.map (relabelDef κ ι)) tss' ∧
      hd'.doc = hd.doc ∧ hd'.stdbool = hd.stdbool ∧ hd'.decls = hd.decls := by
  obtain ⟨bm, hbm, rfl⟩ := List.mem_map.1 hm
  have hi' := input_relabel h hi hg'
  have hr' : (cmd.run fuel (raw.map (relabelModule κ ι)) cfg out).result = .ok () := by
    rw [C89_end h cmd fuel raw cfg out, hr]
  have hbm' : relabelBMod κ ι bm ∈ (relabelBundle κ ι b).mods := List.mem_map_of_mem hbm
  obtain ⟨hd, sorted, tss, _, k1, k2, k3, k4, k5, k6, _, k7, k8, _⟩ := header_faithful_data fs hi hr hbm
  obtain ⟨hd', sorted', tss', _, q1, q2, q3, q4, q5, q6, _, q7, q8, _⟩ := header_faithful_data fs' hi' hr' hbm'
  have hs : sorted' = sorted.map (relabelDef κ ι) := by
    have e : sortDefs fuel (relabelBMod κ ι bm).mod = (sortDefs fuel bm.mod).map (List.map (relabelDef κ ι)) :=
      sortDefs_relabel fuel bm.mod
    rw [e, k2] at q2
    exact (Option.some.inj q2).symm
  subst hs
  let F : AType → List Char × List Char := fun t =>
    match fieldType b.defs (simpleList bm) t with
    | .ok f => (f.ctype, f.bits)
    | .error _ => ([], [])
  have hF : ∀ {t f}, fieldType b.defs (simpleList bm) t = .ok f → F t = (f.ctype, f.bits) := by
    intro t f hf
    show (match fieldType b.defs (simpleList bm) t with
      | .ok f => (f.ctype, f.bits)
      | .error _ => ([], [])) = _
    rw [hf]
  refine ⟨F, sorted, hd, hd', tss, tss', k1, q1, k3, k5, q5,
    k4.imp fun d ts hb => block_mono (fun k _ ct sfx hk => ?_) hb,
    q4.imp fun d ts hb => block_mono (fun k _ ct sfx ht => ?_) hb, ?_, by rw [k6, q6], ?_⟩
  · obtain ⟨⟨f, f1, rfl, rfl, _⟩, _⟩ := hk
    exact (hF f1).symm
  · obtain ⟨⟨f, f1, rfl, rfl, _⟩, _⟩ := ht
    rw [relabelBundle_defs, simpleList_relabel, fieldType_relabel] at f1
    exact (hF f1).symm
  · rw [k7, q7]; rfl
  · rw [k8, q8]
    cases cmd with
    | c p =>
      simp only [Command.objects, List.flatMap_map, List.map_flatMap]
      congr 1
      funext d
      rw [clausesOf_relabel, List.map_map]
      rfl
    | _ => rfl

theorem fixedOf_relabel (h : Relabelling κ ι) (c : Comps) : fixedOf (relabelComps κ c) = (fixedOf c).map (relabelFixed κ) := by
  induction c with
  | nil => rfl
  | leaf k v r ih => simp only [relabelComps, fixedOf, ih, List.map_cons, relabelFixed]
  | node k c r ih1 ih2 =>
    simp only [relabelComps, fixedOf, ih1, ih2, h.fixed (a := k) (r := "primary") (by decide), List.map_append]
    split <;> rfl

theorem fixedOfDef_relabel (h : Relabelling κ ι) (d : Def) :
    fixedOfDef (relabelDef κ ι d) = (fixedOfDef d).map fun x => (x.1, relabelFixed κ x.2) := by
  cases d with
  | seq n c ms =>
    simp only [relabelDef, fixedOfDef, List.flatMap_map, List.map_flatMap]
    congr 1
    funext m
    have e : fixedOfMember (relabelMember κ m) = (fixedOfMember m).map (relabelFixed κ) := by
      unfold fixedOfMember
      show (match m.comps.map (relabelComps κ) with | none => [] | some c => fixedOf c) = _
      cases m.comps with
      | none => rfl
      | some c => exact fixedOf_relabel h c
    rw [e, List.map_map, List.map_map]
    rfl
  | _ => rfl

theorem all2_map_left {α β γ : Type} {R : β → γ → Prop} {f : α → β} : ∀ {l : List α} {l' : List γ},
    All2 R (l.map f) l' → All2 (fun a c => R (f a) c) l l' := by
  intro l
  induction l with
  | nil => intro l' h; cases h; exact .nil
  | cons a l ih =>
    intro l' h
    cases h with
    | cons h1 h2 => exact .cons h1 (ih h2)

/-- **C89, macros.** The message id header of a module has the same macros in the same order with the same values: the
macros of primary headers keep their names too, and the others have the new names of the members. -/
theorem C89_macros (h : Relabelling κ ι) (fuel : Nat) (p : Printer) (hp : Faithful p) (raw : List Module)
    (cfg : List String) (out : Text) (b : Bundle) (fs fs' : Files) (hi : Input raw cfg b)
    (hg' : ∀ m ∈ raw, GrammarModule (relabelModule κ ι m)) (hr : (runCfs fuel p raw cfg out).result = .ok ())
    (m : Module) (hm : m ∈ b.modules) :
    ∃ defs : List Def, defs.Perm m.defs ∧
      All2 (MacroOf p) (defs.flatMap fixedOfDef)
        (macrosIn ((runCfs fuel p raw cfg out).apply fs) (inDir out (ident m.name ++ "_msgids.h".toList))) ∧
      All2 (RelabelledMacro p κ) (defs.flatMap fixedOfDef)
        (macrosIn ((runCfs fuel p (raw.map (relabelModule κ ι)) cfg out).apply fs')
          (inDir out (ident m.name ++ "_msgids.h".toList))) := by
  obtain ⟨bm, hbm, rfl⟩ := List.mem_map.1 hm
  have hi' := input_relabel h hi hg'
  have hr' : (runCfs fuel p (raw.map (relabelModule κ ι)) cfg out).result = .ok () := by
    have := C89_end h (.cfs p) fuel raw cfg out
    exact this.trans hr
  have hbm' : relabelBMod κ ι bm ∈ (relabelBundle κ ι b).mods := List.mem_map_of_mem hbm
  obtain ⟨defs, k1, k2, k3⟩ := msgids_macros_sorted fuel p hp raw hi.grammar cfg out hr b hi.accepted bm hbm fs
  obtain ⟨defs', q1, q2, q3⟩ := msgids_macros_sorted fuel p hp _ hi'.grammar cfg out hr' _ hi'.accepted _ hbm' fs'
  have hs : defs' = defs.map (relabelDef κ ι) := by
    have e : sortDefs fuel (relabelBMod κ ι bm).mod = (sortDefs fuel bm.mod).map (List.map (relabelDef κ ι)) :=
      sortDefs_relabel fuel bm.mod
    rw [e, k1] at q1
    exact (Option.some.inj q1).symm
  have e : (defs.map (relabelDef κ ι)).flatMap fixedOfDef =
      (defs.flatMap fixedOfDef).map fun x => (x.1, relabelFixed κ x.2) := by
    rw [List.flatMap_map, List.map_flatMap]
    congr 1
    funext d
    exact fixedOfDef_relabel h d
  rw [hs, e] at q3
  refine ⟨defs, k2, k3, (all2_map_left q3).imp fun x y hxy => ⟨hxy.1, ?_⟩⟩
  obtain ⟨_, t, t1, t2⟩ := hxy
  refine ⟨t, t1, ?_⟩
  obtain ⟨n, f⟩ := x
  cases f with
  | header c =>
    obtain ⟨id, hx, s1, s2⟩ := t2
    rw [msgId_relabel h] at s1
    exact ⟨id, hx, s1, s2⟩
  | value k v => exact t2

/-- **C89, C files.** The C file of a module has the same variables in the same order, and their initialisers say the same
under the new names of the members. -/
theorem C89_sources (h : Relabelling κ ι) (fuel : Nat) (p : Printer) (hp : Faithful p) (raw : List Module)
    (cfg : List String) (out : Text) (b : Bundle) (fs fs' : Files) (hi : Input raw cfg b)
    (hg' : ∀ m ∈ raw, GrammarModule (relabelModule κ ι m)) (hr : (runC fuel p raw cfg out).result = .ok ())
    (m : Module) (hm : m ∈ b.modules) :
    ∃ (doc : List Char) (incl : Option (List Char)) (vars vars' : List (List Char)) (sorted : List Def),
      HasText ((runC fuel p raw cfg out).apply fs) (inDir out (ident m.name ++ ".c".toList)) (sourceFile doc incl vars) ∧
      HasText ((runC fuel p (raw.map (relabelModule κ ι)) cfg out).apply fs') (inDir out (ident m.name ++ ".c".toList))
        (sourceFile doc incl vars') ∧
      sorted.Perm m.defs ∧ All2 (Initialiser p) (sorted.flatMap clausesOf) vars ∧
      All2 (fun x => Initialiser p (x.1, κ x.2.1, relabelComps κ x.2.2)) (sorted.flatMap clausesOf) vars' := by
  obtain ⟨bm, hbm, rfl⟩ := List.mem_map.1 hm
  have hi' := input_relabel h hi hg'
  have hr' : (runC fuel p (raw.map (relabelModule κ ι)) cfg out).result = .ok () := by
    have := C89_end h (.c p) fuel raw cfg out
    exact this.trans hr
  have hbm' : relabelBMod κ ι bm ∈ (relabelBundle κ ι b).mods := List.mem_map_of_mem hbm
  obtain ⟨sorted, k1, k2, k3⟩ := source_file hi.grammar hi.accepted hr hbm fs
  obtain ⟨sorted', q1, q2, q3⟩ := source_file hi'.grammar hi'.accepted hr' hbm' fs'
  have hs : sorted' = sorted.map (relabelDef κ ι) := by
    have e : sortDefs fuel (relabelBMod κ ι bm).mod = (sortDefs fuel bm.mod).map (List.map (relabelDef κ ι)) :=
      sortDefs_relabel fuel bm.mod
    rw [e, k1] at q1
    exact (Option.some.inj q1).symm
  have hcl : sorted'.flatMap clausesOf =
      (sorted.flatMap clausesOf).map fun x => (x.1, κ x.2.1, relabelComps κ x.2.2) := by
    rw [hs, List.flatMap_map, List.map_flatMap]
    congr 1
    funext d
    exact clausesOf_relabel d
  have hincl : inclOf sorted' (relabelBMod κ ι bm).mod.name = inclOf sorted bm.mod.name := by
    have hl : lastBlock sorted' = (lastBlock sorted).map (relabelDef κ ι) := by
      unfold lastBlock
      rw [hs, List.filter_map, List.getLast?_map]
      congr 3
      funext d
      cases d <;> rfl
    unfold inclOf
    rw [hl]
    cases lastBlock sorted with
    | none => rfl
    | some d =>
      simp only [Option.map_some, clausesOf_relabel, List.map_eq_nil_iff]
      rfl
  have k3 : HasText _ _ (sourceFile _ (inclOf sorted bm.mod.name) _) := k3
  have q3 : HasText _ _ (sourceFile _ (inclOf sorted' (relabelBMod κ ι bm).mod.name) _) := q3
  rw [hincl] at q3
  have g : ∀ {raw : List Module} {b : Bundle} (_ : Input raw cfg b) {bm : BMod} (_ : bm ∈ b.mods) {sorted : List Def}
      (_ : sorted.Perm bm.mod.defs), ∀ d ∈ sorted, GrammarDef d := fun hi _ hbm _ hp d hd =>
    (accepted_grammar hi.grammar (buildFromTexts_of_config hi.accepted) d
      (mem_defs_of_module (List.mem_map_of_mem hbm) (hp.mem_iff.1 hd))).1
  refine ⟨_, _, _, _, sorted, k3, q3, k2, clauses_initialisers hp (g hi hbm k2), ?_⟩
  have := clauses_initialisers hp (g hi' hbm' q2)
  rw [hcl] at this ⊢
  exact all2_map_left this

/-- **C89, binary files.** The binary file of a sequence has the same bytes. -/
theorem C89_binary (h : Relabelling κ ι) (fuel : Nat) (e : Option Endian) (raw : List Module) (cfg : List String) (out : Text)
    (b : Bundle) (fs fs' : Files) (hi : Input raw cfg b) (hg' : ∀ m ∈ raw, GrammarModule (relabelModule κ ι m))
    (hr : (runBinary fuel e raw cfg out).result = .ok ()) (d : Def) (hd : d ∈ b.defs) (hf : fixedMembers d ≠ []) :
    ∃ bytes, HasBytes ((runBinary fuel e raw cfg out).apply fs) (binPath out d) bytes ∧
      HasBytes ((runBinary fuel e (raw.map (relabelModule κ ι)) cfg out).apply fs') (binPath out d) bytes := by
  have hi' := input_relabel h hi hg'
  have hr' : (runBinary fuel e (raw.map (relabelModule κ ι)) cfg out).result = .ok () := by
    have := C89_end h (.binary e) fuel raw cfg out
    exact this.trans hr
  have hfm : fixedMembers (relabelDef κ ι d) = (fixedMembers d).map fun x => (relabelMember κ x.1, relabelComps κ x.2) := by
    cases d with
    | seq n c ms =>
      simp only [relabelDef, fixedMembers, List.filterMap_map, List.map_filterMap]
      congr 1
      funext k
      obtain ⟨a, t, c, w⟩ := k
      cases w <;> rfl
    | _ => rfl
  have hpath : binPath out (relabelDef κ ι d) = binPath out d := by
    unfold binPath
    rw [relabelDef_name]
  have hd' : relabelDef κ ι d ∈ (relabelBundle κ ι b).defs := by rw [relabelBundle_defs]; exact List.mem_map_of_mem hd
  obtain ⟨x, blocks, h1, ⟨bm, hbm, hdm, defs, h2, h3⟩, h4⟩ := bin_clause hi.grammar hi.accepted hr hd hf fs
  obtain ⟨x', blocks', h1', ⟨bm', hbm', hdm', defs', h2', h3'⟩, h4'⟩ := bin_clause hi'.grammar hi'.accepted hr' hd'
    (by rw [hfm]; simpa using hf) fs'
  obtain ⟨bm0, hbm0, rfl⟩ := List.mem_map.1 hbm'
  have hb0 : bm0 = bm := by
    have hdm0 : d ∈ bm0.mod.defs := by
      obtain ⟨y, hy, hye⟩ := List.mem_map.1 hdm'
      rwa [← relabelDef_inj h hye]
    exact bmod_of_def (accepted_nodup (buildFromTexts_of_config hi.accepted)) hbm0 hbm hdm0 hdm
  subst hb0
  rw [hfm, List.getLast?_map, h1] at h1'
  cases h1'
  have e2 : binDefs (b.defs.map (relabelDef κ ι)) fuel (bm0.mod.defs.map (relabelDef κ ι)) = .ok (defs.map (relabelSpecs κ)) := by
    rw [binDefs_relabel, h2]; rfl
  have e3 : binDefs (b.defs.map (relabelDef κ ι)) fuel (bm0.mod.defs.map (relabelDef κ ι)) = .ok defs' := by
    rw [← relabelBundle_defs]; exact h2'
  rw [e2] at e3
  cases e3
  have e4 : compBytes (defs.map (relabelSpecs κ)) e x.1.type.name (relabelComps κ x.2) = .ok blocks' := h3'
  rw [compBytes_relabel h, h3] at e4
  cases e4
  rw [hpath] at h4'
  exact ⟨_, h4, h4'⟩

theorem numbered_relabel (ss : List Text) : ∀ i,
    numbered i (ss.map (relabelText ι)) = (numbered i ss).map fun s => (relabelText ι s.1, s.2) := by
  induction ss with
  | nil => intro i; rfl
  | cons s ss ih => intro i; simp only [List.map_cons, numbered, ih]

theorem readItem_relabel (p : Printer) (e : Entry) : readItem p (relabelEntry κ ι e) = relabelCosmos κ ι (readItem p e) := by
  unfold readItem relabelCosmos
  simp only [relabelEntry, itemFields, numbered_relabel]
  rfl

/-- **C89, COSMOS files.** generate-cosmos ends in the same way, and the packets of its file differ only in the new names
of items and states: sizes, types, fixed values, order and everything else are the same. -/
theorem C89_cosmos (h : Relabelling κ ι) (fuel : Nat) (p : Printer) (hn : NameFree p κ) (raw : List Module) (module : String)
    (messages : List String) (target out : Text) :
    (runCosmos fuel p (raw.map (relabelModule κ ι)) module messages target out).result =
      (runCosmos fuel p raw module messages target out).result ∧
    ∀ b, Sources raw b → (∀ m ∈ raw, GrammarModule (relabelModule κ ι m)) → Faithful p → OneLine p → IsTarget target →
      (runCosmos fuel p raw module messages target out).result = .ok () →
      ∃ t t', (∀ fs, Adds fs ((runCosmos fuel p raw module messages target out).apply fs) (cosmosPath out target) t) ∧
        (∀ fs, Adds fs ((runCosmos fuel p (raw.map (relabelModule κ ι)) module messages target out).apply fs)
          (cosmosPath out target) t') ∧
        readCosmos t' = (readCosmos t).map (relabelPacket κ ι) := by
  have he := runCosmos_relabel h hn fuel raw module messages target out
  refine ⟨he, fun b hi hg' hp ho ht hr => ?_⟩
  have hi' := sources_relabel h hi hg'
  obtain ⟨t, xs, h1, rfl, h3, _, h5⟩ := cosmos_run_data hi hp ho ht hr
  obtain ⟨t', xs', h1', rfl, h3', _, h5'⟩ := cosmos_run_data hi' hp ho ht (he.trans hr)
  refine ⟨_, _, h1, h1', ?_⟩
  rw [readCosmos_text ht.1 h3, readCosmos_text ht.1 h3']
  rw [cosmosData_relabel h hn, h5] at h5'
  cases h5'
  rw [List.map_map, List.map_map]
  refine List.map_congr_left fun x _ => ?_
  simp only [Function.comp_apply, relabelPacket, relabelData, CosmosPacket.mk.injEq, List.map_map, true_and]
  exact List.map_congr_left fun e _ => readItem_relabel p e

/-! ### Examples -/

/-- A packet with fixed values. -/
def exLabelDef : Def := .seq "Whole" none [
  ⟨"tag", .plain "Tag" none none, none, some (.leaf "application-process-identifier" (.int 7) (.leaf "level" (.int 3) .nil))⟩,
  ⟨"mode", .plain "Mode" none none, none, none⟩]

def exLabels : List Module := [{ name := "m", defs := [
  .enum "Mode" none [⟨"off", 0, none⟩, ⟨"on", 1, none⟩, ⟨"safe", 2, none⟩], exTagDef, exLabelDef] }]

/-- The tag and the mode of the packet change their names, and the level is called height. -/
def exNewMember (n : String) : String := swapNames "tag" "mode" (swapNames "level" "height" n)

/-- On is called off and off is called on. -/
def exNewItem (n : String) : String := swapNames "on" "off" n

theorem exNew_relabelling : Relabelling exNewMember exNewItem where
  members := fun x y h => swapNames_inj _ _ x y (swapNames_inj _ _ _ _ h)
  items := swapNames_inj _ _
  headers := by decide
  booleans := by decide

example : exNewMember "level" = "height" ∧ exNewMember "tag" = "mode" ∧ exNewItem "on" = "off" := by decide

theorem exLabels_input : Input exLabels ["m"] (okBundle (buildFromConfig exLabels ["m"])) :=
  input_of (by decide +kernel) (by decide +kernel) (by decide +kernel)

theorem exNewLabels_grammar : ∀ m ∈ exLabels, GrammarModule (relabelModule exNewMember exNewItem m) := by
  have h : ∀ m ∈ exLabels.map (relabelModule exNewMember exNewItem), GrammarModule m := grammarB_sound (by decide +kernel)
  exact fun m hm => h _ (List.mem_map_of_mem hm)

theorem exLabels_module : ∃ m ∈ (okBundle (buildFromConfig exLabels ["m"])).modules, m.name = "m" ∧ m.defs = defsOf exLabels :=
  ⟨_, List.mem_of_getElem? (i := 0) rfl, by decide +kernel, by decide +kernel⟩

example : ((Command.cfs exPrinter).run 20 (exLabels.map (relabelModule exNewMember exNewItem)) ["m"] exOut).result = .ok () := by
  have := C89_end exNew_relabelling (.cfs exPrinter) 20 exLabels ["m"] exOut
  exact this.trans (by decide +kernel)

example : ∃ (F : AType → List Char × List Char) (sorted : List Def) (hd hd' : HeaderParts) (tss tss' : List (List (List Char))),
    HasText (((Command.c exPrinter).run 20 exLabels ["m"] exOut).apply fun _ => none) "gen/m.h".toList hd.text ∧
    HasText (((Command.c exPrinter).run 20 (exLabels.map (relabelModule exNewMember exNewItem)) ["m"] exOut).apply
      fun _ => none) "gen/m.h".toList hd'.text ∧
    sorted.Perm (defsOf exLabels) ∧ hd.blocks = tss.flatten ∧ hd'.blocks = tss'.flatten ∧
    All2 (Block (fun t ct sfx => (ct, sfx) = F t) fun t => (dims t).take 1) sorted tss ∧
    All2 (Block (fun t ct sfx => (ct, sfx) = F t) fun t => (dims t).take 1)
      (sorted.map (relabelDef exNewMember exNewItem)) tss' ∧
    hd'.doc = hd.doc ∧ hd'.stdbool = hd.stdbool ∧ hd'.decls = hd.decls := by
  obtain ⟨m, hm, hn, hd⟩ := exLabels_module
  have := C89_headers exNew_relabelling (.c exPrinter) 20 exLabels ["m"] exOut _ (fun _ => none) (fun _ => none)
    exLabels_input exNewLabels_grammar (by decide +kernel) m hm
  rw [hn, hd] at this
  exact this

example : ∃ defs : List Def, defs.Perm (defsOf exLabels) ∧
    All2 (MacroOf exPrinter) (defs.flatMap fixedOfDef)
      (macrosIn ((runCfs 20 exPrinter exLabels ["m"] exOut).apply fun _ => none) "gen/m_msgids.h".toList) ∧
    All2 (RelabelledMacro exPrinter exNewMember) (defs.flatMap fixedOfDef)
      (macrosIn ((runCfs 20 exPrinter (exLabels.map (relabelModule exNewMember exNewItem)) ["m"] exOut).apply fun _ => none)
        "gen/m_msgids.h".toList) := by
  obtain ⟨m, hm, hn, hd⟩ := exLabels_module
  have := C89_macros exNew_relabelling 20 exPrinter exPrinter_faithful exLabels ["m"] exOut _ (fun _ => none) (fun _ => none)
    exLabels_input exNewLabels_grammar (by decide +kernel) m hm
  rw [hn, hd] at this
  exact this

example : macrosIn ((runCfs 20 exPrinter (exLabels.map (relabelModule exNewMember exNewItem)) ["m"] exOut).apply fun _ => none)
    "gen/m_msgids.h".toList = [("WHOLE_APPLICATION_PROCESS_IDENTIFIER".toList, "(7)".toList), ("WHOLE_HEIGHT".toList, "(3)".toList)] := by
  decide +kernel

example : ∃ (doc : List Char) (incl : Option (List Char)) (vars vars' : List (List Char)) (sorted : List Def),
    HasText ((runC 20 exPrinter exLabels ["m"] exOut).apply fun _ => none) "gen/m.c".toList (sourceFile doc incl vars) ∧
    HasText ((runC 20 exPrinter (exLabels.map (relabelModule exNewMember exNewItem)) ["m"] exOut).apply fun _ => none)
      "gen/m.c".toList (sourceFile doc incl vars') ∧
    sorted.Perm (defsOf exLabels) ∧ All2 (Initialiser exPrinter) (sorted.flatMap clausesOf) vars ∧
    All2 (fun x => Initialiser exPrinter (x.1, exNewMember x.2.1, relabelComps exNewMember x.2.2))
      (sorted.flatMap clausesOf) vars' := by
  obtain ⟨m, hm, hn, hd⟩ := exLabels_module
  have := C89_sources exNew_relabelling 20 exPrinter exPrinter_faithful exLabels ["m"] exOut _ (fun _ => none) (fun _ => none)
    exLabels_input exNewLabels_grammar (by decide +kernel) m hm
  rw [hn, hd] at this
  exact this

example : ∃ bytes, HasBytes ((runBinary 20 (some .big) exLabels ["m"] exOut).apply fun _ => none) "gen/whole.bin".toList bytes ∧
    HasBytes ((runBinary 20 (some .big) (exLabels.map (relabelModule exNewMember exNewItem)) ["m"] exOut).apply fun _ => none)
      "gen/whole.bin".toList bytes :=
  C89_binary exNew_relabelling 20 (some .big) exLabels ["m"] exOut _ (fun _ => none) (fun _ => none) exLabels_input
    exNewLabels_grammar (by decide +kernel) exLabelDef (by decide +kernel) (by simp [fixedMembers, exLabelDef])

example : ∃ t t', (∀ fs, Adds fs ((runCosmos 20 exPrinter exLabels "m" ["Whole"] "SAT".toList exOut).apply fs)
      (cosmosPath exOut "SAT".toList) t) ∧
    (∀ fs, Adds fs ((runCosmos 20 exPrinter (exLabels.map (relabelModule exNewMember exNewItem)) "m" ["Whole"] "SAT".toList
      exOut).apply fs) (cosmosPath exOut "SAT".toList) t') ∧
    readCosmos t' = (readCosmos t).map (relabelPacket exNewMember exNewItem) ∧ readCosmos t' ≠ readCosmos t := by
  obtain ⟨t, t', h1, h2, h3⟩ := (C89_cosmos exNew_relabelling 20 exPrinter (fun _ => rfl) exLabels "m" ["Whole"] "SAT".toList
    exOut).2 _ (sources_of_input exLabels_input) exNewLabels_grammar exPrinter_faithful exPrinter_oneLine exTlm_target
    (by decide +kernel)
  refine ⟨t, t', h1, h2, h3, ?_⟩
  rw [← newText_eq h1, ← newText_eq h2]
  decide +kernel

end Apg
