import Verif.Lemmas.UnfixOrder
import Verif.Lemmas.Header
import Verif.Lemmas.Reorder
import Verif.Props.Bundle

/-!
# Runs on modules without clauses
-/

namespace Apg

open Spec

/-- What a header without declarations and definitions of message ids shows. -/
def visible (cd : CData) : CData := { cd with defines := [], inits := [], predefs := [], initInclude := [], bins := [] }

theorem visible_extend (a b : CData) : visible (a.extend b) =
    { visible a with data := (visible a).data ++ (visible b).data, includes := (visible a).includes ++ (visible b).includes
                     stdbool := (visible a).stdbool || (visible b).stdbool
                     stdint := (visible a).stdint || (visible b).stdint } := rfl

theorem extend_visible {a a' b b' : CData} (h : visible a' = visible a) (h' : visible b' = visible b) :
    visible (a'.extend b') = visible (a.extend b) := by rw [visible_extend, visible_extend, h, h']

theorem visible_quiet {a e : CData} (h : e.data = [] ∧ e.stdbool = false ∧ e.stdint = false ∧ e.includes = []) :
    visible (a.extend e) = visible a := by
  obtain ⟨h1, h2, h3, h4⟩ := h
  rw [visible_extend]
  show { visible a with data := a.data ++ e.data, includes := a.includes ++ e.includes, stdbool := a.stdbool || e.stdbool
                        stdint := a.stdint || e.stdint } = _
  rw [h1, h2, h3, h4]
  simp [visible]

theorem convertMembers_visible {h h' : Handler} {mod mod' : Module} (hh : Quiet h) (ds simple : List Def) (cn : Text)
    (ms : List Member) : ∀ {cd cd' : CData} {r : List CLine × CData}, visible cd' = visible cd →
    convertMembers h ds simple mod cn ms cd = .ok r →
    ∃ r', convertMembers h' (ds.map unfixedDef) (simple.map unfixedDef) mod' cn (ms.map unfixedMember) cd' = .ok r' ∧
      r'.1 = r.1 ∧ visible r'.2 = visible r.2 := by
  induction ms with
  | nil =>
    intro cd cd' r hc h
    cases h
    exact ⟨_, rfl, rfl, hc⟩
  | cons m ms ih =>
    intro cd cd' r hc h
    simp only [convertMembers, bind_ok] at h
    obtain ⟨f, h1, cd1, h2, r1, h3, h4⟩ := h
    cases h4
    have e : fieldType (ds.map unfixedDef) (simple.map unfixedDef) (unfixedMember m).type = .ok f := by
      rw [← h1]; exact fieldType_unfixed ds simple m.type
    have hv : visible { cd' with stdbool := cd'.stdbool || f.stdbool, stdint := cd'.stdint || f.stdint } = visible cd1 := by
      have hb : visible { cd' with stdbool := cd'.stdbool || f.stdbool, stdint := cd'.stdint || f.stdint } =
          visible { cd with stdbool := cd.stdbool || f.stdbool, stdint := cd.stdint || f.stdint } := by
        have h1 : cd'.stdbool = cd.stdbool := show (visible cd').stdbool = (visible cd).stdbool by rw [hc]
        have h2 : cd'.stdint = cd.stdint := show (visible cd').stdint = (visible cd).stdint by rw [hc]
        have := congrArg (fun c : CData => { c with stdbool := cd.stdbool || f.stdbool, stdint := cd.stdint || f.stdint }) hc
        rw [h1, h2]
        exact this
      rw [hb]
      cases hcm : m.comps with
      | none => rw [hcm] at h2; cases h2; rfl
      | some c =>
        rw [hcm] at h2
        simp only [bind_ok] at h2
        obtain ⟨x, q1, q2⟩ := h2
        cases q2
        exact (visible_quiet (hh _ _ _ _ q1)).symm
    obtain ⟨r', k1, k2, k3⟩ := ih hv h3
    refine ⟨(commentLines m ++ fieldLine m f :: r'.1, r'.2), ?_, by rw [k2], k3⟩
    rw [List.map_cons, convertMembers, e]
    show (convertMembers h' _ _ mod' cn (ms.map unfixedMember) _ >>= _) = _
    rw [k1]
    rfl

/-- Back ends that agree on includes and on the notes on the simple definitions of the module. -/
structure UnfixBackend (be be' : Backend) (mod : Module) : Prop where
  note : ∀ n c t, Def.simple n c t ∈ mod.defs → be'.note n t = be.note n t
  includeFile : be'.includeFile = be.includeFile
  quiet : Quiet be.handler

theorem convertDef_visible {be be' : Backend} {mod mod' : Module} (hb : UnfixBackend be be' mod) (ds simple : List Def)
    {cd cd' r : CData} (hc : visible cd' = visible cd) {d : Def} (hd : d ∈ mod.defs)
    (h : convertDef be ds simple mod cd d = .ok r) :
    ∃ r', convertDef be' (ds.map unfixedDef) (simple.map unfixedDef) mod' cd' (unfixedDef d) = .ok r' ∧
      visible r' = visible r := by
  cases d with
  | simple n c t =>
    simp only [convertDef, bind_ok] at h
    obtain ⟨ls, h1, h2⟩ := h
    cases h2
    refine ⟨{ cd' with includes := cd'.includes ++ ls }, ?_, ?_⟩
    · simp only [unfixedDef, convertDef, hb.note n c t hd, h1]
      rfl
    · have e : cd'.includes = cd.includes := show (visible cd').includes = (visible cd).includes by rw [hc]
      rw [e]
      exact congrArg (fun x : CData => { x with includes := cd.includes ++ ls }) hc
  | seq n c ms =>
    simp only [convertDef, convertSequence, bind_ok] at h
    obtain ⟨e, ⟨x, h1, h2⟩, h3⟩ := h
    cases h2
    cases h3
    obtain ⟨x', k1, k2, k3⟩ := convertMembers_visible (h' := be'.handler) (mod' := mod') hb.quiet ds simple (cName n) ms
      (cd' := {}) rfl h1
    refine ⟨cd'.extend { x'.2 with data := x'.2.data ++ [defComment c ++ structText x'.1 (cName n)] }, ?_, ?_⟩
    · simp only [unfixedDef, convertDef, convertSequence, k1]
      rfl
    · refine extend_visible hc ?_
      rw [k2]
      have e : x'.2.data = x.2.data := show (visible x'.2).data = (visible x.2).data by rw [k3]
      rw [e]
      exact congrArg (fun y : CData => { y with data := x.2.data ++ [defComment c ++ structText x.1 (cName n)] }) k3
  | enum n c its =>
    cases h
    exact ⟨_, rfl, extend_visible hc rfl⟩
  | choice n c ms =>
    cases h
    exact ⟨_, rfl, extend_visible hc rfl⟩

theorem convertDefs_visible {be be' : Backend} {mod mod' : Module} (hb : UnfixBackend be be' mod) (ds simple : List Def)
    (es : List Def) : ∀ {cd cd' r : CData}, (∀ d ∈ es, d ∈ mod.defs) → visible cd' = visible cd →
    convertDefs be ds simple mod cd es = .ok r →
    ∃ r', convertDefs be' (ds.map unfixedDef) (simple.map unfixedDef) mod' cd' (es.map unfixedDef) = .ok r' ∧
      visible r' = visible r := by
  induction es with
  | nil => intro cd cd' r _ hc h; cases h; exact ⟨_, rfl, hc⟩
  | cons d es ih =>
    intro cd cd' r hm hc h
    simp only [convertDefs, bind_ok] at h
    obtain ⟨cd1, h1, h2⟩ := h
    obtain ⟨cd1', k1, k2⟩ := convertDef_visible (mod' := mod') hb ds simple hc (hm d (by simp)) h1
    obtain ⟨r', k3, k4⟩ := ih (fun d hd => hm d (by simp [hd])) k2 h2
    refine ⟨r', ?_, k4⟩
    rw [List.map_cons, convertDefs, k1]
    exact k3

/-- The data of a module without clauses. -/
theorem moduleData_visible {be be' : Backend} {bm : BMod} (hb : UnfixBackend be be' bm.mod) {fuel : Nat} {ds : List Def}
    {cd : CData} (h : moduleData fuel be ds bm = .ok cd) :
    ∃ cd', moduleData fuel be' (ds.map unfixedDef) (unfixedBMod bm) = .ok cd' ∧ visible cd' = visible cd := by
  obtain ⟨sorted, hs, hp, _⟩ := moduleData_ok h
  unfold moduleData at h ⊢
  have hs' : sortDefs fuel (unfixedBMod bm).mod = some (sorted.map unfixedDef) := by
    rw [show (unfixedBMod bm).mod = unfixed bm.mod from rfl, sortDefs_unfixed, hs]
    rfl
  rw [hs'] 
  rw [hs] at h
  simp only [bind_ok] at h
  obtain ⟨r, h1, h2⟩ := h
  cases h2
  obtain ⟨r', k1, k2⟩ := convertDefs_visible (be' := be') (mod' := (unfixedBMod bm).mod) hb ds (simpleList bm) sorted
    (cd' := { includes := importIncludes be'.includeFile (unfixedBMod bm).mod })
    (fun d hd => hp.mem_iff.1 hd) (by rw [hb.includeFile]; rfl) h1
  refine ⟨{ r' with headerComment := headerDoc bm.mod }, ?_, ?_⟩
  · simp only [simpleList_unfixed, k1]
    rfl
  · exact congrArg (fun y : CData => { y with headerComment := headerDoc bm.mod }) k2

theorem runModules_unfixed {be be' : Backend} (fuel : Nat) (ds : List Def) (bms : List BMod)
    (hb : ∀ bm ∈ bms, UnfixBackend be be' bm.mod) (h : (runModules fuel be ds bms).result = .ok ()) :
    (runModules fuel be' (ds.map unfixedDef) (bms.map unfixedBMod)).result = .ok () := by
  induction bms with
  | nil => rfl
  | cons bm bms ih =>
    rw [runModules] at h
    cases hm : moduleData fuel be ds bm with
    | error e => rw [hm] at h; cases h
    | ok cd =>
      rw [hm] at h
      obtain ⟨cd', k1, _⟩ := moduleData_visible (hb bm (by simp)) hm
      rw [List.map_cons, runModules, k1]
      exact ih (fun x hx => hb x (by simp [hx])) h

/-- A run on modules without clauses. -/
theorem runCommand_unfixed {mk : Bundle → Backend} {raw : List Module} {fuel : Nat} {cfg : List String} {out : Text}
    (hb : ∀ b, buildFromConfig raw cfg = .ok b → ∀ m ∈ b.modules, UnfixBackend (mk b) (mk (unfixedBundle b)) m)
    (h : (runCommand fuel mk raw cfg out).result = .ok ()) :
    (runCommand fuel mk (raw.map unfixed) cfg out).result = .ok () := by
  unfold runCommand at h ⊢
  cases hbb : buildFromConfig raw cfg with
  | error e => rw [hbb] at h; cases h
  | ok b =>
    rw [hbb] at h
    rw [buildFromConfig_unfixed hbb]
    simp only [generate, unfixedBundle_modules, orderModules_unfixed] at h ⊢
    cases ho : orderModules fuel b.modules with
    | none => rw [ho] at h; cases h
    | some ms =>
      rw [ho] at h
      have hn := config_names_nodup hbb
      have hperm : ms.Perm b.modules := (orderLoop_spec b.modules fuel _ ms ⟨rfl, hn⟩ ⟨by simp, by simp, by simp⟩ ho).1
      simp only [Option.map_some] at h ⊢
      rw [orderedMods_unfixed hn fun m hm => hperm.mem_iff.1 hm, unfixedBundle_defs]
      have hmem : ∀ bm ∈ orderedMods b ms, bm.mod ∈ b.modules := by
        intro bm hbm
        obtain ⟨m, _, hm⟩ := List.mem_filterMap.1 hbm
        exact List.mem_map.2 ⟨bm, List.mem_of_find?_eq_some hm, rfl⟩
      exact runModules_unfixed fuel b.defs (orderedMods b ms) (fun bm hbm => hb b hbb _ (hmem bm hbm)) h

/-! ### Notes -/

/-- The type of a member with a clause is a sequence or built in. -/
theorem clause_type {ds : List Def} {n : String} {cs : Comps} (h : checkWithComponent ds n cs = .ok ()) :
    (∃ ms, IsSequence ds n ms) ∨ n ∈ predefined := by
  unfold checkWithComponent at h
  split at h
  · rename_i ms hs
    left
    have : ms ∈ seqsNamed ds n := by rw [hs]; simp
    unfold seqsNamed at this
    obtain ⟨d, hd, he⟩ := List.mem_filterMap.1 this
    cases d with
    | seq m c l =>
      simp only at he
      split at he
      · rename_i hm
        cases he
        subst hm
        exact ⟨ms, c, hd⟩
      · cases he
    | _ => cases he
  · right
    split at h
    · rename_i hp
      exact List.contains_iff_mem.1 hp
    · cases h

theorem cfsNote_unfixed {raw : List Module} {cfg : List String} {b : Bundle} (hb : buildFromConfig raw cfg = .ok b)
    {m : Module} (hm : m ∈ b.modules) {n : String} {c : Option Comment} {t : AType} (hd : Def.simple n c t ∈ m.defs) :
    cfsNote (unfixedBundle b) n t = cfsNote b n t := by
  obtain ⟨ms, _, _, _, h4, h5, _⟩ := buildFromConfig_ok.1 hb
  obtain ⟨u1, u2, u3⟩ := C18_use_map ms b h4
  obtain ⟨v1, v2, v3⟩ := C18_use_map (ms.map unfixed) (unfixedBundle b) (build_unfixed h4)
  obtain ⟨_, h6, h7⟩ := (validateBundle_ok b).1 h5
  have hdb : Def.simple n c t ∈ b.defs := List.mem_flatMap.2 ⟨m, hm, hd⟩
  have hiff : ∀ mod, (∃ s, (n, s) ∈ (unfixedBundle b).uses ∧ mod ∈ s) ↔ ∃ s, (n, s) ∈ b.uses ∧ mod ∈ s := by
    intro mod
    rw [u1, v1]
    constructor
    · rintro ⟨m', hm', rfl, ⟨d', hd', k', hk', _, hu⟩, hn⟩
      obtain ⟨m1, hm1, rfl⟩ := List.mem_map.1 hm'
      obtain ⟨d, hd1, rfl⟩ := List.mem_map.1 hd'
      refine ⟨m1, hm1, rfl, ⟨d, hd1, ?_⟩, hn⟩
      cases d with
      | seq n' c' l =>
        obtain ⟨k, hk, rfl⟩ := List.mem_map.1 hk'
        refine ⟨k, hk, ?_, hu⟩
        cases hc : k.comps with
        | none => rfl
        | some cs =>
          exfalso
          have hseq : Def.seq n' c' l ∈ b.defs :=
            List.mem_flatMap.2 ⟨m1, by rw [build_modules h4]; exact hm1, hd1⟩
          have hck := (checkComponents_ok b.defs).1 h6 n' c' l hseq k hk cs hc
          have hname : k.type.name = n := (usesName_iff k.type n).1 hu
          rw [hname] at hck
          rcases clause_type hck with ⟨l', c'', hl⟩ | hp
          · have := mem_unique_of_nodup_map h7 hl hdb rfl
            cases this
          · exact hn (by simpa [predefined, BuiltIn] using hp)
      | choice n' c' l => exact ⟨k', hk', ‹_›, hu⟩
      | simple => cases hk'
      | enum => cases hk'
    · rintro ⟨m1, hm1, rfl, ⟨d, hd1, k, hk, hkc, hu⟩, hn⟩
      refine ⟨unfixed m1, List.mem_map.2 ⟨m1, hm1, rfl⟩, rfl, ⟨unfixedDef d, List.mem_map.2 ⟨d, hd1, rfl⟩, ?_⟩, hn⟩
      cases d with
      | seq n' c' l => exact ⟨unfixedMember k, List.mem_map.2 ⟨k, hk, rfl⟩, rfl, hu⟩
      | choice n' c' l => exact ⟨k, hk, hkc, hu⟩
      | simple => cases hk
      | enum => cases hk
  unfold cfsNote
  rcases uses_same v2 v3 u2 u3 hiff with ⟨h1, h2⟩ | ⟨s, s', h1, h2, h3⟩
  · rw [h1, h2]
  · rw [h1, h2]
    simp only [mergeSort_names h3]

theorem unfix_backend {raw : List Module} {cfg : List String} {b : Bundle} (hb : buildFromConfig raw cfg = .ok b)
    (fuel : Nat) (cmd : Command) (out : Text) {m : Module} (hm : m ∈ b.modules) :
    UnfixBackend (cmd.backend fuel out b) (cmd.backend fuel out (unfixedBundle b)) m := by
  cases cmd with
  | cfs p => exact ⟨fun _ _ _ hd => cfsNote_unfixed hb hm hd, rfl, cfs_quiet p⟩
  | c p => exact ⟨fun _ _ _ _ => rfl, rfl, c_quiet p⟩
  | binary e => exact ⟨fun _ _ _ _ => rfl, rfl, bin_quiet b.defs fuel e⟩

theorem command_run (fuel : Nat) (cmd : Command) (raw : List Module) (cfg : List String) (out : Text) :
    cmd.run fuel raw cfg out = runCommand fuel (fun b => cmd.backend fuel out b) raw cfg out := by
  cases cmd <;> rfl

theorem run_unfixed {fuel : Nat} {cmd : Command} {raw : List Module} {cfg : List String} {out : Text}
    (h : (cmd.run fuel raw cfg out).result = .ok ()) : (cmd.run fuel (raw.map unfixed) cfg out).result = .ok () := by
  rw [command_run] at h ⊢
  exact runCommand_unfixed (fun b hb m hm => unfix_backend hb fuel cmd out hm) h

/-! ### Headers -/

/-- The kind of header of a command. -/
def Spec.Command.headerType : Command → HeaderType
  | .cfs _ => .msg
  | .c _ => .stored
  | .binary _ => .storedBinary

theorem header_parts {fuel : Nat} {cmd : Command} {raw : List Module} {cfg : List String} {out : Text}
    (hg : ∀ m ∈ raw, GrammarModule m) {b : Bundle} (hb : buildFromConfig raw cfg = .ok b)
    (hr : (cmd.run fuel raw cfg out).result = .ok ()) {bm : BMod} (hm : bm ∈ b.mods) (fs : Files) :
    ∃ cd, moduleData fuel (cmd.backend fuel out b) b.defs bm = .ok cd ∧
      HasText ((cmd.run fuel raw cfg out).apply fs) (cmd.path out bm.mod.name)
        (partsOf cmd.headerType (cmd.header bm.mod.name) cd).text := by
  have hbt := buildFromTexts_of_config hb
  have hmm : bm.mod ∈ b.modules := List.mem_map.2 ⟨bm, hm, rfl⟩
  have hn := accepted_names hg hbt _ hmm
  cases cmd with
  | cfs p =>
    obtain ⟨cd, h1, h2⟩ := run_module hr hb hm
    refine ⟨cd, h1, ?_⟩
    show HasText _ _ (partsOf .msg (ident bm.mod.name ++ "_msg.h".toList) cd).text
    rw [← headerText_parts (by decide)]
    exact apply_get (cfs_noAppend _ _ _ _ _) (C27_cfs fuel p raw hg cfg out) fs
      (h2 _ (by rw [printed_cfs _ _ _ _ _ hn]; exact List.Mem.head _))
  | c p =>
    obtain ⟨cd, h1, h2⟩ := run_module hr hb hm
    refine ⟨cd, h1, ?_⟩
    show HasText _ _ (partsOf .stored (ident bm.mod.name ++ ".h".toList) cd).text
    rw [← headerText_parts (by decide)]
    exact apply_get (c_noAppend _ _ _ _ _) (C27_c fuel p raw hg cfg out) fs
      (h2 _ (by rw [printed_c _ _ _ _ _ hn]; exact List.Mem.head _))
  | binary e =>
    obtain ⟨cd, h1, h2⟩ := run_module hr hb hm
    refine ⟨cd, h1, ?_⟩
    show HasText _ _ (partsOf .storedBinary (ident bm.mod.name ++ ".h".toList) cd).text
    rw [← headerText_parts (by decide)]
    exact apply_get (binary_noAppend _ _ _ _ _) (C27_binary fuel e raw hg cfg out) fs
      (h2 _ (by rw [printed_bin _ _ _ _ _ _ hn]; exact List.Mem.head _))

/-- The declarations of generate-c. -/
theorem predefs_objects {fuel : Nat} {p : Printer} {out : Text} {b : Bundle} {ds : List Def} {bm : BMod} {cd : CData}
    (h : moduleData fuel (cBackend p out b) ds bm = .ok cd) (hgd : ∀ d ∈ bm.mod.defs, GrammarDef d) :
    ∃ sorted : List Def, sortDefs fuel bm.mod = some sorted ∧ sorted.Perm bm.mod.defs ∧
      cd.predefs = (sorted.flatMap clausesOf).map fun x => ident x.1 ++ ' ' :: lowerFirst (ident x.1) ++ [';'] := by
  obtain ⟨sorted, hs, hp, ps, h1, cd1, hj, hcd, rfl⟩ := moduleData_ok h
  refine ⟨sorted, hs, hp, ?_⟩
  show cd1.predefs = _
  rw [hj.predefs]
  have hgs : ∀ d ∈ sorted, GrammarDef d := fun d hd => hgd d (hp.mem_iff.1 hd)
  clear hj hp hs hcd h
  show [] ++ _ = _
  rw [List.nil_append]
  induction h1 with
  | nil => rfl
  | @cons d p' sorted ps hd _ ih =>
    rw [List.flatMap_cons, List.flatMap_cons, List.map_append, ih (fun d hd => hgs d (by simp [hd])),
      defPart_predefs (hgs d (by simp)) hd]

end Apg
