import Verif.Lemmas.Symbols
import Verif.Lemmas.Examples
import Verif.Props.Files
import Verif.Props.MsgId

/-!
# Properties C25, C29 and C49: the headers of generate-cfs
-/

namespace Apg
open Spec

theorem mem_defs_of_module {b : Bundle} {m : Module} (hm : m ∈ b.modules) {d : Def} (hd : d ∈ m.defs) :
    d ∈ b.defs := by
  rw [← defsOf_eq]
  exact List.mem_flatMap.2 ⟨m, hm, hd⟩

/-- **C49 (files).** A successful run of generate-cfs writes exactly the files
`<module>_msg.h` and `<module>_msgids.h` of the modules named by --asn1-modules, each
once. -/
theorem C49_files (fuel : Nat) (p : Printer) (raw : List Module) (hg : ∀ m ∈ raw, GrammarModule m)
    (cfg : List String) (out : Text) (h : (runCfs fuel p raw cfg out).result = .ok ()) :
    ((runCfs fuel p raw cfg out).writes.map (·.1)).Perm
      (cfg.flatMap fun n => [inDir out (ident n ++ "_msg.h".toList),
        inDir out (ident n ++ "_msgids.h".toList)]) := by
  rcases run_writes fuel (cfsBackend p out) raw cfg out with ⟨_, hw⟩ | ⟨b, hb, done, cds, hi, hw, hr⟩
  · exact absurd h hw
  · obtain ⟨hp, _⟩ := hr h
    have hl : ∀ x ∈ done, isNameLower x.mod.name = true := fun x hx =>
      accepted_names hg (buildFromTexts_of_config hb) _ (List.mem_map.2 ⟨x, hi.sub _ hx, rfl⟩)
    rw [runCfs, hw, List.map_flatMap]
    have e1 : ∀ (l : List BMod) (cs : List CData), l.length = cs.length →
        (∀ x ∈ l, isNameLower x.mod.name = true) →
        (l.zip cs).flatMap (fun x => (printed ((cfsBackend p out b).print x.1.mod x.2)).map (·.1)) =
        (l.map (·.mod.name)).flatMap fun n => [inDir out (ident n ++ "_msg.h".toList),
          inDir out (ident n ++ "_msgids.h".toList)] := by
      intro l
      induction l with
      | nil => intro cs _ _; rfl
      | cons x l ih =>
        intro cs hlen hx
        cases cs with
        | nil => simp at hlen
        | cons c cs =>
          rw [List.zip_cons_cons, List.flatMap_cons, List.map_cons, List.flatMap_cons,
            ih cs (by simpa using hlen) (fun y hy => hx y (by simp [hy]))]
          simp only
          rw [printed_cfs _ _ _ _ _ (hx x (by simp))]
          rfl
    rw [e1 done cds hi.len.length_eq hl]
    have hperm : (done.map (·.mod.name)).Perm cfg := by
      have h1 := C12_modules_permutation raw cfg b hb
      obtain ⟨ms, q1, _, _, q4, _⟩ := buildFromConfig_ok.1 hb
      rw [← processModules_names q1, ← build_modules q4] at h1
      have h2 : (done.map (·.mod.name)).Perm (b.modules.map (·.name)) := by
        unfold Bundle.modules
        rw [List.map_map]
        exact hp.map _
      exact h2.trans h1.symm
    exact hperm.flatMap_right _

/-- Text of the comment at the top of a message id header. -/
def msgidsComment : Text := "\n/*\nThis file was autogenerated from ASN.1 model.\n*/\n\n".toList

theorem msgids_text (f : Text) (cd : CData) : headerText .msgids f cd =
    "#ifndef ".toList ++ guardSymbol f ++ "\n#define ".toList ++ guardSymbol f ++ "\n".toList ++
      msgidsComment ++ (cd.defines.map (· ++ ['\n'])).flatten ++
      (if cd.defines.map (· ++ ['\n']) = [] then [] else "\n".toList) ++
      "#endif // ".toList ++ guardSymbol f ++ "\n".toList := by
  have key : headerText .msgids f cd = guardOpen f ++ ['\n'] ++ fileHeader [] ++ ['\n'] ++
      (if cd.defines ≠ [] then cd.defines.flatMap (fun d => d ++ ['\n']) ++ ['\n'] else []) ++
      guardClose f := by
    unfold headerText
    have hp : ¬ (HeaderType.msgids = .stored ∧ cd.predefs ≠ []) := by simp
    rw [if_pos rfl, if_pos rfl, if_pos rfl, if_neg hp]
    simp only [true_and, List.append_nil]
  have hc : msgidsComment = ['\n'] ++ fileHeader [] ++ ['\n'] := by decide
  rw [key, hc]
  unfold guardOpen guardClose
  generalize guardSymbol _ = s
  generalize fileHeader _ = fh
  generalize "#ifndef ".toList = a
  generalize "\n#define ".toList = a'
  generalize "#endif // ".toList = a''
  have hnl : "\n".toList = ['\n'] := rfl
  rw [hnl, List.flatMap_def]
  by_cases hde : cd.defines = []
  · simp [hde]
  · simp [hde]

/-- The message id header of a module, with its definitions in the order of the other header. -/
theorem msgids_sorted (fuel : Nat) (p : Printer) (raw : List Module) (hg : ∀ m ∈ raw, GrammarModule m)
    (cfg : List String) (out : Text) (h : (runCfs fuel p raw cfg out).result = .ok ())
    (b : Bundle) (hb : buildFromConfig raw cfg = .ok b) (bm : BMod) (hbm : bm ∈ b.mods) (fs : Files) :
    ∃ (defs : List Def) (lines : List Text) (s : Text), sortDefs fuel bm.mod = some defs ∧ defs.Perm bm.mod.defs ∧
      All2 (DefineLine p) (defs.flatMap fixedOfDef) lines ∧ (∀ c ∈ s, c ≠ ' ' ∧ c ≠ '\n') ∧
      (runCfs fuel p raw cfg out).apply fs (inDir out (ident bm.mod.name ++ "_msgids.h".toList)) =
        some (textContent ("#ifndef ".toList ++ s ++ "\n#define ".toList ++ s ++ "\n".toList ++
          msgidsComment ++ lines.flatten ++ (if lines = [] then [] else "\n".toList) ++
          "#endif // ".toList ++ s ++ "\n".toList)) := by
  have hm : bm.mod ∈ b.modules := List.mem_map_of_mem hbm
  have hbt := buildFromTexts_of_config hb
  have hn := accepted_names hg hbt _ hm
  obtain ⟨cd, hcd, hw⟩ := run_module h hb hbm
  obtain ⟨defs, hs, hp, hl⟩ := cfs_module_defines
    (fun d hd => (accepted_grammar hg hbt d (mem_defs_of_module hm hd)).1) hcd
  rw [printed_cfs _ _ _ _ _ hn] at hw
  have hmem := hw _ (List.Mem.tail _ (List.Mem.head _))
  have h1 := apply_get (cfs_noAppend fuel p raw cfg out) (C27_cfs fuel p raw hg cfg out) fs hmem
  rw [msgids_text] at h1
  exact ⟨defs, _, _, hs, hp, hl, (guardSymbol_chars hn (x := "_msgids.h".toList)
    (List.Mem.tail _ (List.Mem.head _))).2, h1⟩

/-- **C49 (macros).** After a successful run of generate-cfs, the file `<module>_msgids.h` of
every module consists of the include guard, a fixed comment and one `#define` line for
each fixed value of the module's sequences. -/
theorem C49_defines (fuel : Nat) (p : Printer) (raw : List Module) (hg : ∀ m ∈ raw, GrammarModule m)
    (cfg : List String) (out : Text) (h : (runCfs fuel p raw cfg out).result = .ok ())
    (b : Bundle) (hb : buildFromConfig raw cfg = .ok b) (m : Module) (hm : m ∈ b.modules) (fs : Files) :
    ∃ (defs : List Def) (lines : List Text) (s : Text), defs.Perm m.defs ∧
      All2 (DefineLine p) (defs.flatMap fixedOfDef) lines ∧ (∀ c ∈ s, c ≠ ' ' ∧ c ≠ '\n') ∧
      (runCfs fuel p raw cfg out).apply fs (inDir out (ident m.name ++ "_msgids.h".toList)) =
        some (textContent ("#ifndef ".toList ++ s ++ "\n#define ".toList ++ s ++ "\n".toList ++
          msgidsComment ++ lines.flatten ++ (if lines = [] then [] else "\n".toList) ++
          "#endif // ".toList ++ s ++ "\n".toList)) := by
  obtain ⟨bm, hbm, rfl⟩ := List.mem_map.1 hm
  obtain ⟨defs, lines, s, _, h⟩ := msgids_sorted fuel p raw hg cfg out h b hb bm hbm fs
  exact ⟨defs, lines, s, h⟩

example : (runCfs 20 exPrinter exPackets ["geo", "base"] exOut).result = .ok () ∧
    exPackets.flatMap (fun m => m.defs.flatMap fixedOfDef) ≠ [] := by
  constructor
  · decide +kernel
  · simp [exPackets, fixedOfDef, fixedOfMember, fixedOf]

/-! ### C29 -/

theorem macros_msgids {p : Printer} (hp : Faithful p) {xs : List (String × Fixed)} {ls : List Text}
    (h : All2 (DefineLine p) xs ls) (hx : ∀ x ∈ xs, GoodFixed x) {s : Text}
    (hs : ∀ c ∈ s, c ≠ ' ' ∧ c ≠ '\n') :
    All2 (MacroOf p) xs
      (definedMacros ("#ifndef ".toList ++ s ++ "\n#define ".toList ++ s ++ "\n".toList ++
        msgidsComment ++ ls.flatten ++ (if ls = [] then [] else "\n".toList) ++
        "#endif // ".toList ++ s ++ "\n".toList)) := by
  obtain ⟨ys, hys, hfl⟩ := macros_defineLines hp h hx
  have hs1 : ' ' ∉ s := fun hc => (hs _ hc).1 rfl
  have hs2 : '\n' ∉ s := fun hc => (hs _ hc).2 rfl
  have a1 : definedMacros ("#ifndef ".toList ++ s) = [] := by
    rw [definedMacros_line, lineMacro_other (isPrefixOf_ne _ (by decide) (by decide))]
    · rfl
    · rw [List.mem_append, not_or]; exact ⟨by decide, hs2⟩
  have a2 : definedMacros ("#define ".toList ++ s) = [] := by
    rw [definedMacros_line, lineMacro_guard hs1]
    · rfl
    · rw [List.mem_append, not_or]; exact ⟨by decide, hs2⟩
  have a3 : definedMacros ("#endif // ".toList ++ s) = [] := by
    have : "#endif // ".toList = "#endif".toList ++ " // ".toList := by decide
    rw [this, List.append_assoc, definedMacros_line,
      lineMacro_other (isPrefixOf_ne _ (by decide) (by decide))]
    · rfl
    · simp only [List.mem_append, not_or]; exact ⟨by decide, by decide, hs2⟩
  obtain ⟨c0, hc0, a4⟩ : ∃ c0, msgidsComment = c0 ++ ['\n'] ∧ definedMacros c0 = [] :=
    ⟨msgidsComment.dropLast, by decide, by decide⟩
  have e1 : "\n#define ".toList = '\n' :: "#define ".toList := by decide
  have e2 : "\n".toList = ['\n'] := rfl
  rw [e1, e2, hc0]
  revert a1 a2 a3
  generalize "#ifndef ".toList = x1
  generalize "#define ".toList = x2
  generalize "#endif // ".toList = x3
  intro a1 a2 a3
  have key : ∀ q, (q = [] ∨ q = ['\n']) →
      definedMacros (x1 ++ s ++ '\n' :: x2 ++ s ++ ['\n'] ++ (c0 ++ ['\n']) ++ ls.flatten ++ q ++ x3 ++ s ++
        ['\n']) = ys := by
    intro q hq
    have hl : x1 ++ s ++ '\n' :: x2 ++ s ++ ['\n'] ++ (c0 ++ ['\n']) ++ ls.flatten ++ q ++ x3 ++ s ++ ['\n'] =
        (x1 ++ s) ++ '\n' :: ((x2 ++ s) ++ '\n' :: (c0 ++ '\n' :: (ls.flatten ++ (q ++ (x3 ++ s) ++ '\n' :: [])))) := by
      simp
    rw [hl, definedMacros_append, definedMacros_append, definedMacros_append,
      hfl, a1, a2, a4]
    have : definedMacros (q ++ (x3 ++ s) ++ '\n' :: []) = [] := by
      rw [definedMacros_append]
      rcases hq with rfl | rfl
      · rw [List.nil_append, a3]; rfl
      · rw [List.singleton_append, definedMacros_cons_newline, a3]; rfl
    rw [this]
    simp
  rw [key]
  · exact hys
  · split
    · exact Or.inl rfl
    · exact Or.inr rfl

theorem fixedOf_good : ∀ {c : Comps}, GrammarComps c → ∀ f ∈ fixedOf c, isNameLower f.key = true := by
  intro c
  induction c with
  | nil => intro _ f hf; cases hf
  | leaf k v r ih =>
    intro h f hf
    simp only [GrammarComps] at h
    simp only [fixedOf, List.mem_cons] at hf
    rcases hf with rfl | hf
    · exact h.1
    · exact ih h.2 f hf
  | node k c r ih1 ih2 =>
    intro h f hf
    simp only [GrammarComps] at h
    simp only [fixedOf, List.mem_append] at hf
    rcases hf with hf | hf
    · split at hf
      · simp only [List.mem_singleton] at hf
        subst hf
        show isNameLower "mid" = true
        decide +kernel
      · exact ih1 h.2.1.2 f hf
    · exact ih2 h.2.2 f hf

theorem fixedOfDef_good {d : Def} (h : GrammarDef d) : ∀ x ∈ fixedOfDef d, x.1 = d.name ∧ GoodFixed x := by
  intro x hx
  cases d with
  | seq n c ms =>
    simp only [fixedOfDef, List.mem_flatMap, List.mem_map] at hx
    obtain ⟨m, hm, f, hf, rfl⟩ := hx
    refine ⟨rfl, h.1, ?_⟩
    unfold fixedOfMember at hf
    split at hf
    · cases hf
    · rename_i cs hcs
      exact fixedOf_good ((h.2.2 m hm).2.2 cs hcs).2 f hf
  | choice n c ms => cases hx
  | enum n c its => cases hx
  | simple n c t => cases hx

theorem textContent_chars (t : Text) : (textContent t).filterMap (fun x => x.getLeft?) = t := by
  unfold textContent
  rw [List.filterMap_map]
  exact List.filterMap_some

/-- The macros defined in the message id headers are those of the fixed values, in the order of the other header. -/
theorem msgids_macros_sorted (fuel : Nat) (p : Printer) (hp : Faithful p) (raw : List Module)
    (hg : ∀ m ∈ raw, GrammarModule m) (cfg : List String) (out : Text)
    (h : (runCfs fuel p raw cfg out).result = .ok ()) (b : Bundle) (hb : buildFromConfig raw cfg = .ok b)
    (bm : BMod) (hbm : bm ∈ b.mods) (fs : Files) :
    ∃ defs : List Def, sortDefs fuel bm.mod = some defs ∧ defs.Perm bm.mod.defs ∧
      All2 (MacroOf p) (defs.flatMap fixedOfDef)
        (macrosIn ((runCfs fuel p raw cfg out).apply fs) (inDir out (ident bm.mod.name ++ "_msgids.h".toList))) := by
  obtain ⟨defs, lines, s, hs, h1, h2, h3, h4⟩ := msgids_sorted fuel p raw hg cfg out h b hb bm hbm fs
  have hgood : ∀ x ∈ defs.flatMap fixedOfDef, GoodFixed x := by
    intro x hx
    obtain ⟨d, hd, hxd⟩ := List.mem_flatMap.1 hx
    exact (fixedOfDef_good (accepted_grammar hg (buildFromTexts_of_config hb) d
      (mem_defs_of_module (List.mem_map_of_mem hbm) (h1.mem_iff.1 hd))).1 x hxd).2
  refine ⟨defs, hs, h1, ?_⟩
  unfold macrosIn
  rw [h4]
  simp only [textContent_chars]
  exact macros_msgids hp h2 hgood h3

/-- The macros defined in the message id headers are those of the fixed values. -/
theorem msgids_macros (fuel : Nat) (p : Printer) (hp : Faithful p) (raw : List Module)
    (hg : ∀ m ∈ raw, GrammarModule m) (cfg : List String) (out : Text)
    (h : (runCfs fuel p raw cfg out).result = .ok ()) (b : Bundle) (hb : buildFromConfig raw cfg = .ok b)
    (m : Module) (hm : m ∈ b.modules) (fs : Files) :
    ∃ defs : List Def, defs.Perm m.defs ∧ All2 (MacroOf p) (defs.flatMap fixedOfDef)
      (macrosIn ((runCfs fuel p raw cfg out).apply fs)
        (inDir out (ident m.name ++ "_msgids.h".toList))) := by
  obtain ⟨bm, hbm, rfl⟩ := List.mem_map.1 hm
  obtain ⟨defs, _, h⟩ := msgids_macros_sorted fuel p hp raw hg cfg out h b hb bm hbm fs
  exact ⟨defs, h⟩

/-- The macros defined in the message id headers written by generate-cfs. -/
def cfsMacros (fuel : Nat) (p : Printer) (raw : List Module) (cfg : List String) (out : Text)
    (b : Bundle) (fs : Files) : List (Text × Text) :=
  b.modules.flatMap fun m =>
    macrosIn ((runCfs fuel p raw cfg out).apply fs) (inDir out (ident m.name ++ "_msgids.h".toList))

/-- The full statement of C29: no macro is defined twice. -/
def C29_full : Prop :=
  ∀ (fuel : Nat) (p : Printer), Faithful p → ∀ (raw : List Module), (∀ m ∈ raw, GrammarModule m) →
    ∀ (cfg : List String) (out : Text), (runCfs fuel p raw cfg out).result = .ok () →
    ∀ (b : Bundle), buildFromConfig raw cfg = .ok b → ∀ fs : Files,
      ((cfsMacros fuel p raw cfg out b fs).map (·.1)).Nodup

theorem perm_flatMap {α β} {f g : α → List β} : ∀ {l : List α}, (∀ a ∈ l, (f a).Perm (g a)) →
    (l.flatMap f).Perm (l.flatMap g)
  | [], _ => .refl _
  | a :: l, h => by
    simp only [List.flatMap_cons]
    exact (h a (by simp)).append (perm_flatMap (fun b hb => h b (by simp [hb])))

/-- **C29 (exact).** No macro is defined twice iff the names `Sequence-key` of the fixed
values are pairwise different, the key of a primary header being `mid`. -/
theorem C29_distinct_iff_partial (fuel : Nat) (p : Printer) (hp : Faithful p) (raw : List Module)
    (hg : ∀ m ∈ raw, GrammarModule m) (cfg : List String) (out : Text)
    (h : (runCfs fuel p raw cfg out).result = .ok ()) (b : Bundle) (hb : buildFromConfig raw cfg = .ok b)
    (fs : Files) :
    ((cfsMacros fuel p raw cfg out b fs).map (·.1)).Nodup ↔
      ((b.defs.flatMap fixedOfDef).map fun x => x.1 ++ "-" ++ x.2.key).Nodup := by
  have h1 : ((cfsMacros fuel p raw cfg out b fs).map (·.1)).Perm
      ((b.defs.flatMap fixedOfDef).map fun x => macroName x.1 x.2) := by
    rw [← defsOf_eq]
    unfold cfsMacros defsOf
    rw [List.flatMap_assoc, List.map_flatMap, List.map_flatMap]
    refine perm_flatMap ?_
    intro m hm
    obtain ⟨defs, h1, h2⟩ := msgids_macros fuel p hp raw hg cfg out h b hb m hm fs
    have h3 := all2_map_eq h2 (f := fun x => macroName x.1 x.2) (g := (·.1)) (fun x y hxy => hxy.1)
    rw [h3]
    exact (h1.flatMap_right _).map _
  rw [h1.nodup_iff]
  have hgood : ∀ x ∈ b.defs.flatMap fixedOfDef, GoodFixed x := by
    intro x hx
    obtain ⟨d, hd, hxd⟩ := List.mem_flatMap.1 hx
    exact (fixedOfDef_good (accepted_grammar hg (buildFromTexts_of_config hb) d hd).1 x hxd).2
  unfold List.Nodup
  rw [List.pairwise_map, List.pairwise_map]
  constructor
  · exact List.Pairwise.imp_of_mem fun {x y} hx hy hne he =>
      hne ((macroName_inj (hgood x hx) (hgood y hy)).2 he)
  · exact List.Pairwise.imp_of_mem fun {x y} hx hy hne he =>
      hne ((macroName_inj (hgood x hx) (hgood y hy)).1 he)

/-- Two sequences whose macros coincide: both define `FOO_BAR_BAZ`. -/
def exClash : List Module :=
  [{ name := "base", defs := [
      .simple "Uint8-t" none (.plain "INTEGER" (some (.int 0)) (some (.int 255))),
      .seq "Point" none [⟨"baz", .plain "Uint8-t" none none, none, none⟩,
        ⟨"bar-baz", .plain "Uint8-t" none none, none, none⟩],
      .seq "Foo" none [⟨"at", .plain "Point" none none, none, some (.leaf "bar-baz" (.int 1) .nil)⟩],
      .seq "Foo-bar" none [⟨"at", .plain "Point" none none, none, some (.leaf "baz" (.int 2) .nil)⟩]] }]

/-- It fails: names of sequences and members are joined with the character that also stands
for `-` within them. -/
theorem C29_full_false : ¬ C29_full := by
  intro h
  have hg : ∀ m ∈ exClash, GrammarModule m := grammarB_sound (by decide +kernel)
  have hr : (runCfs 20 exPrinter exClash ["base"] exOut).result = .ok () := by decide +kernel
  have hb := okBundle_eq (x := buildFromConfig exClash ["base"]) (by decide +kernel)
  have h1 := h 20 exPrinter exPrinter_faithful exClash hg ["base"] exOut hr _ hb (fun _ => none)
  rw [C29_distinct_iff_partial 20 exPrinter exPrinter_faithful exClash hg ["base"] exOut hr _ hb] at h1
  revert h1
  decide +kernel

/-- **C29**, for sequences without `-` in their names that fix each key once (and no key
`mid` beside a primary header). -/
theorem C29_distinct_partial (fuel : Nat) (p : Printer) (hp : Faithful p) (raw : List Module)
    (hg : ∀ m ∈ raw, GrammarModule m) (cfg : List String) (out : Text)
    (h : (runCfs fuel p raw cfg out).result = .ok ()) (b : Bundle) (hb : buildFromConfig raw cfg = .ok b)
    (hname : ∀ d ∈ b.defs, fixedOfDef d ≠ [] → '-' ∉ d.name.toList)
    (hkey : ∀ d ∈ b.defs, ((fixedOfDef d).map (·.2.key)).Nodup) (fs : Files) :
    ((cfsMacros fuel p raw cfg out b fs).map (·.1)).Nodup := by
  rw [C29_distinct_iff_partial fuel p hp raw hg cfg out h b hb fs]
  have hbt := buildFromTexts_of_config hb
  have hgd := accepted_grammar hg hbt
  have hnd : (b.defs.map Def.name).Nodup := accepted_nodup hbt
  unfold List.Nodup
  rw [List.pairwise_map, List.pairwise_flatMap]
  have hsplit : ∀ {n n' k k' : String}, '-' ∉ n.toList → '-' ∉ n'.toList →
      n ++ "-" ++ k = n' ++ "-" ++ k' → n = n' ∧ k = k' := by
    intro n n' k k' h1 h2 he
    have he := congrArg String.toList he
    simp only [String.toList_append] at he
    have e : "-".toList = ['-'] := rfl
    rw [e, List.append_assoc, List.append_assoc] at he
    obtain ⟨a, b⟩ := split_unique h1 h2 he
    exact ⟨String.toList_injective a, String.toList_injective b⟩
  constructor
  · intro d hd
    have h1 := hkey d hd
    unfold List.Nodup at h1
    rw [List.pairwise_map] at h1
    refine h1.imp_of_mem ?_
    intro x y hx hy hne he
    have hn := hname d hd (List.ne_nil_of_mem hx)
    have hx1 := (fixedOfDef_good (hgd d hd).1 x hx).1
    have hy1 := (fixedOfDef_good (hgd d hd).1 y hy).1
    rw [hx1, hy1] at he
    exact hne (hsplit hn hn he).2
  · unfold List.Nodup at hnd
    rw [List.pairwise_map] at hnd
    refine hnd.imp_of_mem ?_
    intro d d' hd hd' hne x hx y hy he
    have hn := hname d hd (List.ne_nil_of_mem hx)
    have hn' := hname d' hd' (List.ne_nil_of_mem hy)
    have hx1 := (fixedOfDef_good (hgd d hd).1 x hx).1
    have hy1 := (fixedOfDef_good (hgd d' hd').1 y hy).1
    rw [hx1, hy1] at he
    exact hne (hsplit hn hn' he).1

/-- The hypotheses hold for the example packets. -/
example : ∃ b, buildFromConfig exPackets ["geo", "base"] = .ok b ∧
    (∀ d ∈ b.defs, fixedOfDef d ≠ [] → '-' ∉ d.name.toList) ∧
    (∀ d ∈ b.defs, ((fixedOfDef d).map (·.2.key)).Nodup) ∧
    cfsMacros 20 exPrinter exPackets ["geo", "base"] exOut b (fun _ => none) =
      [("HOME_LAT".toList, "(7)".toList), ("AWAY_X".toList, "(9)".toList)] :=
  ⟨_, okBundle_eq (by decide +kernel), by decide +kernel, by decide +kernel, by decide +kernel⟩

/-! ### C25 -/

/-- The full statement of C25: packets with fixed primary headers have different message
ids. -/
def C25_full : Prop :=
  ∀ (fuel : Nat) (p : Printer), Faithful p → ∀ (raw : List Module), (∀ m ∈ raw, GrammarModule m) →
    ∀ (cfg : List String) (out : Text), (runCfs fuel p raw cfg out).result = .ok () →
    ∀ (b : Bundle), buildFromConfig raw cfg = .ok b → ∀ (fs : Files) (n n' : String) (c c' : Comps),
      (n, Fixed.header c) ∈ b.defs.flatMap fixedOfDef →
      (n', Fixed.header c') ∈ b.defs.flatMap fixedOfDef → n ≠ n' →
      ∃ v v', (macroName n (.header c), v) ∈ cfsMacros fuel p raw cfg out b fs ∧
        (macroName n' (.header c'), v') ∈ cfsMacros fuel p raw cfg out b fs ∧ v ≠ v'

/-- A packet with a fixed primary header. -/
def exPacket (name : String) (version type flag apid : Nat) : Def :=
  .seq name none [⟨"header", .plain "Ccsds-header" none none, none, some
    (.node "primary" (.node "packet-identification"
      (.leaf "packet-version-number" (.int version) (.leaf "packet-type-is-cmd" (.int type)
        (.leaf "sec-hdr-flag-is-present" (.int flag)
          (.leaf "application-process-identifier" (.int apid) .nil)))) .nil) .nil)⟩]

/-- A module with two packets. -/
def exCcsds (apid apid' : Nat) : List Module :=
  [{ name := "base", defs := [
      .seq "Packet-id" none [
        ⟨"packet-version-number", .plain "INTEGER" (some (.int 0)) (some (.int 7)), none, none⟩,
        ⟨"packet-type-is-cmd", .plain "INTEGER" (some (.int 0)) (some (.int 1)), none, none⟩,
        ⟨"sec-hdr-flag-is-present", .plain "INTEGER" (some (.int 0)) (some (.int 1)), none, none⟩,
        ⟨"application-process-identifier", .plain "INTEGER" (some (.int 0)) (some (.int 2047)), none, none⟩],
      .seq "Ccsds-primary" none [⟨"packet-identification", .plain "Packet-id" none none, none, none⟩],
      .seq "Ccsds-header" none [⟨"primary", .plain "Ccsds-primary" none none, none, none⟩],
      exPacket "Ping" 0 1 1 apid, exPacket "Pong" 0 1 1 apid'] }]

/-- It fails: nothing compares the packets of a bundle. -/
theorem C25_full_false : ¬ C25_full := by
  intro h
  have hg : ∀ m ∈ exCcsds 5 5, GrammarModule m := grammarB_sound (by decide +kernel)
  have hr : (runCfs 40 exPrinter (exCcsds 5 5) ["base"] exOut).result = .ok () := by decide +kernel
  have hb := okBundle_eq (x := buildFromConfig (exCcsds 5 5) ["base"]) (by decide +kernel)
  have hd : ∀ n, exPacket n 0 1 1 5 ∈ (okBundle (buildFromConfig (exCcsds 5 5) ["base"])).defs →
      ∃ c, (n, Fixed.header c) ∈
        (okBundle (buildFromConfig (exCcsds 5 5) ["base"])).defs.flatMap fixedOfDef := by
    intro n hn
    exact ⟨_, List.mem_flatMap.2 ⟨_, hn, List.Mem.head _⟩⟩
  obtain ⟨c, hc⟩ := hd "Ping" (by decide +kernel)
  obtain ⟨c', hc'⟩ := hd "Pong" (by decide +kernel)
  obtain ⟨v, v', h1, h2, h3⟩ := h 40 exPrinter exPrinter_faithful (exCcsds 5 5) hg ["base"] exOut hr _ hb
    (fun _ => none) "Ping" "Pong" c c' hc hc' (by decide)
  have hm : cfsMacros 40 exPrinter (exCcsds 5 5) ["base"] exOut
      (okBundle (buildFromConfig (exCcsds 5 5) ["base"])) (fun _ => none) =
      [("PING_MID".toList, "(0x1805)".toList), ("PONG_MID".toList, "(0x1805)".toList)] := by
    decide +kernel
  rw [hm] at h1 h2
  have hv : ∀ s v, (s, v) ∈ [("PING_MID".toList, "(0x1805)".toList), ("PONG_MID".toList, "(0x1805)".toList)] →
      v = "(0x1805)".toList := by
    intro s v h
    rw [List.mem_cons, List.mem_singleton] at h
    rcases h with h | h <;> exact congrArg Prod.snd h
  exact h3 ((hv _ _ h1).trans (hv _ _ h2).symm)

/-- **C25**, as far as it holds: the message ids printed for two packets with in-range
primary headers are the numbers of their headers, hence equal only if all fields are equal. -/
theorem C25_packet_numbers_partial (fuel : Nat) (p : Printer) (hp : Faithful p) (raw : List Module)
    (hg : ∀ m ∈ raw, GrammarModule m) (cfg : List String) (out : Text)
    (h : (runCfs fuel p raw cfg out).result = .ok ()) (b : Bundle) (hb : buildFromConfig raw cfg = .ok b)
    (fs : Files) (n n' : String) (parts parts' : List (List (String × Leaf)))
    (ver ver' ty ty' fl fl' ap ap' : Nat)
    (hc : (n, Fixed.header (headerComps parts)) ∈ b.defs.flatMap fixedOfDef)
    (hc' : (n', Fixed.header (headerComps parts')) ∈ b.defs.flatMap fixedOfDef)
    (hf : FixesHeader parts ver ty fl ap) (hf' : FixesHeader parts' ver' ty' fl' ap')
    (r : ty < 2 ∧ fl < 2 ∧ ap < 2048) (r' : ty' < 2 ∧ fl' < 2 ∧ ap' < 2048) :
    ∃ d d', (raise (ident n) ++ "_MID".toList, "(0x".toList ++ d ++ [')']) ∈
        cfsMacros fuel p raw cfg out b fs ∧
      (raise (ident n') ++ "_MID".toList, "(0x".toList ++ d' ++ [')']) ∈
        cfsMacros fuel p raw cfg out b fs ∧
      readNat 16 d = some (ver * 2 ^ 13 + ty * 2 ^ 12 + fl * 2 ^ 11 + ap) ∧
      readNat 16 d' = some (ver' * 2 ^ 13 + ty' * 2 ^ 12 + fl' * 2 ^ 11 + ap') ∧
      (d = d' → ver = ver' ∧ ty = ty' ∧ fl = fl' ∧ ap = ap') := by
  have key : ∀ (n : String) (parts : List (List (String × Leaf))) (ver ty fl ap : Nat),
      (n, Fixed.header (headerComps parts)) ∈ b.defs.flatMap fixedOfDef →
      FixesHeader parts ver ty fl ap → (ty < 2 ∧ fl < 2 ∧ ap < 2048) →
      ∃ d, (raise (ident n) ++ "_MID".toList, "(0x".toList ++ d ++ [')']) ∈
          cfsMacros fuel p raw cfg out b fs ∧
        readNat 16 d = some (ver * 2 ^ 13 + ty * 2 ^ 12 + fl * 2 ^ 11 + ap) := by
    intro n parts ver ty fl ap hc hf r
    obtain ⟨d, hd, hx⟩ := List.mem_flatMap.1 hc
    rw [← defsOf_eq] at hd
    obtain ⟨m, hm, hdm⟩ := List.mem_flatMap.1 hd
    obtain ⟨defs, hpd, hall⟩ := msgids_macros fuel p hp raw hg cfg out h b hb m hm fs
    obtain ⟨y, hy, hmac⟩ := all2_mem_left hall (List.mem_flatMap.2 ⟨d, hpd.mem_iff.2 hdm, hx⟩)
    obtain ⟨h1, t, h2, id, hs, h3, h4, h5, _⟩ := hmac
    have k1 := msgId_or hf
    rw [header_sum r.1 r.2.1 (by omega)] at k1
    rw [k1] at h3
    have h6 := h5 _ (Except.ok.inj h3).symm
    refine ⟨hs, List.mem_flatMap.2 ⟨m, hm, ?_⟩, h6⟩
    have e : "(0x".toList = '(' :: "0x".toList := by decide
    have : y = (raise (ident n) ++ "_MID".toList, "(0x".toList ++ hs ++ [')']) := by
      rw [e, ← Prod.eta y, h1, h2, h4]
      rfl
    rw [← this]
    exact hy
  obtain ⟨d, h1, h2⟩ := key n parts ver ty fl ap hc hf r
  obtain ⟨d', h1', h2'⟩ := key n' parts' ver' ty' fl' ap' hc' hf' r'
  refine ⟨d, d', h1, h1', h2, h2', ?_⟩
  rintro rfl
  rw [h2] at h2'
  have he := Option.some.inj h2'
  obtain ⟨a2, a3, a4⟩ := r
  obtain ⟨b2, b3, b4⟩ := r'
  have ha : ap = ap' := by omega
  have hfl : fl = fl' := by omega
  have hty : ty = ty' := by omega
  exact ⟨by omega, hty, hfl, ha⟩

example : cfsMacros 40 exPrinter (exCcsds 5 9) ["base"] exOut
    (okBundle (buildFromConfig (exCcsds 5 9) ["base"])) (fun _ => none) =
    [("PING_MID".toList, "(0x1805)".toList), ("PONG_MID".toList, "(0x1809)".toList)] := by
  decide +kernel

end Apg
