import Verif.Lemmas.LocalRun
import Verif.Props.Unfixed
import Verif.Props.Binary
import Verif.Props.Added

/-!
# C84: a change reaches only what depends on it
-/

namespace Apg
open Spec

/-- **C84, headers.** Two runs on different inputs, perhaps of different commands, write the same text for a definition
that both have, wherever it is, if the types of its members mean the same. What these types contain does not matter,
and neither do other definitions. -/
theorem C84_header (cmd cmd' : Command) (fuel fuel' : Nat) (raw raw' : List Module) (cfg cfg' : List String)
    (out out' : Text) (b b' : Bundle) (fs fs' : Files) (hi : Input raw cfg b) (hi' : Input raw' cfg' b')
    (hr : (cmd.run fuel raw cfg out).result = .ok ()) (hr' : (cmd'.run fuel' raw' cfg' out').result = .ok ())
    (m m' : Module) (hm : m ∈ b.modules) (hm' : m' ∈ b'.modules) (d : Def) (hd : d ∈ m.defs) (hd' : d ∈ m'.defs)
    (hs : ∀ n c ms, d = .seq n c ms → ∀ k ∈ ms, SameMeaning b.defs b'.defs k.type.name) :
    ∃ ts, Block (fun _ _ _ => True) (fun t => (dims t).take 1) d ts ∧ ∃ h h' : HeaderParts,
      HasText ((cmd.run fuel raw cfg out).apply fs) (cmd.path out m.name) h.text ∧
      HasText ((cmd'.run fuel' raw' cfg' out').apply fs') (cmd'.path out' m'.name) h'.text ∧
      (∃ l r, h.blocks = l ++ ts ++ r) ∧ ∃ l r, h'.blocks = l ++ ts ++ r := by
  obtain ⟨bm, hbm, rfl⟩ := List.mem_map.1 hm
  obtain ⟨bm', hbm', rfl⟩ := List.mem_map.1 hm'
  obtain ⟨cd, k1, k2⟩ := header_parts hi.grammar hi.accepted hr hbm fs
  obtain ⟨cd', k1', k2'⟩ := header_parts hi'.grammar hi'.accepted hr' hbm' fs'
  obtain ⟨p, l, r, p1, p2⟩ := moduleData_at k1 hd
  obtain ⟨p', l', r', p1', p2'⟩ := moduleData_at k1' hd'
  have hbt := buildFromTexts_of_config hi.accepted
  have hg := (accepted_grammar hi.grammar hbt d (mem_defs_of_module hm hd)).1
  have hc := (accepted_comments hi.comments hbt bm.mod hm).2 d hd
  have hq := command_quiet cmd fuel out b
  have he := defPart_local hq (command_quiet cmd' fuel' out' b') (fun n c ms hdn k hk =>
    field_local hi hi' hbm hbm' hd hd' (by subst hdn; exact hk) (by subst hdn; exact hk) (hs n c ms hdn k hk)) p1 p1'
  refine ⟨p.data, block_mono (fun _ _ _ _ _ => trivial) (defPart_block hq p1 hg hc).1, _, _, k2, k2', ⟨l, r, p2⟩, l', r', ?_⟩
  rw [he]
  exact p2'

/-- **C84, binary files.** The binary file of a sequence depends only on the sequence and on the definitions that it
uses, directly or through others. -/
theorem C84_binary (fuel fuel' : Nat) (e : Option Endian) (raw raw' : List Module) (cfg cfg' : List String)
    (out out' : Text) (b b' : Bundle) (fs fs' : Files) (hi : Input raw cfg b) (hi' : Input raw' cfg' b')
    (hr : (runBinary fuel e raw cfg out).result = .ok ()) (hr' : (runBinary fuel' e raw' cfg' out').result = .ok ())
    (d : Def) (hd : d ∈ b.defs) (hs : ∀ f, Reaches b.defs d f → f ∈ b'.defs) (hf : fixedMembers d ≠ []) :
    ∃ bytes, HasBytes ((runBinary fuel e raw cfg out).apply fs) (binPath out d) bytes ∧
      HasBytes ((runBinary fuel' e raw' cfg' out').apply fs') (binPath out' d) bytes := by
  obtain ⟨x, blocks, h1, ⟨bm, hbm, _, h2⟩, h3⟩ := bin_clause hi.grammar hi.accepted hr hd hf fs
  obtain ⟨x', blocks', h1', ⟨bm', hbm', _, h2'⟩, h3'⟩ := bin_clause hi'.grammar hi'.accepted hr' (hs d .refl) hf fs'
  rw [h1] at h1'
  cases h1'
  have := clauseBytes_local hi hi' ⟨hd, hs⟩ hbm hbm' (fixedMembers_mem (List.mem_of_getLast? h1)) h2 h2'
  subst this
  exact ⟨_, h3, h3'⟩

/-- **C84, COSMOS files.** The description of messages depends only on their definitions and on the definitions that
these use, directly or through others. -/
theorem C84_cosmos (fuel fuel' : Nat) (p : Printer) (raw raw' : List Module) (b b' : Bundle) (module module' : String)
    (messages : List String) (target out : Text) (hb : buildFromTexts raw = .ok b) (hb' : buildFromTexts raw' = .ok b')
    (h : (runCosmos fuel p raw module messages target out).result = .ok ())
    (h' : (runCosmos fuel' p raw' module' messages target out).result = .ok ())
    (hs : ∀ d ∈ b.defs, d.name ∈ messages → ∀ f, Reaches b.defs d f → f ∈ b'.defs) (fs : Files) :
    (runCosmos fuel' p raw' module' messages target out).apply fs =
      (runCosmos fuel p raw module messages target out).apply fs := by
  classical
  unfold runCosmos at h h' ⊢
  rw [hb] at h ⊢
  rw [hb'] at h' ⊢
  simp only at h h' ⊢
  have hL : ∀ f, f ∈ b.defs.filter (fun f => decide (∃ d ∈ b.defs, d.name ∈ messages ∧ Reaches b.defs d f)) ↔
      f ∈ b.defs ∧ ∃ d ∈ b.defs, d.name ∈ messages ∧ Reaches b.defs d f := by
    intro f
    rw [List.mem_filter, decide_eq_true_iff]
  rw [cosmos_local (accepted_nodup hb')
    (b.defs.filter (fun f => decide (∃ d ∈ b.defs, d.name ∈ messages ∧ Reaches b.defs d f))) ?_ ?_ (accepted_nodup hb) fuel fuel' p module module' messages ?_ target out h h']
  · intro f hf
    obtain ⟨h1, d, hd, hn, hr⟩ := (hL f).1 hf
    exact ⟨h1, hs d hd hn f hr⟩
  · intro f hf k hk g hg hgn
    obtain ⟨h1, d, hd, hn, hr⟩ := (hL f).1 hf
    exact (hL g).2 ⟨hg, d, hd, hn, .step hr hk hg ((usesName_iff _ _).2 hgn.symm)⟩
  · intro d hd hn
    exact (hL d).2 ⟨hd, d, hd, hn, .refl⟩

/-! ### Examples -/

def exWholeDef : Def := .seq "Whole" none [
  ⟨"tag", .plain "Tag" none none, none, some (.leaf "application-process-identifier" (.int 7) .nil)⟩,
  ⟨"mode", .plain "Mode" none none, none, none⟩, ⟨"part", .arr (.plain "Part" none none) 3, none, none⟩]

def exTagDef : Def := .seq "Tag" none [⟨"application-process-identifier", intType 0 255, none, none⟩,
  ⟨"level", intType 0 255, none, none⟩]

def exHere : List Module := [{ name := "m", defs := [
  .enum "Mode" none [⟨"off", 0, none⟩, ⟨"on", 1, none⟩, ⟨"safe", 2, none⟩], exTagDef,
  .simple "Part" none (intType 0 255), .seq "Rest" none [⟨"x", intType 0 7, none, none⟩], exWholeDef] }]

/-- Other names of modes, another content of the tag, another rest, and the packet in another module. -/
def exThere : List Module := [
  { name := "base", defs := [.seq "Tag" none [⟨"application-process-identifier", .plain "BOOLEAN" none none, none, none⟩],
    .enum "Mode" none [⟨"red", 0, none⟩, ⟨"green", 1, none⟩, ⟨"blue", 2, none⟩]] },
  { name := "top", imports := [⟨["Tag", "Mode"], "base"⟩], defs := [exWholeDef,
    .simple "Part" (some ⟨"A part", "", false⟩) (intType 0 255), .seq "Rest" none [⟨"y", .plain "BOOLEAN" none none, none, none⟩]] }]

theorem exHere_input : Input exHere ["m"] (okBundle (buildFromConfig exHere ["m"])) :=
  input_of (by decide +kernel) (by decide +kernel) (by decide +kernel)
theorem exThere_input : Input exThere ["base", "top"] (okBundle (buildFromConfig exThere ["base", "top"])) :=
  input_of (by decide +kernel) (by decide +kernel) (by decide +kernel)

theorem exHere_defs : (okBundle (buildFromConfig exHere ["m"])).defs = defsOf exHere := by decide +kernel
theorem exThere_defs : (okBundle (buildFromConfig exThere ["base", "top"])).defs = defsOf exThere := by decide +kernel

theorem three_items (a b c : String) (x y z : Option Comment) : LeastForItems 2 [⟨a, 0, x⟩, ⟨b, 1, y⟩, ⟨c, 2, z⟩] := by
  constructor
  · intro it hit
    simp only [List.mem_cons, List.not_mem_nil, or_false] at hit
    rcases hit with rfl | rfl | rfl <;> exact ⟨by dsimp only; decide, by dsimp only; decide⟩
  · intro w' h
    have := (h ⟨c, 2, z⟩ (by simp)).2
    match w' with
    | 0 => simp at this
    | 1 => simp at this
    | _ + 2 => omega

/-- The struct of the packet is the same in both headers. -/
example : ∃ ts, Block (fun _ _ _ => True) (fun t => (dims t).take 1) exWholeDef ts ∧ ∃ h h' : HeaderParts,
    HasText (((Command.c exPrinter).run 20 exHere ["m"] exOut).apply fun _ => none) "gen/m.h".toList h.text ∧
    HasText (((Command.cfs exPrinter).run 20 exThere ["base", "top"] exOut).apply fun _ => none) "gen/top_msg.h".toList h'.text ∧
    (∃ l r, h.blocks = l ++ ts ++ r) ∧ ∃ l r, h'.blocks = l ++ ts ++ r := by
  obtain ⟨m, hm, hd⟩ : ∃ m ∈ (okBundle (buildFromConfig exHere ["m"])).modules, m.name = "m" ∧ exWholeDef ∈ m.defs :=
    ⟨_, List.mem_of_getElem? (i := 0) rfl, by decide +kernel, by decide +kernel⟩
  obtain ⟨m', hm', hd'⟩ : ∃ m ∈ (okBundle (buildFromConfig exThere ["base", "top"])).modules, m.name = "top" ∧ exWholeDef ∈ m.defs :=
    ⟨_, List.mem_of_getElem? (i := 1) rfl, by decide +kernel, by decide +kernel⟩
  have := C84_header (.c exPrinter) (.cfs exPrinter) 20 20 exHere exThere ["m"] ["base", "top"] exOut exOut _ _ (fun _ => none)
    (fun _ => none) exHere_input exThere_input (by decide +kernel) (by decide +kernel) m m' hm hm' exWholeDef hd.2 hd'.2 ?_
  · rw [hd.1, hd'.1] at this
    exact this
  · intro n c ms he k hk
    cases he
    rw [exHere_defs, exThere_defs]
    simp only [List.mem_cons, List.not_mem_nil, or_false] at hk
    rcases hk with rfl | rfl | rfl
    · exact .composite (d := exTagDef) (List.mem_of_getElem? (i := 1) rfl) (List.mem_of_getElem? (i := 0) rfl) rfl rfl trivial trivial
    · exact .enum (List.mem_of_getElem? (i := 0) rfl) (List.mem_of_getElem? (i := 1) rfl) (three_items _ _ _ _ _ _)
        (three_items _ _ _ _ _ _)
    · exact .simple (List.mem_of_getElem? (i := 2) rfl) (List.mem_of_getElem? (i := 3) rfl)

/-- The rest is another one, and the packet comes first. -/
def exNear : List Module := [{ name := "near", defs := [exWholeDef,
  .enum "Mode" none [⟨"off", 0, none⟩, ⟨"on", 1, none⟩, ⟨"safe", 2, none⟩], exTagDef,
  .simple "Part" none (intType 0 255), .seq "Rest" none [⟨"y", .plain "Mode" none none, none, none⟩]] }]

theorem exNear_input : Input exNear ["near"] (okBundle (buildFromConfig exNear ["near"])) :=
  input_of (by decide +kernel) (by decide +kernel) (by decide +kernel)
theorem exNear_defs : (okBundle (buildFromConfig exNear ["near"])).defs = defsOf exNear := by decide +kernel

theorem exHere_reaches : ∀ f, Reaches (defsOf exHere) exWholeDef f → f ∈ defsOf exNear ∧ f.name ≠ "Rest" := by
  intro f h
  induction h with
  | refl => decide +kernel
  | @step e k f _ hk hf hu ih =>
    have key : ∀ e ∈ defsOf exNear, e.name ≠ "Rest" → ∀ k ∈ e.members, ∀ f ∈ defsOf exHere, k.type.name = f.name →
        f ∈ defsOf exNear ∧ f.name ≠ "Rest" := by decide +kernel
    exact key e ih.1 ih.2 k hk f hf ((usesName_iff _ _).1 hu)

example : ∃ bytes, HasBytes ((runBinary 20 (some .big) exHere ["m"] exOut).apply fun _ => none) "gen/whole.bin".toList bytes ∧
    HasBytes ((runBinary 20 (some .big) exNear ["near"] exOut).apply fun _ => none) "gen/whole.bin".toList bytes :=
  C84_binary 20 20 (some .big) exHere exNear ["m"] ["near"] exOut exOut _ _ (fun _ => none) (fun _ => none) exHere_input exNear_input
    (by decide +kernel) (by decide +kernel) exWholeDef (by rw [exHere_defs]; decide +kernel)
    (by rw [exHere_defs, exNear_defs]; exact fun f h => (exHere_reaches f h).1) (by simp [fixedMembers, exWholeDef])

example (fs : Files) : (runCosmos 20 exPrinter exNear "near" ["Whole"] "SAT".toList exOut).apply fs =
    (runCosmos 20 exPrinter exHere "m" ["Whole"] "SAT".toList exOut).apply fs :=
  C84_cosmos 20 20 exPrinter exHere exNear _ _ "m" "near" ["Whole"] "SAT".toList exOut (sources_of_input exHere_input).accepted
    (sources_of_input exNear_input).accepted (by decide +kernel) (by decide +kernel)
    (by
      rw [exHere_defs, exNear_defs]
      intro d hd hn f hf
      have : ∀ d ∈ defsOf exHere, d.name ∈ ["Whole"] → d = exWholeDef := by decide +kernel
      cases this d hd hn
      exact (exHere_reaches f hf).1) fs

end Apg
