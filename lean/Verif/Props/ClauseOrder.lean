import Verif.Lemmas.ClauseOrderRun
import Verif.Lemmas.ClauseOrderCosmos
import Verif.Props.Agreement

/-!
# Property C91: the order in which a clause fixes values
-/

namespace Apg
open Spec

/-- Two versions of modules that fix the same values in another order are both accepted by a command, or neither is. -/
theorem C91_end (cmd : Command) (fuel : Nat) (raw raw' : List Module) (cfg : List String) (out : Text)
    (hp : ∀ p, cmd = .c p → Faithful p) (hg : ∀ m ∈ raw, GrammarModule m) (hs : All2 ReorderedModule raw raw') :
    (cmd.run fuel raw cfg out).result = .ok () ↔ (cmd.run fuel raw' cfg out).result = .ok () :=
  (command_reordered cmd hp hs hg fuel cfg out).result

/-- The files are the same, except that the `#define` lines of a message id header come in another order, the initialisers in a
C file say what the two versions of the clause say, and a binary file has the bytes of the same values in the order of the
clause. -/
theorem C91_files_partial (cmd : Command) (fuel : Nat) (raw raw' : List Module) (cfg : List String) (out : Text)
    (hp : ∀ p, cmd = .c p → Faithful p) (hg : ∀ m ∈ raw, GrammarModule m) (hs : All2 ReorderedModule raw raw')
    (fs : Files) (path : Text) :
    (cmd.run fuel raw' cfg out).apply fs path = (cmd.run fuel raw cfg out).apply fs path ∨
      OtherOrder cmd out raw raw' ((cmd.run fuel raw cfg out).apply fs) ((cmd.run fuel raw' cfg out).apply fs) path :=
  otherOrder_of_content
    (apply_opImports (command_reordered cmd hp hs hg fuel cfg out).ops fs fs (fun _ => .inl rfl) path)

theorem linesOf_chunk {l : Text} (h : l.getLast? = some '\n') (s : Text) : linesOf (l ++ s) = linesOf l.dropLast ++ linesOf s := by
  obtain ⟨a, rfl⟩ := List.getLast?_eq_some_iff.1 h
  rw [List.dropLast_concat, List.append_assoc]
  exact linesOf_append a s

theorem linesOf_chunks {ls : List Text} (h : ∀ l ∈ ls, l.getLast? = some '\n') (s : Text) :
    linesOf (ls.flatten ++ s) = ls.flatMap (fun l => linesOf l.dropLast) ++ linesOf s := by
  induction ls with
  | nil => rfl
  | cons l ls ih =>
    rw [List.flatten_cons, List.append_assoc, linesOf_chunk (h l (List.Mem.head _)), ih fun x hx => h x (List.Mem.tail _ hx),
      List.flatMap_cons, List.append_assoc]

theorem definedMacros_other {t t' : Text} (h : OtherDefines t t') : (definedMacros t).Perm (definedMacros t') := by
  obtain ⟨pre, ls, ls', post, hp, hl, hpre, rfl, rfl⟩ := h
  unfold definedMacros
  refine List.Perm.filterMap _ ?_
  rw [List.append_assoc, List.append_assoc, linesOf_chunk hpre, linesOf_chunk hpre, linesOf_chunks fun l h => (hl l h).2,
    linesOf_chunks fun l h => (hl l (hp.mem_iff.2 h)).2]
  exact (((hp.flatMap_right _).append_right _).append_left _)

/-- Every header of generate-cfs defines the same macros with the same values. -/
theorem C91_macros (fuel : Nat) (p : Printer) (raw raw' : List Module) (cfg : List String) (out : Text)
    (hg : ∀ m ∈ raw, GrammarModule m) (hs : All2 ReorderedModule raw raw') (fs : Files) (path : Text) :
    (macrosIn ((runCfs fuel p raw cfg out).apply fs) path).Perm (macrosIn ((runCfs fuel p raw' cfg out).apply fs) path) := by
  have h := C91_files_partial (.cfs p) fuel raw raw' cfg out (fun q h => by cases h) hg hs fs path
  simp only [Command.run] at h
  rcases h with h | ⟨m, _, _, t, t', h1, h2, h3⟩
  · unfold macrosIn
    rw [h]
  · unfold macrosIn
    rw [h1, h2]
    have e : ∀ t : Text, (t.map Sum.inl : Content).filterMap (fun x => x.getLeft?) = t := by
      intro t
      induction t with
      | nil => rfl
      | cons c t ih => rw [List.map_cons, List.filterMap_cons_some (by rfl), ih]
    simp only [e]
    exact definedMacros_other h3

/-- generate-cosmos does the same. Printing a clause itself, which Python does with an address, must not depend on the order. -/
theorem C91_cosmos (fuel : Nat) (p : Printer) (raw raw' : List Module) (module : String) (messages : List String)
    (target out : Text) (hp : ∀ c c', Reordered c c' → p.object c' = p.object c) (hs : All2 ReorderedModule raw raw') :
    runCosmos fuel p raw' module messages target out = runCosmos fuel p raw module messages target out :=
  runCosmos_reordered hs fuel hp module messages target out

/-- Full statement: the binary file is the same, too. -/
def C91_full : Prop :=
  ∀ (fuel : Nat) (e : Option Endian) (raw raw' : List Module) (cfg : List String) (out : Text),
    (∀ m ∈ raw, GrammarModule m) → All2 ReorderedModule raw raw' → ∀ (fs : Files) (path : Text),
    (runBinary fuel e raw' cfg out).apply fs path = (runBinary fuel e raw cfg out).apply fs path

/-! ### Example -/

/-- A module with a clause as given. -/
def exFixing (c : Comps) : List Module := [
  { name := "m", defs := [
    .seq "Id" none [⟨"version", intType 0 255, none, none⟩, ⟨"apid", intType 0 65535, none, none⟩],
    .seq "Head" none [⟨"id", .plain "Id" none none, none, none⟩, ⟨"count", intType 0 255, none, none⟩],
    .seq "Pkt" none [⟨"head", .plain "Head" none none, none, some c⟩, ⟨"load", intType 0 255, none, none⟩]] }]

def exFixed : List Module :=
  exFixing (.node "id" (.leaf "version" (.int 1) (.leaf "apid" (.int 258) .nil)) (.leaf "count" (.int 9) .nil))

def exFixedOther : List Module :=
  exFixing (.leaf "count" (.int 9) (.node "id" (.leaf "apid" (.int 258) (.leaf "version" (.int 1) .nil)) .nil))

theorem exFixed_reordered : All2 ReorderedModule exFixed exFixedOther := by
  refine .cons ⟨rfl, rfl, rfl, rfl, .cons (.same _) (.cons (.same _) (.cons (.seq (.cons ⟨rfl, rfl, rfl, .some ?_⟩
    (.cons (.refl _) .nil))) .nil))⟩ .nil
  refine .trans (.inner (c' := .leaf "apid" (.int 258) (.leaf "version" (.int 1) .nil)) ?_) ?_
  · exact Reordered.swap (k := "version") (x := .inl (.int 1)) (k' := "apid") (x' := .inl (.int 258)) (r := .nil)
  · exact Reordered.swap (k := "id") (x := .inr (.leaf "apid" (.int 258) (.leaf "version" (.int 1) .nil))) (k' := "count")
      (x' := .inl (.int 9)) (r := .nil)

theorem exFixed_grammar : ∀ m ∈ exFixed, GrammarModule m := grammarB_sound (by decide +kernel)

/-- The binary file follows the order of the clause. -/
example : fileBytes ((runBinary 20 (some .big) exFixed ["m"] exOut).apply fun _ => none) "gen/pkt.bin".toList = [1, 1, 2, 9] ∧
    fileBytes ((runBinary 20 (some .big) exFixedOther ["m"] exOut).apply fun _ => none) "gen/pkt.bin".toList = [9, 1, 2, 1] := by
  decide +kernel

theorem C91_full_false : ¬ C91_full := by
  intro h
  have := h 20 (some .big) exFixed exFixedOther ["m"] exOut exFixed_grammar exFixed_reordered (fun _ => none) "gen/pkt.bin".toList
  revert this
  decide +kernel

example : OtherOrder (.binary (some .big)) exOut exFixed exFixedOther
    (((Command.binary (some .big)).run 20 exFixed ["m"] exOut).apply fun _ => none)
    (((Command.binary (some .big)).run 20 exFixedOther ["m"] exOut).apply fun _ => none) "gen/pkt.bin".toList := by
  refine (C91_files_partial (.binary (some .big)) 20 exFixed exFixedOther ["m"] exOut (fun p h => by cases h) exFixed_grammar
    exFixed_reordered (fun _ => none) "gen/pkt.bin".toList).resolve_left ?_
  decide +kernel

example : OtherOrder (.c exPrinter) exOut exFixed exFixedOther
    (((Command.c exPrinter).run 20 exFixed ["m"] exOut).apply fun _ => none)
    (((Command.c exPrinter).run 20 exFixedOther ["m"] exOut).apply fun _ => none) "gen/m.c".toList := by
  refine (C91_files_partial (.c exPrinter) 20 exFixed exFixedOther ["m"] exOut
    (fun p h => by cases h; exact exPrinter_faithful) exFixed_grammar
    exFixed_reordered (fun _ => none) "gen/m.c".toList).resolve_left ?_
  decide +kernel

example : ((Command.cfs exPrinter).run 20 exFixedOther ["m"] exOut).result = .ok () :=
  (C91_end (.cfs exPrinter) 20 exFixed exFixedOther ["m"] exOut (fun p h => by cases h) exFixed_grammar exFixed_reordered).1
    (by decide +kernel)

example : macrosIn ((runCfs 20 exPrinter exFixed ["m"] exOut).apply fun _ => none) "gen/m_msgids.h".toList =
    [("PKT_VERSION".toList, "(1)".toList), ("PKT_APID".toList, "(258)".toList), ("PKT_COUNT".toList, "(9)".toList)] := by
  decide +kernel

example : runCosmos 20 exPrinter exFixedOther "m" ["Pkt"] "TGT".toList exOut =
    runCosmos 20 exPrinter exFixed "m" ["Pkt"] "TGT".toList exOut ∧
    (runCosmos 20 exPrinter exFixed "m" ["Pkt"] "TGT".toList exOut).result = .ok () :=
  ⟨C91_cosmos 20 exPrinter exFixed exFixedOther "m" ["Pkt"] "TGT".toList exOut (fun _ _ _ => rfl) exFixed_reordered,
    by decide +kernel⟩

end Apg
