import Verif.Lemmas.ImportsEnd
import Verif.Lemmas.ImportsCosmos
import Verif.Props.Agreement

/-!
# Property C90: how imports are written does not matter
-/

namespace Apg
open Spec

/-- A run ends in the same way when imports are written in another order, grouped in another way, or repeated. -/
theorem C90_end (cmd : Command) (fuel : Nat) (raw raw' : List Module) (cfg : List String) (out : Text)
    (hg : ∀ m ∈ raw, GrammarModule m) (hs : All2 Reimported raw raw') :
    (cmd.run fuel raw' cfg out).result = (cmd.run fuel raw cfg out).result :=
  (command_reimported cmd hs hg fuel cfg out).result

/-- It leaves the same files, but for the include lines for the imports of a module in the header of the module. -/
theorem C90_files (cmd : Command) (fuel : Nat) (raw raw' : List Module) (cfg : List String) (out : Text)
    (hg : ∀ m ∈ raw, GrammarModule m) (hs : All2 Reimported raw raw') (fs : Files) (path : Text) :
    (cmd.run fuel raw' cfg out).apply fs path = (cmd.run fuel raw cfg out).apply fs path ∨
      OtherIncludes cmd out raw raw' ((cmd.run fuel raw cfg out).apply fs) ((cmd.run fuel raw' cfg out).apply fs) path := by
  rcases apply_opImports (command_reimported cmd hs hg fuel cfg out).ops fs fs (fun _ => .inl rfl) path with
    h | ⟨c, d, hc, hd, m, hm, m', hm', pre, post, hr, hp, rfl, rfl⟩
  · exact .inl h
  · exact .inr ⟨m, hm, m', hm', pre, post, hr, hp, hc, hd⟩

/-- A run of generate-cosmos does the same. -/
theorem C90_cosmos (fuel : Nat) (p : Printer) (raw raw' : List Module) (module : String) (messages : List String)
    (target out : Text) (hs : All2 Reimported raw raw') :
    runCosmos fuel p raw' module messages target out = runCosmos fuel p raw module messages target out :=
  runCosmos_reimported hs fuel p module messages target out

/-! ### Example -/

/-- Modules with imports as given. -/
def exImporting (is : List ImportItem) : List Module := [
  { name := "base", defs := [.simple "Angle" none (intType 0 359), .simple "Speed" none (intType 0 100)] },
  { name := "units", defs := [.enum "Level" none [⟨"low", 0, none⟩, ⟨"high", 1, none⟩]] },
  { name := "m", imports := is, defs := [.seq "State" none [⟨"level", .plain "Level" none none, none, none⟩,
    ⟨"angle", .plain "Angle" none none, none, none⟩, ⟨"speed", .plain "Speed" none none, none, none⟩]] }]

def exBefore : List Module := exImporting [⟨["Angle", "Speed"], "base"⟩, ⟨["Level"], "units"⟩]

def exAfter : List Module := exImporting [⟨["Level"], "units"⟩, ⟨["Speed"], "base"⟩, ⟨["Speed", "Angle"], "base"⟩]

theorem exImporting_reimported : All2 Reimported exBefore exAfter := by
  refine .cons ⟨rfl, rfl, rfl, rfl, fun _ => .rfl, fun _ _ => .rfl⟩
    (.cons ⟨rfl, rfl, rfl, rfl, fun _ => .rfl, fun _ _ => .rfl⟩
      (.cons ⟨rfl, rfl, rfl, rfl, fun f => ?_, fun f n => ?_⟩ .nil))
  · simp only [NamesModule, List.mem_cons, List.not_mem_nil, or_false]
    grind
  · simp only [NamesType, List.mem_cons, List.not_mem_nil, or_false, or_and_right, exists_or, exists_eq_left]
    grind

theorem exBefore_grammar : ∀ m ∈ exBefore, GrammarModule m := grammarB_sound (by decide +kernel)

/-- The second way of writing the imports is accepted as the first is. -/
example : ((Command.cfs exPrinter).run 20 exAfter ["base", "units", "m"] exOut).result = .ok () :=
  (C90_end (.cfs exPrinter) 20 exBefore exAfter ["base", "units", "m"] exOut exBefore_grammar exImporting_reimported).trans
    (by decide +kernel)

/-- The header is another text, so it differs in its include lines. -/
example : OtherIncludes (.cfs exPrinter) exOut exBefore exAfter
    (((Command.cfs exPrinter).run 20 exBefore ["base", "units", "m"] exOut).apply fun _ => none)
    (((Command.cfs exPrinter).run 20 exAfter ["base", "units", "m"] exOut).apply fun _ => none) "gen/m_msg.h".toList := by
  refine (C90_files (.cfs exPrinter) 20 exBefore exAfter ["base", "units", "m"] exOut exBefore_grammar
    exImporting_reimported (fun _ => none) "gen/m_msg.h".toList).resolve_left ?_
  decide +kernel

/-- The header of a module without imports stays the same. -/
example : ((Command.cfs exPrinter).run 20 exAfter ["base", "units", "m"] exOut).apply (fun _ => none) "gen/base_msg.h".toList =
    ((Command.cfs exPrinter).run 20 exBefore ["base", "units", "m"] exOut).apply (fun _ => none) "gen/base_msg.h".toList := by
  decide +kernel

example : (runCosmos 20 exPrinter exAfter "m" ["State"] "TGT".toList exOut).result = .ok () := by
  rw [C90_cosmos 20 exPrinter exBefore exAfter "m" ["State"] "TGT".toList exOut exImporting_reimported]
  decide +kernel

end Apg
