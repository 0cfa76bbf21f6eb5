import Verif.Lemmas.CosmosLookup
import Verif.Props.Cosmos

/-!
# Property C38: COSMOS resolves every type through the import graph
-/

namespace Apg
open Spec

/-- Full statement of C38: when no module imports itself and no sequence contains itself, the search
for definitions never stops generate-cosmos. -/
def C38_full : Prop :=
  ∀ (fuel : Nat) (p : Printer) (raw : List Module) (b : Bundle) (module : String) (messages : List String)
    (target out : Text) (rank rank' : String → Nat), Sources raw b →
    RankedImports b.modules rank → NotNested b.defs rank' →
    (∀ m ∈ b.modules, rank m.name < fuel) → (∀ n ms, IsSequence b.defs n ms → rank' n + 1 < fuel) →
    (runCosmos fuel p raw module messages target out).result ≠ .error .consistency ∧
    (runCosmos fuel p raw module messages target out).result ≠ .error .recursion

/-- **C38, partial.** Missing: sources in which two modules have the same name, and messages with
arrays of strings. The search for definitions does not stop generate-cosmos with a consistency error,
and if no module imports itself and no sequence contains itself, not by endless recursion. -/
theorem C38_lookup_partial (fuel : Nat) (p : Printer) (raw : List Module) (b : Bundle) (module : String)
    (messages : List String) (target out : Text) (hi : Sources raw b) (hn : (raw.map (·.name)).Nodup)
    (hsa : ∀ n ∈ messages, ∀ ms, MessageOf b module n ms → ∀ m, Reached b.defs ms m → ¬ StringArray m.type) :
    (runCosmos fuel p raw module messages target out).result ≠ .error .consistency ∧
    ∀ rank rank' : String → Nat, RankedImports b.modules rank → NotNested b.defs rank' →
      (∀ m ∈ b.modules, rank m.name < fuel) → (∀ n ms, IsSequence b.defs n ms → rank' n + 1 < fuel) →
      (runCosmos fuel p raw module messages target out).result ≠ .error .recursion := by
  have hl := accepted_linked hn hi.accepted
  unfold runCosmos
  rw [hi.accepted]
  simp only
  unfold generateCosmos
  simp only
  split
  · exact ⟨by simp, fun _ _ _ _ _ _ => by simp⟩
  · split
    · split
      · exact ⟨by simp, fun _ _ _ _ _ _ => by simp⟩
      · exact ⟨by simp, fun _ _ _ _ _ _ => by simp⟩
    · rename_i bm hbm
      split
      · exact ⟨by simp, fun _ _ _ _ _ _ => by simp⟩
      · split
        · rename_i e he
          obtain ⟨k1, k2⟩ := getModule_some hbm
          have := packets_error hl (accepted_nodup hi.accepted) k1
            (fun m' hm' d hd him => accepted_findable hn hi.accepted m' hm' d hd him)
            (fun d hd => (accepted_grammar hi.grammar hi.accepted d hd).1) messages _
            (fun n hn ms hms => hsa n hn ms ⟨bm.mod, List.mem_map.2 ⟨bm, k1, rfl⟩, k2, hms⟩) e he
          refine ⟨fun h => this.1 (Except.error.inj h), fun rank rank' h1 h2 h3 h4 h => ?_⟩
          have hb := h3 bm.mod (List.mem_map.2 ⟨bm, k1, rfl⟩)
          exact this.2 rank rank' h1 hb h2 (by omega) h4 (Except.error.inj h)
        · exact ⟨by simp, fun _ _ _ _ _ _ => by simp⟩

def exNamesModule : Module :=
  { name := "m"
    defs := [.seq "Names" none [⟨"names", .arr (.str "IA5String" 8) 3, none, none⟩]] }

theorem notNested_of {ds : List Def} (h : ds.all (fun d => d.members.all fun m => ds.all fun e => m.type.name ≠ e.name) = true) :
    NotNested ds (fun _ => 0) := by
  rintro n ms ⟨c, h1⟩ m hm t inner hu ⟨c', h2⟩
  have h3 := List.all_eq_true.1 (List.all_eq_true.1 (List.all_eq_true.1 h _ h1) m hm) _ h2
  exact absurd ((usesName_iff _ _).1 hu) (of_decide_eq_true h3)

/-- It fails for an array of strings: the string type is looked up as if it was defined in a module. -/
theorem C38_full_false : ¬ C38_full := by
  intro hf
  refine (hf 20 exPrinter [exNamesModule] _ "m" ["Names"] "SAT".toList exOut (fun _ => 0) (fun _ => 0)
    (sources_of (by decide +kernel) (by decide +kernel) (by decide +kernel)) ?_ ?_ (fun _ _ => by decide)
    (fun _ _ _ => by decide)).1 ?_
  · intro m hm
    have : (okBundle (buildFromTexts [exNamesModule])).modules.all (fun m => m.imports = []) = true := by decide +kernel
    have := of_decide_eq_true (List.all_eq_true.1 this m hm)
    rw [this]
    intro i hi; cases hi
  · exact notNested_of (by decide +kernel)
  · decide +kernel

/-! ### Example: a diamond of imports -/

def exTop : Module :=
  { name := "top"
    imports := [⟨["Left"], "left"⟩, ⟨["Right"], "right"⟩]
    defs := [.seq "Top" none [⟨"l", .plain "Left" none none, none, none⟩, ⟨"r", .plain "Right" none none, none, none⟩]] }

def exLeft : Module :=
  { name := "left"
    imports := [⟨["Level"], "units"⟩]
    defs := [.seq "Left" none [⟨"a", .plain "Level" none none, none, none⟩]] }

def exRight : Module :=
  { name := "right"
    imports := [⟨["Level"], "units"⟩]
    defs := [.seq "Right" none [⟨"b", .arr (.plain "Level" none none) 2, none, none⟩]] }

def exUnits : Module :=
  { name := "units"
    defs := [.enum "Level" none [⟨"low", 0, none⟩, ⟨"high", 0, none⟩]] }

def exDiamond : List Module := [exTop, exUnits, exLeft, exRight]

theorem exDiamond_sources : Sources exDiamond (okBundle (buildFromTexts exDiamond)) :=
  sources_of (by decide +kernel) (by decide +kernel) (by decide +kernel)

example : (exDiamond.map (·.name)).Nodup ∧
    (∀ d ∈ (okBundle (buildFromTexts exDiamond)).defs, ∀ m ∈ d.members, ¬ StringArray m.type) ∧
    (runCosmos 5 exPrinter exDiamond "top" ["Top"] "SAT".toList exOut).result = .ok () := by
  refine ⟨by decide, ?_, by decide +kernel⟩
  intro d hd m hm
  have h : (okBundle (buildFromTexts exDiamond)).defs.all (fun d => d.members.all fun m =>
      m.type.name ≠ "IA5String" ∧ m.type.name ≠ "NumericString") = true := by decide +kernel
  have := of_decide_eq_true (List.all_eq_true.1 (List.all_eq_true.1 h d hd) m hm)
  rintro ⟨e, len, ht, h1 | h1⟩
  · exact this.1 (by rw [ht]; exact (usesName_iff _ _).1 (.arr h1))
  · exact this.2 (by rw [ht]; exact (usesName_iff _ _).1 (.arr h1))

end Apg
