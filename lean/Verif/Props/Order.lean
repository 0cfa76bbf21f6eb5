import Verif.Lemmas.Sorter
import Verif.Props.Bundle

/-!
# Properties C19, C20 and C21: the two orderings
-/

namespace Apg
open Spec

/-- Full statement of C19: for every module of an accepted bundle, a definition
follows every definition of the module that its members use. -/
def C19_full : Prop :=
  ∀ raw names b, buildFromConfig raw names = .ok b → ∀ m ∈ b.modules, ∀ fuel out, sortDefs fuel m = some out →
    out.Perm m.defs ∧
    ∀ (i : Nat) d, out[i]? = some d → ∀ e ∈ m.defs, Uses d e.name → ∃ j : Nat, j < i ∧ out[j]? = some e

def exSelfImport : Module :=
  { name := "a"
    imports := [⟨["B"], "a"⟩]
    defs := [.seq "A" none [⟨"x", .plain "B" none none, none, none⟩],
             .simple "B" none (.plain "INTEGER" (some (.int 0)) (some (.int 1)))] }

/-- False for a module that imports one of its own definitions: the imported name
counts as already defined. -/
theorem C19_full_false : ¬ C19_full := by
  intro h
  have hm : exSelfImport ∈ (⟨[⟨exSelfImport, [exSelfImport]⟩], [("B", ["a"])]⟩ : Bundle).modules := by
    simp [Bundle.modules]
  obtain ⟨_, h2⟩ := h [exSelfImport] ["a"] ⟨[⟨exSelfImport, [exSelfImport]⟩], [("B", ["a"])]⟩
    (by decide +kernel) exSelfImport hm 2 exSelfImport.defs (by decide +kernel)
  obtain ⟨j, hj, _⟩ := h2 0 (.seq "A" none [⟨"x", .plain "B" none none, none, none⟩])
    (by simp [exSelfImport])
    (.simple "B" none (.plain "INTEGER" (some (.int 0)) (some (.int 1)))) (by simp [exSelfImport])
    ⟨.inl ⟨_, _, _, rfl⟩, _, List.mem_singleton.2 rfl, .plain⟩
  omega

/-- **C19, partial.** Missing: modules that import their own definitions or
redefine a predefined type name. For every module whatsoever the result is a
rearrangement of the definitions and everything used is predefined, imported or
defined by an earlier entry; if names are pairwise different, a used definition
of the module, unless its name is also predefined or imported, comes earlier. -/
theorem C19_dependency_order_partial (m : Module) (fuel : Nat) (out : List Def)
    (h : sortDefs fuel m = some out) :
    out.Perm m.defs ∧
    (∀ (i : Nat) d, out[i]? = some d → ∀ n, Uses d n →
      Outside m n ∨ ∃ j : Nat, j < i ∧ ∃ e : Def, out[j]? = some e ∧ e.name = n) ∧
    ((m.defs.map Def.name).Nodup → ∀ (i : Nat) d, out[i]? = some d → ∀ e ∈ m.defs, Uses d e.name →
      ¬ Outside m e.name → ∃ j : Nat, j < i ∧ out[j]? = some e) := by
  obtain ⟨hp, ho⟩ := sortDefs_spec fuel m out h
  have h2 : ∀ (i : Nat) d, out[i]? = some d → ∀ n, Uses d n →
      Outside m n ∨ ∃ j : Nat, j < i ∧ ∃ e : Def, out[j]? = some e ∧ e.name = n := by
    intro i d hi n hu
    have := ho i d hi n hu
    rwa [mem_sortBase] at this
  refine ⟨hp, h2, ?_⟩
  intro hn i d hi e he hu hno
  rcases h2 i d hi e.name hu with h3 | ⟨j, hj, e', he', hn'⟩
  · exact absurd h3 hno
  · have : e' = e := mem_unique_of_nodup_map hn (hp.mem_iff.1 (List.mem_of_getElem? he')) he hn'
    exact ⟨j, hj, this ▸ he'⟩

/-- A module with definitions written in the opposite order. -/
def exReversed : Module :=
  { name := "r"
    defs := [.seq "C" none [⟨"b", .plain "B" none none, none, none⟩],
             .choice "B" none [⟨"a", .arr (.plain "A" none none) 3, none, none⟩],
             .enum "A" none [⟨"on", 0, none⟩, ⟨"off", 1, none⟩]] }

example : sortDefs 4 exReversed = some exReversed.defs.reverse := by decide +kernel

/-- **C20.** The definition sorter returns exactly for the modules whose uses are
all known and not circular; more than one pass per definition is never needed. -/
theorem C20_returns_iff (m : Module) :
    ((∃ out, ∀ fuel, m.defs.length < fuel → sortDefs fuel m = some out) ↔
      ∃ rank, Spec.WellFounded m rank) ∧
    ((∃ fuel out, sortDefs fuel m = some out) ↔ ∃ rank, Spec.WellFounded m rank) := by
  have hto : (∃ rank, Spec.WellFounded m rank) →
      ∃ out, ∀ fuel, m.defs.length < fuel → sortDefs fuel m = some out := by
    rintro ⟨rank, hw⟩
    obtain ⟨out, ho⟩ := sortLoop_terminates m rank hw (m.defs.length + 1) [] m.defs (by simp)
      (by omega)
    refine ⟨out, ?_⟩
    intro fuel hf
    exact sortLoop_mono (m.defs.length + 1) fuel _ _ _ _ (by omega) (by simpa using ho)
  have hfrom : (∃ fuel out, sortDefs fuel m = some out) → ∃ rank, Spec.WellFounded m rank :=
    fun ⟨fuel, out, h⟩ => ⟨_, sortDefs_rank fuel m out h⟩
  refine ⟨⟨fun ⟨out, h⟩ => hfrom ⟨m.defs.length + 1, out, h _ (by omega)⟩, hto⟩, hfrom, ?_⟩
  intro hw
  obtain ⟨out, h⟩ := hto hw
  exact ⟨_, out, h _ (Nat.lt_succ_self _)⟩

/-- C20 (divergence): with a use cycle or an unknown use the sorter never returns. -/
theorem C20_cycle_diverges (m : Module) (S : List Def) (hS : Stuck m S) (fuel : Nat) :
    sortDefs fuel m = none := by
  cases h : sortDefs fuel m with
  | none => rfl
  | some out => exact absurd (sortDefs_rank fuel m out h) (stuck_not_wf m S hS _)

def exCycleA : Def := .seq "A" none [⟨"b", .plain "B" none none, none, none⟩]
def exCycleB : Def := .seq "B" none [⟨"a", .plain "A" none none, none, none⟩]

theorem exCycle_stuck :
    Stuck { name := "c", defs := [exCycleA, exCycleB] } [exCycleA, exCycleB] := by
  refine ⟨by simp, ?_⟩
  intro d hd
  simp at hd
  have hno : ∀ n, n = "A" ∨ n = "B" →
      ¬ Outside { name := "c", defs := [exCycleA, exCycleB] } n := by
    rintro n (rfl | rfl) (h | ⟨it, hit, _⟩)
    · revert h; rw [builtIn_iff]; decide
    · simp at hit
    · revert h; rw [builtIn_iff]; decide
    · simp at hit
  rcases hd with rfl | rfl
  · exact ⟨by simp, "B", ⟨.inl ⟨_, _, _, rfl⟩, _, List.mem_singleton.2 rfl, .plain⟩,
      hno _ (.inr rfl), fun e he _ => by simpa using he⟩
  · exact ⟨by simp, "A", ⟨.inl ⟨_, _, _, rfl⟩, _, List.mem_singleton.2 rfl, .plain⟩,
      hno _ (.inl rfl), fun e he _ => by simpa using he⟩

/-- Such a bundle is accepted, so the divergence is reachable. -/
theorem C20_cycle_accepted :
    ∃ b, buildFromConfig [{ name := "c", defs := [exCycleA, exCycleB] }] ["c"] = .ok b ∧
      ∀ fuel, ∀ m ∈ b.modules, sortDefs fuel m = none := by
  refine ⟨⟨[⟨{ name := "c", defs := [exCycleA, exCycleB] }, []⟩], [("B", ["c"]), ("A", ["c"])]⟩,
    by decide +kernel, ?_⟩
  intro fuel m hm
  simp [Bundle.modules] at hm
  subst hm
  exact C20_cycle_diverges _ _ exCycle_stuck fuel

/-- **C21 (order).** Whenever module ordering returns, the result contains every
module exactly once and no module precedes one of its importers. -/
theorem C21_importers_first (ms : List Module) (hn : (ms.map (·.name)).Nodup) (fuel : Nat)
    (out : List Module) (h : orderModules fuel ms = some out) :
    out.Perm ms ∧ ∀ (i j : Nat) a b, out[i]? = some a → out[j]? = some b → Imports a b → i < j := by
  obtain ⟨hp, hw⟩ := orderLoop_spec ms fuel _ out ⟨rfl, hn⟩
    ⟨by simp, by simp, by simp⟩ h
  refine ⟨hp, ?_⟩
  intro i j a b hi hj hab
  rcases Nat.lt_trichotomy i j with hlt | rfl | hgt
  · exact hlt
  · exfalso
    rw [hi] at hj; cases hj
    -- a module that imports itself never leaves the list
    have := orderLoop_stuck [a] (by simp) (by simpa using hab) fuel
      { mods := ms, names := ms.map (·.name), order := [] } ⟨rfl, hn⟩
      (by simpa using hp.mem_iff.1 (List.mem_of_getElem? hi))
    unfold orderModules at h
    rw [this] at h
    cases h
  · exfalso
    rw [List.pairwise_iff_getElem] at hw
    obtain ⟨hil, hia⟩ := List.getElem?_eq_some_iff.1 hi
    obtain ⟨hjl, hjb⟩ := List.getElem?_eq_some_iff.1 hj
    have := hw j i hjl hil hgt
    rw [hia, hjb] at this
    exact this hab

/-- **C21 (totality).** Module ordering returns if and only if the import graph
has no cycle; one pass per module always suffices. -/
theorem C21_returns_iff (ms : List Module) (hn : (ms.map (·.name)).Nodup) :
    ((∃ out, ∀ fuel, ms.length < fuel → orderModules fuel ms = some out) ↔
      ∃ rank, AcyclicImports ms rank) ∧
    ((∃ fuel out, orderModules fuel ms = some out) ↔ ∃ rank, AcyclicImports ms rank) := by
  have hto : (∃ rank, AcyclicImports ms rank) →
      ∃ out, ∀ fuel, ms.length < fuel → orderModules fuel ms = some out := by
    rintro ⟨rank, ha⟩
    obtain ⟨out, ho⟩ := orderLoop_terminates ms rank ha (ms.length + 1)
      { mods := ms, names := ms.map (·.name), order := [] } ⟨rfl, hn⟩
      ⟨by simp, by simp, by simp⟩ (Nat.lt_succ_self _)
    exact ⟨out, fun fuel hf => orderLoop_mono _ fuel _ out (by omega) ho⟩
  have hfrom : (∃ fuel out, orderModules fuel ms = some out) → ∃ rank, AcyclicImports ms rank := by
    rintro ⟨fuel, out, h⟩
    obtain ⟨hp, ho⟩ := C21_importers_first ms hn fuel out h
    refine ⟨fun a => out.idxOf a, ?_⟩
    intro a ha b hb hab
    have key : ∀ x ∈ ms, out[out.idxOf x]? = some x := by
      intro x hx
      have := List.idxOf_lt_length_of_mem (hp.mem_iff.2 hx)
      rw [List.getElem?_eq_getElem this, List.getElem_idxOf this]
    exact ho _ _ a b (key a ha) (key b hb) hab
  refine ⟨⟨fun ⟨out, h⟩ => hfrom ⟨ms.length + 1, out, h _ (by omega)⟩, hto⟩, hfrom, ?_⟩
  intro hw
  obtain ⟨out, h⟩ := hto hw
  exact ⟨_, out, h _ (Nat.lt_succ_self _)⟩

/-- C21 (divergence): a nonempty set of modules each of which is imported by a
module of the set (an import cycle, or a module importing itself) keeps module
ordering running forever. -/
theorem C21_cycle_diverges (ms : List Module) (hn : (ms.map (·.name)).Nodup) (S : List Module)
    (hne : S ≠ []) (hsub : ∀ b ∈ S, b ∈ ms) (hS : ∀ b ∈ S, ∃ a ∈ S, Imports a b) (fuel : Nat) :
    orderModules fuel ms = none :=
  orderLoop_stuck S hne hS fuel _ ⟨rfl, hn⟩ hsub

example : AcyclicImports [exBase, exGeo] (fun m => if m.name = "geo" then 0 else 1) ∧
    ([exBase, exGeo].map (·.name)).Nodup ∧
    orderModules 3 [exBase, exGeo] = some [exGeo, exBase] := by
  refine ⟨?_, by decide +kernel, by decide +kernel⟩
  intro a ha b hb hab
  simp at ha hb
  rcases ha with rfl | rfl <;> rcases hb with rfl | rfl <;>
    simp [Imports, exBase, exGeo] at hab ⊢

end Apg
