import Verif.Lemmas.CInit
import Verif.Props.Header

/-!
# Properties C45 and C46: the C files of generate-c
-/

namespace Apg
open Spec

/-! ### C46 -/

/-- **C46.** After a successful generate-c run the C file of a module consists of a comment,
at most one include line and one variable per WITH COMPONENTS clause of its sequences, in the
order of the definitions in the header; the initialiser of the variable can be read back and
says what the clause says. -/
theorem C46_initialisers (p : Printer) (hp : Faithful p) (fuel : Nat) (raw : List Module)
    (cfg : List String) (out : Text) (b : Bundle) (fs : Files) (hin : Input raw cfg b)
    (hr : (runC fuel p raw cfg out).result = .ok ()) (m : Module) (hm : m ∈ b.modules) :
    ∃ doc incl vars, HasText ((runC fuel p raw cfg out).apply fs)
        (inDir out (ident m.name ++ ".c".toList)) (sourceFile doc incl vars) ∧
      ∃ sorted : List Def, sorted.Perm m.defs ∧
        All2 (Initialiser p) (sorted.flatMap clausesOf) vars := by
  obtain ⟨bm, hbm, rfl⟩ := List.mem_map.1 hm
  obtain ⟨sorted, _, h2, h4⟩ := source_file hin.grammar hin.accepted hr hbm fs
  refine ⟨_, _, _, h4, sorted, h2, clauses_initialisers hp fun d hd => ?_⟩
  exact (accepted_grammar hin.grammar (buildFromTexts_of_config hin.accepted) d
    (mem_defs_of_module hm (h2.mem_iff.1 hd))).1

/-- **C46.** Two clauses printed as the same variable fix the same members, in the same order
and nesting, to the same numbers. -/
theorem C46_unambiguous (p : Printer) (hp : Faithful p) (n n' k k' : String) (c c' : Comps)
    (hn : isNameCapital n) (hn' : isNameCapital n') (hk : isNameLower k) (hk' : isNameLower k')
    (hc : GrammarComps c) (hc' : GrammarComps c') (t : Text) (h : Initialiser p (n, k, c) t)
    (h' : Initialiser p (n', k', c') t) : n = n' ∧ k = k' ∧ SameClause c c' := by
  obtain ⟨body, i, e1, r1, s1⟩ := h
  obtain ⟨body', i', e2, r2, s2⟩ := h'
  rw [e1] at e2
  simp only [List.append_assoc, List.cons_append] at e2
  obtain ⟨e3, e4⟩ := split_unique (not_mem_ident (Or.inr hn) ' ' (by decide +kernel))
    (not_mem_ident (Or.inr hn') ' ' (by decide +kernel)) e2
  have hnn : n = n' := ident_inj (Or.inr hn) (Or.inr hn') e3
  subst hnn
  have e5 := List.append_cancel_left (List.append_cancel_left e4)
  have hbb : body = body' := List.append_cancel_right e5
  subst hbb
  rw [r1] at r2
  simp only [Option.some.injEq, Init.group.injEq, and_true] at r2
  obtain ⟨r3, rfl⟩ := r2
  exact ⟨rfl, ident_inj (Or.inl hk) (Or.inl hk') r3, says_same hp s1 hc hc' s2⟩

/-- A module with a nested clause. -/
def exInitModule : Module :=
  { name := "m", defs := [
      .seq "Id" none
        [⟨"apid", .plain "INTEGER" (some (.int 0)) (some (.int 255)), none, none⟩,
         ⟨"flag", .plain "BOOLEAN" none none, none, none⟩],
      .seq "Head" none [⟨"id", .plain "Id" none none, none, none⟩],
      .seq "Pkt" none [⟨"head", .plain "Head" none none, none,
        some (.node "id" (.leaf "apid" (.int 7) (.leaf "flag" (.bool true) .nil)) .nil)⟩]] }

def exInit : List Module := [exInitModule]

example : Faithful exPrinter ∧ Input exInit ["m"] (okBundle (buildFromConfig exInit ["m"])) ∧
    (runC 20 exPrinter exInit ["m"] exOut).result = .ok () ∧
    fileText ((runC 20 exPrinter exInit ["m"] exOut).apply fun _ => none) "gen/m.c".toList =
      ("/*\nThis file was autogenerated from ASN.1 model.\n*/\n\n#include \"m.h\"\n\n" ++
       "Pkt pkt = {\n  .head = {\n    .id = {\n      .apid = 7,\n      .flag = 1,\n    },\n  },\n};\n").toList :=
  ⟨exPrinter_faithful, input_of (by decide +kernel) (by decide +kernel) (by decide +kernel),
    by decide +kernel, by decide +kernel⟩

example : readInit "\n  .head = {\n .apid = 7,\n .id = {\n .a = 0,},},".toList =
    some (.group "head".toList (.value "apid".toList "7".toList
      (.group "id".toList (.value "a".toList "0".toList .nil) .nil)) .nil) := by decide +kernel

/-! ### C45 -/

/-- Full statement of C45. -/
def C45_full : Prop :=
  ∀ p, Faithful p → ∀ fuel raw cfg out b fs, Input raw cfg b →
    (runC fuel p raw cfg out).result = .ok () → ∀ m ∈ b.modules, ∀ d ∈ m.defs, clausesOf d ≠ [] →
      ∃ t, HasText ((runC fuel p raw cfg out).apply fs) (inDir out (ident m.name ++ ".c".toList)) t ∧
        "#include \"".toList ++ ident m.name ++ ".h\"".toList ∈ linesOf t

/-- **C45, partial.** The C file of a module has the include line of its own header exactly
if the last definition in the order of the header, simple definitions aside, is a sequence
with a WITH COMPONENTS clause. Missing: the other modules with clauses. -/
theorem C45_include_iff_partial (p : Printer) (fuel : Nat) (raw : List Module)
    (cfg : List String) (out : Text) (b : Bundle) (fs : Files) (hin : Input raw cfg b)
    (hr : (runC fuel p raw cfg out).result = .ok ()) (m : Module) (hm : m ∈ b.modules) :
    ∃ doc incl vars sorted, HasText ((runC fuel p raw cfg out).apply fs)
        (inDir out (ident m.name ++ ".c".toList)) (sourceFile doc incl vars) ∧
      sortDefs fuel m = some sorted ∧
      (incl = some (ident m.name ++ ".h".toList) ↔
        ∃ d, (sorted.filter (fun d => !d.isSimple)).getLast? = some d ∧ clausesOf d ≠ []) ∧
      (incl ≠ none → incl = some (ident m.name ++ ".h".toList)) := by
  obtain ⟨bm, hbm, rfl⟩ := List.mem_map.1 hm
  obtain ⟨sorted, h1, h2, h4⟩ := source_file hin.grammar hin.accepted hr hbm fs
  refine ⟨_, _, _, sorted, h4, h1, ?_⟩
  unfold lastBlock
  cases (sorted.filter (fun d => !d.isSimple)).getLast? with
  | none => simp
  | some d =>
    simp only
    by_cases hc : clausesOf d = []
    · simp [hc]
    · simp [hc]

/-- **C45, partial.** If every definition of a module is a simple one or a sequence with a
WITH COMPONENTS clause, and there is one of these, the C file has the line including the
header of the module. -/
theorem C45_include_partial (p : Printer) (fuel : Nat) (raw : List Module)
    (cfg : List String) (out : Text) (b : Bundle) (fs : Files) (hin : Input raw cfg b)
    (hr : (runC fuel p raw cfg out).result = .ok ()) (m : Module) (hm : m ∈ b.modules)
    (hall : ∀ d ∈ m.defs, d.isSimple ∨ clausesOf d ≠ []) (hex : ∃ d ∈ m.defs, d.isSimple = false) :
    ∃ t, HasText ((runC fuel p raw cfg out).apply fs) (inDir out (ident m.name ++ ".c".toList)) t ∧
      "#include \"".toList ++ ident m.name ++ ".h\"".toList ∈ linesOf t := by
  obtain ⟨doc, incl, vars, sorted, h1, h2, h3, _⟩ :=
    C45_include_iff_partial p fuel raw cfg out b fs hin hr m hm
  have hpm := (sortDefs_spec fuel m sorted h2).1
  have hl : ∃ d, (sorted.filter (fun d => !d.isSimple)).getLast? = some d := by
    obtain ⟨d, hd, hs⟩ := hex
    have : d ∈ sorted.filter (fun d => !d.isSimple) :=
      List.mem_filter.2 ⟨hpm.mem_iff.2 hd, by simp [hs]⟩
    cases hx : (sorted.filter (fun d => !d.isSimple)).getLast? with
    | none => rw [List.getLast?_eq_none_iff] at hx; rw [hx] at this; cases this
    | some e => exact ⟨e, rfl⟩
  obtain ⟨d, hd⟩ := hl
  have hdm := List.mem_filter.1 (List.mem_of_getLast? hd)
  have hcl : clausesOf d ≠ [] := by
    rcases hall d (hpm.mem_iff.1 hdm.1) with h | h
    · simp [h] at hdm
    · exact h
  have hi := h3.2 ⟨d, hd, hcl⟩
  subst hi
  refine ⟨_, h1, ?_⟩
  have hn := accepted_names hin.grammar (buildFromTexts_of_config hin.accepted) _ hm
  have hnl : '\n' ∉ "#include \"".toList ++ ident m.name ++ ".h\"".toList := by
    intro h
    simp only [List.mem_append] at h
    rcases h with (h | h) | h
    · revert h; decide
    · exact not_mem_ident (Or.inl hn) '\n' (by decide +kernel) h
    · revert h; decide
  have e1 : "\n*/\n\n".toList = "\n*/\n".toList ++ ['\n'] := by decide
  have e2 : "\"\n\n".toList = ['"', '\n'] ++ ['\n'] := by decide
  have e3 : ".h\"".toList = ".h".toList ++ ['"'] := by decide
  rw [e3] at hnl ⊢
  unfold sourceFile
  rw [e1, e2]
  generalize "#include \"".toList = a1 at *
  generalize ".h".toList = a2 at *
  generalize "\n*/\n".toList = a3
  generalize "/*\nThis file was autogenerated from ASN.1 model.".toList = a4
  have e : a4 ++ (if doc = [] then [] else "\n\n".toList ++ doc) ++ (a3 ++ ['\n']) ++
      (a1 ++ (ident m.name ++ a2) ++ (['"', '\n'] ++ ['\n'])) ++ vars.flatten =
      (a4 ++ (if doc = [] then [] else "\n\n".toList ++ doc) ++ a3) ++ '\n' ::
        ((a1 ++ ident m.name ++ (a2 ++ ['"'])) ++ '\n' :: ('\n' :: vars.flatten)) := by
    generalize (if doc = [] then [] else "\n\n".toList ++ doc) = z
    simp
  simp only
  rw [e, linesOf_append, linesOf_append, linesOf_single hnl]
  simp

/-- A module with a clause and an enumeration after it. -/
def exLateModule : Module :=
  { name := "m", defs := [
      .seq "Id" none [⟨"apid", .plain "INTEGER" (some (.int 0)) (some (.int 255)), none, none⟩],
      .seq "Pkt" none [⟨"id", .plain "Id" none none, none, some (.leaf "apid" (.int 7) .nil)⟩],
      .seq "Tail" none [⟨"pkt", .plain "Pkt" none none, none, none⟩]] }

def exLate : List Module := [exLateModule]

/-- A module of clauses only. -/
def exClauseModule : Module :=
  { name := "m", imports := [⟨["Id"], "b"⟩], defs := [
      .seq "Pkt" none [⟨"id", .plain "Id" none none, none, some (.leaf "apid" (.int 7) .nil)⟩]] }

def exClause : List Module :=
  [{ name := "b", defs := [
      .seq "Id" none [⟨"apid", .plain "INTEGER" (some (.int 0)) (some (.int 255)), none, none⟩]] },
   exClauseModule]

example : Input exClause ["m", "b"] (okBundle (buildFromConfig exClause ["m", "b"])) ∧
    (runC 20 exPrinter exClause ["m", "b"] exOut).result = .ok () ∧
    exClauseModule ∈ (okBundle (buildFromConfig exClause ["m", "b"])).modules ∧
    (∀ d ∈ exClauseModule.defs, d.isSimple ∨ clausesOf d ≠ []) ∧
    (∃ d ∈ exClauseModule.defs, d.isSimple = false) :=
  ⟨input_of (by decide +kernel) (by decide +kernel) (by decide +kernel), by decide +kernel,
    by decide +kernel, by decide +kernel, ⟨_, List.Mem.head _, rfl⟩⟩

/-- It fails: the include is dropped if another definition follows the clause. -/
theorem C45_full_false : ¬ C45_full := by
  intro hf
  obtain ⟨t, h1, h2⟩ := hf exPrinter exPrinter_faithful 20 exLate ["m"] exOut _ (fun _ => none)
    (input_of (by decide +kernel) (by decide +kernel) (by decide +kernel)) (by decide +kernel)
    exLateModule (by decide +kernel)
    (.seq "Pkt" none [⟨"id", .plain "Id" none none, none, some (.leaf "apid" (.int 7) .nil)⟩])
    (by decide +kernel) (by decide +kernel)
  rw [← fileText_eq h1] at h2
  revert h2
  decide +kernel

end Apg
