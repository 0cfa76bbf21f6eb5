import Verif.Lemmas.ReportTrue
import Verif.Lemmas.Examples

/-!
# C97: error messages name the cause
-/

namespace Apg
open Spec

/-- Every message is true of the modules read and the modules named. -/
def C97_full : Prop :=
  ∀ (raw : List Module) (cfg : List String) (m : Message), (∀ x ∈ raw, GrammarModule x) →
    buildFromConfigR raw cfg = .error m → Claims raw cfg m

/-! ### The model with messages is the model without them -/

/-- A message is there exactly when the modules are refused, and belongs to the exception that is raised. -/
theorem C97_message_iff (raw : List Module) (cfg : List String) :
    (∀ b, buildFromConfigR raw cfg = .ok b ↔ buildFromConfig raw cfg = .ok b) ∧
    ∀ e, buildFromConfig raw cfg = .error e ↔ ∃ m, buildFromConfigR raw cfg = .error m ∧ m.err = e := by
  have h := config_erases raw cfg
  cases hr : buildFromConfigR raw cfg with
  | ok b =>
    rw [h.1 b hr]
    exact ⟨fun _ => by simp, fun e => by simp⟩
  | error m =>
    rw [h.2 m hr]
    refine ⟨fun b => by simp, fun e => ⟨fun he => ⟨m, rfl, by cases he; rfl⟩, ?_⟩⟩
    rintro ⟨_, h1, rfl⟩
    cases h1
    rfl

theorem C97_message_texts_iff (raw : List Module) :
    (∀ b, buildFromTextsR raw = .ok b ↔ buildFromTexts raw = .ok b) ∧
    ∀ e, buildFromTexts raw = .error e ↔ ∃ m, buildFromTextsR raw = .error m ∧ m.err = e := by
  have h := texts_erases raw
  cases hr : buildFromTextsR raw with
  | ok b =>
    rw [h.1 b hr]
    exact ⟨fun _ => by simp, fun e => by simp⟩
  | error m =>
    rw [h.2 m hr]
    refine ⟨fun b => by simp, fun e => ⟨fun he => ⟨m, rfl, by cases he; rfl⟩, ?_⟩⟩
    rintro ⟨_, h1, rfl⟩
    cases h1
    rfl

/-- A message is printed exactly when the modules are refused as inconsistent; any other exception is not caught. -/
theorem C97_printed (raw : List Module) (cfg : List String) :
    ((printedMessage raw cfg).isSome ↔ buildFromConfig raw cfg = .error .consistency) ∧
    ∀ m, printedMessage raw cfg = some m → Claims raw cfg m ∨ Misleads raw m := by
  unfold printedMessage
  rw [(C97_message_iff raw cfg).2]
  cases hr : buildFromConfigR raw cfg with
  | ok b => simp
  | error x =>
    dsimp only
    by_cases hx : x.err = .consistency
    · rw [if_pos hx]
      refine ⟨⟨fun _ => ⟨x, rfl, hx⟩, fun _ => rfl⟩, fun m hm => ?_⟩
      cases hm
      exact (config_honest hr).or
    · rw [if_neg hx]
      refine ⟨⟨fun h => (by cases h), ?_⟩, fun m hm => (by cases hm)⟩
      rintro ⟨m, hm, he⟩
      cases hm
      exact (hx he).elim

/-! ### What the messages say is so -/

/-- All messages but two are true. Missing: the messages on an index given twice and on the type of a clause, which
are covered by the theorems below and are wrong for some inputs. -/
theorem C97_true_partial {raw : List Module} {cfg : List String} {m : Message}
    (h : buildFromConfigR raw cfg = .error m ∨ buildFromTextsR raw = .error m)
    (h1 : ∀ p, m ≠ .indexTwice p) (h2 : ∀ t d, m ≠ .usedType t d) : Claims raw cfg m := by
  have : Honest raw cfg m := by
    rcases h with h | h
    · exact config_honest h
    · exact texts_honest h
  rcases this with h | h
  · exact h.claims
  · cases m with
    | indexTwice p => exact (h1 p rfl).elim
    | usedType t d => exact (h2 t d rfl).elim
    | _ => exact h.elim

/-- Two items stand for the same place if an index is reported as given twice, counting from the end if it is negative. -/
theorem C97_index_partial {raw : List Module} {cfg : List String} {p : Int}
    (h : buildFromConfigR raw cfg = .error (.indexTwice p) ∨ buildFromTextsR raw = .error (.indexTwice p)) :
    Misleads raw (.indexTwice p) ∧
    ((∀ m ∈ raw, ∀ n c its, Def.enum n c its ∈ m.defs → ∀ i ∈ its, 0 ≤ i.pos) → Claims raw cfg (.indexTwice p)) := by
  have hmis : Misleads raw (.indexTwice p) := by
    have : Honest raw cfg (.indexTwice p) := by
      rcases h with h | h
      · exact config_honest h
      · exact texts_honest h
    exact this.resolve_left fun h => h.elim
  refine ⟨hmis, fun hpos => ?_⟩
  obtain ⟨m, hm, n, c, its, hd, l₁, l₂, i, j, hi, rfl, rfl, q, hq, s1, s2⟩ := hmis
  have p1 := hpos m hm n c _ hd i (by simp [hi])
  have p2 := hpos m hm n c _ hd j (by simp)
  refine ⟨m, hm, n, c, _, hd, ?_⟩
  unfold StandsFor at s1 s2
  have he : i.pos = j.pos := by omega
  rw [List.map_append, List.map_cons, List.count_append, List.count_cons_self]
  have : 0 < (l₁.map (·.pos)).count j.pos := List.count_pos_iff.2 (he ▸ List.mem_map_of_mem hi)
  omega

/-- If the type of a clause is reported as not defined, there is such a clause, and there is not exactly one SEQUENCE
of this name. The type is defined all the same, so the message is never true: clauses on types that are not defined are refused before. -/
theorem C97_used_type_partial {raw : List Module} {cfg : List String} {t d : String}
    (h : buildFromConfigR raw cfg = .error (.usedType t d)) :
    Misleads raw (.usedType t d) ∧ (∃ x ∈ defsOf raw, x.name = t) ∧ ¬ Claims raw cfg (.usedType t d) := by
  have hmis : Misleads raw (.usedType t d) := (config_honest (cfg := cfg) h).resolve_left fun h => h.elim
  have hdef : ∃ x ∈ defsOf raw, x.name = t := by
    obtain ⟨⟨c, hc⟩, hb, _⟩ := hmis
    rcases bindR_error.1 h with h | ⟨ms, hms, h⟩
    · rcases processModulesR_honest (raw := raw) (cfg := cfg) (fun _ hm => hm) h with h | ⟨⟨_, h⟩, _⟩
      · exact h.elim
      · cases h
    · have hms := (processModules_erases raw).1 _ hms
      have hs := processModules_same hms
      have hnames : ms.map (·.name) = raw.map (·.name) := all2_map_eq hs _ _ fun _ _ h => h.1
      rcases bindR_error.1 h with h | ⟨_, hu, h⟩
      · exact (unique_honest hs h).elim
      · have hu := (validateUnique_ok ms cfg).1 ((unique_erases ms cfg).1 _ hu)
        rcases bindR_error.1 h with h | ⟨b, hbb, h⟩
        · rcases bindR_error.1 h with h | ⟨_, _, h⟩
          · exact (resolveDepsR_honest (cfg := cfg) hs (fun _ hm => hm) h).elim
          · exact (pureR_error h).elim
        · have hbb := (build_erases ms).1 _ hbb
          rcases bindR_error.1 h with h | ⟨_, _, h⟩
          · rcases checkAllImportsR_cases b.mods with ⟨_, h2⟩ | ⟨bm, _, im, _, _, _, h5⟩
            · exact used_defined (hnames ▸ hu.1) hms hbb (List.all_eq_true.1 h2) hb (clauseOf_used hc)
            · rcases bindR_error.1 h with h | ⟨_, h, _⟩
              · rw [h5] at h; cases h
              · rw [h5] at h; cases h
          · rcases bindR_error.1 h with h | ⟨_, _, h⟩
            · exact (missing_honest hs hbb h).elim
            · exact (pureR_error h).elim
  refine ⟨hmis, hdef, ?_⟩
  rintro ⟨_, _, hn⟩
  obtain ⟨x, hx, he⟩ := hdef
  exact hn x hx he

/-! ### Messages that are wrong, and examples -/

/-- The message of a refusal. -/
def messageOf {α} : Except Message α → Option Message
  | .ok _ => none
  | .error m => some m

theorem messageOf_eq {α} {x : Except Message α} {m : Message} (h : messageOf x = some m) : x = .error m := by
  cases x with
  | ok => cases h
  | error => cases h; rfl

/-- `Mode` is an ENUMERATED type, and `P` has a clause on a member of this type. -/
def exOnEnum : List Module := [
  { name := "tm", imports := [], defs := [
    .enum "Mode" none [⟨"off", 0, none⟩, ⟨"on", 1, none⟩],
    .seq "P" none [{ key := "m", type := .plain "Mode" none none, comps := some (.leaf "x" (.int 1) .nil), comment := none }]],
    comment := none, commentImport := none }]

/-- `used type 'Mode' in 'P' is not defined` is reported, although the module defines it. -/
theorem C97_full_false : ¬ C97_full := by
  intro h
  have he : buildFromConfigR exOnEnum ["tm"] = .error (.usedType "Mode" "P") := messageOf_eq (by decide +kernel)
  exact (C97_used_type_partial he).2.2 (h _ _ _ (grammarB_sound (by decide +kernel)) he)

/-- Three items at the positions 2, -1 and 2. -/
def exPositions : List Module := [
  { name := "tm", imports := [], defs := [
    .enum "Mode" none [⟨"off", 2, none⟩, ⟨"on", -1, none⟩, ⟨"auto", 2, none⟩]], comment := none, commentImport := none }]

/-- `index '-1' is defined multiple times` is reported, although it is 2 that is. -/
theorem C97_full_false_index : ∃ raw cfg p, (∀ x ∈ raw, GrammarModule x) ∧
    buildFromConfigR raw cfg = .error (.indexTwice p) ∧ ¬ Claims raw cfg (.indexTwice p) := by
  refine ⟨exPositions, ["tm"], -1, grammarB_sound (by decide +kernel), messageOf_eq (by decide +kernel), ?_⟩
  rintro ⟨m, hm, n, c, its, hd, h2⟩
  obtain rfl := List.mem_singleton.1 hm
  cases List.mem_singleton.1 hd
  revert h2
  decide

/-- `A` is defined in two modules. -/
def exTwoA : List Module := [
  { name := "tm", imports := [], defs := [.seq "A" none []], comment := none, commentImport := none },
  { name := "tc", imports := [], defs := [.seq "B" none [], .seq "A" none []], comment := none, commentImport := none }]

example : printedMessage exTwoA ["tm", "tc"] = some (.typeTwice "A" "tm" "tc") ∧
    Claims exTwoA ["tm", "tc"] (.typeTwice "A" "tm" "tc") := by
  have h : buildFromConfigR exTwoA ["tm", "tc"] = .error (.typeTwice "A" "tm" "tc") := messageOf_eq (by decide +kernel)
  refine ⟨by decide +kernel, C97_true_partial (.inl h) (fun _ => by simp) fun _ _ => by simp⟩

/-- Modules that are missing on both sides: only those not read are reported, and all of them. -/
example : printedMessage [{ name := "tm", imports := [], defs := [], comment := none, commentImport := none }] ["tc", "x", "tc2"] =
    some (.notRead ["tc", "x", "tc2"]) := by decide +kernel

/-- An import that names an undefined type, and one of an undefined module. -/
def exImports (i : ImportItem) : List Module := [
  { name := "tm", imports := [], defs := [.seq "A" none []], comment := none, commentImport := none },
  { name := "tc", imports := [i], defs := [.seq "B" none []], comment := none, commentImport := none }]

example : buildFromConfigR (exImports ⟨["A", "C", "D"], "tm"⟩) ["tm", "tc"] = .error (.imports "tc" ["C", "D"] "tm") :=
  messageOf_eq (by decide +kernel)

example : buildFromConfigR (exImports ⟨["A"], "x"⟩) ["tm", "tc"] = .error (.dependencies "tc" ["x"]) ∧
    printedMessage (exImports ⟨["A"], "x"⟩) ["tm", "tc"] = none :=
  ⟨messageOf_eq (by decide +kernel), by decide +kernel⟩

/-- Positions 1, 1, 1 sum up to the right number; the index is reported. -/
example : ∃ raw, (∀ x ∈ raw, GrammarModule x) ∧ buildFromTextsR raw = .error (.indexTwice 1) ∧ Claims raw [] (.indexTwice 1) := by
  refine ⟨[{ name := "tm", imports := [], defs := [
    .enum "Mode" none [⟨"off", 1, none⟩, ⟨"on", 1, none⟩, ⟨"auto", 1, none⟩]], comment := none, commentImport := none }],
    grammarB_sound (by decide +kernel), messageOf_eq (by decide +kernel), ?_⟩
  refine (C97_index_partial (.inr (messageOf_eq (by decide +kernel)))).2 ?_
  intro m hm n c its hd i hi
  obtain rfl := List.mem_singleton.1 hm
  cases List.mem_singleton.1 hd
  revert i
  decide

/-- A fixed value for a key that the SEQUENCE does not have, in an inner clause. -/
example : messageOf (buildFromTextsR [
  { name := "tm", imports := [], defs := [
    .seq "A" none [{ key := "x", type := intType 0 3, comps := none, comment := none }],
    .seq "B" none [{ key := "a", type := .plain "A" none none, comps := none, comment := none }],
    .seq "P" none [⟨"b", .plain "B" none none, none, some (.node "a" (.leaf "y" (.int 1) .nil) .nil)⟩]],
    comment := none, commentImport := none }]) = some (.key "y" "P") := by decide +kernel

end Apg
