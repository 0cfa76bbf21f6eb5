import Verif.Spec.CChoice
import Verif.Props.CScope
import Verif.Props.Agreement

/-!
# C62: the alternatives of a CHOICE in C
-/

namespace Apg
open Spec

theorem posix_head {n : String} {ct : Text} (h : Posix n ct) : ∃ c r, ct = c :: r ∧ reLower c = true := by
  cases h <;> exact ⟨_, _, rfl, by decide⟩

theorem scalar_head {t : AType} {ct sfx : Text} (h : ScalarC t ct sfx) : ∃ c r, ct = c :: r ∧ reLower c = true := by
  cases h with
  | uint _ _ h =>
    obtain ⟨n, hn, _⟩ := h
    cases hn <;> exact ⟨_, _, rfl, by decide⟩
  | _ => exact ⟨_, _, rfl, by decide⟩

/-- A member type that is printed as it is called. -/
theorem fieldType_same {ds : List Def} {t : AType} {ct sfx : Text} (hcap : ∀ d ∈ ds, isNameCapital d.name = true)
    (h : FieldType ds t ct sfx) (hc : ct = unionType t) (hd : (dims t).take 1 = []) : NamesBlock ds t := by
  have up : ∀ {n : String} {x : Text}, (∃ c r, ident n = c :: r ∧ reUpper c = true) →
      (∃ c r, x = c :: r ∧ reLower c = true) → x = ident n → False := fun h1 h2 h => head_differ h1 h2 h.symm
  cases h with
  | scalar hs =>
    have h1 := scalar_head hs
    cases hs with
    | uint => exact (up (n := "INTEGER") ⟨_, _, rfl, by decide⟩ h1 hc).elim
    | sint => exact (up (n := "INTEGER") ⟨_, _, rfl, by decide⟩ h1 hc).elim
    | single => exact (up (n := "REAL") ⟨_, _, rfl, by decide⟩ h1 hc).elim
    | double => exact (up (n := "REAL") ⟨_, _, rfl, by decide⟩ h1 hc).elim
  | bool => exact (up (n := "BOOLEAN") ⟨_, _, rfl, by decide⟩ ⟨_, _, rfl, by decide⟩ hc).elim
  | chars => cases hd
  | named hn =>
    cases hn with
    | posix hm hp => exact (up (ident_capital_head (hcap _ hm)) (posix_head hp) hc).elim
    | struct hm => exact ⟨_, hm, rfl, rfl⟩
    | union hm => exact ⟨_, hm, rfl, rfl⟩
    | alias hm _ hs => exact (up (ident_capital_head (hcap _ hm)) (scalar_head hs) hc).elim
    | aliasBool hm => exact (up (ident_capital_head (hcap _ hm)) ⟨_, _, rfl, by decide⟩ hc).elim
    | aliasFloat hm => exact (up (ident_capital_head (hcap _ hm)) ⟨_, _, rfl, by decide⟩ hc).elim
    | aliasDouble hm => exact (up (ident_capital_head (hcap _ hm)) ⟨_, _, rfl, by decide⟩ hc).elim
  | enum he => exact ⟨_, he, rfl, rfl⟩
  | array => cases hd
  | arrayEnum => cases hd

theorem accepted_least {raw : List Module} {cfg : List String} {b : Bundle} (hin : Input raw cfg b) {n : String}
    {c : Option Comment} {its : List EnumItem} (hd : Def.enum n c its ∈ b.defs) : ∃ w, LeastForItems w its := by
  have hsrc := sources_of_input hin
  have hs := accepted_sized hsrc
  have hpos := (accepted_grammar hin.grammar hsrc.accepted _ hd).2 n c its rfl
  obtain ⟨w, _, _, h5, h6⟩ := (enumSize_iff hpos _).1 (enum_bits (hs.grammar _ hd).2.1 (hs.pos _ _ _ hd))
  exact ⟨w, h5, h6⟩

/-- The names of blocks are printed as they are called. -/
theorem namesBlock_field {raw : List Module} {cfg : List String} {b : Bundle} (hin : Input raw cfg b) {t : AType}
    (h : NamesBlock b.defs t) : ∃ sfx, FieldType b.defs t (unionType t) sfx ∧ dims t = [] := by
  obtain ⟨d, hd, rfl, hs⟩ := h
  cases d with
  | seq n c ms => exact ⟨_, .named (.struct hd), rfl⟩
  | choice n c ms => exact ⟨_, .named (.union hd), rfl⟩
  | enum n c its =>
    obtain ⟨w, hw⟩ := accepted_least hin hd
    exact ⟨_, .enum hd hw (bitSuffix_int w), rfl⟩
  | simple => cases hs

/-- Full statement of C62: the alternatives of a CHOICE have the C types of struct members. -/
def C62_full : Prop :=
  ∀ (cmd : Command) fuel raw cfg out b fs, Input raw cfg b → (cmd.run fuel raw cfg out).result = .ok () →
    Regular b.defs → ∀ m ∈ b.modules, Tame m → ∃ text dirs decls,
      HasText ((cmd.run fuel raw cfg out).apply fs) (cmd.path out m.name) text ∧
      readHeader text = some (dirs, decls) ∧
      ∀ n c ms, Def.choice n c ms ∈ m.defs → ∃ fs o, CDecl.union (ident n) fs o ∈ decls ∧
        All2 (AlternativeOf b.defs) ms fs

/-- **C62, partial.** The header has a union for each CHOICE with one field for each alternative in order. The field
has the type and dimension of the alternative exactly if that is the name of a SEQUENCE, a CHOICE or an
ENUMERATED. Missing: all other alternatives, which have a wrong type. -/
theorem C62_alternatives_iff_partial (cmd : Command) (fuel : Nat) (raw : List Module) (cfg : List String) (out : Text)
    (b : Bundle) (fs : Files) (hin : Input raw cfg b) (hr : (cmd.run fuel raw cfg out).result = .ok ())
    (hreg : Regular b.defs) (m : Module) (hm : m ∈ b.modules) (ht : Tame m) :
    ∃ text dirs decls, HasText ((cmd.run fuel raw cfg out).apply fs) (cmd.path out m.name) text ∧
      readHeader text = some (dirs, decls) ∧
      ∀ n c ms, Def.choice n c ms ∈ m.defs → ∃ fs o, CDecl.union (ident n) fs o ∈ decls ∧
        All2 (fun k f => f.name = ident k.key ∧ (AlternativeOf b.defs k f ↔ NamesBlock b.defs k.type)) ms fs := by
  have hcap := accepted_capital hin.grammar (buildFromTexts_of_config hin.accepted)
  obtain ⟨text, h1, sorted, std, decls, h2, h3, h4⟩ :=
    C60_reads_partial cmd fuel raw cfg out b fs hin hr hreg m hm ht
  refine ⟨text, _, _, h1, readHeader_of h4, ?_⟩
  intro n c ms hd
  obtain ⟨x, hx, hdx⟩ := all2_mem_left h3 (List.mem_filter.2 ⟨h2.mem_iff.2 hd, rfl⟩)
  cases hdx
  refine ⟨_, _, List.mem_append_left _ hx, all2_map_self fun k hk => ⟨rfl, ?_, ?_⟩⟩
  · rintro ⟨_, k2, ct, sfx, k3, k4⟩
    simp only [List.cons.injEq, and_true] at k4
    exact fieldType_same hcap k3 k4.symm k2.symm
  · intro hb
    obtain ⟨sfx, k1, k2⟩ := namesBlock_field hin hb
    exact ⟨rfl, by rw [k2]; rfl, _, sfx, k1, rfl⟩

/-! ### What goes wrong -/

/-- A CHOICE of a number and a string. -/
def exAlternatives : Module :=
  { name := "m"
    defs := [.choice "Either" none [⟨"x", .plain "INTEGER" (some (.int 0)) (some (.int 255)), none, none⟩,
      ⟨"y", .str "IA5String" 8, none, none⟩]] }

theorem exAlternatives_tame : Tame exAlternatives := by
  refine ⟨(by intro c hc; cases hc), (by intro c hc; cases hc), ?_⟩
  intro d hd
  simp only [exAlternatives, List.mem_cons, List.not_mem_nil, or_false] at hd
  subst hd
  refine ⟨(by intro x hx; cases hx), ?_⟩
  unfold NotReserved
  decide +kernel

/-- An INTEGER in a CHOICE is printed as `INTEGER`. -/
theorem C62_full_false : ¬ C62_full := by
  intro hf
  obtain ⟨text, dirs, decls, h1, h2, h3⟩ := hf (.cfs exPrinter) 20 [exAlternatives] ["m"] exOut _ (fun _ => none)
    (input_of (by decide +kernel) (by decide +kernel) (by decide +kernel)) (by decide +kernel)
    (regular_of (by decide +kernel) (by decide +kernel) (by decide +kernel)) exAlternatives (by decide +kernel)
    exAlternatives_tame
  obtain ⟨fs, o, k1, k2⟩ := h3 _ _ _ (List.mem_singleton.2 rfl)
  have e : (readHeader (fileText (((Command.cfs exPrinter).run 20 [exAlternatives] ["m"] exOut).apply fun _ => none)
      ((Command.cfs exPrinter).path exOut "m"))).map (·.2) = some [.union "Either".toList
        [⟨["INTEGER".toList], "x".toList, none, []⟩, ⟨["char".toList], "y".toList, none, []⟩] "either".toList] := by
    decide +kernel
  have ht : fileText (((Command.cfs exPrinter).run 20 [exAlternatives] ["m"] exOut).apply fun _ => none)
      ((Command.cfs exPrinter).path exOut "m") = text := fileText_eq h1
  rw [ht, h2] at e
  simp only [Option.map_some, Option.some.injEq] at e
  rw [e, List.mem_singleton] at k1
  simp only [CDecl.union.injEq] at k1
  rw [k1.2.1] at k2
  cases k2 with
  | cons _ k2 =>
    cases k2 with
    | cons k3 _ => exact absurd k3.2.1 (by decide +kernel)

/-! ### Example -/

/-- The alternative of `exTame` has its type. -/
example : ∃ text dirs decls, HasText (((Command.cfs exPrinter).run 20 [exTame] ["m"] exOut).apply fun _ => none)
      ((Command.cfs exPrinter).path exOut "m") text ∧ readHeader text = some (dirs, decls) ∧
    ∃ fs o, CDecl.union "Either".toList fs o ∈ decls ∧
      All2 (AlternativeOf (okBundle (buildFromConfig [exTame] ["m"])).defs)
        [⟨"x", .plain "Mode" none none, none, none⟩] fs := by
  obtain ⟨text, dirs, decls, h1, h2, h3⟩ := C62_alternatives_iff_partial (.cfs exPrinter) 20 [exTame] ["m"] exOut _
    (fun _ => none) (input_of (by decide +kernel) (by decide +kernel) (by decide +kernel)) (by decide +kernel)
    (regular_of (by decide +kernel) (by decide +kernel) (by decide +kernel)) exTame (by decide +kernel) exTame_tame
  refine ⟨text, dirs, decls, h1, h2, ?_⟩
  obtain ⟨fs, o, k1, k2⟩ := h3 "Either" none _ (List.mem_cons_of_mem _ (List.mem_cons_self ..))
  refine ⟨fs, o, k1, k2.imp_mem ?_⟩
  intro k hk f hf
  rw [List.mem_singleton] at hk
  subst hk
  refine hf.2.2 ⟨exTame.defs.head (by decide), by decide +kernel, by decide +kernel, by decide +kernel⟩

end Apg
