import Verif.Props.CScope
import Verif.Props.Defines
import Verif.Spec.CMacros

/-!
# C96: macros and the identifiers in the headers of a run
-/

namespace Apg
open Spec

/-! ### The identifiers of the headers -/

theorem names_iff {cmd : Command} {L : List Def} {D ds : List CDecl}
    (hD : All2 Declared (L.filter fun d => !d.isSimple) D) (hds : ds.Perm (D ++ objectsOf cmd L)) (w : Text) :
    (∃ x ∈ ds, w ∈ x.idents) ↔
      (∃ d ∈ L, d.isSimple = false ∧ w = ident d.name) ∨ (∃ k ∈ L.flatMap enumerators, w = ident k) ∨
      (∃ d ∈ L, ∃ k ∈ d.members, w = ident k.key) ∨ ∃ d ∈ L, HasObject cmd d ∧ w = lowerFirst (ident d.name) := by
  have hmem : ∀ {d}, d ∈ L.filter (fun d => !d.isSimple) ↔ d ∈ L ∧ d.isSimple = false := by
    intro d
    simp
  constructor
  · rintro ⟨x, hx, hw⟩
    rcases List.mem_append.1 (hds.mem_iff.1 hx) with hx | hx
    · obtain ⟨d, hd, T, hdx⟩ := all2_mem_right hD hx
      obtain ⟨hd, hsi⟩ := hmem.1 hd
      simp only [CDecl.idents, List.mem_append] at hw
      rcases hw with (hw | hw) | hw
      · rw [declOf_names hdx] at hw
        rcases mem_defNames hw with ⟨h, _⟩ | ⟨k, hk, h⟩ | ⟨hc, h⟩
        · exact .inl ⟨d, hd, hsi, h⟩
        · exact .inr (.inl ⟨k, List.mem_flatMap.2 ⟨d, hd, hk⟩, h⟩)
        · refine .inr (.inr (.inr ⟨d, hd, ?_, h⟩))
          cases d with
          | choice => cases cmd <;> trivial
          | _ => cases hc
      · exact .inl ⟨d, hd, hsi, declOf_tags hdx w hw⟩
      · rw [declOf_fields hdx] at hw
        obtain ⟨k, hk, h⟩ := List.mem_map.1 hw
        exact .inr (.inr (.inl ⟨d, hd, k, hk, h.symm⟩))
    · obtain ⟨d, hd, _, ho, rfl⟩ := objectsOf_form hx
      simp only [CDecl.idents, CDecl.names, CDecl.tags, CDecl.fields, List.map_nil, List.append_nil,
        List.mem_singleton] at hw
      exact .inr (.inr (.inr ⟨d, hd, ho, hw⟩))
  · have key : ∀ {d}, d ∈ L → d.isSimple = false → ∃ x ∈ ds, Declared d x := by
      intro d hd hsi
      obtain ⟨x, hx, h⟩ := all2_mem_left hD (hmem.2 ⟨hd, hsi⟩)
      exact ⟨x, hds.mem_iff.2 (List.mem_append_left _ hx), h⟩
    rintro (⟨d, hd, hsi, rfl⟩ | ⟨k, hk, rfl⟩ | ⟨d, hd, k, hk, rfl⟩ | ⟨d, hd, ho, rfl⟩)
    · obtain ⟨x, hx, T, h⟩ := key hd hsi
      refine ⟨x, hx, ?_⟩
      cases d with
      | seq n c ms => obtain ⟨fs, rfl, _⟩ := h; simp [CDecl.idents, CDecl.names, Def.name]
      | enum n c its => cases h; simp [CDecl.idents, CDecl.names, Def.name]
      | choice n c ms => cases h; simp [CDecl.idents, CDecl.tags, Def.name]
      | simple => cases h
    · obtain ⟨d, hd, hk⟩ := List.mem_flatMap.1 hk
      have hsi : d.isSimple = false := by
        cases d with
        | simple => cases hk
        | _ => rfl
      obtain ⟨x, hx, T, h⟩ := key hd hsi
      refine ⟨x, hx, List.mem_append_left _ (List.mem_append_left _ ?_)⟩
      rw [declOf_names h]
      exact enumerator_mem hk
    · have hsi : d.isSimple = false := by
        cases d with
        | simple => cases hk
        | _ => rfl
      obtain ⟨x, hx, T, h⟩ := key hd hsi
      refine ⟨x, hx, List.mem_append_right _ ?_⟩
      rw [declOf_fields h]
      exact List.mem_map.2 ⟨k, hk, rfl⟩
    · by_cases hc : IsChoice d
      · have hsi : d.isSimple = false := by
          cases d with
          | choice => rfl
          | _ => cases hc
        obtain ⟨x, hx, T, h⟩ := key hd hsi
        refine ⟨x, hx, List.mem_append_left _ (List.mem_append_left _ ?_)⟩
        rw [declOf_names h]
        exact choice_mem hc
      · refine ⟨_, hds.mem_iff.2 (List.mem_append_right _ (objectsOf_mem hd hc ho)), ?_⟩
        simp [CDecl.idents, CDecl.names]

/-- The declarations of the headers of a run, and the identifiers in them. -/
theorem run_idents (cmd : Command) (fuel : Nat) (raw : List Module) (cfg : List String) (out : Text)
    (b : Bundle) (fs : Files) (hin : Input raw cfg b) (hr : (cmd.run fuel raw cfg out).result = .ok ())
    (hreg : Regular b.defs) (ht : ∀ m ∈ b.modules, Tame m) :
    ∃ dss, HeaderDecls cmd ((cmd.run fuel raw cfg out).apply fs) out b.modules dss ∧ ∀ w : Text,
      (∃ x ∈ dss.flatten, w ∈ x.idents) ↔
        (∃ d ∈ b.defs, d.isSimple = false ∧ w = ident d.name) ∨ (∃ k ∈ b.defs.flatMap enumerators, w = ident k) ∨
        (∃ d ∈ b.defs, ∃ k ∈ d.members, w = ident k.key) ∨
        ∃ d ∈ b.defs, HasObject cmd d ∧ w = lowerFirst (ident d.name) := by
  obtain ⟨dss, sorted, D, h1, h2, h3, h4⟩ := headers_together (ms := b.modules) fun m hm =>
    C60_reads_partial cmd fuel raw cfg out b fs hin hr hreg m hm (ht m hm)
  have hp : sorted.Perm b.defs := by
    rw [← defsOf_eq]
    exact h2
  refine ⟨dss, h1, fun w => ?_⟩
  rw [names_iff (h3.imp fun _ _ ⟨_, hx⟩ => ⟨_, hx⟩) h4 w]
  simp only [hp.mem_iff, (hp.flatMap_right enumerators).mem_iff]

/-! ### The letters of macros -/

/-- The text starts with a capital letter and has another one. -/
def TwoCapitals (x : Text) : Prop := ∃ c r, x = c :: r ∧ reUpper c = true ∧ ∃ u ∈ r, reUpper u = true

theorem upper_ascii {P : Char → Prop} [DecidablePred P] (hall : ∀ n < 128, reUpper (Char.ofNat n) = true → P (Char.ofNat n))
    {c : Char} (h : reUpper c = true) : P c := by
  have hc : c.toNat < 128 := by
    simp only [reUpper, Bool.and_eq_true, decide_eq_true_eq] at h
    have : c.toNat ≤ 'Z'.toNat := h.2
    have h90 : 'Z'.toNat = 90 := by decide
    omega
  have := hall c.toNat hc
  rw [Char.ofNat_toNat] at this
  exact this h

theorem stdint_capitals : ∀ x ∈ stdintMacros, TwoCapitals x := by
  have : (stdintMacros.all fun x => match x with | c :: r => reUpper c && r.any reUpper | [] => false) = true := by
    decide +kernel
  intro x hx
  have h := List.all_eq_true.1 this x hx
  cases x with
  | nil => cases h
  | cons c r =>
    simp only [Bool.and_eq_true, List.any_eq_true] at h
    exact ⟨c, r, rfl, h⟩

theorem upper_not_tail {c : Char} (h : reUpper c = true) : ¬ TailChar c := by
  rintro (rfl | h' | h')
  · exact absurd h (by decide)
  · rw [upper_lower h] at h'; cases h'
  · have := upper_ascii (P := fun c => reDigit c = false) (by decide +kernel) h
    rw [this] at h'; cases h'

theorem capitals_ident {x : Text} (hx : TwoCapitals x) {s : String} (h : isNameCapital s = true) : x ≠ ident s := by
  rintro rfl
  obtain ⟨c, r, h1, _, u, hu, hu'⟩ := hx
  obtain ⟨c', r', h2, _, ht⟩ := ident_capital_chars h
  rw [h1] at h2
  cases h2
  exact upper_not_tail hu' (ht u hu)

theorem TwoCapitals.head {x : Text} (h : TwoCapitals x) : ∃ c r, x = c :: r ∧ reUpper c = true := by
  obtain ⟨c, r, h1, h2, _⟩ := h
  exact ⟨c, r, h1, h2⟩

theorem stdbool_lower : ∀ x ∈ stdboolMacros, ∃ c r, x = c :: r ∧ reLower c = true := by
  intro x hx
  simp only [stdboolMacros, List.mem_cons, List.not_mem_nil, or_false] at hx
  rcases hx with rfl | rfl | rfl
  · exact ⟨'b', _, rfl, by decide⟩
  · exact ⟨'t', _, rfl, by decide⟩
  · exact ⟨'f', _, rfl, by decide⟩

theorem stdbool_ident {s : String} (h : isNameLower s = true) : ident s ∈ stdboolMacros ↔ s ∈ ["bool", "true", "false"] := by
  have e : stdboolMacros = ["bool", "true", "false"].map ident := by decide +kernel
  rw [e]
  constructor
  · intro hm
    obtain ⟨t, ht, he⟩ := List.mem_map.1 hm
    have hl : isNameLower t = true := by
      simp only [List.mem_cons, List.not_mem_nil, or_false] at ht
      rcases ht with rfl | rfl | rfl <;> decide +kernel
    rw [← ident_inj (.inl hl) (.inl h) he]
    exact ht
  · exact fun hm => List.mem_map_of_mem hm

theorem stdbool_lowered {s : String} (h : isNameCapital s = true) :
    lowerFirst (ident s) ∈ stdboolMacros ↔ s ∈ ["Bool", "True", "False"] := by
  have e : stdboolMacros = ["Bool", "True", "False"].map fun s => lowerFirst (ident s) := by decide +kernel
  rw [e]
  constructor
  · intro hm
    obtain ⟨t, ht, he⟩ := List.mem_map.1 hm
    have hl : isNameCapital t = true := by
      simp only [List.mem_cons, List.not_mem_nil, or_false] at ht
      rcases ht with rfl | rfl | rfl <;> decide +kernel
    rw [← lowerize_ident_inj hl h he]
    exact ht
  · exact fun hm => List.mem_map.2 ⟨s, hm, rfl⟩

theorem members_lower {d : Def} (h : GrammarDef d) : ∀ k ∈ d.members, isNameLower k.key = true := by
  cases d with
  | seq n c ms => exact fun k hk => (h.2.2 k hk).1
  | choice n c ms => exact fun k hk => (h.2.2 k hk).1
  | _ => intro k hk; cases hk

/-- Macros with two capitals replace no identifier. -/
theorem untouched_capitals {cmd : Command} {ds : List Def} {decls : List CDecl} {M : List Text}
    (hg : ∀ d ∈ ds, GrammarDef d) (hM : ∀ x ∈ M, TwoCapitals x)
    (hi : ∀ w : Text, (∃ x ∈ decls, w ∈ x.idents) ↔
        (∃ d ∈ ds, d.isSimple = false ∧ w = ident d.name) ∨ (∃ k ∈ ds.flatMap enumerators, w = ident k) ∨
        (∃ d ∈ ds, ∃ k ∈ d.members, w = ident k.key) ∨ ∃ d ∈ ds, HasObject cmd d ∧ w = lowerFirst (ident d.name)) :
    Untouched M decls := by
  intro x hx w hw hm
  rcases (hi w).1 ⟨x, hx, hw⟩ with ⟨d, hd, hsi, rfl⟩ | ⟨k, hk, rfl⟩ | ⟨d, hd, k, hk, rfl⟩ | ⟨d, hd, _, rfl⟩
  · exact capitals_ident (hM _ hm) (grammarDef_name (hg d hd)) rfl
  · obtain ⟨d, hd, hk⟩ := List.mem_flatMap.1 hk
    exact head_differ (hM _ hm).head (ident_lower_head (enumerators_lower (hg d hd) k hk)) rfl
  · exact head_differ (hM _ hm).head (ident_lower_head (members_lower (hg d hd) k hk)) rfl
  · exact head_differ (hM _ hm).head (lowerFirst_head (grammarDef_name (hg d hd))) rfl

theorem raise_ident_head {s : String} (h : isNameCapital s = true) : ∃ c t, raise (ident s) = c :: t ∧ reUpper c = true := by
  obtain ⟨c, t, h1, h2⟩ := ident_capital_head h
  exact ⟨c.toUpper, _, by rw [h1]; rfl, upper_ascii (P := fun c => reUpper c.toUpper = true) (by decide +kernel) h2⟩

theorem lower_toUpper {c : Char} (h : reLower c = true) : reUpper c.toUpper = true := by
  have h1 := toUpper_lower_val h
  simp only [reLower, Bool.and_eq_true, decide_eq_true_eq] at h
  have h2 : 'a'.toNat ≤ c.toNat := h.1
  have h3 : c.toNat ≤ 'z'.toNat := h.2
  have e1 : 'a'.toNat = 97 := by decide
  have e2 : 'z'.toNat = 122 := by decide
  have e3 : 'A'.toNat = 65 := by decide
  have e4 : 'Z'.toNat = 90 := by decide
  simp only [reUpper, Bool.and_eq_true, decide_eq_true_eq]
  constructor
  · show 'A'.toNat ≤ c.toUpper.toNat
    omega
  · show c.toUpper.toNat ≤ 'Z'.toNat
    omega

theorem macro_capitals {x : String × Fixed} (h : GoodFixed x) : TwoCapitals (macroName x.1 x.2) := by
  obtain ⟨n, f⟩ := x
  obtain ⟨c, t, h1, h2⟩ := raise_ident_head h.1
  cases f with
  | header cs =>
    refine ⟨c, t ++ "_MID".toList, by simp only [macroName, h1, List.cons_append], h2, 'M', ?_, by decide⟩
    exact List.mem_append_right _ (by decide)
  | value k v =>
    obtain ⟨d, r, h3, h4⟩ := ident_lower_head h.2
    refine ⟨c, t ++ '_' :: raise (ident k), by simp only [macroName, h1, List.cons_append], h2, d.toUpper, ?_, lower_toUpper h4⟩
    refine List.mem_append_right _ (List.mem_cons_of_mem _ ?_)
    have h3 : ident k = d :: r := h3
    rw [h3]
    exact List.mem_cons_self

/-! ### C96 -/

/-- **C96 (stdint.h).** The macros of stdint.h replace no identifier that the headers of a run declare. -/
theorem C96_stdint (cmd : Command) (fuel : Nat) (raw : List Module) (cfg : List String) (out : Text)
    (b : Bundle) (fs : Files) (hin : Input raw cfg b) (hr : (cmd.run fuel raw cfg out).result = .ok ())
    (hreg : Regular b.defs) (ht : ∀ m ∈ b.modules, Tame m) :
    ∃ dss, HeaderDecls cmd ((cmd.run fuel raw cfg out).apply fs) out b.modules dss ∧ Untouched stdintMacros dss.flatten := by
  obtain ⟨dss, h1, hi⟩ := run_idents cmd fuel raw cfg out b fs hin hr hreg ht
  exact ⟨dss, h1, untouched_capitals (fun d hd =>
    (accepted_grammar hin.grammar (buildFromTexts_of_config hin.accepted) d hd).1) stdint_capitals hi⟩

/-- The names of the macros of a run are those of the fixed values. -/
theorem cfsMacros_names (fuel : Nat) (p : Printer) (hp : Faithful p) (raw : List Module)
    (hg : ∀ m ∈ raw, GrammarModule m) (cfg : List String) (out : Text)
    (h : (runCfs fuel p raw cfg out).result = .ok ()) (b : Bundle) (hb : buildFromConfig raw cfg = .ok b)
    (fs : Files) : ((cfsMacros fuel p raw cfg out b fs).map (·.1)).Perm
      ((b.defs.flatMap fixedOfDef).map fun x => macroName x.1 x.2) := by
  rw [← defsOf_eq]
  unfold cfsMacros defsOf
  rw [List.flatMap_assoc, List.map_flatMap, List.map_flatMap]
  refine perm_flatMap ?_
  intro m hm
  obtain ⟨defs, h1, h2⟩ := msgids_macros fuel p hp raw hg cfg out h b hb m hm fs
  have h3 := all2_map_eq h2 (f := fun x => macroName x.1 x.2) (g := (·.1)) (fun x y hxy => hxy.1)
  rw [h3]
  exact (h1.flatMap_right _).map _

/-- **C96 (message ids).** The macros of the message id headers of generate-cfs replace no identifier that the other headers
of the run declare. -/
theorem C96_msgids (fuel : Nat) (p : Printer) (hp : Faithful p) (raw : List Module) (cfg : List String) (out : Text)
    (b : Bundle) (fs : Files) (hin : Input raw cfg b) (hr : (runCfs fuel p raw cfg out).result = .ok ())
    (hreg : Regular b.defs) (ht : ∀ m ∈ b.modules, Tame m) :
    ∃ dss, HeaderDecls (.cfs p) ((runCfs fuel p raw cfg out).apply fs) out b.modules dss ∧
      Untouched ((cfsMacros fuel p raw cfg out b fs).map (·.1)) dss.flatten := by
  have hg : ∀ d ∈ b.defs, GrammarDef d := fun d hd =>
    (accepted_grammar hin.grammar (buildFromTexts_of_config hin.accepted) d hd).1
  have hn := cfsMacros_names fuel p hp raw hin.grammar cfg out hr b hin.accepted fs
  obtain ⟨dss, h1, hi⟩ := run_idents (.cfs p) fuel raw cfg out b fs hin hr hreg ht
  refine ⟨dss, h1, untouched_capitals hg ?_ hi⟩
  intro w hw
  obtain ⟨x, hx, rfl⟩ := List.mem_map.1 (hn.mem_iff.1 hw)
  obtain ⟨d, hd, hxd⟩ := List.mem_flatMap.1 hx
  exact macro_capitals (fixedOfDef_good (hg d hd) x hxd).2

/-! ### stdbool.h -/

/-- Full statement: no macro of stdbool.h replaces an identifier of the headers. -/
def C61_stdbool_full : Prop :=
  ∀ (cmd : Command) fuel raw cfg out b fs, Input raw cfg b → (cmd.run fuel raw cfg out).result = .ok () →
    Regular b.defs → (∀ m ∈ b.modules, Tame m) → ∃ dss,
      HeaderDecls cmd ((cmd.run fuel raw cfg out).apply fs) out b.modules dss ∧ Untouched stdboolMacros dss.flatten

/-- **C61, partial (stdbool.h).** The macros of stdbool.h replace no identifier that the headers of a run declare, exactly if
no enumerator, member or variable is called `bool`, `true` or `false`. Missing: modules that are not tame or not regular. -/
theorem C61_stdbool_iff_partial (cmd : Command) (fuel : Nat) (raw : List Module) (cfg : List String) (out : Text)
    (b : Bundle) (fs : Files) (hin : Input raw cfg b) (hr : (cmd.run fuel raw cfg out).result = .ok ())
    (hreg : Regular b.defs) (ht : ∀ m ∈ b.modules, Tame m) :
    ∃ dss, HeaderDecls cmd ((cmd.run fuel raw cfg out).apply fs) out b.modules dss ∧
      (Untouched stdboolMacros dss.flatten ↔ NoTruth cmd b.defs) := by
  have hg : ∀ d ∈ b.defs, GrammarDef d := fun d hd =>
    (accepted_grammar hin.grammar (buildFromTexts_of_config hin.accepted) d hd).1
  obtain ⟨dss, h1, hi⟩ := run_idents cmd fuel raw cfg out b fs hin hr hreg ht
  refine ⟨dss, h1, ?_⟩
  constructor
  · intro h
    refine ⟨?_, ?_, ?_⟩
    · intro k hk hm
      obtain ⟨d, hd, hk'⟩ := List.mem_flatMap.1 hk
      obtain ⟨x, hx, hw⟩ := (hi _).2 (.inr (.inl ⟨k, hk, rfl⟩))
      exact h x hx _ hw ((stdbool_ident (enumerators_lower (hg d hd) k hk')).2 hm)
    · intro d hd k hk hm
      obtain ⟨x, hx, hw⟩ := (hi _).2 (.inr (.inr (.inl ⟨d, hd, k, hk, rfl⟩)))
      exact h x hx _ hw ((stdbool_ident (members_lower (hg d hd) k hk)).2 hm)
    · intro d hd ho hm
      obtain ⟨x, hx, hw⟩ := (hi _).2 (.inr (.inr (.inr ⟨d, hd, ho, rfl⟩)))
      exact h x hx _ hw ((stdbool_lowered (grammarDef_name (hg d hd))).2 hm)
  · rintro ⟨k1, k2, k3⟩ x hx w hw hm
    rcases (hi w).1 ⟨x, hx, hw⟩ with ⟨d, hd, hsi, rfl⟩ | ⟨k, hk, rfl⟩ | ⟨d, hd, k, hk, rfl⟩ | ⟨d, hd, ho, rfl⟩
    · exact head_differ (ident_capital_head (grammarDef_name (hg d hd))) (stdbool_lower _ hm) rfl
    · obtain ⟨d, hd, hk'⟩ := List.mem_flatMap.1 hk
      exact k1 k hk ((stdbool_ident (enumerators_lower (hg d hd) k hk')).1 hm)
    · exact k2 d hd k hk ((stdbool_ident (members_lower (hg d hd) k hk)).1 hm)
    · exact k3 d hd ho ((stdbool_lowered (grammarDef_name (hg d hd))).1 hm)

/-! ### What goes wrong -/

/-- An enumeration of the truth values. -/
def exTruth : Module :=
  { name := "m", defs := [.enum "Truth" none [⟨"false", 0, none⟩, ⟨"true", 1, none⟩]] }

theorem exTruth_tame : Tame exTruth := by
  refine ⟨(by intro c hc; cases hc), (by intro c hc; cases hc), ?_⟩
  intro d hd
  simp only [exTruth, List.mem_cons, List.not_mem_nil, or_false] at hd
  rcases hd with rfl
  refine ⟨(by intro x hx; cases hx), ?_⟩
  unfold NoBackslash NotReserved
  decide +kernel

/-- `Truth ::= ENUMERATED {false, true}` is accepted, and stdbool.h replaces its enumerators. -/
theorem C61_stdbool_false : ¬ C61_stdbool_full := by
  intro hf
  have hi : Input [exTruth] ["m"] (okBundle (buildFromConfig [exTruth] ["m"])) :=
    input_of (by decide +kernel) (by decide +kernel) (by decide +kernel)
  have hreg : Regular (okBundle (buildFromConfig [exTruth] ["m"])).defs :=
    regular_of (by decide +kernel) (by decide +kernel) (by decide +kernel)
  have ht : ∀ m ∈ (okBundle (buildFromConfig [exTruth] ["m"])).modules, Tame m :=
    single_tame (by decide +kernel) exTruth_tame
  obtain ⟨dss, h1, h2⟩ := hf (.cfs exPrinter) 20 [exTruth] ["m"] exOut _ (fun _ => none) hi (by decide +kernel) hreg ht
  obtain ⟨dss', h3, h4⟩ := C61_stdbool_iff_partial (.cfs exPrinter) 20 [exTruth] ["m"] exOut _ (fun _ => none) hi
    (by decide +kernel) hreg ht
  rw [headerDecls_unique h1 h3] at h2
  exact absurd (h4.1 h2).1 (by decide +kernel)

/-! ### Example -/

/-- A sequence that fixes a value, and an enumeration with almost the name of the macro. -/
def exShout : Module :=
  { name := "m"
    defs := [.simple "Uint8-t" none (.plain "INTEGER" (some (.int 0)) (some (.int 255))),
      .seq "Point" none [⟨"x", .plain "Uint8-t" none none, none, none⟩],
      .seq "P" none [⟨"at", .plain "Point" none none, none, some (.leaf "x" (.int 1) .nil)⟩],
      .enum "P-x" none [⟨"off", 0, none⟩, ⟨"on", 1, none⟩]] }

theorem exShout_tame : Tame exShout := by
  refine ⟨(by intro c hc; cases hc), (by intro c hc; cases hc), ?_⟩
  intro d hd
  simp only [exShout, List.mem_cons, List.not_mem_nil, or_false] at hd
  rcases hd with rfl | rfl | rfl | rfl
  · trivial
  all_goals
    refine ⟨(by intro x hx; cases hx), ?_⟩
    unfold NoBackslash NotReserved
    decide +kernel

/-- The macro `P_X` does not replace the enumeration `P_x`, nor does stdbool.h replace anything. -/
example : ∃ dss, HeaderDecls (.cfs exPrinter) ((runCfs 20 exPrinter [exShout] ["m"] exOut).apply fun _ => none)
    exOut (okBundle (buildFromConfig [exShout] ["m"])).modules dss ∧ Untouched stdboolMacros dss.flatten ∧
    Untouched ((cfsMacros 20 exPrinter [exShout] ["m"] exOut (okBundle (buildFromConfig [exShout] ["m"]))
      fun _ => none).map (·.1)) dss.flatten := by
  have hi : Input [exShout] ["m"] (okBundle (buildFromConfig [exShout] ["m"])) :=
    input_of (by decide +kernel) (by decide +kernel) (by decide +kernel)
  have hreg : Regular (okBundle (buildFromConfig [exShout] ["m"])).defs :=
    regular_of (by decide +kernel) (by decide +kernel) (by decide +kernel)
  have ht : ∀ m ∈ (okBundle (buildFromConfig [exShout] ["m"])).modules, Tame m :=
    single_tame (by decide +kernel) exShout_tame
  obtain ⟨dss, h1, h2⟩ := C96_msgids 20 exPrinter exPrinter_faithful [exShout] ["m"] exOut _ (fun _ => none) hi
    (by decide +kernel) hreg ht
  obtain ⟨dss', h3, h4⟩ := C61_stdbool_iff_partial (.cfs exPrinter) 20 [exShout] ["m"] exOut _ (fun _ => none) hi
    (by decide +kernel) hreg ht
  obtain rfl := headerDecls_unique h3 h1
  have e : (okBundle (buildFromConfig [exShout] ["m"])).defs = exShout.defs := by decide +kernel
  refine ⟨_, h1, h4.2 ?_, h2⟩
  rw [e]
  refine ⟨by decide +kernel, by decide +kernel, ?_⟩
  have : ∀ d ∈ exShout.defs, d.name ∉ ["Bool", "True", "False"] := by decide +kernel
  exact fun d hd _ => this d hd

end Apg
