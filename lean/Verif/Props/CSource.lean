import Verif.Lemmas.CSourceFits
import Verif.Lemmas.CSource
import Verif.Props.CInit
import Verif.Props.Success

/-!
# Property C69: the C files of generate-c as input of a C compiler
-/

namespace Apg
open Spec

theorem mem_clausesOf {d : Def} {x : String × String × Comps} :
    x ∈ clausesOf d ↔ ∃ n c ms, d = .seq n c ms ∧ ∃ k ∈ ms, ∃ cs ∈ k.comps, x = (n, k.key, cs) := by
  cases d with
  | seq n c ms =>
    simp only [clausesOf, List.mem_filterMap, Option.map_eq_some_iff, Option.mem_def]
    constructor
    · rintro ⟨k, hk, cs, hcs, rfl⟩
      exact ⟨n, c, ms, rfl, k, hk, cs, hcs, rfl⟩
    · rintro ⟨_, _, _, h, k, hk, cs, hcs, rfl⟩
      cases h
      exact ⟨k, hk, cs, hcs, rfl⟩
  | enum => simp [clausesOf]
  | choice => simp [clausesOf]
  | simple => simp [clausesOf]

/-- The declarations of a translation unit. -/
theorem unit_of {ds : List Def} (hcap : ∀ d ∈ ds, isNameCapital d.name = true) (hnd : (ds.map Def.name).Nodup)
    (hg : ∀ d ∈ ds, GrammarDef d) {unit : List CPiece} {syms : List Text} (hc : Compiles unit syms)
    (ho : ∀ x ∈ declsOf unit, (∃ d ∈ ds, ∃ std, DeclOf (Typed ds std) d x) ∨ ∃ t n, x = .object t n) :
    UnitOf ds (declsOf unit) := by
  refine ⟨hcap, hnd, hg, ho, ?_⟩
  intro s fs hs f hf n c ms hd hft
  obtain ⟨a, r, he⟩ := List.append_of_mem (mem_declsOf.1 hs)
  have hk := hc.known a _ r he f.type (List.mem_map.2 ⟨f, hf, rfl⟩)
  rw [hft] at hk
  have hn : isNameCapital n = true := hcap _ hd
  have key : ∀ {t : Text}, Keyword t → t ≠ ident n := by
    intro t h
    cases h <;> exact not_capital (by decide +kernel) hn
  have std : ∀ {t : Text}, StdIntType t → t ≠ ident n := by
    intro t h
    obtain ⟨_, h⟩ := h
    cases h <;> exact not_capital (by decide +kernel) hn
  cases hk with
  | keyword h => exact absurd rfl (key h)
  | stdint _ h => exact absurd rfl (std h)
  | @struct _ fs' h => exact ⟨fs', mem_declsOf.2 (by rw [he]; simp [h])⟩
  | @enum _ is h =>
    have : CDecl.enum (ident n) is ∈ declsOf unit := mem_declsOf.2 (by rw [he]; simp [h])
    rcases ho _ this with ⟨d, hd', std, hx⟩ | ⟨_, _, hx⟩
    · cases d with
      | seq => obtain ⟨_, hx, _⟩ := hx; cases hx
      | enum n' c' its =>
        have hx : CDecl.enum (ident n) is = .enum (ident n') _ := hx
        rw [CDecl.enum.injEq] at hx
        have hnn : n' = n := ident_inj (.inr (hcap _ hd')) (.inr hn) hx.1.symm
        subst hnn
        cases mem_unique_of_nodup_map hnd hd hd' rfl
      | choice => cases hx
      | simple => cases hx
    · cases hx

/-- Full statement of C69. -/
def C69_full : Prop :=
  ∀ p, Faithful p → PythonFloats p → ∀ fuel raw cfg out b fs, Input raw cfg b →
    (runC fuel p raw cfg out).result = .ok () → Regular b.defs → (∀ m ∈ b.modules, Tame m) → Compilable (.c p) b.defs →
    (∀ m ∈ b.modules, m.imports = []) → ∀ m ∈ b.modules, ∃ t,
      HasText ((runC fuel p raw cfg out).apply fs) (inDir out (ident m.name ++ ".c".toList)) t ∧
        SourceCompiles ((runC fuel p raw cfg out).apply fs) out t

/-- **C69, partial.** Where the headers of a generate-c run compile, the C file of a module compiles exactly if the last
definition of the header, simple definitions aside, has a WITH COMPONENTS clause if any has, no sequence has two, and
the clauses fix members that are there, of the right kind, to values that C has constants for. Missing: the C files of
the other modules, which do not compile, and those of modules whose headers do not compile. -/
theorem C69_compiles_iff_partial (p : Printer) (hp : Faithful p) (hq : PythonFloats p) (fuel : Nat) (raw : List Module)
    (cfg : List String) (out : Text) (b : Bundle) (fs : Files) (hin : Input raw cfg b)
    (hr : (runC fuel p raw cfg out).result = .ok ()) (hreg : Regular b.defs) (ht : ∀ m ∈ b.modules, Tame m)
    (hc : Compilable (.c p) b.defs)
    (hinc : ∀ m ∈ b.modules, ∀ i ∈ m.imports, (Command.c p).included i.module = (Command.c p).header i.module)
    (m : Module) (hm : m ∈ b.modules) :
    ∃ sorted t, sortDefs fuel m = some sorted ∧
      HasText ((runC fuel p raw cfg out).apply fs) (inDir out (ident m.name ++ ".c".toList)) t ∧
      (SourceCompiles ((runC fuel p raw cfg out).apply fs) out t ↔ Initialisable b.defs m sorted) := by
  have hb := hin.accepted
  have hbt := buildFromTexts_of_config hb
  have hcap := accepted_capital hin.grammar hbt
  have hlow := accepted_names hin.grammar hbt m hm
  have hgr : ∀ d ∈ b.defs, GrammarDef d := fun d hd => (accepted_grammar hin.grammar hbt d hd).1
  have hnd := accepted_nodup hbt
  have hgc := accepted_comments hin.comments hbt m hm
  have hmd : ∀ d ∈ m.defs, d ∈ b.defs := fun d hd => mem_defs_of_module hm hd
  obtain ⟨bm, hbm, rfl⟩ := List.mem_map.1 hm
  obtain ⟨sorted, h1, h2, h4⟩ := source_file hin.grammar hb hr hbm fs
  refine ⟨sorted, _, h1, h4, ?_⟩
  have hsm : ∀ d, d ∈ sorted ↔ d ∈ bm.mod.defs := fun d => h2.mem_iff
  -- the clauses
  have hcl : ∀ x, x ∈ sorted.flatMap clausesOf ↔
      ∃ n c ms, Def.seq n c ms ∈ bm.mod.defs ∧ ∃ k ∈ ms, ∃ cs ∈ k.comps, x = (n, k.key, cs) := by
    intro x
    rw [List.mem_flatMap]
    constructor
    · rintro ⟨d, hd, hx⟩
      obtain ⟨n, c, ms, rfl, h⟩ := mem_clausesOf.1 hx
      exact ⟨n, c, ms, (hsm _).1 hd, h⟩
    · rintro ⟨n, c, ms, hd, h⟩
      exact ⟨_, (hsm _).2 hd, mem_clausesOf.2 ⟨n, c, ms, rfl, h⟩⟩
  have hgood : ∀ x ∈ sorted.flatMap clausesOf, GoodClause x := by
    intro x hx
    obtain ⟨n, c, ms, hd, k, hk, cs, hcs, rfl⟩ := (hcl x).1 hx
    have hg := hgr _ (hmd _ hd)
    have hres : NotReserved (lowerFirst (ident n)) :=
      ((ht _ hm).defs _ hd).2.2 ⟨k, hk, by rw [Option.mem_def.1 hcs]; simp⟩
    refine ⟨hcap _ (hmd _ hd), name_capital (hcap _ (hmd _ hd)), name_lowered (hcap _ (hmd _ hd)) hres, ?_⟩
    exact ⟨(hg.2.2 k hk).1, (hg.2.2 k hk).2.2 cs hcs, trivial⟩
  have hdoc : '\n' ∉ headerDoc bm.mod ∧ ¬ "*/".toList <:+: headerDoc bm.mod := by
    unfold headerDoc
    split
    · exact ⟨by simp, by decide⟩
    · rename_i c hc
      exact ⟨comment_newline (hgc.1 c (by simp [hc])), (ht _ hm).doc c hc⟩
  -- an empty list of clauses
  have hnone : sorted.flatMap clausesOf = [] → Initialisable b.defs bm.mod sorted := by
    intro h
    have h0 : ∀ d ∈ bm.mod.defs, clausesOf d = [] := fun d hd => List.flatMap_eq_nil_iff.1 h d ((hsm d).2 hd)
    refine ⟨?_, fun d hd => by simp [h0 d hd], ?_⟩
    · rintro ⟨d, hd, hx⟩
      exact absurd (h0 d hd) hx
    · intro n c ms hd k hk x hx
      have := mem_clausesOf.2 ⟨n, c, ms, rfl, k, hk, x, hx, rfl⟩
      rw [h0 _ hd] at this
      cases this
  by_cases hl : ∃ d, lastBlock sorted = some d ∧ clausesOf d ≠ []
  · -- the header is included
    obtain ⟨d, hd, hdc⟩ := hl
    have hds : d ∈ bm.mod.defs := (hsm d).1 (List.mem_filter.1 (List.mem_of_getLast? hd)).1
    rw [hd]
    simp only [if_neg hdc]
    have hread := readSource_file hp hdoc.1 hdoc.2 (incl := some (ident bm.mod.name ++ ".h".toList))
      (by
        intro f hf
        cases hf
        exact (plain1_word (ident_wordChar (.inl hlow))).append (plain1_lit (by decide))) hgood
    obtain ⟨n, unit, syms, hpre, hcomp, hdecl, horig, hobj, _⟩ := compiles_unit (.c p) fuel raw cfg out b fs hin hr hreg ht hc
      hinc [bm.mod] (by simpa using hm)
    have hU := unit_of hcap hnd hgr hcomp horig
    have hobj := hobj _ (by simp) sorted h1
    -- the structs of the variables
    have hstruct : ∀ n c ms, Def.seq n c ms ∈ bm.mod.defs → ∃ f, CDecl.struct (ident n) f ∈ declsOf unit := by
      intro n c ms hd
      obtain ⟨x, hx, std, hdx⟩ := hdecl _ (by simp) _ hd rfl
      obtain ⟨f, rfl, _⟩ := hdx
      exact ⟨f, hx⟩
    have hvar : ∀ n c ms, Def.seq n c ms ∈ bm.mod.defs → ∀ k ∈ ms, ∀ cs ∈ k.comps,
        ((∃ f, CDecl.struct (ident n) f ∈ declsOf unit ∧
          Initialises (declsOf unit) f (entriesOf p (.node k.key cs .nil))) ↔
        SuitsMembers b.defs ms (.node k.key cs .nil)) := by
      intro n c ms hd k hk cs hcs
      have hg := (hgood (n, k.key, cs) ((hcl _).2 ⟨n, c, ms, hd, k, hk, cs, hcs, rfl⟩)).comps
      constructor
      · rintro ⟨f, h5, h6⟩
        exact (initialises_iff hq hU _ hg (hmd _ hd) h5).1 h6
      · intro h
        obtain ⟨f, hf⟩ := hstruct n c ms hd
        exact ⟨f, hf, (initialises_iff hq hU _ hg (hmd _ hd) hf).2 h⟩
    have honce : (((sorted.flatMap clausesOf).map (varOf p)).map (·.name)).Nodup ↔
        ∀ d ∈ bm.mod.defs, (clausesOf d).length ≤ 1 := by
      rw [List.map_map]
      have hns : (sorted.map Def.name).Nodup := by
        rw [(h2.map Def.name).nodup_iff]
        exact nodup_module (by rw [defsOf_eq]; exact hnd) hm
      have := variables_nodup hns fun d hd => hcap d (hmd d ((hsm d).1 hd))
      simp only [hsm] at this
      exact this
    have hpre' : Pre ((runC fuel p raw cfg out).apply fs) out []
        ([includeLine (ident bm.mod.name ++ ".h".toList)].map .directive) unit syms := ⟨n, hpre⟩
    constructor
    · rintro ⟨dirs, vars, h5, k, u, s, h6, _, h8, h9⟩
      rw [hread] at h5
      simp only [Option.some.injEq, Prod.mk.injEq, Option.toList, List.map_cons, List.map_nil] at h5
      obtain ⟨rfl, rfl⟩ := h5
      obtain ⟨rfl, rfl⟩ := Pre.unique hpre' ⟨k, h6⟩
      refine ⟨fun _ => ⟨d, hd, hdc⟩, honce.1 h8, ?_⟩
      intro n c ms hd k hk cs hcs
      exact (hvar n c ms hd k hk cs hcs).1
        (h9 _ (List.mem_map.2 ⟨_, (hcl _).2 ⟨n, c, ms, hd, k, hk, cs, hcs, rfl⟩, rfl⟩))
    · rintro ⟨_, h6, h7⟩
      refine ⟨_, _, hread, n, unit, syms, hpre, ?_, honce.2 h6, ?_⟩
      · have := compiles_more hcomp (O := ((sorted.flatMap clausesOf).map (varOf p)).map fun v => .object v.type v.name)
          (by
            intro o ho
            obtain ⟨v, hv, rfl⟩ := List.mem_map.1 ho
            obtain ⟨x, hx, rfl⟩ := List.mem_map.1 hv
            exact ⟨hobj _ (List.mem_map.2 ⟨x, hx, rfl⟩), _, _, rfl⟩)
        rw [List.map_map] at this
        exact this
      · intro v hv
        obtain ⟨x, hx, rfl⟩ := List.mem_map.1 hv
        obtain ⟨n, c, ms, hd, k, hk, cs, hcs, rfl⟩ := (hcl x).1 hx
        exact (hvar n c ms hd k hk cs hcs).2 (h7 n c ms hd k hk cs hcs)
  · -- the header is not included
    suffices h : SourceCompiles ((runC fuel p raw cfg out).apply fs) out (sourceFile (headerDoc bm.mod) none
        ((sorted.flatMap clausesOf).map (clauseText p))) ↔ Initialisable b.defs bm.mod sorted by
      cases hd : lastBlock sorted with
      | none => exact h
      | some d =>
        have : clausesOf d = [] := Classical.byContradiction fun h => hl ⟨d, hd, h⟩
        simp only [if_pos this]
        exact h
    have hread := readSource_file hp hdoc.1 hdoc.2 (incl := none) (by intro f hf; cases hf) hgood
    have hpre : Pre ((runC fuel p raw cfg out).apply fs) out [] (([] : List Text).map .directive) [] [] := .nil _
    by_cases hx : sorted.flatMap clausesOf = []
    · refine ⟨fun _ => hnone hx, fun _ => ?_⟩
      obtain ⟨n, hn⟩ := hpre
      rw [hx] at hread ⊢
      refine ⟨_, _, hread, n, [], [], hn, ?_, by simp, by simp⟩
      exact ⟨by intro a d c h; simp at h, ⟨.nil, by simp [declsOf]⟩, by simp [declsOf], by simp [declsOf],
        by simp [declsOf], by simp [declsOf]⟩
    · obtain ⟨x, r, hxr⟩ := List.exists_cons_of_ne_nil hx
      constructor
      · rintro ⟨dirs, vars, h5, k, u, s, h6, _, _, h9⟩
        rw [hread] at h5
        simp only [Option.some.injEq, Prod.mk.injEq, Option.toList, List.map_nil] at h5
        obtain ⟨rfl, rfl⟩ := h5
        obtain ⟨rfl, rfl⟩ := Pre.unique hpre ⟨k, h6⟩
        obtain ⟨f, hf, _⟩ := h9 (varOf p x) (List.mem_map.2 ⟨x, by rw [hxr]; simp, rfl⟩)
        cases hf
      · intro h
        obtain ⟨d, hd, hxd⟩ := List.mem_flatMap.1 (show x ∈ sorted.flatMap clausesOf by rw [hxr]; simp)
        exact absurd (h.last ⟨d, (hsm d).1 hd, List.ne_nil_of_mem hxd⟩) hl

/-! ### What goes wrong -/

/-- A sequence with two members that are fixed. -/
def exFixedTwice : Module :=
  { name := "m", defs := [
      .seq "Id" none [⟨"apid", .plain "INTEGER" (some (.int 0)) (some (.int 255)), none, none⟩],
      .seq "Pkt" none [⟨"first", .plain "Id" none none, none, some (.leaf "apid" (.int 7) .nil)⟩,
        ⟨"second", .plain "Id" none none, none, some (.leaf "apid" (.int 8) .nil)⟩]] }

theorem exFixedTwice_tame : Tame exFixedTwice := by
  refine ⟨(by intro c hc; cases hc), (by intro c hc; cases hc), ?_⟩
  intro d hd
  simp only [exFixedTwice, List.mem_cons, List.not_mem_nil, or_false] at hd
  rcases hd with rfl | rfl <;> refine ⟨(by intro x hx; cases hx), ?_⟩ <;> unfold NoBackslash NotReserved <;> decide +kernel

theorem exInit_tame : Tame exInitModule := by
  refine ⟨(by intro c hc; cases hc), (by intro c hc; cases hc), ?_⟩
  intro d hd
  simp only [exInitModule, List.mem_cons, List.not_mem_nil, or_false] at hd
  rcases hd with rfl | rfl | rfl <;> refine ⟨(by intro x hx; cases hx), ?_⟩ <;> unfold NoBackslash NotReserved <;> decide +kernel

theorem not_stdName_head {n : Text} (h : n.head? ≠ some 'i' ∧ n.head? ≠ some 'u') : ¬ StdName n := by
  rintro (⟨x, rfl⟩ | ⟨x, rfl⟩)
  · exact h.1 rfl
  · exact h.2 rfl

/-- Definitions with sequences only. -/
theorem compilable_seqs {p : Printer} {ds : List Def} (hs : ∀ d ∈ ds, ∃ n c ms, d = .seq n c ms)
    (hk : ∀ d ∈ ds, DistinctKeys d) (hl : ∀ n c ms, Def.seq n c ms ∈ ds → ∀ k ∈ ms, (∀ l ∈ (dims k.type).take 1, 0 < l) ∧
      ∀ x y : Int, k.type = intType x y → 0 ≤ x → x ≤ y ∧ 0 < y)
    (hv : ∀ d ∈ ds, ¬ StdName (lowerFirst (ident d.name))) : Compilable (.c p) ds := by
  have he : ds.flatMap enumerators = [] := by
    rw [List.flatMap_eq_nil_iff]
    intro d hd
    obtain ⟨n, c, ms, rfl⟩ := hs d hd
    rfl
  have hseq : ∀ {d}, d ∈ ds → ∃ n c ms, d = .seq n c ms := fun {d} hd => hs d hd
  refine ⟨⟨hk, ?_, ?_⟩, ⟨?_, ?_⟩, ?_, ?_, ?_, ?_, fun d hd _ => hv d hd⟩
  · rw [he]; exact .nil
  · rw [he]; simp
  · intro n c ms hd
    obtain ⟨_, _, _, h⟩ := hseq hd
    cases h
  · intro n c hd
    obtain ⟨_, _, _, h⟩ := hseq hd
    cases h
  · intro n c ms hd
    obtain ⟨_, _, _, h⟩ := hseq hd
    cases h
  · intro n c ms hd k hk
    obtain ⟨h1, h2⟩ := hl n c ms hd k hk
    refine ⟨h1, fun x y h h0 => ⟨y, ?_, ?_⟩, fun n hn => ⟨?_, ?_⟩⟩
    · obtain ⟨h3, h4⟩ := h2 x y h h0
      exact ⟨h3, Int.le_refl _⟩
    · have := (h2 x y h h0).2
      omega
    · intro c its hd
      obtain ⟨_, _, _, h⟩ := hseq hd
      cases h
    · intro c x y hd
      obtain ⟨_, _, _, h⟩ := hseq hd
      cases h
  · intro n c its hd
    obtain ⟨_, _, _, h⟩ := hseq hd
    cases h
  · rw [he]; simp

theorem exFixedTwice_compilable : Compilable (.c exPrinter) exFixedTwice.defs := by
  refine compilable_seqs ?_ (by unfold DistinctKeys; decide +kernel) ?_ ?_
  · intro d hd
    simp only [exFixedTwice, List.mem_cons, List.not_mem_nil, or_false] at hd
    rcases hd with rfl | rfl <;> exact ⟨_, _, _, rfl⟩
  · intro n c ms hd k hk
    simp only [exFixedTwice, List.mem_cons, List.not_mem_nil, or_false, Def.seq.injEq] at hd
    rcases hd with ⟨rfl, rfl, rfl⟩ | ⟨rfl, rfl, rfl⟩ <;>
      simp only [List.mem_cons, List.not_mem_nil, or_false] at hk
    · subst hk
      refine ⟨by decide, fun x y h _ => ?_⟩
      simp only [intType, AType.plain.injEq, Option.some.injEq, Num.int.injEq, true_and] at h
      omega
    · rcases hk with rfl | rfl <;> refine ⟨by decide, fun x y h _ => ?_⟩ <;> simp [intType] at h
  · intro d hd
    simp only [exFixedTwice, List.mem_cons, List.not_mem_nil, or_false] at hd
    rcases hd with rfl | rfl
    · exact not_stdName (by decide +kernel)
    · exact not_stdName_head (by decide +kernel)

/-- A module with a sequence that has two fixed members is accepted, and its C file defines the variable twice. -/
theorem C69_full_false : ¬ C69_full := by
  intro hf
  have hi : Input [exFixedTwice] ["m"] (okBundle (buildFromConfig [exFixedTwice] ["m"])) :=
    input_of (by decide +kernel) (by decide +kernel) (by decide +kernel)
  have e : (okBundle (buildFromConfig [exFixedTwice] ["m"])).modules = [exFixedTwice] := by decide +kernel
  have e' : (okBundle (buildFromConfig [exFixedTwice] ["m"])).defs = exFixedTwice.defs := by decide +kernel
  have hm : exFixedTwice ∈ (okBundle (buildFromConfig [exFixedTwice] ["m"])).modules := by rw [e]; simp
  have hreg := regular_of (ds := (okBundle (buildFromConfig [exFixedTwice] ["m"])).defs) (by decide +kernel) (by decide +kernel)
    (by decide +kernel)
  have himp : ∀ m ∈ (okBundle (buildFromConfig [exFixedTwice] ["m"])).modules, m.imports = [] := by
    rw [e]
    intro m hm
    simp only [List.mem_singleton] at hm
    subst hm
    rfl
  obtain ⟨t, h1, h2⟩ := hf exPrinter exPrinter_faithful exPrinter_floats 20 [exFixedTwice] ["m"] exOut _ (fun _ => none) hi
    (by decide +kernel) hreg (single_tame e exFixedTwice_tame) (e' ▸ exFixedTwice_compilable) himp _ hm
  obtain ⟨sorted, t', _, h4, h5⟩ := C69_compiles_iff_partial exPrinter exPrinter_faithful exPrinter_floats 20 [exFixedTwice]
    ["m"] exOut _ (fun _ => none) hi (by decide +kernel) hreg (single_tame e exFixedTwice_tame)
    (e' ▸ exFixedTwice_compilable) (fun m hm i hi => by rw [himp m hm] at hi; cases hi) _ hm
  obtain rfl := textContent_inj (Option.some.inj (h1.symm.trans h4))
  have := (h5.1 h2).once (.seq "Pkt" none [⟨"first", .plain "Id" none none, none, some (.leaf "apid" (.int 7) .nil)⟩,
        ⟨"second", .plain "Id" none none, none, some (.leaf "apid" (.int 8) .nil)⟩]) (by simp [exFixedTwice])
  exact absurd this (by decide)

/-! ### Examples -/

theorem exInit_compilable : Compilable (.c exPrinter) exInitModule.defs := by
  refine compilable_seqs ?_ (by unfold DistinctKeys; decide +kernel) ?_ ?_
  · intro d hd
    simp only [exInitModule, List.mem_cons, List.not_mem_nil, or_false] at hd
    rcases hd with rfl | rfl | rfl <;> exact ⟨_, _, _, rfl⟩
  · intro n c ms hd k hk
    simp only [exInitModule, List.mem_cons, List.not_mem_nil, or_false, Def.seq.injEq] at hd
    rcases hd with ⟨rfl, rfl, rfl⟩ | ⟨rfl, rfl, rfl⟩ | ⟨rfl, rfl, rfl⟩ <;>
      simp only [List.mem_cons, List.not_mem_nil, or_false] at hk
    · rcases hk with rfl | rfl
      · refine ⟨by decide, fun x y h _ => ?_⟩
        simp only [intType, AType.plain.injEq, Option.some.injEq, Num.int.injEq, true_and] at h
        omega
      · refine ⟨by decide, fun x y h _ => ?_⟩
        simp [intType] at h
    · subst hk
      refine ⟨by decide, fun x y h _ => ?_⟩
      simp [intType] at h
    · subst hk
      refine ⟨by decide, fun x y h _ => ?_⟩
      simp [intType] at h
  · intro d hd
    simp only [exInitModule, List.mem_cons, List.not_mem_nil, or_false] at hd
    rcases hd with rfl | rfl | rfl
    · exact not_stdName (by decide +kernel)
    · exact not_stdName (by decide +kernel)
    · exact not_stdName_head (by decide +kernel)

theorem exInit_initialisable : Initialisable exInitModule.defs exInitModule exInitModule.defs where
  last _ := ⟨_, rfl, fun h => absurd (congrArg List.length h) (by decide +kernel)⟩
  once := by decide +kernel
  suits := by
    intro n c ms hd k hk x hx
    simp only [exInitModule, List.mem_cons, List.not_mem_nil, or_false, Def.seq.injEq] at hd
    rcases hd with ⟨rfl, rfl, rfl⟩ | ⟨rfl, rfl, rfl⟩ | ⟨rfl, rfl, rfl⟩ <;>
      simp only [List.mem_cons, List.not_mem_nil, or_false] at hk
    · rcases hk with rfl | rfl <;> cases hx
    · subst hk
      cases hx
    · subst hk
      cases hx
      refine .node (List.mem_cons_self ..) rfl rfl (List.mem_cons_of_mem _ (List.mem_cons_self ..)) ?_ .nil
      refine .node (List.mem_cons_self ..) rfl rfl (List.mem_cons_self ..) ?_ .nil
      refine .leaf (List.mem_cons_self ..) rfl rfl (by intro n c ms h; cases h) (by simp [HasConstant]) ?_
      refine .leaf (List.mem_cons_of_mem _ (List.mem_cons_self ..)) rfl rfl ?_ trivial .nil
      intro n c ms h
      cases h
      simp [exInitModule]

/-- The C file of a module with a nested clause compiles. -/
example : ∃ t, HasText ((runC 20 exPrinter exInit ["m"] exOut).apply fun _ => none) (inDir exOut "m.c".toList) t ∧
    SourceCompiles ((runC 20 exPrinter exInit ["m"] exOut).apply fun _ => none) exOut t := by
  have e : (okBundle (buildFromConfig exInit ["m"])).modules = [exInitModule] := by decide +kernel
  have e' : (okBundle (buildFromConfig exInit ["m"])).defs = exInitModule.defs := by decide +kernel
  obtain ⟨sorted, t, h1, h2, h3⟩ := C69_compiles_iff_partial exPrinter exPrinter_faithful exPrinter_floats 20 exInit
    ["m"] exOut _ (fun _ => none) (input_of (by decide +kernel) (by decide +kernel) (by decide +kernel)) (by decide +kernel)
    (regular_of (by decide +kernel) (by decide +kernel) (by decide +kernel)) (single_tame e exInit_tame)
    (e' ▸ exInit_compilable) (by
      rw [e]
      intro m hm i hi
      simp only [List.mem_singleton] at hm
      subst hm
      cases hi) exInitModule (by rw [e]; simp)
  have hs : sortDefs 20 exInitModule = some exInitModule.defs := by decide +kernel
  rw [hs] at h1
  cases h1
  exact ⟨t, h2, h3.2 (e' ▸ exInit_initialisable)⟩

end Apg
