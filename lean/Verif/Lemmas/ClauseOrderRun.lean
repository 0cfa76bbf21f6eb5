import Verif.Lemmas.ClauseValues
import Verif.Lemmas.ImportsEnd
import Verif.Lemmas.CInit
import Verif.Props.Unfixed

/-!
# Runs on modules whose clauses fix values in another order
-/

namespace Apg
open Spec

/-! ### Grammar -/

theorem reordered_nil {c c' : Comps} (h : Reordered c c') : c = .nil ↔ c' = .nil := by
  induction h with
  | nil => exact .rfl
  | @keep k x r r' _ _ => cases x <;> simp [entry]
  | inner => simp
  | @swap k x k' x' r => cases x <;> cases x' <;> simp [entry]
  | trans _ _ ih ih' => exact ih.trans ih'

theorem reordered_grammar {c c' : Comps} (h : Reordered c c') : GrammarComps c → GrammarComps c' := by
  induction h with
  | nil => exact id
  | @keep k x r r' _ ih =>
    cases x with
    | inl v => exact fun h => ⟨h.1, ih h.2⟩
    | inr c => exact fun h => ⟨h.1, h.2.1, ih h.2.2⟩
  | inner h ih => exact fun g => ⟨g.1, ⟨fun e => g.2.1.1 ((reordered_nil h).2 e), ih g.2.1.2⟩, g.2.2⟩
  | @swap k x k' x' r =>
    cases x with
    | inl v =>
      cases x' with
      | inl v' => exact fun h => ⟨h.2.1, h.1, h.2.2⟩
      | inr c' => exact fun h => ⟨h.2.1, h.2.2.1, h.1, h.2.2.2⟩
    | inr c =>
      cases x' with
      | inl v' => exact fun h => ⟨h.2.2.1, h.1, h.2.1, h.2.2.2⟩
      | inr c' => exact fun h => ⟨h.2.2.1, h.2.2.2.1, h.1, h.2.1, h.2.2.2.2⟩
  | trans _ _ ih ih' => exact fun h => ih' (ih h)

/-! ### Data -/

/-- The same data but for the order of defines, the variables and the contents of binary files. -/
structure AlikeData (V : Text → Text → Prop) (B : Text → List (List UInt8) → List (List UInt8) → Prop) (cd cd' : CData) :
    Prop where
  data : cd'.data = cd.data
  includes : cd'.includes = cd.includes
  predefs : cd'.predefs = cd.predefs
  initInclude : cd'.initInclude = cd.initInclude
  stdbool : cd'.stdbool = cd.stdbool
  stdint : cd'.stdint = cd.stdint
  headerComment : cd'.headerComment = cd.headerComment
  defines : cd.defines.Perm cd'.defines
  defined : ∀ d ∈ cd.defines, "#define ".toList.isPrefixOf d = true
  inits : All2 V cd.inits cd'.inits
  bins : All2 (fun x y => y.1 = x.1 ∧ B x.1 x.2 y.2) cd.bins cd'.bins

section
variable {R : Comps → Comps → Prop} {V : Text → Text → Prop} {B : Text → List (List UInt8) → List (List UInt8) → Prop}

theorem AlikeData.plain {cd : CData} (h1 : cd.defines = []) (h2 : cd.inits = []) (h3 : cd.bins = []) : AlikeData V B cd cd :=
  ⟨rfl, rfl, rfl, rfl, rfl, rfl, rfl, .refl _, fun d hd => (by rw [h1] at hd; cases hd), (by rw [h2]; exact .nil), (by rw [h3]; exact .nil)⟩

theorem dictSet_alike {d d' : List (Text × List (List UInt8))}
    (h : All2 (fun x y => y.1 = x.1 ∧ B x.1 x.2 y.2) d d') {k : Text} {v v' : List (List UInt8)} (hv : B k v v') :
    All2 (fun x y => y.1 = x.1 ∧ B x.1 x.2 y.2) (dictSet d k v) (dictSet d' k v') := by
  induction h with
  | nil => exact .cons ⟨rfl, hv⟩ .nil
  | @cons x y l l' hxy hl ih =>
    obtain ⟨x1, x2⟩ := x
    obtain ⟨y1, y2⟩ := y
    obtain ⟨h1, h2⟩ := hxy
    simp only at h1 h2
    subst h1
    rw [dictSet, dictSet]
    by_cases hk : y1 = k
    · rw [if_pos hk, if_pos hk]
      exact .cons ⟨rfl, hk ▸ hv⟩ hl
    · rw [if_neg hk, if_neg hk]
      exact .cons ⟨rfl, h2⟩ ih

theorem dictUpdate_alike {e e' : List (Text × List (List UInt8))}
    (he : All2 (fun x y => y.1 = x.1 ∧ B x.1 x.2 y.2) e e') : ∀ d d' : List (Text × List (List UInt8)),
    All2 (fun x y => y.1 = x.1 ∧ B x.1 x.2 y.2) d d' →
    All2 (fun x y => y.1 = x.1 ∧ B x.1 x.2 y.2) (dictUpdate d e) (dictUpdate d' e') := by
  unfold dictUpdate
  induction he with
  | nil => exact fun _ _ h => h
  | @cons x y l l' hxy _ ih =>
    intro d d' h
    rw [List.foldl_cons, List.foldl_cons, hxy.1]
    exact ih _ _ (dictSet_alike h hxy.2)

theorem AlikeData.extend {a a' e e' : CData} (h : AlikeData V B a a') (he : AlikeData V B e e') :
    AlikeData V B (a.extend e) (a'.extend e') := by
  unfold CData.extend
  refine ⟨?_, ?_, ?_, he.initInclude, ?_, ?_, h.headerComment, h.defines.append he.defines, ?_,
    all2_append h.inits he.inits, dictUpdate_alike he.bins _ _ h.bins⟩
  · simp only [h.data, he.data]
  · simp only [h.includes, he.includes]
  · simp only [h.predefs, he.predefs]
  · simp only [h.stdbool, he.stdbool]
  · simp only [h.stdint, he.stdint]
  · intro d hd
    rcases List.mem_append.1 hd with hd | hd
    · exact h.defined d hd
    · exact he.defined d hd

theorem convertMembers_reordered {h h' : Handler} {ds ds' simple simple' : List Def} {mod mod' : Module} {cn : Text}
    (hf : ∀ t, fieldType ds' simple' t = fieldType ds simple t) {ms ms' : List Member} (hs : All2 (AlteredMember R) ms ms')
    (hh : ∀ m ∈ ms, ∀ m' ∈ ms', AlteredMember R m m' → ∀ c c', m.comps = some c → m'.comps = some c' → R c c' →
      Both (AlikeData V B) (h cn m mod) (h' cn m' mod')) :
    ∀ cd cd', AlikeData V B cd cd' → Both (fun r r' => r'.1 = r.1 ∧ AlikeData V B r.2 r'.2)
      (convertMembers h ds simple mod cn ms cd) (convertMembers h' ds' simple' mod' cn ms' cd') := by
  induction hs with
  | nil => exact fun cd cd' hc => .ok ⟨rfl, hc⟩
  | @cons m m' l l' hm _ ih =>
    intro cd cd' hc
    have ih := ih fun x hx y hy => hh x (List.Mem.tail _ hx) y (List.Mem.tail _ hy)
    rw [convertMembers, convertMembers, hm.type, hf]
    refine (Both.refl (R := Eq) (fun _ => rfl) _).bind fun f f' _ _ hff => ?_
    subst hff
    have hc1 : AlikeData V B { cd with stdbool := cd.stdbool || f.stdbool, stdint := cd.stdint || f.stdint }
        { cd' with stdbool := cd'.stdbool || f.stdbool, stdint := cd'.stdint || f.stdint } :=
      ⟨hc.data, hc.includes, hc.predefs, hc.initInclude, by simp only [hc.stdbool], by simp only [hc.stdint],
        hc.headerComment, hc.defines, hc.defined, hc.inits, hc.bins⟩
    have key := hh m (List.Mem.head _) m' (List.Mem.head _) hm
    have hcs := hm.comps
    refine Both.bind (R := AlikeData V B) ?_ fun x x' _ _ hx => ?_
    · cases e : m.comps with
      | none =>
        rw [e] at hcs
        generalize m'.comps = y at hcs
        cases hcs
        exact .ok hc1
      | some c =>
        rw [e] at hcs
        cases e' : m'.comps with
        | none => rw [e'] at hcs; cases hcs
        | some c' =>
          rw [e'] at hcs
          cases hcs with
          | some hcs => exact (key c c' e e' hcs).bind fun _ _ _ _ hd => .ok (hc1.extend hd)
    · refine (ih x x' hx).bind fun r r' _ _ hr => .ok ⟨?_, hr.2⟩
      simp only [hr.1]
      have h1 : commentLines m' = commentLines m := by unfold commentLines; rw [hm.comment]
      have h2 : fieldLine m' f = fieldLine m f := by unfold fieldLine; rw [hm.type, hm.key]
      rw [h1, h2]

/-- Two back ends that treat two versions of a module alike. -/
structure AlikeBackend (R : Comps → Comps → Prop) (V : Text → Text → Prop) (B : Text → List (List UInt8) → List (List UInt8) → Prop) (be be' : Backend)
    (mod mod' : Module) : Prop where
  file : be'.includeFile = be.includeFile
  note : be'.note = be.note
  handler : ∀ n c ms ms', Def.seq n c ms ∈ mod.defs → Def.seq n c ms' ∈ mod'.defs → ∀ m ∈ ms, ∀ m' ∈ ms', AlteredMember R m m' →
    ∀ c c', m.comps = some c → m'.comps = some c' → R c c' →
      Both (AlikeData V B) (be.handler (cName n) m mod) (be'.handler (cName n) m' mod')

theorem convertSequence_reordered {be be' : Backend} {ds ds' simple simple' : List Def} {mod mod' : Module}
    (hf : ∀ t, fieldType ds' simple' t = fieldType ds simple t) (hb : AlikeBackend R V B be be' mod mod')
    {n : String} {c : Option Comment} {ms ms' : List Member} (hd : Def.seq n c ms ∈ mod.defs) (hd' : Def.seq n c ms' ∈ mod'.defs)
    (hs : All2 (AlteredMember R) ms ms') :
    Both (AlikeData V B) (convertSequence be.handler ds simple mod n c ms) (convertSequence be'.handler ds' simple' mod' n c ms') := by
  unfold convertSequence
  refine (convertMembers_reordered (V := V) (B := B) hf hs (hb.handler n c ms ms' hd hd') {} {} (.plain rfl rfl rfl)).bind fun r r' _ _ hr => .ok ?_
  have h := hr.2
  exact ⟨by simp only [h.data, hr.1], h.includes, h.predefs, h.initInclude, h.stdbool, h.stdint, h.headerComment, h.defines,
    h.defined, h.inits, h.bins⟩

theorem convertDefs_reordered [ClauseRel R] {be be' : Backend} {ds ds' simple simple' : List Def} {mod mod' : Module}
    (hf : ∀ t, fieldType ds' simple' t = fieldType ds simple t) (hb : AlikeBackend R V B be be' mod mod')
    {l l' : List Def} (hl : All2 (AlteredDef R) l l') (hm : ∀ d ∈ l, d ∈ mod.defs) (hm' : ∀ d ∈ l', d ∈ mod'.defs) :
    ∀ cd cd', AlikeData V B cd cd' →
      Both (AlikeData V B) (convertDefs be ds simple mod cd l) (convertDefs be' ds' simple' mod' cd' l') := by
  induction hl with
  | nil => exact fun cd cd' hc => .ok hc
  | @cons d d' l l' hd _ ih =>
    intro cd cd' hc
    have ih := ih (fun x hx => hm x (List.Mem.tail _ hx)) fun x hx => hm' x (List.Mem.tail _ hx)
    have h1 := hm d (List.Mem.head _)
    have h1' := hm' d' (List.Mem.head _)
    rw [convertDefs, convertDefs]
    refine Both.bind (R := AlikeData V B) ?_ fun x x' _ _ hx => ih x x' hx
    cases hd with
    | seq hs =>
      simp only [convertDef]
      exact (convertSequence_reordered hf hb h1 h1' hs).bind fun _ _ _ _ he => .ok (hc.extend he)
    | same =>
      cases d with
      | seq n c ms =>
        simp only [convertDef]
        exact (convertSequence_reordered hf hb h1 h1' (reorderedMembers_refl ms)).bind fun _ _ _ _ he => .ok (hc.extend he)
      | simple n c t =>
        simp only [convertDef, hb.note]
        refine (Both.refl (R := Eq) (fun _ => rfl) _).bind fun a a' _ _ ha => .ok ?_
        subst ha
        exact ⟨hc.data, by simp only [hc.includes], hc.predefs, hc.initInclude, hc.stdbool, hc.stdint,
          hc.headerComment, hc.defines, hc.defined, hc.inits, hc.bins⟩
      | enum n c its => exact .ok (hc.extend (.plain rfl rfl rfl))
      | choice n c ms => exact .ok (hc.extend (.plain rfl rfl rfl))

theorem moduleData_reordered [ClauseRel R] {be be' : Backend} {ds ds' : List Def} (hds : All2 (AlteredDef R) ds ds') {bm bm' : BMod}
    (h : AlteredB R bm bm') (hn : (bm.mod.defs.map Def.name).Nodup) (hb : AlikeBackend R V B be be' bm.mod bm'.mod) (fuel : Nat) :
    Both (AlikeData V B) (moduleData fuel be ds bm) (moduleData fuel be' ds' bm') := by
  have hf : ∀ t, fieldType ds' (simpleList bm') t = fieldType ds (simpleList bm) t := by
    intro t
    rw [← fieldType_unfixed ds', ← fieldType_unfixed ds, unfixedDefs_reordered hds, ← simpleList_unfixed, ← simpleList_unfixed,
      unfixedBMod_reordered h]
  have hn' : (bm'.mod.defs.map Def.name).Nodup := by rw [names_reorderedDefs h.mod.defs]; exact hn
  unfold moduleData
  rcases sortDefs_reordered h.mod hn fuel with ⟨e, e'⟩ | ⟨s, s', e, e', hs⟩
  · rw [e, e']; exact .error _ _
  · rw [e, e']
    refine (convertDefs_reordered hf hb hs (fun d hd => ?_) (fun d hd => ?_) _ _ ?_).bind fun cd cd' _ _ hc => .ok ?_
    · exact (sortDefs_spec fuel bm.mod s e).1.mem_iff.1 hd
    · exact (sortDefs_spec fuel bm'.mod s' e').1.mem_iff.1 hd
    · have : importIncludes be'.includeFile bm'.mod = importIncludes be.includeFile bm.mod := by
        unfold importIncludes
        rw [hb.file, h.mod.commentImport, h.mod.imports]
      rw [this]
      exact .plain rfl rfl rfl
    · have : headerDoc bm'.mod = headerDoc bm.mod := by unfold headerDoc; rw [h.mod.comment]
      rw [this]
      exact ⟨hc.data, hc.includes, hc.predefs, hc.initInclude, hc.stdbool, hc.stdint, rfl, hc.defines, hc.defined, hc.inits, hc.bins⟩

end

/-! ### Handlers -/

/-- No variables. -/
def NoV : Text → Text → Prop := fun _ _ => False

/-- No binary files. -/
def NoB : Text → List (List UInt8) → List (List UInt8) → Prop := fun _ _ _ => False

theorem cfsHandler_reordered (p : Printer) (cn : Text) {m m' : Member} {mod mod' : Module} {c c' : Comps}
    (hc : m.comps = some c) (hc' : m'.comps = some c') (h : Reordered c c') :
    Both (AlikeData NoV NoB) (cfsHandler p cn m mod) (cfsHandler p cn m' mod') := by
  unfold cfsHandler
  rw [hc, hc']
  refine (cfsDefines_reordered p cn h).bind fun d d' _ _ hd => .ok ?_
  refine ⟨rfl, rfl, rfl, rfl, rfl, rfl, rfl, hd.map _, ?_, .nil, .nil⟩
  intro x hx
  obtain ⟨y, _, rfl⟩ := List.mem_map.1 hx
  unfold Define.text
  rw [List.append_assoc, List.append_assoc]
  exact List.isPrefixOf_iff_prefix.2 (List.prefix_append _ _)

/-- Variables that say what two versions of a clause say. -/
def OtherV (p : Printer) (v v' : Text) : Prop :=
  ∃ n k c c', Reordered c c' ∧ Initialiser p (n, k, c) v ∧ Initialiser p (n, k, c') v'

theorem cHandler_reordered {p : Printer} (hp : Faithful p) {n : String} (hn : isNameCapital n = true) {m m' : Member} {mod mod' : Module}
    (hg : GrammarMember m) (hm : ReorderedMember m m') (hmod : mod'.name = mod.name) {c c' : Comps}
    (hc : m.comps = some c) (hc' : m'.comps = some c') (h : Reordered c c') :
    Both (AlikeData (OtherV p) NoB) (cHandler p (cName n) m mod) (cHandler p (cName n) m' mod') := by
  unfold cHandler
  rw [hc, hc', hmod, hm.key]
  refine .ok ⟨rfl, rfl, rfl, rfl, rfl, rfl, rfl, .refl _, fun _ h => (by cases h), .cons ?_ .nil, .nil⟩
  have g := (hg.2.2 c hc).2
  exact ⟨n, m.key, c, c', h, cInitStart_initialiser hp hn hg.1 g, cInitStart_initialiser hp hn hg.1 (reordered_grammar h g)⟩

/-- Binary files of two versions of a clause. -/
def OtherB (raw raw' : List Module) (k : Text) (bs bs' : List (List UInt8)) : Prop :=
  ∃ n, isNameCapital n = true ∧ k = lowerFirst (ident n) ∧ OtherBytes raw raw' n bs.flatten bs'.flatten

theorem flatMap_zip {α β : Type} (l : List α) (l' : List (List β)) (h : l'.length = l.length) :
    (l.zip l').flatMap (·.2) = l'.flatten := by
  induction l generalizing l' with
  | nil => cases l' with
    | nil => rfl
    | cons => simp at h
  | cons a l ih =>
    cases l' with
    | nil => simp at h
    | cons b l' =>
      rw [List.zip_cons_cons, List.flatMap_cons, List.flatten_cons, ih l' (by simpa using h)]

theorem binHandler_reordered {raw raw' : List Module} {ds ds' : List Def} (hds : All2 ReorderedDef ds ds') (fuel : Nat)
    (e : Option Endian) {n : String} (hn : isNameCapital n = true) {m m' : Member} {mod mod' : Module}
    (hm : ReorderedMember m m') (hmod : ReorderedModule mod mod') {c c' : Comps}
    (hc : m.comps = some c) (hc' : m'.comps = some c') (h : Reordered c c') (hr : HasClause raw n c) (hr' : HasClause raw' n c') :
    Both (AlikeData NoV (OtherB raw raw')) (binHandler ds fuel e (cName n) m mod) (binHandler ds' fuel e (cName n) m' mod') := by
  unfold binHandler
  rw [hc, hc', hm.type]
  simp only [binDefs_reordered hds fuel hmod.defs]
  refine (Both.refl (R := Eq) (fun _ => rfl) _).bind fun d d' _ _ hd => ?_
  subst hd
  refine (compBytes_reordered d e h m.type.name).bind fun bs bs' h1 h2 hb => .ok ?_
  refine ⟨rfl, rfl, rfl, rfl, rfl, rfl, rfl, .refl _, fun _ h => (by cases h), .nil, .cons ⟨rfl, n, hn, ?_, c, c', h, hr, hr', _, _, hb, ?_⟩ .nil⟩
  · show lowerize (cName n) = _
    rw [lowerize_eq, cName_eq (.inr hn)]
  · have l1 := compBytes_length d e c _ bs h1
    have l2 := compBytes_length d e c' _ bs' h2
    exact ⟨List.map_fst_zip (by omega), List.map_fst_zip (by omega), (flatMap_zip _ _ l1).symm, (flatMap_zip _ _ l2).symm⟩

/-! ### Files -/

/-- How contents may differ. -/
def OtherContent (cmd : Command) (out : Text) (raw raw' : List Module) (q : Text) (c d : Content) : Prop :=
  match cmd with
  | .cfs _ => ∃ m ∈ raw, q = inDir out (ident m.name ++ "_msgids.h".toList) ∧ ∃ t t', c = textContent t ∧ d = textContent t' ∧
      OtherDefines t t'
  | .c p => ∃ m ∈ raw, q = inDir out (ident m.name ++ ".c".toList) ∧ ∃ t t', c = textContent t ∧ d = textContent t' ∧
      OtherVariables p t t'
  | .binary _ => ∃ n, q = inDir out (lowerFirst (ident n) ++ ".bin".toList) ∧ ∃ t t' : List UInt8, c = t.map .inr ∧ d = t'.map .inr ∧
      OtherBytes raw raw' n t t'

theorem otherOrder_of_content {cmd : Command} {out : Text} {raw raw' : List Module} {fs fs' : Files} {q : Text}
    (h : FileAlike (OtherContent cmd out raw raw') fs fs' q) : fs' q = fs q ∨ OtherOrder cmd out raw raw' fs fs' q := by
  rcases h with h | ⟨c, d, h1, h2, h3⟩
  · exact .inl h
  · refine .inr ?_
    cases cmd with
    | cfs p =>
      obtain ⟨m, hm, rfl, t, t', rfl, rfl, h⟩ := h3
      exact ⟨m, hm, rfl, t, t', h1, h2, h⟩
    | c p =>
      obtain ⟨m, hm, rfl, t, t', rfl, rfl, h⟩ := h3
      exact ⟨m, hm, rfl, t, t', h1, h2, h⟩
    | binary e =>
      obtain ⟨n, rfl, t, t', rfl, rfl, h⟩ := h3
      exact ⟨n, rfl, t, t', h1, h2, h⟩

theorem headerText_alike {V : Text → Text → Prop} {B : Text → List (List UInt8) → List (List UInt8) → Prop} {cd cd' : CData}
    (h : AlikeData V B cd cd') {ty : HeaderType} (hty : ty ≠ .msgids) (fn : Text) : headerText ty fn cd' = headerText ty fn cd := by
  unfold headerText
  simp only [h.data, h.includes, h.predefs, h.stdbool, h.stdint, h.headerComment, hty, false_and, if_false]

theorem headerText_defines {V : Text → Text → Prop} {B : Text → List (List UInt8) → List (List UInt8) → Prop} {cd cd' : CData}
    (h : AlikeData V B cd cd') (fn : Text) : OtherDefines (headerText .msgids fn cd) (headerText .msgids fn cd') := by
  have hne : cd'.defines ≠ [] ↔ cd.defines ≠ [] := by
    have := h.defines.length_eq
    constructor <;> intro hx e <;> rw [e] at this <;> exact hx (List.length_eq_zero_iff.1 (by simp_all))
  refine ⟨guardOpen fn ++ ['\n'] ++ fileHeader [] ++ ['\n'], cd.defines.map (· ++ ['\n']), cd'.defines.map (· ++ ['\n']),
    (if cd.defines ≠ [] then ['\n'] else []) ++ guardClose fn, h.defines.map _, ?_, ?_, ?_, ?_⟩
  · intro l hl
    obtain ⟨d, hd, rfl⟩ := List.mem_map.1 hl
    refine ⟨?_, by rw [List.getLast?_append]; rfl⟩
    exact List.isPrefixOf_iff_prefix.2 ((List.isPrefixOf_iff_prefix.1 (h.defined d hd)).trans (List.prefix_append _ _))
  · rw [List.getLast?_append]; rfl
  · unfold headerText
    by_cases hd : cd.defines = []
    · simp [hd]
    · simp [hd, List.flatMap_def]
  · unfold headerText
    by_cases hd : cd.defines = []
    · have hd' : cd'.defines = [] := Classical.byContradiction fun x => hne.1 x hd
      simp [hd, hd']
    · have hd' : cd'.defines ≠ [] := hne.2 hd
      simp [hd, hd', List.flatMap_def]

/-! ### Runs -/

/-- Two runs: both fail or both succeed, and operations in relation. -/
structure RunBoth (H : Text → Content → Content → Prop) (r r' : Run) : Prop where
  result : r.result = .ok () ↔ r'.result = .ok ()
  ops : All2 (OpImports H) r.ops r'.ops

theorem runModules_reordered {R : Comps → Comps → Prop} {H : Text → Content → Content → Prop} {be be' : Backend} {ds ds' : List Def}
    (fuel : Nat) {bms bms' : List BMod} (hs : All2 (AlteredB R) bms bms')
    (hd : ∀ bm ∈ bms, ∀ bm' ∈ bms', AlteredB R bm bm' → Both (fun cd cd' =>
      All2 (OpImports H) (be.print bm.mod cd) (be'.print bm'.mod cd')) (moduleData fuel be ds bm) (moduleData fuel be' ds' bm')) :
    RunBoth H (runModules fuel be ds bms) (runModules fuel be' ds' bms') := by
  induction hs with
  | nil => exact ⟨.rfl, .nil⟩
  | @cons bm bm' l l' h _ ih =>
    have ih := ih fun x hx y hy => hd x (List.Mem.tail _ hx) y (List.Mem.tail _ hy)
    have h1 := hd bm (List.Mem.head _) bm' (List.Mem.head _) h
    rw [runModules, runModules]
    cases e : moduleData fuel be ds bm with
    | error x =>
      rw [e] at h1
      cases e' : moduleData fuel be' ds' bm' with
      | error y => exact ⟨⟨fun h => (by cases h), fun h => (by cases h)⟩, .nil⟩
      | ok y => rw [e'] at h1; cases h1
    | ok x =>
      rw [e] at h1
      cases e' : moduleData fuel be' ds' bm' with
      | error y => rw [e'] at h1; cases h1
      | ok y =>
        rw [e'] at h1
        cases h1 with
        | ok h1 => exact ⟨ih.result, all2_append h1 ih.ops⟩

theorem generate_reordered {R : Comps → Comps → Prop} {H : Text → Content → Content → Prop} {be be' : Backend} {b b' : Bundle}
    (h : AlteredBundle R b b') (hn : (b.modules.map (·.name)).Nodup) (fuel : Nat) (out : Text)
    (hd : ∀ bm ∈ b.mods, ∀ bm' ∈ b'.mods, AlteredB R bm bm' → Both (fun cd cd' =>
      All2 (OpImports H) (be.print bm.mod cd) (be'.print bm'.mod cd')) (moduleData fuel be b.defs bm)
        (moduleData fuel be' b'.defs bm')) :
    RunBoth H (generate fuel be out b) (generate fuel be' out b') := by
  unfold generate
  have hn' : (b'.modules.map (·.name)).Nodup := by rw [names_reordered h.modules]; exact hn
  have e1 := orderModules_unfixed fuel b.modules
  have e2 := orderModules_unfixed fuel b'.modules
  rw [unfixedModules_reordered h.modules, e1] at e2
  cases e : orderModules fuel b.modules with
  | none =>
    cases e' : orderModules fuel b'.modules with
    | none => exact ⟨.rfl, .cons rfl .nil⟩
    | some o' => rw [e, e'] at e2; cases e2
  | some o =>
    cases e' : orderModules fuel b'.modules with
    | none => rw [e, e'] at e2; cases e2
    | some o' =>
      rw [e, e'] at e2
      have ho : o.map unfixed = o'.map unfixed := Option.some.inj e2
      have hp : o.Perm b.modules := (orderLoop_spec b.modules fuel _ o ⟨rfl, hn⟩ ⟨by simp, by simp, by simp⟩ e).1
      have hp' : o'.Perm b'.modules := (orderLoop_spec b'.modules fuel _ o' ⟨rfl, hn'⟩ ⟨by simp, by simp, by simp⟩ e').1
      have hm := orderedMods_reordered h hn (o := o) (o' := o') (by rw [← map_unfixed_name, ← map_unfixed_name o, ho])
        (fun m hm => hp.mem_iff.1 hm) fun m hm => hp'.mem_iff.1 hm
      have hsub : ∀ {b : Bundle} {o : List Module}, ∀ x ∈ orderedMods b o, x ∈ b.mods := by
        intro b o x hx
        obtain ⟨m, _, hm⟩ := List.mem_filterMap.1 hx
        exact List.mem_of_find?_eq_some hm
      have := runModules_reordered (H := H) (be := be) (be' := be') (ds := b.defs) (ds' := b'.defs) fuel hm fun x hx y hy =>
        hd x (hsub x hx) y (hsub y hy)
      exact ⟨this.result, .cons rfl this.ops⟩

theorem runCommand_reordered {R : Comps → Comps → Prop} [ClauseRel R] {H : Text → Content → Content → Prop} {mk : Bundle → Backend} {raw raw' : List Module}
    (hs : All2 (AlteredModule R) raw raw') (fuel : Nat) (cfg : List String) (out : Text)
    (hd : ∀ b b', buildFromConfig raw cfg = .ok b → buildFromConfig raw' cfg = .ok b' → AlteredBundle R b b' →
      ∀ bm ∈ b.mods, ∀ bm' ∈ b'.mods, AlteredB R bm bm' → Both (fun cd cd' =>
        All2 (OpImports H) ((mk b).print bm.mod cd) ((mk b').print bm'.mod cd')) (moduleData fuel (mk b) b.defs bm)
          (moduleData fuel (mk b') b'.defs bm')) :
    RunBoth H (runCommand fuel mk raw cfg out) (runCommand fuel mk raw' cfg out) := by
  have hb := buildFromConfig_reordered hs cfg
  unfold runCommand
  cases e : buildFromConfig raw cfg with
  | error x =>
    cases e' : buildFromConfig raw' cfg with
    | error y => exact ⟨⟨fun h => (by cases h), fun h => (by cases h)⟩, .nil⟩
    | ok y => rw [e, e'] at hb; cases hb
  | ok b =>
    cases e' : buildFromConfig raw' cfg with
    | error y => rw [e, e'] at hb; cases hb
    | ok b' =>
      rw [e, e'] at hb
      cases hb with
      | ok hb => exact generate_reordered hb (config_names_nodup e) fuel out (hd b b' e e' hb)

theorem hasClause_of_built {raw : List Module} {cfg : List String} {b : Bundle} (h : buildFromConfig raw cfg = .ok b)
    {mod : Module} (hm : mod ∈ b.modules) {n : String} {c : Option Comment} {ms : List Member} (hd : Def.seq n c ms ∈ mod.defs)
    {m : Member} (hmem : m ∈ ms) {cs : Comps} (hc : m.comps = some cs) : HasClause raw n cs := by
  obtain ⟨m0, h0, hn, _⟩ := raw_of_built h hm
  obtain ⟨bm, hbm, e, hseq⟩ := bmod_of_raw h h0
  have : bm.mod = mod := mem_unique_of_nodup_map (config_names_nodup h) (List.mem_map.2 ⟨bm, hbm, rfl⟩) hm (by rw [e, hn])
  subst this
  exact ⟨m0, h0, ms, ⟨c, hseq n c ms hd⟩, m, hmem, hc⟩

theorem command_reordered (cmd : Command) (hp : ∀ p, cmd = .c p → Faithful p) {raw raw' : List Module}
    (hs : All2 ReorderedModule raw raw') (hg : ∀ m ∈ raw, GrammarModule m) (fuel : Nat) (cfg : List String) (out : Text) :
    RunBoth (OtherContent cmd out raw raw') (cmd.run fuel raw cfg out) (cmd.run fuel raw' cfg out) := by
  have hmod : ∀ {b : Bundle} {bm : BMod}, bm ∈ b.mods → bm.mod ∈ b.modules := fun h => List.mem_map.2 ⟨_, h, rfl⟩
  have hdef : ∀ {b : Bundle} {mod : Module}, mod ∈ b.modules → ∀ d ∈ mod.defs, d ∈ b.defs := by
    intro b mod hm d hd
    rw [← defsOf_eq]
    exact List.mem_flatMap.2 ⟨mod, hm, hd⟩
  have hnd : ∀ {b : Bundle} {bm : BMod}, buildFromConfig raw cfg = .ok b → bm ∈ b.mods → (bm.mod.defs.map Def.name).Nodup :=
    fun h hbm => module_defs_nodup (accepted_nodup (buildFromTexts_of_config h)) (hmod hbm)
  cases cmd with
  | cfs p =>
    refine runCommand_reordered hs fuel cfg out fun b b' h h' hr bm hbm bm' hbm' hR => ?_
    refine (moduleData_reordered (V := NoV) (B := NoB) hr.defs hR (hnd h hbm) (be := cfsBackend p out b) (be' := cfsBackend p out b')
      ⟨rfl, by simp only [cfsBackend]; funext n t; unfold cfsNote; rw [hr.uses], ?_⟩ fuel).imp fun cd cd' hc => ?_
    · exact fun n c ms ms' _ _ m _ m' _ _ c c' hc hc' hcc =>
        cfsHandler_reordered p _ (mod := bm.mod) (mod' := bm'.mod) hc hc' hcc
    · have hn : GrammarName bm.mod.name := .inl (accepted_names hg (buildFromTexts_of_config h) _ (hmod hbm))
      obtain ⟨m0, h0, e0, _⟩ := raw_of_built h (hmod hbm)
      simp only [cfsBackend, hR.mod.name, printToFile]
      refine .cons ⟨rfl, .inl ?_⟩ (.cons ⟨rfl, .inr ⟨m0, h0, ?_, _, _, rfl, rfl, headerText_defines hc _⟩⟩ .nil)
      · rw [headerText_alike hc (by decide)]
      · rw [e0, msgidsFilename, cName_eq hn, List.append_assoc, joinPath_eq out (ident_head hn _)]
        rfl
  | c p =>
    refine runCommand_reordered hs fuel cfg out fun b b' h h' hr bm hbm bm' hbm' hR => ?_
    refine (moduleData_reordered (V := OtherV p) (B := NoB) hr.defs hR (hnd h hbm) (be := cBackend p out b) (be' := cBackend p out b')
      ⟨rfl, rfl, ?_⟩ fuel).imp fun cd cd' hc => ?_
    · intro n c ms ms' hd _ m hm m' _ hmm c c' hc hc' hcc
      have hgd := (accepted_grammar hg (buildFromTexts_of_config h) _ (hdef (hmod hbm) _ hd)).1
      exact cHandler_reordered (hp p rfl) hgd.1 (hgd.2.2 m hm) hmm hR.mod.name hc hc' hcc
    · have hn : GrammarName bm.mod.name := .inl (accepted_names hg (buildFromTexts_of_config h) _ (hmod hbm))
      obtain ⟨m0, h0, e0, _⟩ := raw_of_built h (hmod hbm)
      simp only [cBackend, hR.mod.name, printToFile]
      refine .cons ⟨rfl, .inl ?_⟩ (.cons ⟨rfl, .inr ⟨m0, h0, ?_, _, _, rfl, rfl, ?_⟩⟩ .nil)
      · rw [headerText_alike hc (by decide)]
      · rw [e0, cFilename, cName_eq hn, joinPath_eq out (ident_head hn _)]
      · refine ⟨_, cd.inits, cd'.inits, rfl, ?_, hc.inits⟩
        unfold sourceText
        rw [hc.headerComment, hc.initInclude]
  | binary e =>
    refine runCommand_reordered hs fuel cfg out fun b b' h h' hr bm hbm bm' hbm' hR => ?_
    refine (moduleData_reordered (V := NoV) (B := OtherB raw raw') hr.defs hR (hnd h hbm) (be := binBackend fuel e out b)
      (be' := binBackend fuel e out b') ⟨rfl, rfl, ?_⟩ fuel).imp fun cd cd' hc => ?_
    · intro n c ms ms' hd hd' m hm m' hm' hmm c c' hc hc' hcc
      have hgd := (accepted_grammar hg (buildFromTexts_of_config h) _ (hdef (hmod hbm) _ hd)).1
      exact binHandler_reordered hr.defs fuel e hgd.1 hmm hR.mod hc hc' hcc (hasClause_of_built h (hmod hbm) hd hm hc)
        (hasClause_of_built h' (hmod hbm') hd' hm' hc')
    · simp only [binBackend, hR.mod.name, printToFile]
      refine .cons ⟨rfl, .inl ?_⟩ ?_
      · rw [headerText_alike hc (by decide)]
      · have hb := hc.bins
        show All2 _ (cd.bins.map _) (cd'.bins.map _)
        generalize cd.bins = l at hb
        generalize cd'.bins = l' at hb
        induction hb with
        | nil => exact .nil
        | @cons x y l l' hxy _ ih =>
          obtain ⟨h1, n, hn, h2, h3⟩ := hxy
          refine .cons ⟨by rw [h1], .inr ⟨n, ?_, _, _, rfl, rfl, h3⟩⟩ ih
          rw [h2, ← lowerize_eq, joinPath_eq out (lowerize_ident_head hn _)]

end Apg
