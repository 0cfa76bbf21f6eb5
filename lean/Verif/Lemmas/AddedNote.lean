import Verif.Lemmas.AddedRun
import Verif.Lemmas.Symbols

/-!
# Adding definitions to the input: notes and lines
-/

namespace Apg
open Spec

/-! ### Lines -/

/-- A line of a text that ends with a line break. -/
def lineIn (t x : Text) : Prop := t ≠ [] ∧ x ∈ linesOf t.dropLast

theorem linesOf_whole {t : Text} (h : t = [] ∨ t.getLast? = some '\n') (s x : Text) :
    x ∈ linesOf (t ++ s) ↔ lineIn t x ∨ x ∈ linesOf s := by
  rcases h with rfl | h
  · simp [lineIn]
  · obtain ⟨a, rfl⟩ := List.getLast?_eq_some_iff.1 h
    rw [List.append_assoc, List.singleton_append, linesOf_append, List.mem_append]
    simp [lineIn]

theorem linesOf_each {f : String → Text} (h : ∀ n, f n = [] ∨ (f n).getLast? = some '\n') (l : List String) (s x : Text) :
    x ∈ linesOf (l.flatMap f ++ s) ↔ (∃ n ∈ l, lineIn (f n) x) ∨ x ∈ linesOf s := by
  induction l with
  | nil => simp
  | cons n l ih =>
    rw [List.flatMap_cons, List.append_assoc, linesOf_whole (h n), ih]
    simp [or_assoc]

theorem Spec.Kept.lines {names names' : List String} {t t' : List Char} (h : Kept names names' t t')
    (hs : ∀ n ∈ names, n ∈ names') : ∀ x ∈ linesOf t, x ∈ linesOf t' := by
  obtain ⟨ps, ps', l, l', hk, hl, hl', rfl, rfl⟩ := h
  have hs : ∀ n ∈ l, n ∈ l' := fun n hn => hl'.mem_iff.2 (hs n (hl.mem_iff.1 hn))
  intro x
  clear hl hl'
  induction hk with
  | nil => exact fun h => h
  | cons hc _ ih =>
    cases hc with
    | each f hf =>
      rw [layout_each, layout_each, linesOf_each hf, linesOf_each hf]
      exact Or.imp (fun ⟨n, h1, h2⟩ => ⟨n, hs n h1, h2⟩) ih
    | fixed t ht =>
      rw [layout_fixed, layout_fixed, linesOf_whole ht, linesOf_whole ht]
      exact Or.imp id ih
    | new t ht =>
      rw [layout_fixed, layout_fixed, linesOf_whole (.inr ht)]
      exact fun h => .inr (ih h)

/-! ### Headers with the message ids -/

/-- The part without the notes. -/
def noIncludes (p : CData) : CData := { p with includes := [] }

theorem headerText_msgids (fn : Text) (cd : CData) (inc : List Text) :
    headerText .msgids fn { cd with includes := inc } = headerText .msgids fn cd := rfl

theorem joined_noIncludes {inc : List Text} {ps : List CData} {cd : CData} (h : Joined { includes := inc } ps cd) :
    Joined { includes := inc } (ps.map noIncludes) { cd with includes := inc } := by
  refine ⟨?_, ?_, ?_, ?_, ?_, ?_, ?_, ?_, h.headerComment⟩
  · rw [List.flatMap_map]; exact h.data
  · rw [List.flatMap_map]; exact h.defines
  · rw [List.flatMap_map]; simp [noIncludes]
  · rw [List.flatMap_map]; exact h.inits
  · rw [List.flatMap_map]; exact h.predefs
  · rw [List.any_map]; exact h.stdbool
  · rw [List.any_map]; exact h.stdint
  · rw [List.foldl_map]; exact h.bins

theorem all2_image {α β γ} {R : α → β → Prop} {l : List α} {ps : List β} (h : All2 R l ps) (f : β → γ) :
    All2 (fun d p => ∃ q, R d q ∧ p = f q) l (ps.map f) := by
  induction h with
  | nil => exact .nil
  | cons h _ ih => exact .cons ⟨_, h, rfl⟩ ih

theorem moduleData_ids {fuel fuel' : Nat} {be be' : Backend} {ds ds' : List Def} {bm bm' : BMod}
    (ha : AddedB bm bm') (hd' : (bm'.mod.defs.map Def.name).Nodup)
    (hp : ∀ d ∈ bm.mod.defs, ∀ p p', defPart be ds (simpleList bm) bm.mod d = .ok p →
      defPart be' ds' (simpleList bm') bm'.mod d = .ok p' → noIncludes p = noIncludes p') {cd cd' : CData}
    (h : moduleData fuel be ds bm = .ok cd) (h' : moduleData fuel' be' ds' bm' = .ok cd') : ∃ f l l',
      l.Perm (bm.mod.defs.map Def.name) ∧ l'.Perm (bm'.mod.defs.map Def.name) ∧
      Mixed (importIncludes be.includeFile bm.mod) (headerDoc bm.mod) f l
        { cd with includes := importIncludes be.includeFile bm.mod } ∧
      Mixed (importIncludes be'.includeFile bm'.mod) (headerDoc bm.mod) f l'
        { cd' with includes := importIncludes be'.includeFile bm'.mod } := by
  obtain ⟨sorted, _, q1, ps, q2, cd1, q3, _, rfl⟩ := moduleData_ok h
  obtain ⟨sorted', _, r1, ps', r2, cd1', r3, _, rfl⟩ := moduleData_ok h'
  have e2 : ps'.map noIncludes = (sorted'.map Def.name).map fun n => noIncludes (namedPart be' ds' (simpleList bm') bm'.mod n) := by
    rw [named_parts hd' (fun d hd => r1.mem_iff.1 hd) (fun d v hv => hv) r2, List.map_map]
    rfl
  have e1 : ps.map noIncludes = (sorted.map Def.name).map fun n => noIncludes (namedPart be' ds' (simpleList bm') bm'.mod n) := by
    rw [List.map_map]
    have q2' : All2 (fun d p => ∃ q, defPart be ds (simpleList bm) bm.mod d = .ok q ∧ p = noIncludes q) sorted (ps.map noIncludes) := by
      exact all2_image q2 noIncludes
    refine all2_map q2' fun d hd p hpd => ?_
    obtain ⟨q, hpd, rfl⟩ := hpd
    have hdm := q1.mem_iff.1 hd
    have hdm' := ha.mod.defs d hdm
    have h1 : lastDef bm'.mod.defs d.name = some d := (lastDef_eq_some_iff hd' _ _).2 ⟨hdm', rfl⟩
    obtain ⟨p', _, hp'⟩ := all2_mem_left r2 (r1.mem_iff.2 hdm')
    simp only [Function.comp_apply, namedPart, h1, hp']
    exact hp d hdm q p' hpd hp'
  have q4 := joined_noIncludes q3
  have r4 := joined_noIncludes r3
  rw [e1] at q4
  rw [e2] at r4
  have ed : headerDoc bm'.mod = headerDoc bm.mod := by
    unfold headerDoc
    rw [ha.mod.comment]
  rw [ed]
  exact ⟨_, sorted.map Def.name, sorted'.map Def.name, q1.map _, r1.map _, mixed_of q4, mixed_of r4⟩

theorem defPart_noIncludes {be be' : Backend} {ds ds' simple simple' : List Def} {mod mod' : Module} {d : Def}
    (hf : ∀ m ∈ d.members, fieldType ds simple m.type = fieldType ds' simple' m.type)
    (hh : ∀ n, ∀ m ∈ d.members, ∀ v v', be.handler n m mod = .ok v → be'.handler n m mod' = .ok v' → v = v')
    {p p' : CData} (h : defPart be ds simple mod d = .ok p) (h' : defPart be' ds' simple' mod' d = .ok p') :
    noIncludes p = noIncludes p' := by
  cases d with
  | simple n c t =>
    simp only [defPart, bind_ok] at h h'
    obtain ⟨x, h1, h2⟩ := h
    obtain ⟨x', h1', h2'⟩ := h'
    cases h2
    cases h2'
    rfl
  | seq n c ms => rw [defPart_added hf (fun _ _ _ h => by cases h) hh h h']
  | enum n c its => rw [defPart_added hf (fun _ _ _ h => by cases h) hh h h']
  | choice n c ms => rw [defPart_added hf (fun _ _ _ h => by cases h) hh h h']

/-! ### Notes of generate-cfs -/

theorem cfsNote_added {raw raw' : List Module} {cfg cfg' : List String} {b b' : Bundle}
    (hb : buildFromConfig raw cfg = .ok b) (hb' : buildFromConfig raw' cfg' = .ok b')
    (ha : ∀ m ∈ raw, ∃ m' ∈ raw', Added m m') {n : String}
    (hu : ∀ m' ∈ raw', UsedPlainly m' n → ∃ m ∈ raw, m.name = m'.name ∧ UsedPlainly m n) {t : AType} {v v' : List Text}
    (h : cfsNote b n t = .ok v) (h' : cfsNote b' n t = .ok v') : v = v' := by
  obtain ⟨ms, h1, _, _, h4, _⟩ := buildFromConfig_ok.1 hb
  obtain ⟨ms', q1, _, _, q4, _⟩ := buildFromConfig_ok.1 hb'
  have hiff : ∀ mod, (∃ m ∈ ms, m.name = mod ∧ UsedPlainly m n) ↔ ∃ m ∈ ms', m.name = mod ∧ UsedPlainly m n := by
    intro mod
    constructor
    · rintro ⟨m, hm, r1, d, hd, hk⟩
      obtain ⟨m', hm', had⟩ := processModules_added ha h1 q1 m hm
      exact ⟨m', hm', had.name.trans r1, d, had.defs d hd, hk⟩
    · rintro ⟨m', hm', r1, r2⟩
      obtain ⟨m1, hm1, p1⟩ := all2_mem_right (processModules_ok.1 q1) hm'
      obtain ⟨m0, hm0, e1, e2⟩ := hu m1 hm1 ((usedPlainly_processed p1 n).1 r2)
      obtain ⟨m, hm, p0⟩ := all2_mem_left (processModules_ok.1 h1) hm0
      refine ⟨m, hm, ?_, (usedPlainly_processed p0 n).2 e2⟩
      rw [(processModule_name p0).1, e1, ← (processModule_name p1).1, r1]
  simp only [cfsNote] at h h'
  rcases uses_grown h4 q4 n hiff with ⟨g1, g2⟩ | ⟨s, s', g1, g2, g3⟩
  · rw [g1] at h; rw [g2] at h'; cases h; cases h'; rfl
  · rw [g1] at h
    rw [g2] at h'
    simp only at h h'
    rw [← mergeSort_names g3, h] at h'
    cases h'
    rfl

end Apg
