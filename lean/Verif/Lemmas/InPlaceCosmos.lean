import Verif.Lemmas.InPlaceRun
import Verif.Lemmas.BareCosmos

/-!
# generate-cosmos with simple types in place of their names
-/

namespace Apg
open Spec

variable {σ : String → Option AType}

theorem lastBMod_inPlace (bms : List BMod) (n : String) :
    lastBMod (bms.map (inPlaceBMod σ)) n = (lastBMod bms n).map (inPlaceBMod σ) := by
  induction bms with
  | nil => rfl
  | cons m ms ih =>
    rw [List.map_cons, lastBMod, lastBMod, ih]
    cases lastBMod ms n with
    | some r => rfl
    | none =>
      show (if m.mod.name = n then some ((inPlaceBMod σ) m) else none) = _
      simp only
      split <;> rfl

theorem dedup_inPlace {ds : List Def} (h : ∀ d ∈ ds, ∀ d' ∈ ds, d.name = d'.name → d = d') :
    dedup (ds.map (inPlaceDef σ)) = (dedup ds).map (inPlaceDef σ) := by
  induction ds with
  | nil => rfl
  | cons d ds ih =>
    have i := ih fun a ha b hb => h a (by simp [ha]) b (by simp [hb])
    have sub : ∀ x ∈ dedup ds, x ∈ ds := by
      clear h ih i
      induction ds with
      | nil => intro x hx; cases hx
      | cons a ds ih =>
        intro x hx
        have e : dedup (a :: ds) = if (dedup ds).contains a then dedup ds else a :: dedup ds := rfl
        rw [e] at hx
        split at hx
        · exact List.mem_cons_of_mem _ (ih x hx)
        · rcases List.mem_cons.1 hx with rfl | hx
          · exact List.mem_cons_self
          · exact List.mem_cons_of_mem _ (ih x hx)
    have e : dedup (d :: ds) = if (dedup ds).contains d then dedup ds else d :: dedup ds := rfl
    have e' : dedup ((d :: ds).map (inPlaceDef σ)) =
      if (dedup (ds.map (inPlaceDef σ))).contains ((inPlaceDef σ) d) then dedup (ds.map (inPlaceDef σ)) else (inPlaceDef σ) d :: dedup (ds.map (inPlaceDef σ)) := rfl
    have hc : ((dedup ds).map (inPlaceDef σ)).contains ((inPlaceDef σ) d) = (dedup ds).contains d := by
      rw [Bool.eq_iff_iff, List.contains_iff_mem, List.contains_iff_mem]
      constructor
      · intro hm
        obtain ⟨x, hx, he⟩ := List.mem_map.1 hm
        have hn : x.name = d.name := by rw [← inPlaceDef_name, ← inPlaceDef_name d, he]
        rw [← h x (by simp [sub x hx]) d (by simp) hn]
        exact hx
      · exact fun hm => List.mem_map.2 ⟨d, hm, rfl⟩
    rw [e, e', i, hc]
    split <;> rfl

section
variable {b : Bundle} (hnd : (b.defs.map Def.name).Nodup)
include hnd

omit hnd in
theorem collectDefs_inPlace {rec rec' : BMod → Except Err (List Def)}
    (hr : ∀ bm ∈ b.mods, rec' ((inPlaceBMod σ) bm) = (rec bm).map (List.map (inPlaceDef σ))) (l : List Module) :
    collectDefs rec' ((inPlaceBundle σ) b) (l.map (inPlace σ)) = (collectDefs rec b l).map (List.map (inPlaceDef σ)) := by
  induction l with
  | nil => rfl
  | cons m l ih =>
    rw [List.map_cons, collectDefs, collectDefs, ih]
    have e : lastBMod ((inPlaceBundle σ) b).mods ((inPlace σ) m).name = (lastBMod b.mods m.name).map (inPlaceBMod σ) := lastBMod_inPlace b.mods m.name
    rw [e]
    cases hl : lastBMod b.mods m.name with
    | none =>
      simp only [Option.map_none, bind, Except.bind]
      cases collectDefs rec b l <;> simp [Except.map]
    | some bm =>
      simp only [Option.map_some, hr bm (lastBMod_mem hl)]
      cases rec bm with
      | error e => rfl
      | ok a =>
        simp only [Except.map, bind, Except.bind]
        cases collectDefs rec b l <;> simp

theorem defsRecurs_inPlace (n : String) (fuel : Nat) : ∀ bm ∈ b.mods,
    defsRecurs ((inPlaceBundle σ) b) n fuel ((inPlaceBMod σ) bm) = (defsRecurs b n fuel bm).map (List.map (inPlaceDef σ)) := by
  induction fuel with
  | zero => intro bm _; rfl
  | succ fuel ih =>
    intro bm hbm
    rw [defsRecurs, defsRecurs]
    have e : collectDefs (defsRecurs ((inPlaceBundle σ) b) n fuel) ((inPlaceBundle σ) b) ((inPlaceBMod σ) bm).imported =
        (collectDefs (defsRecurs b n fuel) b bm.imported).map (List.map (inPlaceDef σ)) :=
      collectDefs_inPlace ih bm.imported
    rw [e]
    have hsub := collectDefs_sub (b := b) (rec := defsRecurs b n fuel)
      (fun bm hbm ds h d hd => (defsRecurs_sound fuel bm hbm ds h d hd).1) bm.imported
    cases hcd : collectDefs (defsRecurs b n fuel) b bm.imported with
    | error e => rfl
    | ok r =>
      have hall : ∀ d ∈ bm.mod.defs ++ r, d ∈ b.defs := by
        intro d hd
        rcases List.mem_append.1 hd with hd | hd
        · exact mem_defs_of_bmod hbm hd
        · exact hsub r hcd d hd
      simp only [Except.map, bind, Except.bind, Except.ok.injEq]
      have e2 : (((inPlaceBMod σ) bm).mod.defs ++ r.map (inPlaceDef σ)).filter (fun d => d.name = n) =
          ((bm.mod.defs ++ r).filter (fun d => d.name = n)).map (inPlaceDef σ) := by
        show (bm.mod.defs.map (inPlaceDef σ) ++ r.map (inPlaceDef σ)).filter _ = _
        rw [← List.map_append, List.filter_map]
        congr 2
        funext d
        simp only [Function.comp_apply, inPlaceDef_name]
      rw [e2]
      refine dedup_inPlace fun d hd d' hd' hn => ?_
      exact mem_unique_of_nodup_map hnd (hall d (List.mem_filter.1 hd|>.1)) (hall d' (List.mem_filter.1 hd'|>.1)) hn

theorem getDefinition_inPlace (fuel : Nat) (n : String) {bm : BMod} (hbm : bm ∈ b.mods) :
    getDefinition ((inPlaceBundle σ) b) fuel n ((inPlaceBMod σ) bm) = (getDefinition b fuel n bm).map (inPlaceDef σ) := by
  unfold getDefinition
  rw [defsRecurs_inPlace hnd n fuel bm hbm]
  cases defsRecurs b n fuel bm with
  | error e => rfl
  | ok ds =>
    match ds with
    | [] => rfl
    | [d] => rfl
    | d :: d' :: ds => rfl


omit hnd in
theorem getModule_inPlace (n : String) : (inPlaceBundle σ b).getModule n = (b.getModule n).map (inPlaceBMod σ) := by
  unfold Bundle.getModule inPlaceBundle
  rw [List.find?_map]
  rfl

/-- A shape with simple types in place. -/
def inPlaceShape (σ : String → Option AType) : Shape → Shape
  | .item c lo hi st => .item c lo hi st
  | .inner d => .inner (inPlaceDef σ d)

theorem shapeOf_same (fuel : Nat) {bm : BMod} (hbm : bm ∈ b.mods) (t : AType) :
    shapeOf (inPlaceBundle σ b) fuel (inPlaceBMod σ bm) t = (shapeOf b fuel bm t).map (inPlaceShape σ) := by
  unfold shapeOf
  simp only
  split
  · rfl
  · split
    · rfl
    · split
      · rfl
      · rw [getDefinition_inPlace hnd fuel t.name hbm]
        cases getDefinition b fuel t.name bm with
        | error e => rfl
        | ok d =>
          cases d with
          | _ => rfl

omit hnd in
theorem shapeOf_inPlace (hp : Placed b.defs σ) (fuel : Nat) {bm : BMod} (hbm : bm ∈ b.mods) (t : AType) {sh : Shape}
    (h : shapeOf b fuel bm t = .ok sh) :
    shapeOf (inPlaceBundle σ b) fuel (inPlaceBMod σ bm) (inPlaceType σ t) = .ok (inPlaceShape σ sh) := by
  rcases inPlaceType_cases σ t with e | ⟨n, lo, hi1, t', e0, e1, e2⟩
  · rw [e, shapeOf_same hp.nodup fuel hbm, h]; rfl
  · rw [e2]
    obtain ⟨c, hc, _⟩ := hp.alias e1
    have hcap : isNameCapital n = true := hp.cap _ hc
    have n1 : n ≠ "INTEGER" := by rintro rfl; exact absurd hcap (by decide)
    have n2 : n ≠ "REAL" := by rintro rfl; exact absurd hcap (by decide)
    have n3 : n ≠ "BOOLEAN" := by rintro rfl; exact absurd hcap (by decide)
    rw [e0] at h
    unfold shapeOf at h
    simp only [AType.name, n1, n2, n3, or_self, if_false, bind_ok] at h
    obtain ⟨d, h1, h2⟩ := h
    obtain ⟨h3, h4⟩ := getDefinition_sound hbm h1
    have : d = .simple n c t' := mem_unique_of_nodup_map hp.nodup h3 hc h4
    subst this
    cases h2
    obtain ⟨k, lo', hi', rfl, hk⟩ := hp.given.number n t' e1
    unfold shapeOf
    rw [if_pos (by exact hk)]
    rfl

omit hnd in
theorem makeEntry_inPlace (hn : ∀ n t, σ n = some t → NumberType t) {p : Printer} {m : Member} {s : Specific}
    {c : Option CType} {lo hi : Option Num} {states : List Text} :
    makeEntry p (inPlaceMember σ m) s c lo hi states = makeEntry p m s c lo hi states := by
  obtain ⟨k, t, co, w⟩ := m
  rcases inPlaceType_cases σ t with e | ⟨n, l, h, t', e0, e1, e2⟩
  · simp only [inPlaceMember, e]
  · obtain ⟨n', lo', hi', rfl, _⟩ := hn n t' e1
    subst e0
    unfold makeEntry specificText
    simp only [inPlaceMember, e2]

omit hnd in
theorem entriesFrom_inPlace (hp : Placed b.defs σ) {p : Printer} {fuel : Nat} {bm : BMod} (hbm : bm ∈ b.mods)
    {rec rec' : Store → Def → Comps → Except Err (List Entry × Store)}
    (hr : ∀ st d wc r, rec st d wc = .ok r → rec' st (inPlaceDef σ d) wc = .ok r) (n : String) (wc : Comps)
    (ms : List Member) : ∀ (st : Store) (i : Nat) (r : List Entry × Store),
    entriesFrom p b fuel bm rec n wc st i ms = .ok r →
    entriesFrom p (inPlaceBundle σ b) fuel (inPlaceBMod σ bm) rec' n wc st i (ms.map (inPlaceMember σ)) = .ok r := by
  induction ms with
  | nil => intro st i r h; cases h; rfl
  | cons m ms ih =>
    intro st i r h
    rw [List.map_cons]
    rw [entriesFrom] at h ⊢
    simp only [bind_ok] at h ⊢
    obtain ⟨sh, h1, r1, h2, r2, h3, h4⟩ := h
    refine ⟨inPlaceShape σ sh, shapeOf_inPlace hp fuel hbm m.type h1, r1, ?_, r2, ih _ _ _ h3, h4⟩
    cases sh with
    | item c lo hi states =>
      simp only [inPlaceShape, makeEntry_inPlace hp.given.number]
      exact h2
    | inner d => exact hr _ _ _ _ h2

omit hnd in
theorem telemetry_inPlace (hp : Placed b.defs σ) {p : Printer} {fuel : Nat} {bm : BMod} (hbm : bm ∈ b.mods) (depth : Nat) :
    ∀ st d wc r, telemetry p b fuel bm depth st d wc = .ok r →
    telemetry p (inPlaceBundle σ b) fuel (inPlaceBMod σ bm) depth st (inPlaceDef σ d) wc = .ok r := by
  induction depth with
  | zero => intro st d wc r h; cases h
  | succ depth ih =>
    intro st d wc r h
    cases d with
    | seq n c ms => exact entriesFrom_inPlace hp hbm ih n wc ms st 0 r h
    | _ => cases h

omit hnd in
theorem packets_inPlace (hp : Placed b.defs σ) {p : Printer} {fuel : Nat} {bm : BMod} (hbm : bm ∈ b.mods) {target : Text}
    (ns : List String) : ∀ st r, packets p b fuel bm target st ns = .ok r →
    packets p (inPlaceBundle σ b) fuel (inPlaceBMod σ bm) target st ns = .ok r := by
  induction ns with
  | nil => intro st xs h; exact h
  | cons n ns ih =>
    intro st xs h
    rw [packets] at h ⊢
    have e : lastDef (inPlaceBMod σ bm).mod.defs n = (lastDef bm.mod.defs n).map (inPlaceDef σ) := lastDef_inPlace bm.mod.defs n
    rw [e]
    cases hd : lastDef bm.mod.defs n with
    | none => rw [hd] at h; cases h
    | some d =>
      rw [hd] at h
      simp only [bind_ok] at h
      obtain ⟨r, h1, rest, h2, h3⟩ := h
      simp only [Option.map_some, telemetry_inPlace hp hbm _ _ _ _ _ h1, ih _ _ h2, bind, Except.bind, inPlaceDef_name]
      rw [← h3]
      cases d <;> rfl

end

theorem initialStore_inPlace (ds : List Def) : initialStore (ds.map (inPlaceDef σ)) = initialStore ds := by
  funext n i
  unfold initialStore
  rw [lastDef_inPlace]
  cases lastDef ds n with
  | none => rfl
  | some d =>
    cases d with
    | seq n c ms =>
      show ((ms.map (inPlaceMember σ))[i]?).bind (·.comps) = (ms[i]?).bind (·.comps)
      rw [List.getElem?_map]
      cases ms[i]? <;> rfl
    | _ => rfl

theorem runCosmos_inPlace {raw : List Module} (hg : ∀ m ∈ raw, GrammarModule m) (ht : GivesTypes (defsOf raw) σ)
    (hn : ∀ n t, σ n = some t → NumberType t) {fuel : Nat} {p : Printer} {module : String} {messages : List String}
    {target out : Text} (h : (runCosmos fuel p raw module messages target out).result = .ok ()) :
    runCosmos fuel p (raw.map (inPlace σ)) module messages target out = runCosmos fuel p raw module messages target out := by
  unfold runCosmos at h ⊢
  cases hb : buildFromTexts raw with
  | error e => rw [hb] at h; cases h
  | ok b =>
    rw [hb] at h
    have hp := placed_of hg hb ht hn
    rw [buildFromTexts_inPlace hp.given hp.free hb]
    simp only at h ⊢
    unfold generateCosmos at h ⊢
    rw [inPlaceBundle_defs, initialStore_inPlace, getModule_inPlace]
    have hm0 : (inPlaceBundle σ b).mods = [] ↔ b.mods = [] := List.map_eq_nil_iff
    by_cases hm : b.mods = []
    · simp only [hm, if_true] at h
      cases h
    · simp only [hm, mt hm0.1 hm, if_false] at h ⊢
      cases hgm : b.getModule module with
      | none => rfl
      | some bm =>
        rw [hgm] at h
        simp only [Option.map_some] at h ⊢
        have e : (inPlaceBMod σ bm).mod.defs.map Def.name = bm.mod.defs.map Def.name := map_inPlaceDef_name bm.mod.defs
        rw [e]
        split at h
        · cases h
        · rename_i hc
          rw [if_neg hc, if_neg hc]
          cases hpk : packets p b fuel bm target (initialStore b.defs) messages with
          | error e => rw [hpk] at h; cases h
          | ok r => rw [packets_inPlace hp (getModule_some hgm).1 _ _ _ hpk]

end Apg
