import Verif.Lemmas.BareOrder
import Verif.Lemmas.CosmosRun

/-!
# generate-cosmos on modules without comments
-/

namespace Apg
open Spec

theorem lastBMod_bare (bms : List BMod) (n : String) :
    lastBMod (bms.map bareBMod) n = (lastBMod bms n).map bareBMod := by
  induction bms with
  | nil => rfl
  | cons m ms ih =>
    rw [List.map_cons, lastBMod, lastBMod, ih]
    cases lastBMod ms n with
    | some r => rfl
    | none =>
      show (if m.mod.name = n then some (bareBMod m) else none) = _
      simp only
      split <;> rfl

theorem lastBMod_mem {bms : List BMod} {n : String} {r : BMod} (h : lastBMod bms n = some r) : r ∈ bms := by
  induction bms with
  | nil => cases h
  | cons m ms ih =>
    rw [lastBMod] at h
    split at h
    · rename_i r' hr
      cases h
      exact List.mem_cons_of_mem _ (ih hr)
    · split at h
      · cases h; exact List.mem_cons_self
      · cases h

theorem dedup_bare {ds : List Def} (h : ∀ d ∈ ds, ∀ d' ∈ ds, d.name = d'.name → d = d') :
    dedup (ds.map bareDef) = (dedup ds).map bareDef := by
  induction ds with
  | nil => rfl
  | cons d ds ih =>
    have i := ih fun a ha b hb => h a (by simp [ha]) b (by simp [hb])
    have sub : ∀ x ∈ dedup ds, x ∈ ds := by
      clear h ih i
      induction ds with
      | nil => intro x hx; cases hx
      | cons a ds ih =>
        intro x hx
        have e : dedup (a :: ds) = if (dedup ds).contains a then dedup ds else a :: dedup ds := rfl
        rw [e] at hx
        split at hx
        · exact List.mem_cons_of_mem _ (ih x hx)
        · rcases List.mem_cons.1 hx with rfl | hx
          · exact List.mem_cons_self
          · exact List.mem_cons_of_mem _ (ih x hx)
    have e : dedup (d :: ds) = if (dedup ds).contains d then dedup ds else d :: dedup ds := rfl
    have e' : dedup ((d :: ds).map bareDef) =
      if (dedup (ds.map bareDef)).contains (bareDef d) then dedup (ds.map bareDef) else bareDef d :: dedup (ds.map bareDef) := rfl
    have hc : ((dedup ds).map bareDef).contains (bareDef d) = (dedup ds).contains d := by
      rw [Bool.eq_iff_iff, List.contains_iff_mem, List.contains_iff_mem]
      constructor
      · intro hm
        obtain ⟨x, hx, he⟩ := List.mem_map.1 hm
        have hn : x.name = d.name := by rw [← bareDef_name, ← bareDef_name d, he]
        rw [← h x (by simp [sub x hx]) d (by simp) hn]
        exact hx
      · exact fun hm => List.mem_map.2 ⟨d, hm, rfl⟩
    rw [e, e', i, hc]
    split <;> rfl

section
variable {b : Bundle} (hnd : (b.defs.map Def.name).Nodup)
include hnd

omit hnd in
theorem collectDefs_sub {rec : BMod → Except Err (List Def)} (hr : ∀ bm ∈ b.mods, ∀ ds, rec bm = .ok ds → ∀ d ∈ ds, d ∈ b.defs)
    (l : List Module) : ∀ ds, collectDefs rec b l = .ok ds → ∀ d ∈ ds, d ∈ b.defs := by
  induction l with
  | nil => intro ds h d hd; cases h; cases hd
  | cons m l ih =>
    intro ds h d hd
    rw [collectDefs] at h
    simp only [bind_ok, Except.ok.injEq] at h
    obtain ⟨a, h1, r, h2, rfl⟩ := h
    rcases List.mem_append.1 hd with hd | hd
    · split at h1
      · cases h1; cases hd
      · rename_i bm hbm
        exact hr bm (lastBMod_mem hbm) a h1 d hd
    · exact ih r h2 d hd

omit hnd in
theorem collectDefs_bare {rec rec' : BMod → Except Err (List Def)}
    (hr : ∀ bm ∈ b.mods, rec' (bareBMod bm) = (rec bm).map (List.map bareDef)) (l : List Module) :
    collectDefs rec' (bareBundle b) (l.map bare) = (collectDefs rec b l).map (List.map bareDef) := by
  induction l with
  | nil => rfl
  | cons m l ih =>
    rw [List.map_cons, collectDefs, collectDefs, ih]
    have e : lastBMod (bareBundle b).mods (bare m).name = (lastBMod b.mods m.name).map bareBMod := lastBMod_bare b.mods m.name
    rw [e]
    cases hl : lastBMod b.mods m.name with
    | none =>
      simp only [Option.map_none, bind, Except.bind]
      cases collectDefs rec b l <;> simp [Except.map]
    | some bm =>
      simp only [Option.map_some, hr bm (lastBMod_mem hl)]
      cases rec bm with
      | error e => rfl
      | ok a =>
        simp only [Except.map, bind, Except.bind]
        cases collectDefs rec b l <;> simp

theorem defsRecurs_bare (n : String) (fuel : Nat) : ∀ bm ∈ b.mods,
    defsRecurs (bareBundle b) n fuel (bareBMod bm) = (defsRecurs b n fuel bm).map (List.map bareDef) := by
  induction fuel with
  | zero => intro bm _; rfl
  | succ fuel ih =>
    intro bm hbm
    rw [defsRecurs, defsRecurs]
    have e : collectDefs (defsRecurs (bareBundle b) n fuel) (bareBundle b) (bareBMod bm).imported =
        (collectDefs (defsRecurs b n fuel) b bm.imported).map (List.map bareDef) :=
      collectDefs_bare ih bm.imported
    rw [e]
    have hsub := collectDefs_sub (b := b) (rec := defsRecurs b n fuel)
      (fun bm hbm ds h d hd => (defsRecurs_sound fuel bm hbm ds h d hd).1) bm.imported
    cases hcd : collectDefs (defsRecurs b n fuel) b bm.imported with
    | error e => rfl
    | ok r =>
      have hall : ∀ d ∈ bm.mod.defs ++ r, d ∈ b.defs := by
        intro d hd
        rcases List.mem_append.1 hd with hd | hd
        · exact mem_defs_of_bmod hbm hd
        · exact hsub r hcd d hd
      simp only [Except.map, bind, Except.bind, Except.ok.injEq]
      have e2 : ((bareBMod bm).mod.defs ++ r.map bareDef).filter (fun d => d.name = n) =
          ((bm.mod.defs ++ r).filter (fun d => d.name = n)).map bareDef := by
        show (bm.mod.defs.map bareDef ++ r.map bareDef).filter _ = _
        rw [← List.map_append, List.filter_map]
        congr 2
        funext d
        simp only [Function.comp_apply, bareDef_name]
      rw [e2]
      refine dedup_bare fun d hd d' hd' hn => ?_
      exact mem_unique_of_nodup_map hnd (hall d (List.mem_filter.1 hd|>.1)) (hall d' (List.mem_filter.1 hd'|>.1)) hn

theorem getDefinition_bare (fuel : Nat) (n : String) {bm : BMod} (hbm : bm ∈ b.mods) :
    getDefinition (bareBundle b) fuel n (bareBMod bm) = (getDefinition b fuel n bm).map bareDef := by
  unfold getDefinition
  rw [defsRecurs_bare hnd n fuel bm hbm]
  cases defsRecurs b n fuel bm with
  | error e => rfl
  | ok ds =>
    match ds with
    | [] => rfl
    | [d] => rfl
    | d :: d' :: ds => rfl

/-- A shape without comments. -/
def bareShape : Shape → Shape
  | .item c lo hi st => .item c lo hi st
  | .inner d => .inner (bareDef d)

theorem shapeOf_bare (fuel : Nat) {bm : BMod} (hbm : bm ∈ b.mods) (t : AType) :
    shapeOf (bareBundle b) fuel (bareBMod bm) t = (shapeOf b fuel bm t).map bareShape := by
  unfold shapeOf
  simp only
  split
  · rfl
  · split
    · rfl
    · split
      · rfl
      · rw [getDefinition_bare hnd fuel t.name hbm]
        cases getDefinition b fuel t.name bm with
        | error e => rfl
        | ok d =>
          cases d with
          | enum n c its => simp [Except.map, bind, Except.bind, bareDef, bareShape, bareItem]
          | _ => rfl

/-- An entry without comment. -/
def bareEntry (e : Entry) : Entry := { e with comment := [], unit := [], little := false }

omit hnd in
theorem makeEntry_bare (p : Printer) (m : Member) (s : Specific) (c : Option CType) (lo hi : Option Num)
    (states : List Text) :
    makeEntry p (bareMember m) s c lo hi states = (makeEntry p m s c lo hi states).map bareEntry := by
  unfold makeEntry
  cases c with
  | none => rfl
  | some c =>
    simp only
    cases getBitSize c lo hi with
    | error e => rfl
    | ok bits =>
      simp only [bind, Except.bind]
      cases subrange c lo hi with
      | error e => rfl
      | ok r =>
        simp only
        have e : specificText p (bareMember m) bits s = specificText p m bits s := rfl
        rw [e]
        cases specificText p m bits s <;> rfl

/-- Entries without comments. -/
def bareEntries (r : List Entry × Store) : List Entry × Store := (r.1.map bareEntry, r.2)

theorem entriesFrom_bare (p : Printer) (fuel : Nat) {bm : BMod} (hbm : bm ∈ b.mods)
    {rec rec' : Store → Def → Comps → Except Err (List Entry × Store)}
    (hr : ∀ st d wc, rec' st (bareDef d) wc = (rec st d wc).map bareEntries) (n : String) (wc : Comps)
    (ms : List Member) : ∀ (st : Store) (i : Nat),
    entriesFrom p (bareBundle b) fuel (bareBMod bm) rec' n wc st i (ms.map bareMember) =
      (entriesFrom p b fuel bm rec n wc st i ms).map bareEntries := by
  induction ms with
  | nil => intro st i; rfl
  | cons m ms ih =>
    intro st i
    rw [List.map_cons, entriesFrom, entriesFrom]
    have e : shapeOf (bareBundle b) fuel (bareBMod bm) (bareMember m).type = (shapeOf b fuel bm m.type).map bareShape :=
      shapeOf_bare hnd fuel hbm m.type
    have ek : (bareMember m).key = m.key := rfl
    rw [e, ek]
    cases shapeOf b fuel bm m.type with
    | error e => rfl
    | ok sh =>
      cases sh with
      | item c lo hi states =>
        simp only [Except.map, bareShape, bind, Except.bind, makeEntry_bare]
        cases makeEntry p m (specificValue wc m.key) c lo hi states with
        | error e => rfl
        | ok x =>
          simp only [ih]
          cases entriesFrom p b fuel bm rec n wc _ (i + 1) ms <;> simp [Except.map, bareEntries]
      | inner d =>
        simp only [Except.map, bareShape, bind, Except.bind, hr]
        cases rec _ d _ with
        | error e => rfl
        | ok x =>
          have hx : (bareEntries x).2 = x.2 := rfl
          simp only [hx, ih]
          cases entriesFrom p b fuel bm rec n wc _ (i + 1) ms <;> simp [Except.map, bareEntries]

theorem telemetry_bare (p : Printer) (fuel : Nat) {bm : BMod} (hbm : bm ∈ b.mods) (depth : Nat) :
    ∀ st d wc, telemetry p (bareBundle b) fuel (bareBMod bm) depth st (bareDef d) wc =
      (telemetry p b fuel bm depth st d wc).map bareEntries := by
  induction depth with
  | zero => intro st d wc; rfl
  | succ depth ih =>
    intro st d wc
    cases d with
    | seq n c ms => exact entriesFrom_bare hnd p fuel hbm ih n wc ms st 0
    | _ => rfl

/-- A packet without comments. -/
def barePacket (x : PacketData) : PacketData := ⟨x.name, [], x.entries.map bareEntry⟩

theorem packetsData_bare (p : Printer) (fuel : Nat) {bm : BMod} (hbm : bm ∈ b.mods) (ns : List String) : ∀ st,
    packetsData p (bareBundle b) fuel (bareBMod bm) st ns = (packetsData p b fuel bm st ns).map (List.map barePacket) := by
  induction ns with
  | nil => intro st; rfl
  | cons n ns ih =>
    intro st
    rw [packetsData, packetsData]
    have e : lastDef (bareBMod bm).mod.defs n = (lastDef bm.mod.defs n).map bareDef := lastDef_bare bm.mod.defs n
    rw [e]
    cases lastDef bm.mod.defs n with
    | none => rfl
    | some d =>
      simp only [Option.map_some, telemetry_bare hnd p fuel hbm]
      cases telemetry p b fuel bm fuel st d .nil with
      | error e => rfl
      | ok r =>
        have hx : (bareEntries r).2 = r.2 := rfl
        simp only [Except.map, bind, Except.bind, hx, ih]
        cases packetsData p b fuel bm r.2 ns with
        | error e => rfl
        | ok xs =>
          simp only [List.map_cons, barePacket, bareDef_name]
          cases d <;> rfl

omit hnd in
theorem initialStore_bare : initialStore (bareBundle b).defs = initialStore b.defs := by
  rw [bareBundle_defs]
  funext n i
  unfold initialStore
  rw [lastDef_bare]
  cases lastDef b.defs n with
  | none => rfl
  | some d =>
    cases d with
    | seq n c ms =>
      simp only [Option.map_some, bareDef, List.getElem?_map]
      cases ms[i]? <;> rfl
    | _ => rfl

omit hnd in
theorem getModule_bare (n : String) : (bareBundle b).getModule n = (b.getModule n).map bareBMod := by
  unfold Bundle.getModule bareBundle
  rw [List.find?_map]
  rfl

theorem cosmosData_bare (fuel : Nat) (p : Printer) (module : String) (messages : List String) :
    cosmosData fuel p (bareBundle b) module messages = (cosmosData fuel p b module messages).map (List.map barePacket) := by
  unfold cosmosData
  rw [getModule_bare]
  cases hm : b.getModule module with
  | none => rfl
  | some bm =>
    simp only [Option.map_some]
    rw [initialStore_bare, packetsData_bare hnd p fuel (getModule_some hm).1]

/-- A run of generate-cosmos on modules without comments ends in the same way. -/
theorem generateCosmos_bare (fuel : Nat) (p : Printer) (module : String) (messages : List String) (target out : Text) :
    (generateCosmos fuel p (bareBundle b) module messages target out).result =
      (generateCosmos fuel p b module messages target out).result := by
  unfold generateCosmos
  simp only
  have h0 : ((bareBundle b).mods = []) ↔ b.mods = [] := List.map_eq_nil_iff
  by_cases hb : b.mods = []
  · rw [if_pos hb, if_pos (h0.2 hb)]
  · rw [if_neg hb, if_neg fun h => hb (h0.1 h), getModule_bare]
    cases hm : b.getModule module with
    | none => rfl
    | some bm =>
      simp only [Option.map_some]
      have hn : (bareBMod bm).mod.defs.map Def.name = bm.mod.defs.map Def.name := map_bareDef_name bm.mod.defs
      rw [hn, initialStore_bare, packets_data, packets_data, packetsData_bare hnd p fuel (getModule_some hm).1]
      split
      · rfl
      · cases packetsData p b fuel bm (initialStore b.defs) messages <;> rfl

end

theorem runCosmos_bare {raw : List Module} (hc : ∀ m ∈ raw, CleanComments m) (fuel : Nat) (p : Printer) (module : String)
    (messages : List String) (target out : Text) :
    (runCosmos fuel p (raw.map bare) module messages target out).result =
      (runCosmos fuel p raw module messages target out).result := by
  unfold runCosmos
  rw [buildFromTexts_map hc]
  cases hb : buildFromTexts raw with
  | error e => rfl
  | ok b => exact generateCosmos_bare (accepted_nodup hb) fuel p module messages target out

end Apg
