import Verif.Lemmas.Relabel
import Verif.Lemmas.RenameCosmos

/-!
# generate-cosmos on modules with renamed members and items
-/

namespace Apg

open Spec

variable {κ ι : String → String}

theorem relabelText_toList (f : String → String) (s : String) : relabelText f s.toList = (f s).toList := by
  unfold relabelText
  rw [String.ofList_toList]

theorem lastBMod_relabel (bms : List BMod) (n : String) :
    lastBMod (bms.map (relabelBMod κ ι)) n = (lastBMod bms n).map (relabelBMod κ ι) := by
  induction bms with
  | nil => rfl
  | cons m ms ih =>
    rw [List.map_cons, lastBMod, lastBMod, ih]
    cases lastBMod ms n with
    | some r => rfl
    | none =>
      show (if m.mod.name = n then some (relabelBMod κ ι m) else none) = _
      simp only
      split <;> rfl

theorem dedup_relabel (h : Relabelling κ ι) (ds : List Def) :
    dedup (ds.map (relabelDef κ ι)) = (dedup ds).map (relabelDef κ ι) := by
  induction ds with
  | nil => rfl
  | cons d ds ih =>
    have e : dedup (d :: ds) = if (dedup ds).contains d then dedup ds else d :: dedup ds := rfl
    have e' : dedup ((d :: ds).map (relabelDef κ ι)) =
      if (dedup (ds.map (relabelDef κ ι))).contains (relabelDef κ ι d) then dedup (ds.map (relabelDef κ ι))
      else relabelDef κ ι d :: dedup (ds.map (relabelDef κ ι)) := rfl
    have hc : ((dedup ds).map (relabelDef κ ι)).contains (relabelDef κ ι d) = (dedup ds).contains d := by
      rw [Bool.eq_iff_iff, List.contains_iff_mem, List.contains_iff_mem]
      constructor
      · intro hm
        obtain ⟨x, hx, he⟩ := List.mem_map.1 hm
        rw [← relabelDef_inj h he]
        exact hx
      · exact fun hm => List.mem_map.2 ⟨d, hm, rfl⟩
    rw [e, e', ih, hc]
    split <;> rfl

theorem collectDefs_relabel {b : Bundle} {rec rec' : BMod → Except Err (List Def)}
    (hr : ∀ bm, rec' (relabelBMod κ ι bm) = (rec bm).map (List.map (relabelDef κ ι))) (l : List Module) :
    collectDefs rec' (relabelBundle κ ι b) (l.map (relabelModule κ ι)) =
      (collectDefs rec b l).map (List.map (relabelDef κ ι)) := by
  induction l with
  | nil => rfl
  | cons m l ih =>
    rw [List.map_cons, collectDefs, collectDefs, ih]
    have e : lastBMod (relabelBundle κ ι b).mods (relabelModule κ ι m).name =
        (lastBMod b.mods m.name).map (relabelBMod κ ι) := lastBMod_relabel b.mods m.name
    rw [e]
    cases lastBMod b.mods m.name with
    | none =>
      simp only [Option.map_none, bind, Except.bind]
      cases collectDefs rec b l <;> simp [Except.map]
    | some bm =>
      simp only [Option.map_some, hr bm]
      cases rec bm with
      | error e => rfl
      | ok a =>
        simp only [Except.map, bind, Except.bind]
        cases collectDefs rec b l <;> simp

theorem defsRecurs_relabel (h : Relabelling κ ι) (b : Bundle) (n : String) (fuel : Nat) : ∀ bm,
    defsRecurs (relabelBundle κ ι b) n fuel (relabelBMod κ ι bm) =
      (defsRecurs b n fuel bm).map (List.map (relabelDef κ ι)) := by
  induction fuel with
  | zero => intro bm; rfl
  | succ fuel ih =>
    intro bm
    rw [defsRecurs, defsRecurs]
    have e : collectDefs (defsRecurs (relabelBundle κ ι b) n fuel) (relabelBundle κ ι b) (relabelBMod κ ι bm).imported =
        (collectDefs (defsRecurs b n fuel) b bm.imported).map (List.map (relabelDef κ ι)) :=
      collectDefs_relabel ih bm.imported
    rw [e]
    cases collectDefs (defsRecurs b n fuel) b bm.imported with
    | error e => rfl
    | ok r =>
      simp only [Except.map, bind, Except.bind, Except.ok.injEq]
      rw [← dedup_relabel h]
      congr 1
      show (bm.mod.defs.map (relabelDef κ ι) ++ r.map (relabelDef κ ι)).filter _ = _
      rw [← List.map_append, List.filter_map]
      congr 2
      funext d
      simp only [Function.comp_apply, relabelDef_name]

theorem getDefinition_relabel (h : Relabelling κ ι) (b : Bundle) (fuel : Nat) (n : String) (bm : BMod) :
    getDefinition (relabelBundle κ ι b) fuel n (relabelBMod κ ι bm) = (getDefinition b fuel n bm).map (relabelDef κ ι) := by
  unfold getDefinition
  rw [defsRecurs_relabel h]
  cases defsRecurs b n fuel bm with
  | error e => rfl
  | ok ds =>
    match ds with
    | [] => rfl
    | [d] => rfl
    | d :: d' :: ds => rfl

/-- A shape under new labels. -/
def relabelShape (κ ι : String → String) : Shape → Shape
  | .item c lo hi st => .item c lo hi (st.map (relabelText ι))
  | .inner d => .inner (relabelDef κ ι d)

theorem shapeOf_relabel (h : Relabelling κ ι) (b : Bundle) (fuel : Nat) (bm : BMod) (t : AType) :
    shapeOf (relabelBundle κ ι b) fuel (relabelBMod κ ι bm) t = (shapeOf b fuel bm t).map (relabelShape κ ι) := by
  unfold shapeOf
  simp only
  split
  · rfl
  · split
    · simp only [Except.map, relabelShape, List.map_cons, List.map_nil, relabelText_toList, h.booleans "False" (by simp),
        h.booleans "True" (by simp)]
    · split
      · rfl
      · rw [getDefinition_relabel h]
        cases getDefinition b fuel t.name bm with
        | error e => rfl
        | ok d =>
          cases d with
          | enum n c its =>
            simp [Except.map, bind, Except.bind, relabelDef, relabelShape, relabelEnumItem, relabelText_toList,
              Function.comp_def]
          | _ => rfl

/-- A value under new labels. -/
def relabelSpecific (κ : String → String) : Specific → Specific
  | .node c => .node (relabelComps κ c)
  | s => s

theorem append_relabel (c d : Comps) : (relabelComps κ c).append (relabelComps κ d) = relabelComps κ (c.append d) := by
  induction c with
  | nil => rfl
  | leaf k v r ih => simp only [relabelComps, Comps.append, ih]
  | node k c r _ ih => simp only [relabelComps, Comps.append, ih]

theorem values_relabel (h : Relabelling κ ι) (k : String) (c : Comps) :
    (relabelComps κ c).values (κ k) = (c.values k).map (relabelSpecific κ) := by
  induction c with
  | nil => rfl
  | leaf a v r ih =>
    simp only [relabelComps, Comps.values, h.iff, ih]
    split <;> rfl
  | node a c r _ ih =>
    simp only [relabelComps, Comps.values, h.iff, ih]
    split <;> rfl

theorem specificValue_relabel (h : Relabelling κ ι) (k : String) (c : Comps) :
    specificValue (relabelComps κ c) (κ k) = relabelSpecific κ (specificValue c k) := by
  unfold specificValue
  rw [values_relabel h]
  match c.values k with
  | [] => rfl
  | [v] => rfl
  | _ :: _ :: _ => rfl

/-- The lists under new labels. -/
def relabelStore (κ : String → String) (st : Store) : Store := fun n i => (st n i).map (relabelComps κ)

theorem innerComps_relabel (o : Option Comps) (s : Specific) :
    innerComps (o.map (relabelComps κ)) (relabelSpecific κ s) = relabelComps κ (innerComps o s) := by
  have e : (o.map (relabelComps κ)).getD .nil = relabelComps κ (o.getD .nil) := by cases o <;> rfl
  cases s with
  | node c => simp only [relabelSpecific, innerComps, e, append_relabel]
  | _ => simp only [relabelSpecific, innerComps, e]

theorem extendStore_relabel (st : Store) (n : String) (i : Nat) (s : Specific) :
    extendStore (relabelStore κ st) n i (relabelSpecific κ s) = relabelStore κ (extendStore st n i s) := by
  cases s with
  | node c =>
    simp only [relabelSpecific, extendStore]
    have e : relabelStore κ st n i = (st n i).map (relabelComps κ) := rfl
    rw [e]
    cases st n i with
    | none => rfl
    | some o =>
      simp only [Option.map_some]
      funext m j
      simp only [Store.set, relabelStore, append_relabel]
      split <;> rfl
  | _ => rfl

/-- An entry under new labels. -/
def relabelEntry (κ ι : String → String) (e : Entry) : Entry :=
  { e with name := relabelText κ e.name, states := e.states.map (relabelText ι) }

theorem makeEntry_relabel (h : Relabelling κ ι) {p : Printer} (hp : NameFree p κ) (m : Member) (s : Specific)
    (c : Option CType) (lo hi : Option Num) (states : List Text) :
    makeEntry p (relabelMember κ m) (relabelSpecific κ s) c lo hi (states.map (relabelText ι)) =
      (makeEntry p m s c lo hi states).map (relabelEntry κ ι) := by
  unfold makeEntry
  cases c with
  | none => rfl
  | some c =>
    simp only
    cases getBitSize c lo hi with
    | error e => rfl
    | ok bits =>
      simp only [bind, Except.bind]
      cases subrange c lo hi with
      | error e => rfl
      | ok r =>
        simp only
        have e : specificText p (relabelMember κ m) bits (relabelSpecific κ s) = specificText p m bits s := by
          unfold specificText
          show (match m.type with | .arr _ len => _ | _ => if κ m.key = "application-process-identifier" then _ else _) = _
          cases m.type with
          | arr e l => rfl
          | _ =>
            simp only [h.fixed (a := m.key) (r := "application-process-identifier") (by decide)]
            split
            · cases s <;> rfl
            · cases s with
              | node c => simp only [relabelSpecific, hp c]
              | _ => rfl
        rw [e]
        cases specificText p m bits s with
        | error e => rfl
        | ok t => simp only [Except.map, relabelEntry, relabelText_toList]; rfl

/-- Entries and lists under new labels. -/
def relabelEntries (κ ι : String → String) (r : List Entry × Store) : List Entry × Store :=
  (r.1.map (relabelEntry κ ι), relabelStore κ r.2)

theorem entriesFrom_relabel (h : Relabelling κ ι) {p : Printer} (hp : NameFree p κ) (b : Bundle) (fuel : Nat) (bm : BMod)
    {rec rec' : Store → Def → Comps → Except Err (List Entry × Store)}
    (hr : ∀ st d wc, rec' (relabelStore κ st) (relabelDef κ ι d) (relabelComps κ wc) =
      (rec st d wc).map (relabelEntries κ ι)) (n : String) (wc : Comps) (ms : List Member) : ∀ (st : Store) (i : Nat),
    entriesFrom p (relabelBundle κ ι b) fuel (relabelBMod κ ι bm) rec' n (relabelComps κ wc) (relabelStore κ st) i
        (ms.map (relabelMember κ)) =
      (entriesFrom p b fuel bm rec n wc st i ms).map (relabelEntries κ ι) := by
  induction ms with
  | nil => intro st i; rfl
  | cons m ms ih =>
    intro st i
    rw [List.map_cons, entriesFrom, entriesFrom]
    have e : shapeOf (relabelBundle κ ι b) fuel (relabelBMod κ ι bm) (relabelMember κ m).type =
        (shapeOf b fuel bm m.type).map (relabelShape κ ι) := shapeOf_relabel h b fuel bm m.type
    have ek : specificValue (relabelComps κ wc) (relabelMember κ m).key = relabelSpecific κ (specificValue wc m.key) :=
      specificValue_relabel h m.key wc
    have es : relabelStore κ st n i = (st n i).map (relabelComps κ) := rfl
    simp only [e, ek, es, innerComps_relabel, extendStore_relabel]
    cases shapeOf b fuel bm m.type with
    | error e => rfl
    | ok sh =>
      cases sh with
      | item c lo hi states =>
        simp only [Except.map, relabelShape, bind, Except.bind, makeEntry_relabel h hp]
        cases makeEntry p m (specificValue wc m.key) c lo hi states with
        | error e => rfl
        | ok x =>
          simp only [ih]
          cases entriesFrom p b fuel bm rec n wc _ (i + 1) ms <;> simp [Except.map, relabelEntries]
      | inner d =>
        simp only [Except.map, relabelShape, bind, Except.bind, hr]
        cases rec _ d _ with
        | error e => rfl
        | ok x =>
          have hx : (relabelEntries κ ι x).2 = relabelStore κ x.2 := rfl
          simp only [hx, ih]
          cases entriesFrom p b fuel bm rec n wc _ (i + 1) ms <;> simp [Except.map, relabelEntries]

theorem telemetry_relabel (h : Relabelling κ ι) {p : Printer} (hp : NameFree p κ) (b : Bundle) (fuel : Nat) (bm : BMod)
    (depth : Nat) : ∀ st d wc,
    telemetry p (relabelBundle κ ι b) fuel (relabelBMod κ ι bm) depth (relabelStore κ st) (relabelDef κ ι d)
        (relabelComps κ wc) =
      (telemetry p b fuel bm depth st d wc).map (relabelEntries κ ι) := by
  induction depth with
  | zero => intro st d wc; rfl
  | succ depth ih =>
    intro st d wc
    cases d with
    | seq n c ms => exact entriesFrom_relabel h hp b fuel bm ih n wc ms st 0
    | _ => rfl

/-- A packet under new labels. -/
def relabelData (κ ι : String → String) (x : PacketData) : PacketData :=
  { x with entries := x.entries.map (relabelEntry κ ι) }

theorem packetsData_relabel (h : Relabelling κ ι) {p : Printer} (hp : NameFree p κ) (b : Bundle) (fuel : Nat) (bm : BMod)
    (ns : List String) : ∀ st,
    packetsData p (relabelBundle κ ι b) fuel (relabelBMod κ ι bm) (relabelStore κ st) ns =
      (packetsData p b fuel bm st ns).map (List.map (relabelData κ ι)) := by
  induction ns with
  | nil => intro st; rfl
  | cons n ns ih =>
    intro st
    rw [packetsData, packetsData]
    have e : lastDef (relabelBMod κ ι bm).mod.defs n = (lastDef bm.mod.defs n).map (relabelDef κ ι) :=
      lastDef_relabel bm.mod.defs n
    rw [e]
    cases lastDef bm.mod.defs n with
    | none => rfl
    | some d =>
      have ht := telemetry_relabel h hp b fuel bm fuel st d .nil
      rw [relabelComps] at ht
      simp only [Option.map_some, ht]
      cases telemetry p b fuel bm fuel st d .nil with
      | error e => rfl
      | ok r =>
        have hx : (relabelEntries κ ι r).2 = relabelStore κ r.2 := rfl
        simp only [Except.map, bind, Except.bind, hx, ih]
        cases packetsData p b fuel bm r.2 ns with
        | error e => rfl
        | ok xs => simp only [List.map_cons, relabelData, relabelDef_name, relabelDef_comment]; rfl

theorem initialStore_relabel (b : Bundle) :
    initialStore (relabelBundle κ ι b).defs = relabelStore κ (initialStore b.defs) := by
  rw [relabelBundle_defs]
  funext n i
  show _ = (initialStore b.defs n i).map (relabelComps κ)
  unfold initialStore
  rw [lastDef_relabel]
  cases lastDef b.defs n with
  | none => rfl
  | some d =>
    cases d with
    | seq n c ms =>
      simp only [Option.map_some, relabelDef, List.getElem?_map]
      cases ms[i]? <;> rfl
    | _ => rfl

theorem getModule_relabel (b : Bundle) (n : String) :
    (relabelBundle κ ι b).getModule n = (b.getModule n).map (relabelBMod κ ι) := by
  unfold Bundle.getModule relabelBundle
  rw [List.find?_map]
  rfl

theorem cosmosData_relabel (h : Relabelling κ ι) {p : Printer} (hp : NameFree p κ) (b : Bundle) (fuel : Nat)
    (module : String) (messages : List String) :
    cosmosData fuel p (relabelBundle κ ι b) module messages =
      (cosmosData fuel p b module messages).map (List.map (relabelData κ ι)) := by
  unfold cosmosData
  rw [getModule_relabel]
  cases b.getModule module with
  | none => rfl
  | some bm =>
    simp only [Option.map_some]
    rw [initialStore_relabel, packetsData_relabel h hp]

theorem generateCosmos_relabel (h : Relabelling κ ι) {p : Printer} (hp : NameFree p κ) (b : Bundle) (fuel : Nat)
    (module : String) (messages : List String) (target out : Text) :
    (generateCosmos fuel p (relabelBundle κ ι b) module messages target out).result =
      (generateCosmos fuel p b module messages target out).result := by
  unfold generateCosmos
  simp only
  have h0 : ((relabelBundle κ ι b).mods = []) ↔ b.mods = [] := List.map_eq_nil_iff
  by_cases hb : b.mods = []
  · rw [if_pos hb, if_pos (h0.2 hb)]
  · rw [if_neg hb, if_neg fun h => hb (h0.1 h), getModule_relabel]
    cases b.getModule module with
    | none => rfl
    | some bm =>
      simp only [Option.map_some]
      have hn : (relabelBMod κ ι bm).mod.defs.map Def.name = bm.mod.defs.map Def.name := map_relabel_name bm.mod.defs
      rw [hn, initialStore_relabel, packets_data, packets_data, packetsData_relabel h hp]
      split
      · rfl
      · cases packetsData p b fuel bm (initialStore b.defs) messages <;> rfl

theorem runCosmos_relabel (h : Relabelling κ ι) {p : Printer} (hp : NameFree p κ) (fuel : Nat) (raw : List Module)
    (module : String) (messages : List String) (target out : Text) :
    (runCosmos fuel p (raw.map (relabelModule κ ι)) module messages target out).result =
      (runCosmos fuel p raw module messages target out).result := by
  unfold runCosmos
  rw [buildFromTexts_relabel h]
  cases buildFromTexts raw with
  | error e => rfl
  | ok b => exact generateCosmos_relabel h hp b fuel module messages target out

end Apg
