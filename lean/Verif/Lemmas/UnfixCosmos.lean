import Verif.Lemmas.UnfixOrder
import Verif.Lemmas.BareCosmos

/-!
# generate-cosmos on modules without clauses
-/

namespace Apg
open Spec

theorem lastBMod_unfixed (bms : List BMod) (n : String) :
    lastBMod (bms.map unfixedBMod) n = (lastBMod bms n).map unfixedBMod := by
  induction bms with
  | nil => rfl
  | cons m ms ih =>
    rw [List.map_cons, lastBMod, lastBMod, ih]
    cases lastBMod ms n with
    | some r => rfl
    | none =>
      show (if m.mod.name = n then some (unfixedBMod m) else none) = _
      simp only
      split <;> rfl

theorem dedup_unfixed {ds : List Def} (h : ∀ d ∈ ds, ∀ d' ∈ ds, d.name = d'.name → d = d') :
    dedup (ds.map unfixedDef) = (dedup ds).map unfixedDef := by
  induction ds with
  | nil => rfl
  | cons d ds ih =>
    have i := ih fun a ha b hb => h a (by simp [ha]) b (by simp [hb])
    have sub : ∀ x ∈ dedup ds, x ∈ ds := by
      clear h ih i
      induction ds with
      | nil => intro x hx; cases hx
      | cons a ds ih =>
        intro x hx
        have e : dedup (a :: ds) = if (dedup ds).contains a then dedup ds else a :: dedup ds := rfl
        rw [e] at hx
        split at hx
        · exact List.mem_cons_of_mem _ (ih x hx)
        · rcases List.mem_cons.1 hx with rfl | hx
          · exact List.mem_cons_self
          · exact List.mem_cons_of_mem _ (ih x hx)
    have e : dedup (d :: ds) = if (dedup ds).contains d then dedup ds else d :: dedup ds := rfl
    have e' : dedup ((d :: ds).map unfixedDef) =
      if (dedup (ds.map unfixedDef)).contains (unfixedDef d) then dedup (ds.map unfixedDef) else unfixedDef d :: dedup (ds.map unfixedDef) := rfl
    have hc : ((dedup ds).map unfixedDef).contains (unfixedDef d) = (dedup ds).contains d := by
      rw [Bool.eq_iff_iff, List.contains_iff_mem, List.contains_iff_mem]
      constructor
      · intro hm
        obtain ⟨x, hx, he⟩ := List.mem_map.1 hm
        have hn : x.name = d.name := by rw [← unfixedDef_name, ← unfixedDef_name d, he]
        rw [← h x (by simp [sub x hx]) d (by simp) hn]
        exact hx
      · exact fun hm => List.mem_map.2 ⟨d, hm, rfl⟩
    rw [e, e', i, hc]
    split <;> rfl

section
variable {b : Bundle} (hnd : (b.defs.map Def.name).Nodup)
include hnd

omit hnd in
theorem collectDefs_unfixed {rec rec' : BMod → Except Err (List Def)}
    (hr : ∀ bm ∈ b.mods, rec' (unfixedBMod bm) = (rec bm).map (List.map unfixedDef)) (l : List Module) :
    collectDefs rec' (unfixedBundle b) (l.map unfixed) = (collectDefs rec b l).map (List.map unfixedDef) := by
  induction l with
  | nil => rfl
  | cons m l ih =>
    rw [List.map_cons, collectDefs, collectDefs, ih]
    have e : lastBMod (unfixedBundle b).mods (unfixed m).name = (lastBMod b.mods m.name).map unfixedBMod := lastBMod_unfixed b.mods m.name
    rw [e]
    cases hl : lastBMod b.mods m.name with
    | none =>
      simp only [Option.map_none, bind, Except.bind]
      cases collectDefs rec b l <;> simp [Except.map]
    | some bm =>
      simp only [Option.map_some, hr bm (lastBMod_mem hl)]
      cases rec bm with
      | error e => rfl
      | ok a =>
        simp only [Except.map, bind, Except.bind]
        cases collectDefs rec b l <;> simp

theorem defsRecurs_unfixed (n : String) (fuel : Nat) : ∀ bm ∈ b.mods,
    defsRecurs (unfixedBundle b) n fuel (unfixedBMod bm) = (defsRecurs b n fuel bm).map (List.map unfixedDef) := by
  induction fuel with
  | zero => intro bm _; rfl
  | succ fuel ih =>
    intro bm hbm
    rw [defsRecurs, defsRecurs]
    have e : collectDefs (defsRecurs (unfixedBundle b) n fuel) (unfixedBundle b) (unfixedBMod bm).imported =
        (collectDefs (defsRecurs b n fuel) b bm.imported).map (List.map unfixedDef) :=
      collectDefs_unfixed ih bm.imported
    rw [e]
    have hsub := collectDefs_sub (b := b) (rec := defsRecurs b n fuel)
      (fun bm hbm ds h d hd => (defsRecurs_sound fuel bm hbm ds h d hd).1) bm.imported
    cases hcd : collectDefs (defsRecurs b n fuel) b bm.imported with
    | error e => rfl
    | ok r =>
      have hall : ∀ d ∈ bm.mod.defs ++ r, d ∈ b.defs := by
        intro d hd
        rcases List.mem_append.1 hd with hd | hd
        · exact mem_defs_of_bmod hbm hd
        · exact hsub r hcd d hd
      simp only [Except.map, bind, Except.bind, Except.ok.injEq]
      have e2 : ((unfixedBMod bm).mod.defs ++ r.map unfixedDef).filter (fun d => d.name = n) =
          ((bm.mod.defs ++ r).filter (fun d => d.name = n)).map unfixedDef := by
        show (bm.mod.defs.map unfixedDef ++ r.map unfixedDef).filter _ = _
        rw [← List.map_append, List.filter_map]
        congr 2
        funext d
        simp only [Function.comp_apply, unfixedDef_name]
      rw [e2]
      refine dedup_unfixed fun d hd d' hd' hn => ?_
      exact mem_unique_of_nodup_map hnd (hall d (List.mem_filter.1 hd|>.1)) (hall d' (List.mem_filter.1 hd'|>.1)) hn

theorem getDefinition_unfixed (fuel : Nat) (n : String) {bm : BMod} (hbm : bm ∈ b.mods) :
    getDefinition (unfixedBundle b) fuel n (unfixedBMod bm) = (getDefinition b fuel n bm).map unfixedDef := by
  unfold getDefinition
  rw [defsRecurs_unfixed hnd n fuel bm hbm]
  cases defsRecurs b n fuel bm with
  | error e => rfl
  | ok ds =>
    match ds with
    | [] => rfl
    | [d] => rfl
    | d :: d' :: ds => rfl

/-- A shape without clauses. -/
def unfixedShape : Shape → Shape
  | .item c lo hi st => .item c lo hi st
  | .inner d => .inner (unfixedDef d)

theorem shapeOf_unfixed (fuel : Nat) {bm : BMod} (hbm : bm ∈ b.mods) (t : AType) :
    shapeOf (unfixedBundle b) fuel (unfixedBMod bm) t = (shapeOf b fuel bm t).map unfixedShape := by
  unfold shapeOf
  simp only
  split
  · rfl
  · split
    · rfl
    · split
      · rfl
      · rw [getDefinition_unfixed hnd fuel t.name hbm]
        cases getDefinition b fuel t.name bm with
        | error e => rfl
        | ok d =>
          cases d with
          | _ => rfl

/-- An entry without value; an array has its size as value. -/
def blankEntry (e : Entry) : Entry := if e.isArray then e else { e with specific := [] }

/-- The entry of a member without its value. -/
def layoutEntry (m : Member) (c : Option CType) (lo hi : Option Num) (states : List Text) : Except Err Entry :=
  match c with
  | none => .error .notImplemented
  | some c =>
    getBitSize c lo hi >>= fun bits =>
    subrange c lo hi >>= fun range =>
    .ok { name := m.key.toList, bits := bits, ctype := c
          specific := match m.type with | .arr _ len => intText (len * bits) | _ => []
          comment := match m.comment with | none => [] | some c => c.text.toList
          unit := match m.comment with | none => [] | some c => c.unit.toList
          range := range, states := states
          isArray := match m.type with | .arr .. => true | _ => false
          little := match m.comment with | none => false | some c => c.little }

/-- The entries of members without values. -/
def layoutFrom (b : Bundle) (fuel : Nat) (bm : BMod) (rec : Def → Except Err (List Entry)) :
    List Member → Except Err (List Entry)
  | [] => .ok []
  | m :: ms =>
    shapeOf b fuel bm m.type >>= fun shape =>
    (match shape with
      | .item c lo hi states => layoutEntry m c lo hi states >>= fun e => .ok [e]
      | .inner d => rec d) >>= fun r =>
    layoutFrom b fuel bm rec ms >>= fun r' => .ok (r ++ r')

/-- The entries of a definition without values. -/
def layout (b : Bundle) (fuel : Nat) (bm : BMod) : Nat → Def → Except Err (List Entry)
  | 0, _ => .error .recursion
  | depth + 1, .seq _ _ ms => layoutFrom b fuel bm (layout b fuel bm depth) ms
  | _ + 1, _ => .error .exception

omit hnd in
theorem layoutEntry_unfixed {p : Printer} {m : Member} {s : Specific} {c : Option CType} {lo hi : Option Num}
    {states : List Text} {e : Entry} (h : makeEntry p m s c lo hi states = .ok e) :
    layoutEntry (unfixedMember m) c lo hi states = .ok (blankEntry e) := by
  unfold makeEntry at h
  unfold layoutEntry
  cases c with
  | none => cases h
  | some c =>
    simp only [bind_ok] at h
    obtain ⟨bits, h1, range, h2, spec, h3, h4⟩ := h
    cases h4
    simp only [h1, h2, bind, Except.bind, blankEntry, unfixedMember]
    unfold specificText at h3
    cases hm : m.type with
    | arr e len =>
      rw [hm] at h3
      cases h3
      rfl
    | plain => rfl
    | str => rfl

theorem layoutFrom_unfixed {p : Printer} {fuel : Nat} {bm : BMod} (hbm : bm ∈ b.mods)
    {rec : Store → Def → Comps → Except Err (List Entry × Store)} {rec' : Def → Except Err (List Entry)}
    (hr : ∀ st d wc r, rec st d wc = .ok r → rec' (unfixedDef d) = .ok (r.1.map blankEntry)) (n : String) (wc : Comps)
    (ms : List Member) : ∀ (st : Store) (i : Nat) (r : List Entry × Store),
    entriesFrom p b fuel bm rec n wc st i ms = .ok r →
    layoutFrom (unfixedBundle b) fuel (unfixedBMod bm) rec' (ms.map unfixedMember) = .ok (r.1.map blankEntry) := by
  induction ms with
  | nil => intro st i r h; cases h; rfl
  | cons m ms ih =>
    intro st i r h
    rw [entriesFrom] at h
    simp only [bind_ok] at h
    obtain ⟨sh, h1, r1, h2, r2, h3, h4⟩ := h
    cases h4
    have e : shapeOf (unfixedBundle b) fuel (unfixedBMod bm) (unfixedMember m).type = .ok (unfixedShape sh) := by
      have := shapeOf_unfixed hnd fuel hbm m.type
      rw [h1] at this
      exact this
    rw [List.map_cons, layoutFrom, e]
    cases sh with
    | item c lo hi states =>
      simp only [bind_ok] at h2
      obtain ⟨x, h5, h6⟩ := h2
      cases h6
      simp only [bind, Except.bind, unfixedShape, layoutEntry_unfixed h5, ih _ _ _ h3]
      simp
    | inner d =>
      simp only [bind, Except.bind, unfixedShape, hr _ _ _ _ h2, ih _ _ _ h3]
      simp

theorem layout_unfixed {p : Printer} {fuel : Nat} {bm : BMod} (hbm : bm ∈ b.mods) (depth : Nat) : ∀ st d wc r,
    telemetry p b fuel bm depth st d wc = .ok r →
    layout (unfixedBundle b) fuel (unfixedBMod bm) depth (unfixedDef d) = .ok (r.1.map blankEntry) := by
  induction depth with
  | zero => intro st d wc r h; cases h
  | succ depth ih =>
    intro st d wc r h
    cases d with
    | seq n c ms => exact layoutFrom_unfixed hnd hbm ih n wc ms st 0 r h
    | _ => cases h

/-- A packet without values. -/
def blankPacket (x : PacketData) : PacketData := { x with entries := x.entries.map blankEntry }

/-- The packets of messages without values. -/
def layouts (b : Bundle) (fuel : Nat) (bm : BMod) : List String → Except Err (List PacketData)
  | [] => .ok []
  | n :: ns =>
    match lastDef bm.mod.defs n with
    | none => .error .keyError
    | some d =>
      layout b fuel bm fuel d >>= fun es =>
      layouts b fuel bm ns >>= fun rest =>
      .ok (⟨d.name.toList, match d.comment with | none => [] | some c => c.text.toList, es⟩ :: rest)

theorem layouts_unfixed {p : Printer} {fuel : Nat} {bm : BMod} (hbm : bm ∈ b.mods) (ns : List String) : ∀ st xs,
    packetsData p b fuel bm st ns = .ok xs →
    layouts (unfixedBundle b) fuel (unfixedBMod bm) ns = .ok (xs.map blankPacket) := by
  induction ns with
  | nil => intro st xs h; cases h; rfl
  | cons n ns ih =>
    intro st xs h
    rw [packetsData] at h
    rw [layouts]
    have e : lastDef (unfixedBMod bm).mod.defs n = (lastDef bm.mod.defs n).map unfixedDef := lastDef_unfixed bm.mod.defs n
    rw [e]
    cases hd : lastDef bm.mod.defs n with
    | none => rw [hd] at h; cases h
    | some d =>
      rw [hd] at h
      simp only [bind_ok] at h
      obtain ⟨r, h1, rest, h2, h3⟩ := h
      cases h3
      simp only [Option.map_some, layout_unfixed hnd hbm _ _ _ _ _ h1, ih _ _ h2, bind, Except.bind, unfixedDef_name]
      cases d <;> rfl

/-- The packets of a bundle without values. -/
def layoutData (b : Bundle) (fuel : Nat) (module : String) (messages : List String) : Except Err (List PacketData) :=
  match b.getModule module with
  | none => .ok []
  | some bm => layouts b fuel bm messages

omit hnd in
theorem getModule_unfixed (n : String) : (unfixedBundle b).getModule n = (b.getModule n).map unfixedBMod := by
  unfold Bundle.getModule unfixedBundle
  rw [List.find?_map]
  rfl

theorem cosmosData_unfixed {fuel : Nat} {p : Printer} {module : String} {messages : List String} {xs : List PacketData}
    (h : cosmosData fuel p b module messages = .ok xs) :
    layoutData (unfixedBundle b) fuel module messages = .ok (xs.map blankPacket) := by
  unfold cosmosData at h
  unfold layoutData
  rw [getModule_unfixed]
  cases hm : b.getModule module with
  | none => rw [hm] at h; cases h; rfl
  | some bm =>
    rw [hm] at h
    exact layouts_unfixed hnd (getModule_some hm).1 _ _ _ h

end

end Apg
