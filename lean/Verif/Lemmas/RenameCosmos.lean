import Verif.Lemmas.Rename
import Verif.Lemmas.CosmosRun

/-!
# generate-cosmos on renamed modules
-/

namespace Apg
open Spec

variable {ρ ν : String → String} (h : Renaming ρ ν)
include h

theorem lastBMod_rename (bms : List BMod) (n : String) :
    lastBMod (bms.map (renameBMod ρ ν)) (ν n) = (lastBMod bms n).map (renameBMod ρ ν) := by
  induction bms with
  | nil => rfl
  | cons m ms ih =>
    rw [List.map_cons, lastBMod, lastBMod, ih]
    cases lastBMod ms n with
    | some r => rfl
    | none =>
      show (if ν m.mod.name = ν n then some (renameBMod ρ ν m) else none) = _
      simp only [h.miff]
      split <;> rfl

theorem dedup_rename (ds : List Def) : dedup (ds.map (renameDef ρ)) = (dedup ds).map (renameDef ρ) := by
  induction ds with
  | nil => rfl
  | cons d ds ih =>
    have e : dedup (d :: ds) = if (dedup ds).contains d then dedup ds else d :: dedup ds := rfl
    have e' : dedup ((d :: ds).map (renameDef ρ)) =
      if (dedup (ds.map (renameDef ρ))).contains (renameDef ρ d) then dedup (ds.map (renameDef ρ))
      else renameDef ρ d :: dedup (ds.map (renameDef ρ)) := rfl
    have hc : ((dedup ds).map (renameDef ρ)).contains (renameDef ρ d) = (dedup ds).contains d := by
      rw [Bool.eq_iff_iff, List.contains_iff_mem, List.contains_iff_mem]
      constructor
      · intro hm
        obtain ⟨x, hx, he⟩ := List.mem_map.1 hm
        rw [← renameDef_inj h he]
        exact hx
      · exact fun hm => List.mem_map.2 ⟨d, hm, rfl⟩
    rw [e, e', ih, hc]
    split <;> rfl

theorem collectDefs_rename {b : Bundle} {rec rec' : BMod → Except Err (List Def)}
    (hr : ∀ bm, rec' (renameBMod ρ ν bm) = (rec bm).map (List.map (renameDef ρ))) (l : List Module) :
    collectDefs rec' (renameBundle ρ ν b) (l.map (renameModule ρ ν)) =
      (collectDefs rec b l).map (List.map (renameDef ρ)) := by
  induction l with
  | nil => rfl
  | cons m l ih =>
    rw [List.map_cons, collectDefs, collectDefs, ih]
    have e : lastBMod (renameBundle ρ ν b).mods (renameModule ρ ν m).name =
        (lastBMod b.mods m.name).map (renameBMod ρ ν) := lastBMod_rename h b.mods m.name
    rw [e]
    cases lastBMod b.mods m.name with
    | none =>
      simp only [Option.map_none, bind, Except.bind]
      cases collectDefs rec b l <;> simp [Except.map]
    | some bm =>
      simp only [Option.map_some, hr bm]
      cases rec bm with
      | error e => rfl
      | ok a =>
        simp only [Except.map, bind, Except.bind]
        cases collectDefs rec b l <;> simp

theorem defsRecurs_rename (b : Bundle) (n : String) (fuel : Nat) : ∀ bm,
    defsRecurs (renameBundle ρ ν b) (ρ n) fuel (renameBMod ρ ν bm) =
      (defsRecurs b n fuel bm).map (List.map (renameDef ρ)) := by
  induction fuel with
  | zero => intro bm; rfl
  | succ fuel ih =>
    intro bm
    rw [defsRecurs, defsRecurs]
    have e : collectDefs (defsRecurs (renameBundle ρ ν b) (ρ n) fuel) (renameBundle ρ ν b) (renameBMod ρ ν bm).imported =
        (collectDefs (defsRecurs b n fuel) b bm.imported).map (List.map (renameDef ρ)) :=
      collectDefs_rename h ih bm.imported
    rw [e]
    cases collectDefs (defsRecurs b n fuel) b bm.imported with
    | error e => rfl
    | ok r =>
      simp only [Except.map, bind, Except.bind, Except.ok.injEq]
      rw [← dedup_rename h]
      congr 1
      show (bm.mod.defs.map (renameDef ρ) ++ r.map (renameDef ρ)).filter _ = _
      rw [← List.map_append, List.filter_map]
      congr 2
      funext d
      simp only [Function.comp_apply, renameDef_name, h.iff]

theorem getDefinition_rename (b : Bundle) (fuel : Nat) (n : String) (bm : BMod) :
    getDefinition (renameBundle ρ ν b) fuel (ρ n) (renameBMod ρ ν bm) = (getDefinition b fuel n bm).map (renameDef ρ) := by
  unfold getDefinition
  rw [defsRecurs_rename h]
  cases defsRecurs b n fuel bm with
  | error e => rfl
  | ok ds =>
    match ds with
    | [] => rfl
    | [d] => rfl
    | d :: d' :: ds => rfl

omit h in
/-- A renamed shape. -/
def renameShape (ρ : String → String) : Shape → Shape
  | .item c lo hi st => .item c lo hi st
  | .inner d => .inner (renameDef ρ d)

theorem shapeOf_rename (b : Bundle) (fuel : Nat) (bm : BMod) (t : AType) :
    shapeOf (renameBundle ρ ν b) fuel (renameBMod ρ ν bm) (renameType ρ t) =
      (shapeOf b fuel bm t).map (renameShape ρ) := by
  unfold shapeOf
  have hi : ρ t.name = "INTEGER" ↔ t.name = "INTEGER" := h.fixed (by decide)
  have hr : ρ t.name = "REAL" ↔ t.name = "REAL" := h.fixed (by decide)
  have hb : ρ t.name = "BOOLEAN" ↔ t.name = "BOOLEAN" := h.fixed (by decide)
  simp only [renameType_name, hi, hr, hb, cType_rename h, renameType_lo, renameType_hi]
  split
  · rfl
  · split
    · rfl
    · cases t with
      | str n len => rfl
      | plain n x y =>
        simp only [renameType, getDefinition_rename h]
        cases getDefinition b fuel (AType.plain n x y).name bm with
        | error e => rfl
        | ok d => cases d <;> simp [Except.map, bind, Except.bind, renameDef, renameShape, cType_rename h, renameType_lo, renameType_hi]
      | arr e len =>
        simp only [renameType, getDefinition_rename h]
        cases getDefinition b fuel (AType.arr e len).name bm with
        | error e => rfl
        | ok d => cases d <;> simp [Except.map, bind, Except.bind, renameDef, renameShape, cType_rename h, renameType_lo, renameType_hi]

omit h in
theorem makeEntry_rename (p : Printer) (m : Member) (s : Specific) (c : Option CType) (lo hi : Option Num)
    (states : List Text) :
    makeEntry p (renameMember ρ m) s c lo hi states = makeEntry p m s c lo hi states := by
  have e : ∀ bits, specificText p (renameMember ρ m) bits s = specificText p m bits s := by
    intro bits
    unfold specificText renameMember
    cases m.type <;> rfl
  unfold makeEntry
  cases c with
  | none => rfl
  | some c =>
    simp only [e]
    obtain ⟨k, t, c', w⟩ := m
    cases t <;> rfl

omit h in
/-- The same lists under new names. -/
def RenStore (ρ : String → String) (st st' : Store) : Prop := ∀ n i, st' (ρ n) i = st n i

omit h in
/-- The same entries, and the same lists under new names. -/
def RenResult (ρ : String → String) (r r' : Except Err (List Entry × Store)) : Prop :=
  match r, r' with
  | .ok a, .ok a' => a'.1 = a.1 ∧ RenStore ρ a.2 a'.2
  | .error e, .error e' => e' = e
  | _, _ => False

theorem extendStore_rename {st st' : Store} (hs : RenStore ρ st st') (n : String) (i : Nat) (s : Specific) :
    RenStore ρ (extendStore st n i s) (extendStore st' (ρ n) i s) := by
  unfold extendStore
  cases s with
  | empty => exact hs
  | leaf v => exact hs
  | node c =>
    simp only [hs n i]
    cases st n i with
    | none => exact hs
    | some o =>
      intro m j
      simp only [Store.set, h.iff, hs m j]

theorem entriesFrom_rename (p : Printer) (b : Bundle) (fuel : Nat) (bm : BMod)
    {rec rec' : Store → Def → Comps → Except Err (List Entry × Store)}
    (hr : ∀ st st' d wc, RenStore ρ st st' → RenResult ρ (rec st d wc) (rec' st' (renameDef ρ d) wc)) (n : String) (wc : Comps)
    (ms : List Member) : ∀ (st st' : Store) (i : Nat), RenStore ρ st st' →
    RenResult ρ (entriesFrom p b fuel bm rec n wc st i ms)
      (entriesFrom p (renameBundle ρ ν b) fuel (renameBMod ρ ν bm) rec' (ρ n) wc st' i (ms.map (renameMember ρ))) := by
  induction ms with
  | nil => intro st st' i hs; exact ⟨rfl, hs⟩
  | cons m ms ih =>
    intro st st' i hs
    rw [List.map_cons, entriesFrom, entriesFrom]
    have e : shapeOf (renameBundle ρ ν b) fuel (renameBMod ρ ν bm) (renameMember ρ m).type =
        (shapeOf b fuel bm m.type).map (renameShape ρ) := shapeOf_rename h b fuel bm m.type
    have ek : (renameMember ρ m).key = m.key := rfl
    rw [e, ek, hs n i]
    have hx := extendStore_rename h hs n i (specificValue wc m.key)
    cases shapeOf b fuel bm m.type with
    | error e => exact rfl
    | ok sh =>
      cases sh with
      | item c lo hi states =>
        simp only [Except.map, renameShape, bind, Except.bind, makeEntry_rename]
        cases makeEntry p m (specificValue wc m.key) c lo hi states with
        | error e => exact rfl
        | ok x =>
          simp only
          have := ih _ _ (i + 1) hx
          revert this
          cases entriesFrom p b fuel bm rec n wc (extendStore st n i (specificValue wc m.key)) (i + 1) ms with
          | error e =>
            cases entriesFrom p (renameBundle ρ ν b) fuel (renameBMod ρ ν bm) rec' (ρ n) wc
              (extendStore st' (ρ n) i (specificValue wc m.key)) (i + 1) (ms.map (renameMember ρ)) with
            | error e' => exact id
            | ok r' => exact False.elim
          | ok r =>
            cases entriesFrom p (renameBundle ρ ν b) fuel (renameBMod ρ ν bm) rec' (ρ n) wc
              (extendStore st' (ρ n) i (specificValue wc m.key)) (i + 1) (ms.map (renameMember ρ)) with
            | error e' => exact False.elim
            | ok r' => exact fun hh => ⟨by rw [hh.1], hh.2⟩
      | inner d =>
        simp only [Except.map, renameShape, bind, Except.bind]
        have h1 := hr _ _ d (innerComps (st n i) (specificValue wc m.key)) hx
        revert h1
        cases rec (extendStore st n i (specificValue wc m.key)) d (innerComps (st n i) (specificValue wc m.key)) with
        | error e =>
          cases rec' (extendStore st' (ρ n) i (specificValue wc m.key)) (renameDef ρ d)
            (innerComps (st n i) (specificValue wc m.key)) with
          | error e' => exact id
          | ok r' => exact False.elim
        | ok x =>
          cases rec' (extendStore st' (ρ n) i (specificValue wc m.key)) (renameDef ρ d)
            (innerComps (st n i) (specificValue wc m.key)) with
          | error e' => exact False.elim
          | ok x' =>
            intro h1
            simp only
            have := ih _ _ (i + 1) h1.2
            revert this
            cases entriesFrom p b fuel bm rec n wc x.2 (i + 1) ms with
            | error e =>
              cases entriesFrom p (renameBundle ρ ν b) fuel (renameBMod ρ ν bm) rec' (ρ n) wc x'.2 (i + 1)
                (ms.map (renameMember ρ)) with
              | error e' => exact id
              | ok r' => exact False.elim
            | ok r =>
              cases entriesFrom p (renameBundle ρ ν b) fuel (renameBMod ρ ν bm) rec' (ρ n) wc x'.2 (i + 1)
                (ms.map (renameMember ρ)) with
              | error e' => exact False.elim
              | ok r' => exact fun hh => ⟨by rw [hh.1, h1.1], hh.2⟩

theorem telemetry_rename (p : Printer) (b : Bundle) (fuel : Nat) (bm : BMod) (depth : Nat) :
    ∀ st st' d wc, RenStore ρ st st' → RenResult ρ (telemetry p b fuel bm depth st d wc)
      (telemetry p (renameBundle ρ ν b) fuel (renameBMod ρ ν bm) depth st' (renameDef ρ d) wc) := by
  induction depth with
  | zero => intro st st' d wc _; exact rfl
  | succ depth ih =>
    intro st st' d wc hs
    cases d with
    | seq n c ms => exact entriesFrom_rename h p b fuel bm ih n wc ms st st' 0 hs
    | choice n c ms => exact rfl
    | enum n c its => exact rfl
    | simple n c t => exact rfl

omit h in
/-- The text of a packet after its name. -/
def packetRest (p : Printer) (comment : Text) (es : List Entry) : Text :=
  " BIG_ENDIAN \"".toList ++ comment ++ "\"\n".toList ++ es.flatMap (entryText p)

omit h in
/-- Packets with the given names. -/
def packetsNamed (target : Text) (ns : List String) (rests : List Text) : List Text :=
  (ns.zip rests).map fun x => "TELEMETRY ".toList ++ target ++ ' ' :: x.1.toList ++ x.2

omit h in
theorem packetText_named (p : Printer) (target comment name : Text) (es : List Entry) :
    packetText p target comment name es = "TELEMETRY ".toList ++ target ++ ' ' :: name ++ packetRest p comment es := by
  unfold packetText packetRest
  generalize "TELEMETRY ".toList = a
  generalize " BIG_ENDIAN \"".toList = c
  generalize "\"\n".toList = d
  simp only [List.append_assoc, List.cons_append]

omit h in
/-- The same packets under new names. -/
def RenPackets (target : Text) (ns ns' : List String) (r r' : Except Err (List Text)) : Prop :=
  match r, r' with
  | .ok a, .ok a' => ∃ rests : List Text, rests.length = ns.length ∧ a = packetsNamed target ns rests ∧
      a' = packetsNamed target ns' rests
  | .error e, .error e' => e' = e
  | _, _ => False

theorem packets_rename (p : Printer) (b : Bundle) (fuel : Nat) (bm : BMod) (target : Text) (ns : List String) :
    ∀ st st', RenStore ρ st st' → RenPackets target ns (ns.map ρ) (packets p b fuel bm target st ns)
      (packets p (renameBundle ρ ν b) fuel (renameBMod ρ ν bm) target st' (ns.map ρ)) := by
  induction ns with
  | nil => intro st st' _; exact ⟨[], rfl, rfl, rfl⟩
  | cons n ns ih =>
    intro st st' hs
    rw [List.map_cons, packets, packets]
    have e : lastDef (renameBMod ρ ν bm).mod.defs (ρ n) = (lastDef bm.mod.defs n).map (renameDef ρ) :=
      lastDef_rename h bm.mod.defs n
    rw [e]
    cases hl : lastDef bm.mod.defs n with
    | none => exact rfl
    | some d =>
      simp only [Option.map_some, bind, Except.bind]
      have hn : d.name = n := (lastDef_some hl).2
      have h1 := telemetry_rename h p b fuel bm fuel st st' d .nil hs
      revert h1
      cases telemetry p b fuel bm fuel st d .nil with
      | error e =>
        cases telemetry p (renameBundle ρ ν b) fuel (renameBMod ρ ν bm) fuel st' (renameDef ρ d) .nil with
        | error e' => exact id
        | ok r' => exact False.elim
      | ok x =>
        cases telemetry p (renameBundle ρ ν b) fuel (renameBMod ρ ν bm) fuel st' (renameDef ρ d) .nil with
        | error e' => exact False.elim
        | ok x' =>
          intro h1
          simp only
          have := ih x.2 x'.2 h1.2
          revert this
          cases packets p b fuel bm target x.2 ns with
          | error e =>
            cases packets p (renameBundle ρ ν b) fuel (renameBMod ρ ν bm) target x'.2 (ns.map ρ) with
            | error e' => exact id
            | ok r' => exact False.elim
          | ok r =>
            cases packets p (renameBundle ρ ν b) fuel (renameBMod ρ ν bm) target x'.2 (ns.map ρ) with
            | error e' => exact False.elim
            | ok r' =>
              rintro ⟨rests, k1, k2, k3⟩
              refine ⟨packetRest p (match d.comment with | none => [] | some c => c.text.toList) x.1 :: rests,
                by simp [k1], ?_, ?_⟩
              · rw [packetText_named, k2, hn]
                rfl
              · rw [packetText_named, k3, h1.1, renameDef_comment, renameDef_name, hn]
                rfl

theorem initialStore_rename (b : Bundle) : RenStore ρ (initialStore b.defs) (initialStore (renameBundle ρ ν b).defs) := by
  rw [renameBundle_defs]
  intro n i
  unfold initialStore
  rw [lastDef_rename h]
  cases lastDef b.defs n with
  | none => rfl
  | some d =>
    cases d with
    | seq n c ms =>
      simp only [Option.map_some, renameDef, List.getElem?_map]
      cases ms[i]? <;> rfl
    | _ => rfl

theorem getModule_rename (b : Bundle) (n : String) :
    (renameBundle ρ ν b).getModule (ν n) = (b.getModule n).map (renameBMod ρ ν) := by
  unfold Bundle.getModule renameBundle
  simp only [List.find?_map]
  congr 2
  funext m
  exact decide_eq_decide.2 h.miff

/-- A run of generate-cosmos on renamed modules. -/
theorem runCosmos_rename (fuel : Nat) (p : Printer) (raw : List Module) (module : String) (messages : List String)
    (target out : Text) :
    ((∃ e, runCosmos fuel p raw module messages target out = ⟨[], .error e⟩ ∧
        runCosmos fuel p (raw.map (renameModule ρ ν)) (ν module) (messages.map ρ) target out = ⟨[], .error e⟩) ∨
      ∃ rests : List Text, rests.length = messages.length ∧
        (let path := joinPath out (target ++ ".txt".toList)
        runCosmos fuel p raw module messages target out = ⟨[.mkdir (dirName path), .append path
          (textContent (cosmosText (packetsNamed target messages rests)))], .ok ()⟩ ∧
        runCosmos fuel p (raw.map (renameModule ρ ν)) (ν module) (messages.map ρ) target out =
          ⟨[.mkdir (dirName path), .append path
          (textContent (cosmosText (packetsNamed target (messages.map ρ) rests)))], .ok ()⟩)) := by
  unfold runCosmos
  rw [buildFromTexts_rename h]
  cases buildFromTexts raw with
  | error e => exact .inl ⟨e, rfl, rfl⟩
  | ok b =>
    simp only [Except.map, generateCosmos]
    have h0 : ((renameBundle ρ ν b).mods = []) ↔ b.mods = [] := List.map_eq_nil_iff
    by_cases hb : b.mods = []
    · rw [if_pos hb, if_pos (h0.2 hb)]
      exact .inl ⟨_, rfl, rfl⟩
    · rw [if_neg hb, if_neg fun k => hb (h0.1 k), getModule_rename h]
      cases b.getModule module with
      | none =>
        simp only [Option.map_none]
        cases messages with
        | nil => exact .inr ⟨[], rfl, rfl, rfl⟩
        | cons n ns => exact .inl ⟨_, rfl, rfl⟩
      | some bm =>
        simp only [Option.map_some]
        have hn : (messages.map ρ).any (fun n => !((renameBMod ρ ν bm).mod.defs.map Def.name).contains n) =
            messages.any (fun n => !(bm.mod.defs.map Def.name).contains n) := by
          rw [List.any_map]
          congr 1
          funext n
          show (!((bm.mod.defs.map (renameDef ρ)).map Def.name).contains (ρ n)) = _
          rw [map_rename_name, h.contains]
        rw [hn]
        split
        · exact .inl ⟨_, rfl, rfl⟩
        · have := packets_rename h p b fuel bm target messages _ _ (initialStore_rename h b)
          revert this
          cases packets p b fuel bm target (initialStore b.defs) messages with
          | error e =>
            cases packets p (renameBundle ρ ν b) fuel (renameBMod ρ ν bm) target _ (messages.map ρ) with
            | error e' => exact fun k => .inl ⟨e, rfl, by rw [k]⟩
            | ok r' => exact False.elim
          | ok r =>
            cases packets p (renameBundle ρ ν b) fuel (renameBMod ρ ν bm) target _ (messages.map ρ) with
            | error e' => exact False.elim
            | ok r' =>
              rintro ⟨rests, k1, k2, k3⟩
              exact .inr ⟨rests, k1, by rw [k2], by rw [k3]⟩

end Apg
