import Verif.Lemmas.RetypeCosmos

/-!
# generate-cosmos with other ranges, but for the limits
-/

namespace Apg
open Spec

variable {g : Ranges}

section
variable {b : Bundle} (hnd : (b.defs.map Def.name).Nodup)
include hnd

/-- Whether there are limits, or the error. -/
def limitsOk (c : CType) (lo hi : Option Num) : Except Err Unit := (subrange c lo hi).map fun _ => ()

/-- The other bounds are as good for limits. -/
def HasLimits (g : Ranges) : Prop := ∀ n lo hi c, (AType.plain n lo hi).cType = some c →
  limitsOk c (g n lo hi).1 (g n lo hi).2 = limitsOk c lo hi

/-- Items with the same C type, bounds of the same width and perhaps other limits, and the same states. -/
inductive LimitsAlike (g : Ranges) : Shape → Shape → Prop
  | item {c lo hi lo' hi' st} : (∀ k, c = some k → getBitSize k lo' hi' = getBitSize k lo hi ∧
      limitsOk k lo' hi' = limitsOk k lo hi) → LimitsAlike g (.item c lo hi st) (.item c lo' hi' st)
  | inner (d : Def) : LimitsAlike g (.inner d) (.inner (retypeDef g d))

omit hnd in
theorem shape_limits (hk : Keeps g) (hl : HasLimits g) (t : AType) (st : List Text) :
    LimitsAlike g (.item t.cType t.lo t.hi st) (.item (rerange g t).cType (rerange g t).lo (rerange g t).hi st) := by
  rw [cType_retype hk]
  refine .item fun k h => ⟨getBitSize_retype hk h, ?_⟩
  cases t with
  | plain n lo hi => exact hl n lo hi k h
  | str n l => rfl
  | arr e l => rfl

theorem shapeOf_limits (hk : Keeps g) (hl : HasLimits g) (fuel : Nat) {bm : BMod} (hbm : bm ∈ b.mods) (t : AType) :
    (∃ e, shapeOf b fuel bm t = .error e ∧ shapeOf (retypeBundle g b) fuel (retypeBMod g bm) (rerange g t) = .error e) ∨
    ∃ s s', shapeOf b fuel bm t = .ok s ∧ shapeOf (retypeBundle g b) fuel (retypeBMod g bm) (rerange g t) = .ok s' ∧
      LimitsAlike g s s' := by
  unfold shapeOf
  simp only [retype_name]
  by_cases h1 : t.name = "INTEGER" ∨ t.name = "REAL"
  · simp only [if_pos h1]
    exact .inr ⟨_, _, rfl, rfl, shape_limits hk hl t []⟩
  · simp only [if_neg h1]
    by_cases h2 : t.name = "BOOLEAN"
    · simp only [if_pos h2]
      exact .inr ⟨_, _, rfl, rfl, shape_limits hk hl t _⟩
    · simp only [if_neg h2]
      have rest : ∀ n, (∃ e, (getDefinition b fuel n bm >>= fun d =>
            match d with
            | .simple _ _ st => Except.ok (Shape.item st.cType st.lo st.hi [])
            | .enum _ _ its => .ok (.item (some .uint) (some (.int 0)) (some (.int ((its.length : Int) - 1)))
                (its.map (·.key.toList)))
            | d => .ok (.inner d)) = .error e ∧
          (getDefinition (retypeBundle g b) fuel n (retypeBMod g bm) >>= fun d =>
            match d with
            | .simple _ _ st => Except.ok (Shape.item st.cType st.lo st.hi [])
            | .enum _ _ its => .ok (.item (some .uint) (some (.int 0)) (some (.int ((its.length : Int) - 1)))
                (its.map (·.key.toList)))
            | d => .ok (.inner d)) = .error e) ∨
          ∃ s s', (getDefinition b fuel n bm >>= fun d =>
            match d with
            | .simple _ _ st => Except.ok (Shape.item st.cType st.lo st.hi [])
            | .enum _ _ its => .ok (.item (some .uint) (some (.int 0)) (some (.int ((its.length : Int) - 1)))
                (its.map (·.key.toList)))
            | d => .ok (.inner d)) = .ok s ∧
          (getDefinition (retypeBundle g b) fuel n (retypeBMod g bm) >>= fun d =>
            match d with
            | .simple _ _ st => Except.ok (Shape.item st.cType st.lo st.hi [])
            | .enum _ _ its => .ok (.item (some .uint) (some (.int 0)) (some (.int ((its.length : Int) - 1)))
                (its.map (·.key.toList)))
            | d => .ok (.inner d)) = .ok s' ∧ LimitsAlike g s s' := by
        intro n
        rw [getDefinition_retype hnd fuel n hbm]
        cases getDefinition b fuel n bm with
        | error e => exact .inl ⟨e, rfl, rfl⟩
        | ok d =>
          cases d with
          | simple n c st =>
            generalize hs : (if (posixRange n).isSome then st else rerange g st) = st'
            have hr : (Except.ok (Def.simple n c st) : Except Err Def).map (retypeDef g) = .ok (.simple n c st') := by
              simp only [Except.map, retypeDef, hs]
            rw [hr]
            refine .inr ⟨_, _, rfl, rfl, ?_⟩
            subst hs
            split
            · exact .item fun k _ => ⟨rfl, rfl⟩
            · exact shape_limits hk hl st []
          | enum n c its => exact .inr ⟨_, _, rfl, rfl, .item fun k _ => ⟨rfl, rfl⟩⟩
          | seq n c ms => exact .inr ⟨_, _, rfl, rfl, .inner (.seq n c ms)⟩
          | choice n c ms => exact .inr ⟨_, _, rfl, rfl, .inner (.choice n c ms)⟩
      cases t with
      | plain n lo hi => exact rest n
      | str n len => exact .inr ⟨_, _, rfl, rfl, .item fun k _ => ⟨rfl, rfl⟩⟩
      | arr e len => exact rest e.name

/-- An entry without limits. -/
def noLimits (e : Entry) : Entry := { e with range := none }

/-- Entries without limits. -/
def noLimitsAll (r : List Entry × Store) : List Entry × Store := (r.1.map noLimits, r.2)

omit hnd in
theorem makeEntry_limits (p : Printer) (m : Member) (s : Specific) {c : Option CType} {lo hi lo' hi' : Option Num}
    (states : List Text) (h : ∀ k, c = some k → getBitSize k lo' hi' = getBitSize k lo hi ∧
      limitsOk k lo' hi' = limitsOk k lo hi) :
    (makeEntry p (retypeMember g m) s c lo' hi' states).map noLimits = (makeEntry p m s c lo hi states).map noLimits := by
  unfold makeEntry
  cases c with
  | none => rfl
  | some c =>
    simp only
    rw [(h c rfl).1]
    have h2 := (h c rfl).2
    unfold limitsOk at h2
    cases getBitSize c lo hi with
    | error e => rfl
    | ok bits =>
      simp only [bind, Except.bind]
      cases h3 : subrange c lo' hi' with
      | error e =>
        cases h4 : subrange c lo hi with
        | error e' =>
          rw [h3, h4] at h2
          cases h2
          rfl
        | ok r => rw [h3, h4] at h2; cases h2
      | ok r' =>
        cases h4 : subrange c lo hi with
        | error e' => rw [h3, h4] at h2; cases h2
        | ok r =>
          simp only
          have e : specificText p (retypeMember g m) bits s = specificText p m bits s := by
            unfold specificText retypeMember
            cases m.type <;> rfl
          rw [e]
          cases specificText p m bits s with
          | error e => rfl
          | ok x =>
            cases m with
            | mk key type comment comps => cases type <;> rfl

theorem entriesFrom_limits (hk : Keeps g) (hl : HasLimits g) (p : Printer) (fuel : Nat) {bm : BMod} (hbm : bm ∈ b.mods)
    {rec rec' : Store → Def → Comps → Except Err (List Entry × Store)}
    (hr : ∀ st d wc, (rec' st (retypeDef g d) wc).map noLimitsAll = (rec st d wc).map noLimitsAll) (n : String) (wc : Comps)
    (ms : List Member) : ∀ (st : Store) (i : Nat),
    (entriesFrom p (retypeBundle g b) fuel (retypeBMod g bm) rec' n wc st i (ms.map (retypeMember g))).map noLimitsAll =
      (entriesFrom p b fuel bm rec n wc st i ms).map noLimitsAll := by
  induction ms with
  | nil => intro st i; rfl
  | cons m ms ih =>
    intro st i
    rw [List.map_cons, entriesFrom, entriesFrom]
    have ek : (retypeMember g m).key = m.key := rfl
    have et : (retypeMember g m).type = rerange g m.type := rfl
    rw [ek, et]
    rcases shapeOf_limits hnd hk hl fuel hbm m.type with ⟨e, h1, h2⟩ | ⟨s, s', h1, h2, h3⟩
    · rw [h1, h2]; rfl
    · rw [h1, h2]
      have tail : ∀ (es es' : List Entry) (st' : Store), es'.map noLimits = es.map noLimits →
          (entriesFrom p (retypeBundle g b) fuel (retypeBMod g bm) rec' n wc st' (i + 1) (ms.map (retypeMember g)) >>=
            fun r' => Except.ok (es' ++ r'.1, r'.2)).map noLimitsAll =
          (entriesFrom p b fuel bm rec n wc st' (i + 1) ms >>= fun r' => Except.ok (es ++ r'.1, r'.2)).map noLimitsAll := by
        intro es es' st' he
        have := ih st' (i + 1)
        revert this
        cases entriesFrom p (retypeBundle g b) fuel (retypeBMod g bm) rec' n wc st' (i + 1) (ms.map (retypeMember g)) with
        | error e =>
          cases entriesFrom p b fuel bm rec n wc st' (i + 1) ms with
          | error e' => intro h; cases h; rfl
          | ok r => intro h; cases h
        | ok r' =>
          cases entriesFrom p b fuel bm rec n wc st' (i + 1) ms with
          | error e' => intro h; cases h
          | ok r =>
            intro h
            simp only [Except.map, Except.ok.injEq, noLimitsAll, Prod.mk.injEq] at h
            simp only [bind, Except.bind, Except.map, noLimitsAll, List.map_append, h.1, h.2, he]
      cases h3 with
      | @item c lo hi lo' hi' states h =>
        have hm := makeEntry_limits (g := g) p m (specificValue wc m.key) states h
        revert hm
        simp only [bind, Except.bind]
        cases makeEntry p (retypeMember g m) (specificValue wc m.key) c lo' hi' states with
        | error e =>
          cases makeEntry p m (specificValue wc m.key) c lo hi states with
          | error e' => intro h; cases h; rfl
          | ok r => intro h; cases h
        | ok x' =>
          cases makeEntry p m (specificValue wc m.key) c lo hi states with
          | error e' => intro h; cases h
          | ok x =>
            intro hm
            simp only [Except.map, Except.ok.injEq] at hm
            exact tail [x] [x'] _ (by simp [hm])
      | inner d =>
        have hm := hr (extendStore st n i (specificValue wc m.key)) d (innerComps (st n i) (specificValue wc m.key))
        revert hm
        simp only [bind, Except.bind]
        cases rec' (extendStore st n i (specificValue wc m.key)) (retypeDef g d) (innerComps (st n i) (specificValue wc m.key)) with
        | error e =>
          cases rec (extendStore st n i (specificValue wc m.key)) d (innerComps (st n i) (specificValue wc m.key)) with
          | error e' => intro h; cases h; rfl
          | ok r => intro h; cases h
        | ok x' =>
          cases rec (extendStore st n i (specificValue wc m.key)) d (innerComps (st n i) (specificValue wc m.key)) with
          | error e' => intro h; cases h
          | ok x =>
            intro hm
            simp only [Except.map, Except.ok.injEq, noLimitsAll, Prod.mk.injEq] at hm
            simp only [hm.2]
            exact tail x.1 x'.1 _ hm.1

theorem telemetry_limits (hk : Keeps g) (hl : HasLimits g) (p : Printer) (fuel : Nat) {bm : BMod} (hbm : bm ∈ b.mods)
    (depth : Nat) : ∀ st d wc,
    (telemetry p (retypeBundle g b) fuel (retypeBMod g bm) depth st (retypeDef g d) wc).map noLimitsAll =
      (telemetry p b fuel bm depth st d wc).map noLimitsAll := by
  induction depth with
  | zero => intro st d wc; rfl
  | succ depth ih =>
    intro st d wc
    cases d with
    | seq n c ms => exact entriesFrom_limits hnd hk hl p fuel hbm ih n wc ms st 0
    | _ => rfl

/-- A packet without limits. -/
def noLimitsPacket (x : PacketData) : PacketData := { x with entries := x.entries.map noLimits }

theorem packetsData_limits (hk : Keeps g) (hl : HasLimits g) (p : Printer) (fuel : Nat) {bm : BMod} (hbm : bm ∈ b.mods)
    (ns : List String) : ∀ st,
    (packetsData p (retypeBundle g b) fuel (retypeBMod g bm) st ns).map (List.map noLimitsPacket) =
      (packetsData p b fuel bm st ns).map (List.map noLimitsPacket) := by
  induction ns with
  | nil => intro st; rfl
  | cons n ns ih =>
    intro st
    rw [packetsData, packetsData]
    have e : lastDef (retypeBMod g bm).mod.defs n = (lastDef bm.mod.defs n).map (retypeDef g) := lastDef_retype bm.mod.defs n
    rw [e]
    cases lastDef bm.mod.defs n with
    | none => rfl
    | some d =>
      have ec : (retypeDef g d).comment = d.comment := by cases d <;> rfl
      simp only [Option.map_some, retypeDef_name, ec]
      have := telemetry_limits hnd hk hl p fuel hbm fuel st d .nil
      revert this
      cases telemetry p (retypeBundle g b) fuel (retypeBMod g bm) fuel st (retypeDef g d) .nil with
      | error e =>
        cases telemetry p b fuel bm fuel st d .nil with
        | error e' => intro h; cases h; rfl
        | ok r => intro h; cases h
      | ok r' =>
        cases telemetry p b fuel bm fuel st d .nil with
        | error e' => intro h; cases h
        | ok r =>
          intro h
          simp only [Except.map, Except.ok.injEq, noLimitsAll, Prod.mk.injEq] at h
          have i := ih r.2
          revert i
          simp only [bind, Except.bind, h.2]
          cases packetsData p (retypeBundle g b) fuel (retypeBMod g bm) r.2 ns with
          | error e =>
            cases packetsData p b fuel bm r.2 ns with
            | error e' => intro h; cases h; rfl
            | ok x => intro h; cases h
          | ok x' =>
            cases packetsData p b fuel bm r.2 ns with
            | error e' => intro h; cases h
            | ok x =>
              intro i
              simp only [Except.map, Except.ok.injEq] at i
              simp only [Except.map, List.map_cons, i, noLimitsPacket, h.1]

theorem cosmosData_limits (hk : Keeps g) (hl : HasLimits g) (fuel : Nat) (p : Printer) (module : String) (messages : List String) :
    (cosmosData fuel p (retypeBundle g b) module messages).map (List.map noLimitsPacket) =
      (cosmosData fuel p b module messages).map (List.map noLimitsPacket) := by
  unfold cosmosData
  rw [getModule_retype]
  cases hm : b.getModule module with
  | none => rfl
  | some bm =>
    simp only [Option.map_some]
    rw [initialStore_retype, packetsData_limits hnd hk hl p fuel (getModule_some hm).1]

theorem generateCosmos_limits (hk : Keeps g) (hl : HasLimits g) (fuel : Nat) (p : Printer) (module : String)
    (messages : List String) (target out : Text) :
    (generateCosmos fuel p (retypeBundle g b) module messages target out).result =
      (generateCosmos fuel p b module messages target out).result := by
  unfold generateCosmos
  simp only
  have h0 : ((retypeBundle g b).mods = []) ↔ b.mods = [] := List.map_eq_nil_iff
  by_cases hb : b.mods = []
  · rw [if_pos hb, if_pos (h0.2 hb)]
  · rw [if_neg hb, if_neg fun h => hb (h0.1 h), getModule_retype]
    cases hm : b.getModule module with
    | none => rfl
    | some bm =>
      simp only [Option.map_some]
      have hn : (retypeBMod g bm).mod.defs.map Def.name = bm.mod.defs.map Def.name := map_retypeDef_name bm.mod.defs
      rw [hn, initialStore_retype, packets_data, packets_data]
      split
      · rfl
      · have := packetsData_limits hnd hk hl p fuel (getModule_some hm).1 messages (initialStore b.defs)
        revert this
        cases packetsData p (retypeBundle g b) fuel (retypeBMod g bm) (initialStore b.defs) messages with
        | error e =>
          cases packetsData p b fuel bm (initialStore b.defs) messages with
          | error e' => intro h; cases h; rfl
          | ok x => intro h; cases h
        | ok x' =>
          cases packetsData p b fuel bm (initialStore b.defs) messages with
          | error e' => intro h; cases h
          | ok x => intro _; rfl

end

theorem runCosmos_limits (hk : Keeps g) (hl : HasLimits g) (raw : List Module) (fuel : Nat) (p : Printer) (module : String)
    (messages : List String) (target out : Text) :
    (runCosmos fuel p (raw.map (retypeMod g)) module messages target out).result =
      (runCosmos fuel p raw module messages target out).result := by
  unfold runCosmos
  rw [buildFromTexts_retype hk]
  cases hb : buildFromTexts raw with
  | error e => rfl
  | ok b => exact generateCosmos_limits (accepted_nodup hb) hk hl fuel p module messages target out

end Apg
