import Verif.Lemmas.RetypeOrder
import Verif.Lemmas.BareCosmos

/-!
# generate-cosmos with other ranges
-/

namespace Apg
open Spec

variable {g : Ranges}

theorem lastBMod_retype (bms : List BMod) (n : String) :
    lastBMod (bms.map (retypeBMod g)) n = (lastBMod bms n).map (retypeBMod g) := by
  induction bms with
  | nil => rfl
  | cons m ms ih =>
    rw [List.map_cons, lastBMod, lastBMod, ih]
    cases lastBMod ms n with
    | some r => rfl
    | none =>
      show (if m.mod.name = n then some ((retypeBMod g) m) else none) = _
      simp only
      split <;> rfl

theorem dedup_retype {ds : List Def} (h : ∀ d ∈ ds, ∀ d' ∈ ds, d.name = d'.name → d = d') :
    dedup (ds.map (retypeDef g)) = (dedup ds).map (retypeDef g) := by
  induction ds with
  | nil => rfl
  | cons d ds ih =>
    have i := ih fun a ha b hb => h a (by simp [ha]) b (by simp [hb])
    have sub : ∀ x ∈ dedup ds, x ∈ ds := by
      clear h ih i
      induction ds with
      | nil => intro x hx; cases hx
      | cons a ds ih =>
        intro x hx
        have e : dedup (a :: ds) = if (dedup ds).contains a then dedup ds else a :: dedup ds := rfl
        rw [e] at hx
        split at hx
        · exact List.mem_cons_of_mem _ (ih x hx)
        · rcases List.mem_cons.1 hx with rfl | hx
          · exact List.mem_cons_self
          · exact List.mem_cons_of_mem _ (ih x hx)
    have e : dedup (d :: ds) = if (dedup ds).contains d then dedup ds else d :: dedup ds := rfl
    have e' : dedup ((d :: ds).map (retypeDef g)) =
      if (dedup (ds.map (retypeDef g))).contains ((retypeDef g) d) then dedup (ds.map (retypeDef g)) else (retypeDef g) d :: dedup (ds.map (retypeDef g)) := rfl
    have hc : ((dedup ds).map (retypeDef g)).contains ((retypeDef g) d) = (dedup ds).contains d := by
      rw [Bool.eq_iff_iff, List.contains_iff_mem, List.contains_iff_mem]
      constructor
      · intro hm
        obtain ⟨x, hx, he⟩ := List.mem_map.1 hm
        have hn : x.name = d.name := by rw [← retypeDef_name, ← retypeDef_name d, he]
        rw [← h x (by simp [sub x hx]) d (by simp) hn]
        exact hx
      · exact fun hm => List.mem_map.2 ⟨d, hm, rfl⟩
    rw [e, e', i, hc]
    split <;> rfl

section
variable {b : Bundle} (hnd : (b.defs.map Def.name).Nodup)
include hnd

omit hnd in
theorem collectDefs_retype {rec rec' : BMod → Except Err (List Def)}
    (hr : ∀ bm ∈ b.mods, rec' ((retypeBMod g) bm) = (rec bm).map (List.map (retypeDef g))) (l : List Module) :
    collectDefs rec' ((retypeBundle g) b) (l.map (retypeMod g)) = (collectDefs rec b l).map (List.map (retypeDef g)) := by
  induction l with
  | nil => rfl
  | cons m l ih =>
    rw [List.map_cons, collectDefs, collectDefs, ih]
    have e : lastBMod ((retypeBundle g) b).mods ((retypeMod g) m).name = (lastBMod b.mods m.name).map (retypeBMod g) := lastBMod_retype b.mods m.name
    rw [e]
    cases hl : lastBMod b.mods m.name with
    | none =>
      simp only [Option.map_none, bind, Except.bind]
      cases collectDefs rec b l <;> simp [Except.map]
    | some bm =>
      simp only [Option.map_some, hr bm (lastBMod_mem hl)]
      cases rec bm with
      | error e => rfl
      | ok a =>
        simp only [Except.map, bind, Except.bind]
        cases collectDefs rec b l <;> simp

theorem defsRecurs_retype (n : String) (fuel : Nat) : ∀ bm ∈ b.mods,
    defsRecurs ((retypeBundle g) b) n fuel ((retypeBMod g) bm) = (defsRecurs b n fuel bm).map (List.map (retypeDef g)) := by
  induction fuel with
  | zero => intro bm _; rfl
  | succ fuel ih =>
    intro bm hbm
    rw [defsRecurs, defsRecurs]
    have e : collectDefs (defsRecurs ((retypeBundle g) b) n fuel) ((retypeBundle g) b) ((retypeBMod g) bm).imported =
        (collectDefs (defsRecurs b n fuel) b bm.imported).map (List.map (retypeDef g)) :=
      collectDefs_retype ih bm.imported
    rw [e]
    have hsub := collectDefs_sub (b := b) (rec := defsRecurs b n fuel)
      (fun bm hbm ds h d hd => (defsRecurs_sound fuel bm hbm ds h d hd).1) bm.imported
    cases hcd : collectDefs (defsRecurs b n fuel) b bm.imported with
    | error e => rfl
    | ok r =>
      have hall : ∀ d ∈ bm.mod.defs ++ r, d ∈ b.defs := by
        intro d hd
        rcases List.mem_append.1 hd with hd | hd
        · exact mem_defs_of_bmod hbm hd
        · exact hsub r hcd d hd
      simp only [Except.map, bind, Except.bind, Except.ok.injEq]
      have e2 : (((retypeBMod g) bm).mod.defs ++ r.map (retypeDef g)).filter (fun d => d.name = n) =
          ((bm.mod.defs ++ r).filter (fun d => d.name = n)).map (retypeDef g) := by
        show (bm.mod.defs.map (retypeDef g) ++ r.map (retypeDef g)).filter _ = _
        rw [← List.map_append, List.filter_map]
        congr 2
        funext d
        simp only [Function.comp_apply, retypeDef_name]
      rw [e2]
      refine dedup_retype fun d hd d' hd' hn => ?_
      exact mem_unique_of_nodup_map hnd (hall d (List.mem_filter.1 hd|>.1)) (hall d' (List.mem_filter.1 hd'|>.1)) hn

theorem getDefinition_retype (fuel : Nat) (n : String) {bm : BMod} (hbm : bm ∈ b.mods) :
    getDefinition ((retypeBundle g) b) fuel n ((retypeBMod g) bm) = (getDefinition b fuel n bm).map (retypeDef g) := by
  unfold getDefinition
  rw [defsRecurs_retype hnd n fuel bm hbm]
  cases defsRecurs b n fuel bm with
  | error e => rfl
  | ok ds =>
    match ds with
    | [] => rfl
    | [d] => rfl
    | d :: d' :: ds => rfl

/-- The other bounds give the same limits. -/
def KeepsLimits (g : Ranges) : Prop := ∀ n lo hi c, (AType.plain n lo hi).cType = some c →
  subrange c (g n lo hi).1 (g n lo hi).2 = subrange c lo hi

/-- Items with the same C type, bounds of the same width and limits, and the same states. -/
inductive ShapeAlike (g : Ranges) : Shape → Shape → Prop
  | item {c lo hi lo' hi' st} : (∀ k, c = some k → getBitSize k lo' hi' = getBitSize k lo hi ∧
      subrange k lo' hi' = subrange k lo hi) → ShapeAlike g (.item c lo hi st) (.item c lo' hi' st)
  | inner (d : Def) : ShapeAlike g (.inner d) (.inner (retypeDef g d))

omit hnd in
theorem shape_retype (hk : Keeps g) (hl : KeepsLimits g) (t : AType) (st : List Text) :
    ShapeAlike g (.item t.cType t.lo t.hi st) (.item (rerange g t).cType (rerange g t).lo (rerange g t).hi st) := by
  rw [cType_retype hk]
  refine .item fun k h => ⟨getBitSize_retype hk h, ?_⟩
  cases t with
  | plain n lo hi => exact hl n lo hi k h
  | str n l => rfl
  | arr e l => rfl

theorem shapeOf_retype (hk : Keeps g) (hl : KeepsLimits g) (fuel : Nat) {bm : BMod} (hbm : bm ∈ b.mods) (t : AType) :
    (∃ e, shapeOf b fuel bm t = .error e ∧ shapeOf (retypeBundle g b) fuel (retypeBMod g bm) (rerange g t) = .error e) ∨
    ∃ s s', shapeOf b fuel bm t = .ok s ∧ shapeOf (retypeBundle g b) fuel (retypeBMod g bm) (rerange g t) = .ok s' ∧
      ShapeAlike g s s' := by
  unfold shapeOf
  simp only [retype_name]
  by_cases h1 : t.name = "INTEGER" ∨ t.name = "REAL"
  · simp only [if_pos h1]
    exact .inr ⟨_, _, rfl, rfl, shape_retype hk hl t []⟩
  · simp only [if_neg h1]
    by_cases h2 : t.name = "BOOLEAN"
    · simp only [if_pos h2]
      exact .inr ⟨_, _, rfl, rfl, shape_retype hk hl t _⟩
    · simp only [if_neg h2]
      have rest : ∀ n, (∃ e, (getDefinition b fuel n bm >>= fun d =>
            match d with
            | .simple _ _ st => Except.ok (Shape.item st.cType st.lo st.hi [])
            | .enum _ _ its => .ok (.item (some .uint) (some (.int 0)) (some (.int ((its.length : Int) - 1)))
                (its.map (·.key.toList)))
            | d => .ok (.inner d)) = .error e ∧
          (getDefinition (retypeBundle g b) fuel n (retypeBMod g bm) >>= fun d =>
            match d with
            | .simple _ _ st => Except.ok (Shape.item st.cType st.lo st.hi [])
            | .enum _ _ its => .ok (.item (some .uint) (some (.int 0)) (some (.int ((its.length : Int) - 1)))
                (its.map (·.key.toList)))
            | d => .ok (.inner d)) = .error e) ∨
          ∃ s s', (getDefinition b fuel n bm >>= fun d =>
            match d with
            | .simple _ _ st => Except.ok (Shape.item st.cType st.lo st.hi [])
            | .enum _ _ its => .ok (.item (some .uint) (some (.int 0)) (some (.int ((its.length : Int) - 1)))
                (its.map (·.key.toList)))
            | d => .ok (.inner d)) = .ok s ∧
          (getDefinition (retypeBundle g b) fuel n (retypeBMod g bm) >>= fun d =>
            match d with
            | .simple _ _ st => Except.ok (Shape.item st.cType st.lo st.hi [])
            | .enum _ _ its => .ok (.item (some .uint) (some (.int 0)) (some (.int ((its.length : Int) - 1)))
                (its.map (·.key.toList)))
            | d => .ok (.inner d)) = .ok s' ∧ ShapeAlike g s s' := by
        intro n
        rw [getDefinition_retype hnd fuel n hbm]
        cases getDefinition b fuel n bm with
        | error e => exact .inl ⟨e, rfl, rfl⟩
        | ok d =>
          cases d with
          | simple n c st =>
            generalize hs : (if (posixRange n).isSome then st else rerange g st) = st'
            have hr : (Except.ok (Def.simple n c st) : Except Err Def).map (retypeDef g) = .ok (.simple n c st') := by
              simp only [Except.map, retypeDef, hs]
            rw [hr]
            refine .inr ⟨_, _, rfl, rfl, ?_⟩
            subst hs
            split
            · exact .item fun k _ => ⟨rfl, rfl⟩
            · exact shape_retype hk hl st []
          | enum n c its => exact .inr ⟨_, _, rfl, rfl, .item fun k _ => ⟨rfl, rfl⟩⟩
          | seq n c ms => exact .inr ⟨_, _, rfl, rfl, .inner (.seq n c ms)⟩
          | choice n c ms => exact .inr ⟨_, _, rfl, rfl, .inner (.choice n c ms)⟩
      cases t with
      | plain n lo hi => exact rest n
      | str n len => exact .inr ⟨_, _, rfl, rfl, .item fun k _ => ⟨rfl, rfl⟩⟩
      | arr e len => exact rest e.name

omit hnd in
theorem makeEntry_retype (p : Printer) (m : Member) (s : Specific) {c : Option CType} {lo hi lo' hi' : Option Num}
    (states : List Text) (h : ∀ k, c = some k → getBitSize k lo' hi' = getBitSize k lo hi ∧
      subrange k lo' hi' = subrange k lo hi) :
    makeEntry p (retypeMember g m) s c lo' hi' states = makeEntry p m s c lo hi states := by
  unfold makeEntry
  cases c with
  | none => rfl
  | some c =>
    simp only
    rw [(h c rfl).1, (h c rfl).2]
    cases m with
    | mk key type comment comps => cases type <;> rfl

theorem entriesFrom_retype (hk : Keeps g) (hl : KeepsLimits g) (p : Printer) (fuel : Nat) {bm : BMod} (hbm : bm ∈ b.mods)
    {rec rec' : Store → Def → Comps → Except Err (List Entry × Store)}
    (hr : ∀ st d wc, rec' st (retypeDef g d) wc = rec st d wc) (n : String) (wc : Comps)
    (ms : List Member) : ∀ (st : Store) (i : Nat),
    entriesFrom p (retypeBundle g b) fuel (retypeBMod g bm) rec' n wc st i (ms.map (retypeMember g)) =
      entriesFrom p b fuel bm rec n wc st i ms := by
  induction ms with
  | nil => intro st i; rfl
  | cons m ms ih =>
    intro st i
    rw [List.map_cons, entriesFrom, entriesFrom]
    have ek : (retypeMember g m).key = m.key := rfl
    have et : (retypeMember g m).type = rerange g m.type := rfl
    rw [ek, et]
    rcases shapeOf_retype hnd hk hl fuel hbm m.type with ⟨e, h1, h2⟩ | ⟨s, s', h1, h2, h3⟩
    · rw [h1, h2]; rfl
    · rw [h1, h2]
      cases h3 with
      | item h =>
        simp only [bind, Except.bind, makeEntry_retype p m _ _ h]
        cases makeEntry p m (specificValue wc m.key) _ _ _ _ with
        | error e => rfl
        | ok x => simp only [ih]
      | inner d =>
        simp only [bind, Except.bind, hr]
        cases rec _ d _ with
        | error e => rfl
        | ok x => simp only [ih]

theorem telemetry_retype (hk : Keeps g) (hl : KeepsLimits g) (p : Printer) (fuel : Nat) {bm : BMod} (hbm : bm ∈ b.mods)
    (depth : Nat) : ∀ st d wc, telemetry p (retypeBundle g b) fuel (retypeBMod g bm) depth st (retypeDef g d) wc =
      telemetry p b fuel bm depth st d wc := by
  induction depth with
  | zero => intro st d wc; rfl
  | succ depth ih =>
    intro st d wc
    cases d with
    | seq n c ms => exact entriesFrom_retype hnd hk hl p fuel hbm ih n wc ms st 0
    | _ => rfl

theorem packets_retype (hk : Keeps g) (hl : KeepsLimits g) (p : Printer) (fuel : Nat) {bm : BMod} (hbm : bm ∈ b.mods)
    (target : Text) (ns : List String) : ∀ st,
    packets p (retypeBundle g b) fuel (retypeBMod g bm) target st ns = packets p b fuel bm target st ns := by
  induction ns with
  | nil => intro st; rfl
  | cons n ns ih =>
    intro st
    rw [packets, packets]
    have e : lastDef (retypeBMod g bm).mod.defs n = (lastDef bm.mod.defs n).map (retypeDef g) := lastDef_retype bm.mod.defs n
    rw [e]
    cases lastDef bm.mod.defs n with
    | none => rfl
    | some d =>
      simp only [Option.map_some, telemetry_retype hnd hk hl p fuel hbm, ih, retypeDef_name]
      cases d <;> rfl

omit hnd in
theorem initialStore_retype : initialStore ((retypeBundle g) b).defs = initialStore b.defs := by
  rw [retypeBundle_defs]
  funext n i
  unfold initialStore
  rw [lastDef_retype]
  cases lastDef b.defs n with
  | none => rfl
  | some d =>
    cases d with
    | seq n c ms =>
      simp only [Option.map_some, retypeDef, List.getElem?_map]
      cases ms[i]? <;> rfl
    | _ => rfl

omit hnd in
theorem getModule_retype (n : String) : ((retypeBundle g) b).getModule n = (b.getModule n).map (retypeBMod g) := by
  unfold Bundle.getModule retypeBundle
  rw [List.find?_map]
  rfl

theorem generateCosmos_retype (hk : Keeps g) (hl : KeepsLimits g) (fuel : Nat) (p : Printer) (module : String)
    (messages : List String) (target out : Text) :
    generateCosmos fuel p (retypeBundle g b) module messages target out =
      generateCosmos fuel p b module messages target out := by
  unfold generateCosmos
  simp only
  have h0 : ((retypeBundle g b).mods = []) ↔ b.mods = [] := List.map_eq_nil_iff
  by_cases hb : b.mods = []
  · rw [if_pos hb, if_pos (h0.2 hb)]
  · rw [if_neg hb, if_neg fun h => hb (h0.1 h), getModule_retype]
    cases hm : b.getModule module with
    | none => rfl
    | some bm =>
      simp only [Option.map_some]
      have hn : (retypeBMod g bm).mod.defs.map Def.name = bm.mod.defs.map Def.name := map_retypeDef_name bm.mod.defs
      rw [hn, initialStore_retype, packets_retype hnd hk hl p fuel (getModule_some hm).1]

end

theorem runCosmos_retype (hk : Keeps g) (hl : KeepsLimits g) (raw : List Module) (fuel : Nat) (p : Printer) (module : String)
    (messages : List String) (target out : Text) :
    runCosmos fuel p (raw.map (retypeMod g)) module messages target out = runCosmos fuel p raw module messages target out := by
  unfold runCosmos
  rw [buildFromTexts_retype hk]
  cases hb : buildFromTexts raw with
  | error e => rfl
  | ok b => exact generateCosmos_retype (accepted_nodup hb) hk hl fuel p module messages target out

end Apg
