import Verif.Lemmas.Retype
import Verif.Lemmas.BareOrder

/-!
# Order, sizes and types with other ranges
-/

namespace Apg

open Spec

variable {g : Ranges}

/-! ### Order of definitions -/

theorem all_name_retype (f : String → Bool) (ms : List Member) :
    (ms.map (retypeMember g)).all (fun m => f m.type.name) = ms.all fun m => f m.type.name := by
  rw [List.all_map]
  congr 1
  funext k
  simp only [Function.comp_apply, retypeMember_name]

theorem ready_retype (l : List String) (d : Def) : ((retypeDef g) d).ready l = d.ready l := by
  cases d with
  | seq n c ms => exact all_name_retype _ ms
  | choice n c ms => exact all_name_retype _ ms
  | enum n c its => rfl
  | simple n c t => rfl

theorem sortPass_retype (ds : List Def) : ∀ l : List String, sortPass l (ds.map (retypeDef g)) =
    ((sortPass l ds).1.map (retypeDef g), (sortPass l ds).2.1.map (retypeDef g), (sortPass l ds).2.2) := by
  induction ds with
  | nil => intro l; rfl
  | cons d ds ih =>
    intro l
    rw [List.map_cons, sortPass, sortPass, ready_retype, retypeDef_name]
    split <;> simp only [ih, List.map_cons]

theorem sortLoop_retype (fuel : Nat) : ∀ (l : List String) (done todo : List Def),
    sortLoop fuel l (done.map (retypeDef g)) (todo.map (retypeDef g)) = (sortLoop fuel l done todo).map (List.map (retypeDef g)) := by
  induction fuel with
  | zero => intro l done todo; rfl
  | succ fuel ih =>
    intro l done todo
    cases todo with
    | nil => rfl
    | cons d ds =>
      have e := sortPass_retype (g := g) (d :: ds) l
      rw [List.map_cons] at e
      rw [List.map_cons, sortLoop, sortLoop]
      simp only [e]
      rw [← ih, List.map_append]

theorem sortDefs_retype (fuel : Nat) (m : Module) :
    sortDefs fuel ((retypeMod g) m) = (sortDefs fuel m).map (List.map (retypeDef g)) := sortLoop_retype fuel (sortBase m) [] m.defs

/-! ### Order of modules -/

/-- The state of the loops without comments. -/
def retypeState (g : Ranges) (s : OrderState) : OrderState :=
  { mods := s.mods.map (retypeMod g), names := s.names, order := s.order.map (retypeMod g) }

theorem importNames_retype (ms : List Module) : importNames (ms.map (retypeMod g)) = importNames ms := by
  unfold importNames
  rw [List.flatMap_map]
  rfl

theorem eraseIdx_map_retype (ms : List Module) (i : Nat) :
    (ms.map (retypeMod g)).eraseIdx i = (ms.eraseIdx i).map (retypeMod g) := by
  induction ms generalizing i with
  | nil => rfl
  | cons m ms ih =>
    cases i with
    | zero => rfl
    | succ i => simp only [List.map_cons, List.eraseIdx_cons_succ, ih]

theorem orderPass_retype (i : Nat) (s : OrderState) : orderPass i ((retypeState g) s) = (retypeState g) (orderPass i s) := by
  induction i, s using orderPass.induct with
  | case1 i s h name hc ih =>
    rw [orderPass.eq_def i s, orderPass.eq_def i ((retypeState g) s)]
    have h' : i < ((retypeState g) s).names.length := h
    rw [dif_pos h, dif_pos h']
    have hc' : (importNames ((retypeState g) s).mods).contains name = true := by
      show (importNames (s.mods.map (retypeMod g))).contains name = true
      rw [importNames_retype]; exact hc
    simp only
    rw [if_pos hc, if_pos (show (importNames ((retypeState g) s).mods).contains ((retypeState g) s).names[i] = true from hc')]
    exact ih
  | case2 i s h name hc hm =>
    rw [orderPass.eq_def i s, orderPass.eq_def i ((retypeState g) s)]
    have h' : i < ((retypeState g) s).names.length := h
    rw [dif_pos h, dif_pos h']
    have hc' : ¬ (importNames ((retypeState g) s).mods).contains name = true := by
      show ¬ (importNames (s.mods.map (retypeMod g))).contains name = true
      rw [importNames_retype]; exact hc
    simp only
    rw [if_neg hc, if_neg (show ¬ (importNames ((retypeState g) s).mods).contains ((retypeState g) s).names[i] = true from hc')]
    have hm' : ((retypeState g) s).mods[i]? = none := by
      show (s.mods.map (retypeMod g))[i]? = none
      rw [List.getElem?_map, hm]; rfl
    rw [hm, hm']
  | case3 i s h name hc m hm ih =>
    rw [orderPass.eq_def i s, orderPass.eq_def i ((retypeState g) s)]
    have h' : i < ((retypeState g) s).names.length := h
    rw [dif_pos h, dif_pos h']
    have hc' : ¬ (importNames ((retypeState g) s).mods).contains name = true := by
      show ¬ (importNames (s.mods.map (retypeMod g))).contains name = true
      rw [importNames_retype]; exact hc
    simp only
    rw [if_neg hc, if_neg (show ¬ (importNames ((retypeState g) s).mods).contains ((retypeState g) s).names[i] = true from hc')]
    have hm' : ((retypeState g) s).mods[i]? = some ((retypeMod g) m) := by
      show (s.mods.map (retypeMod g))[i]? = _
      rw [List.getElem?_map, hm]; rfl
    rw [hm, hm']
    simp only
    rw [← ih]
    congr 1
    unfold retypeState
    simp only [List.map_append, List.map_cons, List.map_nil]
    congr 1
    exact eraseIdx_map_retype _ _
  | case4 i s h =>
    rw [orderPass.eq_def i s, orderPass.eq_def i ((retypeState g) s), dif_neg h, dif_neg (show ¬ i < ((retypeState g) s).names.length from h)]

theorem orderLoop_retype (fuel : Nat) : ∀ s : OrderState,
    orderLoop fuel ((retypeState g) s) = (orderLoop fuel s).map (List.map (retypeMod g)) := by
  induction fuel with
  | zero => intro s; rfl
  | succ fuel ih =>
    intro s
    rw [orderLoop, orderLoop]
    cases hs : s.mods with
    | nil =>
      have : ((retypeState g) s).mods = [] := by show s.mods.map (retypeMod g) = []; rw [hs]; rfl
      rw [this]; rfl
    | cons m ms =>
      have : ((retypeState g) s).mods = (retypeMod g) m :: ms.map (retypeMod g) := by show s.mods.map (retypeMod g) = _; rw [hs]; rfl
      rw [this]
      simp only
      rw [orderPass_retype, ih]

theorem orderModules_retype (fuel : Nat) (ms : List Module) :
    orderModules fuel (ms.map (retypeMod g)) = (orderModules fuel ms).map (List.map (retypeMod g)) := by
  unfold orderModules
  rw [← orderLoop_retype, map_retypeMod_name]
  rfl

theorem orderedMods_retype {b : Bundle} (hn : (b.modules.map (·.name)).Nodup) {ms : List Module}
    (h : ∀ m ∈ ms, m ∈ b.modules) :
    orderedMods ((retypeBundle g) b) (ms.map (retypeMod g)) = (orderedMods b ms).map (retypeBMod g) := by
  unfold orderedMods
  rw [List.filterMap_map, List.map_filterMap]
  refine filterMap_same fun m hm => ?_
  simp only [Function.comp_apply]
  show (b.mods.map (retypeBMod g)).find? _ = _
  rw [List.find?_map]
  congr 1
  have hn' : ∀ bm ∈ b.mods, ((retypeMod g) bm.mod = (retypeMod g) m ↔ bm.mod = m) := by
    intro bm hbm
    refine ⟨fun he => ?_, fun he => he ▸ rfl⟩
    exact mem_unique_of_nodup_map hn (List.mem_map_of_mem hbm) (h m hm)
      (show ((retypeMod g) bm.mod).name = ((retypeMod g) m).name from congrArg Module.name he)
  generalize b.mods = l at hn'
  induction l with
  | nil => rfl
  | cons x l ih =>
    rw [List.find?_cons, List.find?_cons]
    have e : ((fun bm => decide (bm.mod = (retypeMod g) m)) ∘ (retypeBMod g)) x = decide (x.mod = m) := by
      show decide ((retypeMod g) x.mod = (retypeMod g) m) = _
      exact decide_eq_decide.2 (hn' x (by simp))
    rw [e, ih fun y hy => hn' y (by simp [hy])]

/-! ### Sizes and types -/

theorem resolveType_retype (ds : List Def) (t : AType) :
    resolveType (ds.map (retypeDef g)) (rerange g t) = (resolveType ds t).map (retypeDef g) := by
  cases t with
  | plain n lo hi => exact lastDef_retype ds n
  | str n l => rfl
  | arr e l => rfl

theorem sumSizes_retype (hk : Keeps g) {rec rec' : Def → Except Err Int} (h : ∀ d, rec' (retypeDef g d) = rec d)
    (ds : List Def) (ms : List Member) :
    sumSizes rec' (ds.map (retypeDef g)) (ms.map (retypeMember g)) = sumSizes rec ds ms := by
  induction ms with
  | nil => rfl
  | cons m ms ih =>
    rw [List.map_cons, sumSizes, sumSizes, ih]
    congr 1
    show (match resolveType (ds.map (retypeDef g)) (rerange g m.type) with
      | some d => rec' d | none => unresolvedSizeBits (rerange g m.type)) = _
    rw [resolveType_retype, unresolvedSizeBits_retype hk]
    cases resolveType ds m.type with
    | none => rfl
    | some d => exact h d

theorem simpleSize_retype (hk : Keeps g) (n : String) (t : AType) :
    unresolvedSizeBits (if (posixRange n).isSome then t else rerange g t) = unresolvedSizeBits t := by
  split
  · rfl
  · exact unresolvedSizeBits_retype hk t

theorem sizeDef_retype (hk : Keeps g) (ds : List Def) (fuel : Nat) : ∀ d,
    sizeDef (ds.map (retypeDef g)) fuel (retypeDef g d) = sizeDef ds fuel d := by
  induction fuel with
  | zero => intro d; rfl
  | succ fuel ih =>
    intro d
    cases d with
    | seq n c ms => exact sumSizes_retype hk ih ds ms
    | enum n c its => rfl
    | simple n c t => exact simpleSize_retype hk n t
    | choice n c ms => rfl

theorem sizeMember_retype (hk : Keeps g) (ds : List Def) (fuel : Nat) (m : Member) :
    sizeMember (ds.map (retypeDef g)) fuel (retypeMember g m) = sizeMember ds fuel m := by
  unfold sizeMember
  show (match resolveType (ds.map (retypeDef g)) (rerange g m.type) with
      | some d => sizeDef (ds.map (retypeDef g)) fuel d | none => unresolvedSizeBits (rerange g m.type)) = _
  rw [resolveType_retype, unresolvedSizeBits_retype hk]
  cases resolveType ds m.type with
  | none => rfl
  | some d => exact sizeDef_retype hk ds fuel d

theorem mapNumeric_retype (hk : Keeps g) (t : AType) : mapNumeric (rerange g t) = mapNumeric t := by
  unfold mapNumeric
  rw [cType_retype hk]
  cases h : t.cType with
  | none => rfl
  | some c =>
    simp only
    rw [getBitSize_retype hk h]

theorem mapMember_retype (hk : Keeps g) (ds : List Def) (t : AType) :
    mapMember (ds.map (retypeDef g)) (rerange g t) = mapMember ds t := by
  unfold mapMember
  rw [resolveType_retype, retype_name, mapNumeric_retype hk]
  cases resolveType ds t with
  | none => rfl
  | some d => cases d <;> rfl

theorem isSimple_retype (d : Def) : ((retypeDef g) d).isSimple = d.isSimple := by cases d <;> rfl

theorem fieldType_retype (hk : Keeps g) (ds simple : List Def) (t : AType) :
    fieldType (ds.map (retypeDef g)) (simple.map (retypeDef g)) (rerange g t) = fieldType ds simple t := by
  unfold fieldType
  rw [mapMember_retype hk]
  cases mapMember ds t with
  | error e => rfl
  | ok m =>
    show (match (simple.map (retypeDef g)).find? _ with | some (.simple _ _ st) => _ | _ => _) =
      (match simple.find? _ with | some (.simple _ _ st) => _ | _ => _)
    rw [List.find?_map]
    have e : ((fun d : Def => d.isSimple && cName d.name ==
        (if posixCTypes.contains (lowerize m.ctype) = true then lowerize m.ctype else m.ctype)) ∘ (retypeDef g)) =
        (fun d : Def => d.isSimple && cName d.name ==
        (if posixCTypes.contains (lowerize m.ctype) = true then lowerize m.ctype else m.ctype)) := by
      funext d
      simp only [Function.comp_apply, isSimple_retype, retypeDef_name]
    rw [e]
    cases List.find? _ simple with
    | none => rfl
    | some d =>
      cases d with
      | simple n c st =>
        have e : mapSimpleDef (if (posixRange n).isSome then st else rerange g st) = mapSimpleDef st := by
          split
          · rfl
          · exact mapNumeric_retype hk st
        simp only [Option.map_some, retypeDef, e]
      | _ => rfl

theorem simpleDefs_retype (ds : List Def) : simpleDefs (ds.map (retypeDef g)) = (simpleDefs ds).map (retypeDef g) := by
  unfold simpleDefs
  rw [List.filter_map]
  congr 2
  funext d
  exact isSimple_retype d

theorem simpleList_retype (bm : BMod) : simpleList ((retypeBMod g) bm) = (simpleList bm).map (retypeDef g) := by
  unfold simpleList retypeBMod
  simp only [List.map_append, List.flatMap_map, List.map_flatMap]
  congr 1
  · exact simpleDefs_retype bm.mod.defs
  · congr 1
    funext m
    exact simpleDefs_retype m.defs

/-! ### Binary definitions -/

theorem binMembers_retype (hk : Keeps g) (ds : List Def) (fuel : Nat) (ms : List Member) :
    binMembers (ds.map (retypeDef g)) fuel (ms.map (retypeMember g)) = binMembers ds fuel ms := by
  induction ms with
  | nil => rfl
  | cons m ms ih =>
    rw [List.map_cons, binMembers, binMembers, ih, sizeMember_retype hk, retypeMember_name]
    have e : (retypeMember g m).type.cType = m.type.cType := cType_retype hk m.type
    rw [e]
    rfl

theorem binDefs_retype (hk : Keeps g) (ds : List Def) (fuel : Nat) (es : List Def) :
    binDefs (ds.map (retypeDef g)) fuel (es.map (retypeDef g)) = binDefs ds fuel es := by
  induction es with
  | nil => rfl
  | cons d es ih =>
    cases d <;> simp only [List.map_cons, retypeDef, binDefs, ih, binMembers_retype hk]

end Apg
