import Verif.Lemmas.Unfix

/-!
# Order, sizes and types do not depend on clauses
-/

namespace Apg

open Spec

/-! ### Order of definitions -/

theorem ready_unfixed (l : List String) (d : Def) : (unfixedDef d).ready l = d.ready l := by
  cases d <;> simp only [unfixedDef, Def.ready, List.all_map] <;> rfl

theorem sortPass_unfixed (ds : List Def) : ∀ l : List String, sortPass l (ds.map unfixedDef) =
    ((sortPass l ds).1.map unfixedDef, (sortPass l ds).2.1.map unfixedDef, (sortPass l ds).2.2) := by
  induction ds with
  | nil => intro l; rfl
  | cons d ds ih =>
    intro l
    rw [List.map_cons, sortPass, sortPass, ready_unfixed, unfixedDef_name]
    split <;> simp only [ih, List.map_cons]

theorem sortLoop_unfixed (fuel : Nat) : ∀ (l : List String) (done todo : List Def),
    sortLoop fuel l (done.map unfixedDef) (todo.map unfixedDef) = (sortLoop fuel l done todo).map (List.map unfixedDef) := by
  induction fuel with
  | zero => intro l done todo; rfl
  | succ fuel ih =>
    intro l done todo
    cases todo with
    | nil => rfl
    | cons d ds =>
      have e := sortPass_unfixed (d :: ds) l
      rw [List.map_cons] at e
      rw [List.map_cons, sortLoop, sortLoop]
      simp only [e]
      rw [← ih, List.map_append]

theorem sortDefs_unfixed (fuel : Nat) (m : Module) :
    sortDefs fuel (unfixed m) = (sortDefs fuel m).map (List.map unfixedDef) := sortLoop_unfixed fuel (sortBase m) [] m.defs

/-! ### Order of modules -/

/-- The state of the loops without comments. -/
def unfixedState (s : OrderState) : OrderState :=
  { mods := s.mods.map unfixed, names := s.names, order := s.order.map unfixed }

theorem importNames_unfixed (ms : List Module) : importNames (ms.map unfixed) = importNames ms := by
  unfold importNames
  rw [List.flatMap_map]
  rfl

theorem eraseIdx_map_unfixed (ms : List Module) (i : Nat) :
    (ms.map unfixed).eraseIdx i = (ms.eraseIdx i).map unfixed := by
  induction ms generalizing i with
  | nil => rfl
  | cons m ms ih =>
    cases i with
    | zero => rfl
    | succ i => simp only [List.map_cons, List.eraseIdx_cons_succ, ih]

theorem orderPass_unfixed (i : Nat) (s : OrderState) : orderPass i (unfixedState s) = unfixedState (orderPass i s) := by
  induction i, s using orderPass.induct with
  | case1 i s h name hc ih =>
    rw [orderPass.eq_def i s, orderPass.eq_def i (unfixedState s)]
    have h' : i < (unfixedState s).names.length := h
    rw [dif_pos h, dif_pos h']
    have hc' : (importNames (unfixedState s).mods).contains name = true := by
      show (importNames (s.mods.map unfixed)).contains name = true
      rw [importNames_unfixed]; exact hc
    simp only
    rw [if_pos hc, if_pos (show (importNames (unfixedState s).mods).contains (unfixedState s).names[i] = true from hc')]
    exact ih
  | case2 i s h name hc hm =>
    rw [orderPass.eq_def i s, orderPass.eq_def i (unfixedState s)]
    have h' : i < (unfixedState s).names.length := h
    rw [dif_pos h, dif_pos h']
    have hc' : ¬ (importNames (unfixedState s).mods).contains name = true := by
      show ¬ (importNames (s.mods.map unfixed)).contains name = true
      rw [importNames_unfixed]; exact hc
    simp only
    rw [if_neg hc, if_neg (show ¬ (importNames (unfixedState s).mods).contains (unfixedState s).names[i] = true from hc')]
    have hm' : (unfixedState s).mods[i]? = none := by
      show (s.mods.map unfixed)[i]? = none
      rw [List.getElem?_map, hm]; rfl
    rw [hm, hm']
  | case3 i s h name hc m hm ih =>
    rw [orderPass.eq_def i s, orderPass.eq_def i (unfixedState s)]
    have h' : i < (unfixedState s).names.length := h
    rw [dif_pos h, dif_pos h']
    have hc' : ¬ (importNames (unfixedState s).mods).contains name = true := by
      show ¬ (importNames (s.mods.map unfixed)).contains name = true
      rw [importNames_unfixed]; exact hc
    simp only
    rw [if_neg hc, if_neg (show ¬ (importNames (unfixedState s).mods).contains (unfixedState s).names[i] = true from hc')]
    have hm' : (unfixedState s).mods[i]? = some (unfixed m) := by
      show (s.mods.map unfixed)[i]? = _
      rw [List.getElem?_map, hm]; rfl
    rw [hm, hm']
    simp only
    rw [← ih]
    congr 1
    unfold unfixedState
    simp only [List.map_append, List.map_cons, List.map_nil]
    congr 1
    exact eraseIdx_map_unfixed _ _
  | case4 i s h =>
    rw [orderPass.eq_def i s, orderPass.eq_def i (unfixedState s), dif_neg h, dif_neg (show ¬ i < (unfixedState s).names.length from h)]

theorem orderLoop_unfixed (fuel : Nat) : ∀ s : OrderState,
    orderLoop fuel (unfixedState s) = (orderLoop fuel s).map (List.map unfixed) := by
  induction fuel with
  | zero => intro s; rfl
  | succ fuel ih =>
    intro s
    rw [orderLoop, orderLoop]
    cases hs : s.mods with
    | nil =>
      have : (unfixedState s).mods = [] := by show s.mods.map unfixed = []; rw [hs]; rfl
      rw [this]; rfl
    | cons m ms =>
      have : (unfixedState s).mods = unfixed m :: ms.map unfixed := by show s.mods.map unfixed = _; rw [hs]; rfl
      rw [this]
      simp only
      rw [orderPass_unfixed, ih]

theorem orderModules_unfixed (fuel : Nat) (ms : List Module) :
    orderModules fuel (ms.map unfixed) = (orderModules fuel ms).map (List.map unfixed) := by
  unfold orderModules
  rw [← orderLoop_unfixed, map_unfixed_name]
  rfl

theorem orderedMods_unfixed {b : Bundle} (hn : (b.modules.map (·.name)).Nodup) {ms : List Module}
    (h : ∀ m ∈ ms, m ∈ b.modules) :
    orderedMods (unfixedBundle b) (ms.map unfixed) = (orderedMods b ms).map unfixedBMod := by
  unfold orderedMods
  rw [List.filterMap_map, List.map_filterMap]
  refine filterMap_same fun m hm => ?_
  simp only [Function.comp_apply]
  show (b.mods.map unfixedBMod).find? _ = _
  rw [List.find?_map]
  congr 1
  have hn' : ∀ bm ∈ b.mods, (unfixed bm.mod = unfixed m ↔ bm.mod = m) := by
    intro bm hbm
    refine ⟨fun he => ?_, fun he => he ▸ rfl⟩
    exact mem_unique_of_nodup_map hn (List.mem_map_of_mem hbm) (h m hm)
      (show (unfixed bm.mod).name = (unfixed m).name from congrArg Module.name he)
  generalize b.mods = l at hn'
  induction l with
  | nil => rfl
  | cons x l ih =>
    rw [List.find?_cons, List.find?_cons]
    have e : ((fun bm => decide (bm.mod = unfixed m)) ∘ unfixedBMod) x = decide (x.mod = m) := by
      show decide (unfixed x.mod = unfixed m) = _
      exact decide_eq_decide.2 (hn' x (by simp))
    rw [e, ih fun y hy => hn' y (by simp [hy])]

/-! ### Sizes and types -/

theorem resolveType_unfixed (ds : List Def) (t : AType) :
    resolveType (ds.map unfixedDef) t = (resolveType ds t).map unfixedDef := by
  cases t with
  | plain n lo hi => exact lastDef_unfixed ds n
  | str n l => rfl
  | arr e l => rfl

theorem mapMember_unfixed (ds : List Def) (t : AType) : mapMember (ds.map unfixedDef) t = mapMember ds t := by
  unfold mapMember
  rw [resolveType_unfixed]
  cases resolveType ds t with
  | none => rfl
  | some d =>
    cases d with
    | _ => rfl

theorem isSimple_unfixed (d : Def) : (unfixedDef d).isSimple = d.isSimple := by cases d <;> rfl

theorem fieldType_unfixed (ds simple : List Def) (t : AType) :
    fieldType (ds.map unfixedDef) (simple.map unfixedDef) t = fieldType ds simple t := by
  unfold fieldType
  rw [mapMember_unfixed]
  cases mapMember ds t with
  | error e => rfl
  | ok m =>
    show (match (simple.map unfixedDef).find? _ with | some (.simple _ _ st) => _ | _ => _) =
      (match simple.find? _ with | some (.simple _ _ st) => _ | _ => _)
    rw [List.find?_map]
    have e : ((fun d : Def => d.isSimple && cName d.name ==
        (if posixCTypes.contains (lowerize m.ctype) = true then lowerize m.ctype else m.ctype)) ∘ unfixedDef) =
        (fun d : Def => d.isSimple && cName d.name ==
        (if posixCTypes.contains (lowerize m.ctype) = true then lowerize m.ctype else m.ctype)) := by
      funext d
      simp only [Function.comp_apply, isSimple_unfixed, unfixedDef_name]
    rw [e]
    cases List.find? _ simple with
    | none => rfl
    | some d => cases d <;> rfl

theorem simpleDefs_unfixed (ds : List Def) : simpleDefs (ds.map unfixedDef) = (simpleDefs ds).map unfixedDef := by
  unfold simpleDefs
  rw [List.filter_map]
  congr 2
  funext d
  exact isSimple_unfixed d

theorem simpleList_unfixed (bm : BMod) : simpleList (unfixedBMod bm) = (simpleList bm).map unfixedDef := by
  unfold simpleList unfixedBMod
  simp only [List.map_append, List.flatMap_map, List.map_flatMap]
  congr 1
  · exact simpleDefs_unfixed bm.mod.defs
  · congr 1
    funext m
    exact simpleDefs_unfixed m.defs

end Apg
