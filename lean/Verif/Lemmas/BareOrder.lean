import Verif.Lemmas.BareBuild
import Verif.Lemmas.Grow

/-!
# Order, sizes and types do not depend on comments
-/

namespace Apg

open Spec

/-! ### Order of definitions -/

theorem ready_bare (l : List String) (d : Def) : (bareDef d).ready l = d.ready l := by
  cases d <;> simp only [bareDef, Def.ready, List.all_map] <;> rfl

theorem sortPass_bare (ds : List Def) : ∀ l : List String, sortPass l (ds.map bareDef) =
    ((sortPass l ds).1.map bareDef, (sortPass l ds).2.1.map bareDef, (sortPass l ds).2.2) := by
  induction ds with
  | nil => intro l; rfl
  | cons d ds ih =>
    intro l
    rw [List.map_cons, sortPass, sortPass, ready_bare, bareDef_name]
    split <;> simp only [ih, List.map_cons]

theorem sortLoop_bare (fuel : Nat) : ∀ (l : List String) (done todo : List Def),
    sortLoop fuel l (done.map bareDef) (todo.map bareDef) = (sortLoop fuel l done todo).map (List.map bareDef) := by
  induction fuel with
  | zero => intro l done todo; rfl
  | succ fuel ih =>
    intro l done todo
    cases todo with
    | nil => rfl
    | cons d ds =>
      have e := sortPass_bare (d :: ds) l
      rw [List.map_cons] at e
      rw [List.map_cons, sortLoop, sortLoop]
      simp only [e]
      rw [← ih, List.map_append]

theorem sortDefs_bare (fuel : Nat) (m : Module) :
    sortDefs fuel (bare m) = (sortDefs fuel m).map (List.map bareDef) := sortLoop_bare fuel (sortBase m) [] m.defs

/-! ### Order of modules -/

/-- The state of the loops without comments. -/
def bareState (s : OrderState) : OrderState :=
  { mods := s.mods.map bare, names := s.names, order := s.order.map bare }

theorem importNames_bare (ms : List Module) : importNames (ms.map bare) = importNames ms := by
  unfold importNames
  rw [List.flatMap_map]
  rfl

theorem eraseIdx_map_bare (ms : List Module) (i : Nat) :
    (ms.map bare).eraseIdx i = (ms.eraseIdx i).map bare := by
  induction ms generalizing i with
  | nil => rfl
  | cons m ms ih =>
    cases i with
    | zero => rfl
    | succ i => simp only [List.map_cons, List.eraseIdx_cons_succ, ih]

theorem orderPass_bare (i : Nat) (s : OrderState) : orderPass i (bareState s) = bareState (orderPass i s) := by
  induction i, s using orderPass.induct with
  | case1 i s h name hc ih =>
    rw [orderPass.eq_def i s, orderPass.eq_def i (bareState s)]
    have h' : i < (bareState s).names.length := h
    rw [dif_pos h, dif_pos h']
    have hc' : (importNames (bareState s).mods).contains name = true := by
      show (importNames (s.mods.map bare)).contains name = true
      rw [importNames_bare]; exact hc
    simp only
    rw [if_pos hc, if_pos (show (importNames (bareState s).mods).contains (bareState s).names[i] = true from hc')]
    exact ih
  | case2 i s h name hc hm =>
    rw [orderPass.eq_def i s, orderPass.eq_def i (bareState s)]
    have h' : i < (bareState s).names.length := h
    rw [dif_pos h, dif_pos h']
    have hc' : ¬ (importNames (bareState s).mods).contains name = true := by
      show ¬ (importNames (s.mods.map bare)).contains name = true
      rw [importNames_bare]; exact hc
    simp only
    rw [if_neg hc, if_neg (show ¬ (importNames (bareState s).mods).contains (bareState s).names[i] = true from hc')]
    have hm' : (bareState s).mods[i]? = none := by
      show (s.mods.map bare)[i]? = none
      rw [List.getElem?_map, hm]; rfl
    rw [hm, hm']
  | case3 i s h name hc m hm ih =>
    rw [orderPass.eq_def i s, orderPass.eq_def i (bareState s)]
    have h' : i < (bareState s).names.length := h
    rw [dif_pos h, dif_pos h']
    have hc' : ¬ (importNames (bareState s).mods).contains name = true := by
      show ¬ (importNames (s.mods.map bare)).contains name = true
      rw [importNames_bare]; exact hc
    simp only
    rw [if_neg hc, if_neg (show ¬ (importNames (bareState s).mods).contains (bareState s).names[i] = true from hc')]
    have hm' : (bareState s).mods[i]? = some (bare m) := by
      show (s.mods.map bare)[i]? = _
      rw [List.getElem?_map, hm]; rfl
    rw [hm, hm']
    simp only
    rw [← ih]
    congr 1
    unfold bareState
    simp only [List.map_append, List.map_cons, List.map_nil]
    congr 1
    exact eraseIdx_map_bare _ _
  | case4 i s h =>
    rw [orderPass.eq_def i s, orderPass.eq_def i (bareState s), dif_neg h, dif_neg (show ¬ i < (bareState s).names.length from h)]

theorem orderLoop_bare (fuel : Nat) : ∀ s : OrderState,
    orderLoop fuel (bareState s) = (orderLoop fuel s).map (List.map bare) := by
  induction fuel with
  | zero => intro s; rfl
  | succ fuel ih =>
    intro s
    rw [orderLoop, orderLoop]
    cases hs : s.mods with
    | nil =>
      have : (bareState s).mods = [] := by show s.mods.map bare = []; rw [hs]; rfl
      rw [this]; rfl
    | cons m ms =>
      have : (bareState s).mods = bare m :: ms.map bare := by show s.mods.map bare = _; rw [hs]; rfl
      rw [this]
      simp only
      rw [orderPass_bare, ih]

theorem orderModules_bare (fuel : Nat) (ms : List Module) :
    orderModules fuel (ms.map bare) = (orderModules fuel ms).map (List.map bare) := by
  unfold orderModules
  rw [← orderLoop_bare, map_bare_name]
  rfl

theorem orderedMods_bare {b : Bundle} (hn : (b.modules.map (·.name)).Nodup) {ms : List Module}
    (h : ∀ m ∈ ms, m ∈ b.modules) :
    orderedMods (bareBundle b) (ms.map bare) = (orderedMods b ms).map bareBMod := by
  unfold orderedMods
  rw [List.filterMap_map, List.map_filterMap]
  refine filterMap_same fun m hm => ?_
  simp only [Function.comp_apply]
  show (b.mods.map bareBMod).find? _ = _
  rw [List.find?_map]
  congr 1
  have hn' : ∀ bm ∈ b.mods, (bare bm.mod = bare m ↔ bm.mod = m) := by
    intro bm hbm
    refine ⟨fun he => ?_, fun he => he ▸ rfl⟩
    exact mem_unique_of_nodup_map hn (List.mem_map_of_mem hbm) (h m hm)
      (show (bare bm.mod).name = (bare m).name from congrArg Module.name he)
  generalize b.mods = l at hn'
  induction l with
  | nil => rfl
  | cons x l ih =>
    rw [List.find?_cons, List.find?_cons]
    have e : ((fun bm => decide (bm.mod = bare m)) ∘ bareBMod) x = decide (x.mod = m) := by
      show decide (bare x.mod = bare m) = _
      exact decide_eq_decide.2 (hn' x (by simp))
    rw [e, ih fun y hy => hn' y (by simp [hy])]

/-! ### Sizes and types -/

theorem resolveType_bare (ds : List Def) (t : AType) :
    resolveType (ds.map bareDef) t = (resolveType ds t).map bareDef := by
  cases t with
  | plain n lo hi => exact lastDef_bare ds n
  | str n l => rfl
  | arr e l => rfl

theorem enumSizeBits_bare (its : List EnumItem) : enumSizeBits (its.map bareItem) = enumSizeBits its := by
  unfold enumSizeBits
  rw [List.map_map]
  rfl

theorem sumSizes_bare {rec rec' : Def → Except Err Int} (h : ∀ d, rec' (bareDef d) = rec d) (ds : List Def)
    (ms : List Member) : sumSizes rec' (ds.map bareDef) (ms.map bareMember) = sumSizes rec ds ms := by
  induction ms with
  | nil => rfl
  | cons m ms ih =>
    rw [List.map_cons, sumSizes, sumSizes, ih]
    congr 1
    show (match resolveType (ds.map bareDef) m.type with
      | some d => rec' d | none => unresolvedSizeBits m.type) = _
    rw [resolveType_bare]
    cases resolveType ds m.type with
    | none => rfl
    | some d => exact h d

theorem sizeDef_bare (ds : List Def) (fuel : Nat) : ∀ d,
    sizeDef (ds.map bareDef) fuel (bareDef d) = sizeDef ds fuel d := by
  induction fuel with
  | zero => intro d; rfl
  | succ fuel ih =>
    intro d
    cases d with
    | seq n c ms => exact sumSizes_bare ih ds ms
    | enum n c its => exact enumSizeBits_bare its
    | simple n c t => rfl
    | choice n c ms => rfl

theorem sizeMember_bare (ds : List Def) (fuel : Nat) (m : Member) :
    sizeMember (ds.map bareDef) fuel (bareMember m) = sizeMember ds fuel m := by
  unfold sizeMember
  show (match resolveType (ds.map bareDef) m.type with
      | some d => sizeDef (ds.map bareDef) fuel d | none => unresolvedSizeBits m.type) = _
  rw [resolveType_bare]
  cases resolveType ds m.type with
  | none => rfl
  | some d => exact sizeDef_bare ds fuel d

theorem mapMember_bare (ds : List Def) (t : AType) : mapMember (ds.map bareDef) t = mapMember ds t := by
  unfold mapMember
  rw [resolveType_bare]
  cases resolveType ds t with
  | none => rfl
  | some d =>
    cases d with
    | enum n c its => simp only [Option.map_some, bareDef, enumSizeBits_bare]
    | _ => rfl

theorem isSimple_bare (d : Def) : (bareDef d).isSimple = d.isSimple := by cases d <;> rfl

theorem fieldType_bare (ds simple : List Def) (t : AType) :
    fieldType (ds.map bareDef) (simple.map bareDef) t = fieldType ds simple t := by
  unfold fieldType
  rw [mapMember_bare]
  cases mapMember ds t with
  | error e => rfl
  | ok m =>
    show (match (simple.map bareDef).find? _ with | some (.simple _ _ st) => _ | _ => _) =
      (match simple.find? _ with | some (.simple _ _ st) => _ | _ => _)
    rw [List.find?_map]
    have e : ((fun d : Def => d.isSimple && cName d.name ==
        (if posixCTypes.contains (lowerize m.ctype) = true then lowerize m.ctype else m.ctype)) ∘ bareDef) =
        (fun d : Def => d.isSimple && cName d.name ==
        (if posixCTypes.contains (lowerize m.ctype) = true then lowerize m.ctype else m.ctype)) := by
      funext d
      simp only [Function.comp_apply, isSimple_bare, bareDef_name]
    rw [e]
    cases List.find? _ simple with
    | none => rfl
    | some d => cases d <;> rfl

theorem simpleDefs_bare (ds : List Def) : simpleDefs (ds.map bareDef) = (simpleDefs ds).map bareDef := by
  unfold simpleDefs
  rw [List.filter_map]
  congr 2
  funext d
  exact isSimple_bare d

theorem simpleList_bare (bm : BMod) : simpleList (bareBMod bm) = (simpleList bm).map bareDef := by
  unfold simpleList bareBMod
  simp only [List.map_append, List.flatMap_map, List.map_flatMap]
  congr 1
  · exact simpleDefs_bare bm.mod.defs
  · congr 1
    funext m
    exact simpleDefs_bare m.defs

/-! ### Binary definitions -/

theorem binMembers_bare (ds : List Def) (fuel : Nat) (ms : List Member) :
    binMembers (ds.map bareDef) fuel (ms.map bareMember) = binMembers ds fuel ms := by
  induction ms with
  | nil => rfl
  | cons m ms ih =>
    rw [List.map_cons, binMembers, binMembers, ih, sizeMember_bare]
    rfl

theorem binDefs_bare (ds : List Def) (fuel : Nat) (es : List Def) :
    binDefs (ds.map bareDef) fuel (es.map bareDef) = binDefs ds fuel es := by
  induction es with
  | nil => rfl
  | cons d es ih =>
    cases d <;> simp only [List.map_cons, bareDef, binDefs, ih, binMembers_bare]

end Apg
