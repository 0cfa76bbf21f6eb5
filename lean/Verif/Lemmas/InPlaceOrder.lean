import Verif.Lemmas.InPlace
import Verif.Lemmas.RenameRun
import Verif.Props.Agreement

/-!
# Order, sizes and types with simple types in place of their names
-/

namespace Apg

open Spec

variable {σ : String → Option AType}

/-! ### Order of definitions -/

/-- The definitions left in a second run of the loop, when less is left than in the first. -/
inductive Ahead (σ : String → Option AType) (l : List String) : List Def → List Def → Prop
  | nil : Ahead σ l [] []
  | skip {d ds es} : d.name ∈ l → Ahead σ l ds es → Ahead σ l (d :: ds) es
  | keep {d ds es} : Ahead σ l ds es → Ahead σ l (d :: ds) (inPlaceDef σ d :: es)

theorem Ahead.mono {l l' : List String} (h : ∀ x ∈ l, x ∈ l') {ds es : List Def} (ha : Ahead σ l ds es) :
    Ahead σ l' ds es := by
  induction ha with
  | nil => exact .nil
  | skip hd _ ih => exact .skip (h _ hd) ih
  | keep _ ih => exact .keep ih

theorem ahead_all (l : List String) (ds : List Def) : Ahead σ l ds (ds.map (inPlaceDef σ)) := by
  induction ds with
  | nil => exact .nil
  | cons d ds ih => exact .keep ih

/-- The predefined types are known. -/
def Base (l : List String) : Prop := ∀ x ∈ predefined, x ∈ l

theorem ready_inPlace (hg : ∀ n t, σ n = some t → NumberType t) {l l' : List String} (hb : Base l')
    (hs : ∀ x ∈ l, x ∈ l') {d : Def} (h : d.ready l = true) : (inPlaceDef σ d).ready l' = true := by
  cases d with
  | seq n c ms =>
    simp only [inPlaceDef, Def.ready, List.all_eq_true, List.contains_iff_mem] at h ⊢
    intro m hm
    obtain ⟨m0, hm0, rfl⟩ := List.mem_map.1 hm
    rcases inPlaceType_cases σ m0.type with e | ⟨n, lo, hi, t', _, e1, e2⟩
    · simp only [inPlaceMember, e]; exact hs _ (h m0 hm0)
    · simp only [inPlaceMember, e2]
      rcases number_name (hg _ _ e1) with h | h <;> rw [h] <;> exact hb _ (by simp [predefined])
  | choice n c ms =>
    simp only [inPlaceDef, Def.ready, List.all_eq_true, List.contains_iff_mem] at h ⊢
    exact fun m hm => hs _ (h m hm)
  | enum => rfl
  | simple => rfl

theorem sortPass_sub (ds : List Def) : ∀ (l : List String), ∀ x ∈ l, x ∈ (sortPass l ds).2.2 := by
  induction ds with
  | nil => intro l x hx; exact hx
  | cons d ds ih =>
    intro l x hx
    rw [sortPass]
    split
    · exact ih _ x (List.mem_append_left _ hx)
    · exact ih _ x hx

theorem sortPass_ahead (hg : ∀ n t, σ n = some t → NumberType t) (ds : List Def) : ∀ (es : List Def) (l l' : List String),
    Base l' → (∀ x ∈ l, x ∈ l') → Ahead σ l' ds es →
    Ahead σ (sortPass l' es).2.2 (sortPass l ds).2.1 (sortPass l' es).2.1 ∧
      ∀ x ∈ (sortPass l ds).2.2, x ∈ (sortPass l' es).2.2 := by
  induction ds with
  | nil => intro es l l' _ hs h; cases h; exact ⟨.nil, hs⟩
  | cons d ds ih =>
    intro es l l' hb hs h
    cases h with
    | skip hd h =>
      rw [sortPass]
      split
      · exact ih es _ l' hb (fun x hx => by
          rcases List.mem_append.1 hx with hx | hx
          · exact hs x hx
          · rw [List.mem_singleton.1 hx]; exact hd) h
      · obtain ⟨h1, h2⟩ := ih es l l' hb hs h
        exact ⟨.skip (sortPass_sub es l' _ hd) h1, h2⟩
    | @keep _ _ es h =>
      have hb' : Base (l' ++ [d.name]) := fun x hx => List.mem_append_left _ (hb x hx)
      have hm : ∀ x ∈ l', x ∈ l' ++ [d.name] := fun x hx => List.mem_append_left _ hx
      rw [sortPass, sortPass, inPlaceDef_name]
      by_cases hr : d.ready l = true
      · rw [if_pos hr, if_pos (ready_inPlace hg hb hs hr)]
        exact ih es _ _ hb' (fun x hx => by
          rcases List.mem_append.1 hx with hx | hx
          · exact hm x (hs x hx)
          · exact List.mem_append_right _ hx) (h.mono hm)
      · rw [if_neg hr]
        by_cases hr' : (inPlaceDef σ d).ready l' = true
        · rw [if_pos hr']
          obtain ⟨h1, h2⟩ := ih es l _ hb' (fun x hx => hm x (hs x hx)) (h.mono hm)
          exact ⟨.skip (sortPass_sub es _ _ (List.mem_append_right _ (List.mem_singleton.2 rfl))) h1, h2⟩
        · rw [if_neg hr']
          obtain ⟨h1, h2⟩ := ih es l l' hb hs h
          exact ⟨.keep h1, h2⟩

theorem sortLoop_ahead (hg : ∀ n t, σ n = some t → NumberType t) (fuel : Nat) : ∀ (l l' : List String) (o o' ds es r : List Def),
    Base l' → (∀ x ∈ l, x ∈ l') → Ahead σ l' ds es → sortLoop fuel l o ds = some r → ∃ r', sortLoop fuel l' o' es = some r' := by
  induction fuel with
  | zero => intro l l' o o' ds es r _ _ _ h; cases h
  | succ fuel ih =>
    intro l l' o o' ds es r hb hs ha h
    cases es with
    | nil => exact ⟨_, rfl⟩
    | cons e es =>
      cases ds with
      | nil => cases ha
      | cons d ds =>
        rw [sortLoop] at h ⊢
        simp only at h ⊢
        obtain ⟨h1, h2⟩ := sortPass_ahead hg (d :: ds) (e :: es) l l' hb hs ha
        exact ih _ _ _ _ _ _ _ (fun x hx => sortPass_sub _ _ _ (hb x hx)) h2 h1 h

theorem sortDefs_inPlace (hg : ∀ n t, σ n = some t → NumberType t) {fuel : Nat} {m : Module} {r : List Def}
    (h : sortDefs fuel m = some r) : ∃ r', sortDefs fuel (inPlace σ m) = some r' :=
  sortLoop_ahead hg fuel (sortBase m) (sortBase m) [] [] m.defs _ r (fun _ hx => List.mem_append_left _ hx) (fun _ h => h)
    (ahead_all _ m.defs) h

/-! ### Order of modules -/

/-- The state of the loops with types in place of names. -/
def inPlaceState (σ : String → Option AType) (s : OrderState) : OrderState :=
  { mods := s.mods.map (inPlace σ), names := s.names, order := s.order.map (inPlace σ) }

theorem importNames_inPlace (ms : List Module) : importNames (ms.map (inPlace σ)) = importNames ms := by
  unfold importNames
  rw [List.flatMap_map]
  rfl

theorem eraseIdx_map_inPlace (ms : List Module) (i : Nat) :
    (ms.map (inPlace σ)).eraseIdx i = (ms.eraseIdx i).map (inPlace σ) := by
  induction ms generalizing i with
  | nil => rfl
  | cons m ms ih =>
    cases i with
    | zero => rfl
    | succ i => simp only [List.map_cons, List.eraseIdx_cons_succ, ih]

theorem orderPass_inPlace (i : Nat) (s : OrderState) : orderPass i ((inPlaceState σ) s) = (inPlaceState σ) (orderPass i s) := by
  induction i, s using orderPass.induct with
  | case1 i s h name hc ih =>
    rw [orderPass.eq_def i s, orderPass.eq_def i ((inPlaceState σ) s)]
    have h' : i < ((inPlaceState σ) s).names.length := h
    rw [dif_pos h, dif_pos h']
    have hc' : (importNames ((inPlaceState σ) s).mods).contains name = true := by
      show (importNames (s.mods.map (inPlace σ))).contains name = true
      rw [importNames_inPlace]; exact hc
    simp only
    rw [if_pos hc, if_pos (show (importNames ((inPlaceState σ) s).mods).contains ((inPlaceState σ) s).names[i] = true from hc')]
    exact ih
  | case2 i s h name hc hm =>
    rw [orderPass.eq_def i s, orderPass.eq_def i ((inPlaceState σ) s)]
    have h' : i < ((inPlaceState σ) s).names.length := h
    rw [dif_pos h, dif_pos h']
    have hc' : ¬ (importNames ((inPlaceState σ) s).mods).contains name = true := by
      show ¬ (importNames (s.mods.map (inPlace σ))).contains name = true
      rw [importNames_inPlace]; exact hc
    simp only
    rw [if_neg hc, if_neg (show ¬ (importNames ((inPlaceState σ) s).mods).contains ((inPlaceState σ) s).names[i] = true from hc')]
    have hm' : ((inPlaceState σ) s).mods[i]? = none := by
      show (s.mods.map (inPlace σ))[i]? = none
      rw [List.getElem?_map, hm]; rfl
    rw [hm, hm']
  | case3 i s h name hc m hm ih =>
    rw [orderPass.eq_def i s, orderPass.eq_def i ((inPlaceState σ) s)]
    have h' : i < ((inPlaceState σ) s).names.length := h
    rw [dif_pos h, dif_pos h']
    have hc' : ¬ (importNames ((inPlaceState σ) s).mods).contains name = true := by
      show ¬ (importNames (s.mods.map (inPlace σ))).contains name = true
      rw [importNames_inPlace]; exact hc
    simp only
    rw [if_neg hc, if_neg (show ¬ (importNames ((inPlaceState σ) s).mods).contains ((inPlaceState σ) s).names[i] = true from hc')]
    have hm' : ((inPlaceState σ) s).mods[i]? = some ((inPlace σ) m) := by
      show (s.mods.map (inPlace σ))[i]? = _
      rw [List.getElem?_map, hm]; rfl
    rw [hm, hm']
    simp only
    rw [← ih]
    congr 1
    unfold inPlaceState
    simp only [List.map_append, List.map_cons, List.map_nil]
    congr 1
    exact eraseIdx_map_inPlace _ _
  | case4 i s h =>
    rw [orderPass.eq_def i s, orderPass.eq_def i ((inPlaceState σ) s), dif_neg h, dif_neg (show ¬ i < ((inPlaceState σ) s).names.length from h)]

theorem orderLoop_inPlace (fuel : Nat) : ∀ s : OrderState,
    orderLoop fuel ((inPlaceState σ) s) = (orderLoop fuel s).map (List.map (inPlace σ)) := by
  induction fuel with
  | zero => intro s; rfl
  | succ fuel ih =>
    intro s
    rw [orderLoop, orderLoop]
    cases hs : s.mods with
    | nil =>
      have : ((inPlaceState σ) s).mods = [] := by show s.mods.map (inPlace σ) = []; rw [hs]; rfl
      rw [this]; rfl
    | cons m ms =>
      have : ((inPlaceState σ) s).mods = (inPlace σ) m :: ms.map (inPlace σ) := by show s.mods.map (inPlace σ) = _; rw [hs]; rfl
      rw [this]
      simp only
      rw [orderPass_inPlace, ih]

theorem orderModules_inPlace (fuel : Nat) (ms : List Module) :
    orderModules fuel (ms.map (inPlace σ)) = (orderModules fuel ms).map (List.map (inPlace σ)) := by
  unfold orderModules
  rw [← orderLoop_inPlace, map_inPlace_name]
  rfl

theorem orderedMods_inPlace {b : Bundle} (hn : (b.modules.map (·.name)).Nodup) {ms : List Module}
    (h : ∀ m ∈ ms, m ∈ b.modules) :
    orderedMods ((inPlaceBundle σ) b) (ms.map (inPlace σ)) = (orderedMods b ms).map (inPlaceBMod σ) := by
  unfold orderedMods
  rw [List.filterMap_map, List.map_filterMap]
  refine filterMap_same fun m hm => ?_
  simp only [Function.comp_apply]
  show (b.mods.map (inPlaceBMod σ)).find? _ = _
  rw [List.find?_map]
  congr 1
  have hn' : ∀ bm ∈ b.mods, ((inPlace σ) bm.mod = (inPlace σ) m ↔ bm.mod = m) := by
    intro bm hbm
    refine ⟨fun he => ?_, fun he => he ▸ rfl⟩
    exact mem_unique_of_nodup_map hn (List.mem_map_of_mem hbm) (h m hm)
      (show ((inPlace σ) bm.mod).name = ((inPlace σ) m).name from congrArg Module.name he)
  generalize b.mods = l at hn'
  induction l with
  | nil => rfl
  | cons x l ih =>
    rw [List.find?_cons, List.find?_cons]
    have e : ((fun bm => decide (bm.mod = (inPlace σ) m)) ∘ (inPlaceBMod σ)) x = decide (x.mod = m) := by
      show decide ((inPlace σ) x.mod = (inPlace σ) m) = _
      exact decide_eq_decide.2 (hn' x (by simp))
    rw [e, ih fun y hy => hn' y (by simp [hy])]

/-! ### Sizes and types -/

theorem resolveType_inPlace (ds : List Def) (t : AType) :
    resolveType (ds.map (inPlaceDef σ)) t = (resolveType ds t).map (inPlaceDef σ) := by
  cases t with
  | plain n lo hi => exact lastDef_inPlace ds n
  | str n l => rfl
  | arr e l => rfl

theorem mapMember_inPlace (ds : List Def) (t : AType) : mapMember (ds.map (inPlaceDef σ)) t = mapMember ds t := by
  unfold mapMember
  rw [resolveType_inPlace]
  cases resolveType ds t with
  | none => rfl
  | some d =>
    cases d with
    | _ => rfl

theorem isSimple_inPlace (d : Def) : ((inPlaceDef σ) d).isSimple = d.isSimple := by cases d <;> rfl

theorem fieldType_inPlace (ds simple : List Def) (t : AType) :
    fieldType (ds.map (inPlaceDef σ)) (simple.map (inPlaceDef σ)) t = fieldType ds simple t := by
  unfold fieldType
  rw [mapMember_inPlace]
  cases mapMember ds t with
  | error e => rfl
  | ok m =>
    show (match (simple.map (inPlaceDef σ)).find? _ with | some (.simple _ _ st) => _ | _ => _) =
      (match simple.find? _ with | some (.simple _ _ st) => _ | _ => _)
    rw [List.find?_map]
    have e : ((fun d : Def => d.isSimple && cName d.name ==
        (if posixCTypes.contains (lowerize m.ctype) = true then lowerize m.ctype else m.ctype)) ∘ (inPlaceDef σ)) =
        (fun d : Def => d.isSimple && cName d.name ==
        (if posixCTypes.contains (lowerize m.ctype) = true then lowerize m.ctype else m.ctype)) := by
      funext d
      simp only [Function.comp_apply, isSimple_inPlace, inPlaceDef_name]
    rw [e]
    cases List.find? _ simple with
    | none => rfl
    | some d => cases d <;> rfl

theorem simpleDefs_inPlace (ds : List Def) : simpleDefs (ds.map (inPlaceDef σ)) = (simpleDefs ds).map (inPlaceDef σ) := by
  unfold simpleDefs
  rw [List.filter_map]
  congr 2
  funext d
  exact isSimple_inPlace d

theorem simpleList_inPlace (bm : BMod) : simpleList ((inPlaceBMod σ) bm) = (simpleList bm).map (inPlaceDef σ) := by
  unfold simpleList inPlaceBMod
  simp only [List.map_append, List.flatMap_map, List.map_flatMap]
  congr 1
  · exact simpleDefs_inPlace bm.mod.defs
  · congr 1
    funext m
    exact simpleDefs_inPlace m.defs

end Apg
