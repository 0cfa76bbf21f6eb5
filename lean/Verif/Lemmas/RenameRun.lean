import Verif.Lemmas.RenameCosmos
import Verif.Lemmas.LocalRun

/-!
# The other commands on renamed modules
-/

namespace Apg
open Spec

variable {ρ ν : String → String} (h : Renaming ρ ν)
include h

/-! ### Order of definitions and modules -/

theorem ready_rename (l : List String) (d : Def) : (renameDef ρ d).ready (l.map ρ) = d.ready l := by
  have key : ∀ ms : List Member, (ms.map (renameMember ρ)).all (fun m => (l.map ρ).contains m.type.name) =
      ms.all (fun m => l.contains m.type.name) := by
    intro ms
    rw [List.all_map]
    congr 1
    funext m
    show (l.map ρ).contains (renameType ρ m.type).name = _
    rw [renameType_name, h.contains]
  cases d with
  | seq n c ms => exact key ms
  | choice n c ms => exact key ms
  | enum n c its => rfl
  | simple n c t => rfl

theorem sortPass_rename (ds : List Def) : ∀ l : List String, sortPass (l.map ρ) (ds.map (renameDef ρ)) =
    ((sortPass l ds).1.map (renameDef ρ), (sortPass l ds).2.1.map (renameDef ρ), (sortPass l ds).2.2.map ρ) := by
  induction ds with
  | nil => intro l; rfl
  | cons d ds ih =>
    intro l
    have e : l.map ρ ++ [ρ d.name] = (l ++ [d.name]).map ρ := by simp
    rw [List.map_cons, sortPass, sortPass, ready_rename h, renameDef_name, e]
    split <;> simp only [ih, List.map_cons]

theorem sortLoop_rename (fuel : Nat) : ∀ (l : List String) (done todo : List Def),
    sortLoop fuel (l.map ρ) (done.map (renameDef ρ)) (todo.map (renameDef ρ)) =
      (sortLoop fuel l done todo).map (List.map (renameDef ρ)) := by
  induction fuel with
  | zero => intro l done todo; rfl
  | succ fuel ih =>
    intro l done todo
    cases todo with
    | nil => rfl
    | cons d ds =>
      have e := sortPass_rename h (d :: ds) l
      rw [List.map_cons] at e
      rw [List.map_cons, sortLoop, sortLoop]
      simp only [e]
      rw [← ih, List.map_append]

theorem sortDefs_rename (fuel : Nat) (m : Module) :
    sortDefs fuel (renameModule ρ ν m) = (sortDefs fuel m).map (List.map (renameDef ρ)) := by
  have e : sortBase (renameModule ρ ν m) = (sortBase m).map ρ := by
    simp only [sortBase, renameModule, List.map_append, h.predefined, List.flatMap_map, List.map_flatMap]
  unfold sortDefs
  rw [e]
  exact sortLoop_rename h fuel (sortBase m) [] m.defs

omit h in
/-- The state of the loops under new names. -/
def renameState (ρ ν : String → String) (s : OrderState) : OrderState :=
  { mods := s.mods.map (renameModule ρ ν), names := s.names.map ν, order := s.order.map (renameModule ρ ν) }

omit h in
theorem importNames_rename (ms : List Module) :
    importNames (ms.map (renameModule ρ ν)) = (importNames ms).map ν := by
  unfold importNames
  rw [List.flatMap_map, List.map_flatMap]
  congr 1
  funext m
  simp only [renameModule, List.map_map]
  rfl

omit h in
theorem eraseIdx_map {α β : Type} (f : α → β) (ms : List α) (i : Nat) :
    (ms.map f).eraseIdx i = (ms.eraseIdx i).map f := by
  induction ms generalizing i with
  | nil => rfl
  | cons m ms ih =>
    cases i with
    | zero => rfl
    | succ i => simp only [List.map_cons, List.eraseIdx_cons_succ, ih]

omit h in
theorem erase_map_inj {f : String → String} (hf : ∀ a b, f a = f b → a = b) (l : List String) (a : String) :
    (l.map f).erase (f a) = (l.erase a).map f := by
  induction l with
  | nil => rfl
  | cons x l ih =>
    rw [List.map_cons, List.erase_cons, List.erase_cons, ih]
    have : (f x == f a) = (x == a) := by
      rw [Bool.eq_iff_iff, beq_iff_eq, beq_iff_eq]
      exact ⟨hf x a, fun e => e ▸ rfl⟩
    rw [this]
    split <;> rfl

theorem orderPass_rename (i : Nat) (s : OrderState) :
    orderPass i (renameState ρ ν s) = renameState ρ ν (orderPass i s) := by
  have hcon : ∀ (s : OrderState) (n : String),
      (importNames (renameState ρ ν s).mods).contains (ν n) = (importNames s.mods).contains n := by
    intro s n
    show (importNames (s.mods.map (renameModule ρ ν))).contains (ν n) = _
    rw [importNames_rename, h.mcontains]
  induction i, s using orderPass.induct with
  | case1 i s hl name hc ih =>
    rw [orderPass.eq_def i s, orderPass.eq_def i (renameState ρ ν s)]
    have h' : i < (renameState ρ ν s).names.length := by
      show i < (s.names.map ν).length
      rw [List.length_map]; exact hl
    have hget : (renameState ρ ν s).names[i]'h' = ν s.names[i] := List.getElem_map ν
    rw [dif_pos hl, dif_pos h']
    simp only [hget]
    rw [if_pos hc, if_pos (by rw [hcon]; exact hc)]
    exact ih
  | case2 i s hl name hc hm =>
    rw [orderPass.eq_def i s, orderPass.eq_def i (renameState ρ ν s)]
    have h' : i < (renameState ρ ν s).names.length := by
      show i < (s.names.map ν).length
      rw [List.length_map]; exact hl
    have hget : (renameState ρ ν s).names[i]'h' = ν s.names[i] := List.getElem_map ν
    rw [dif_pos hl, dif_pos h']
    simp only [hget]
    rw [if_neg hc, if_neg (by rw [hcon]; exact hc)]
    have hm' : (renameState ρ ν s).mods[i]? = none := by
      show (s.mods.map (renameModule ρ ν))[i]? = none
      rw [List.getElem?_map, hm]; rfl
    rw [hm, hm']
  | case3 i s hl name hc m hm ih =>
    rw [orderPass.eq_def i s, orderPass.eq_def i (renameState ρ ν s)]
    have h' : i < (renameState ρ ν s).names.length := by
      show i < (s.names.map ν).length
      rw [List.length_map]; exact hl
    have hget : (renameState ρ ν s).names[i]'h' = ν s.names[i] := List.getElem_map ν
    rw [dif_pos hl, dif_pos h']
    simp only [hget]
    rw [if_neg hc, if_neg (by rw [hcon]; exact hc)]
    have hm' : (renameState ρ ν s).mods[i]? = some (renameModule ρ ν m) := by
      show (s.mods.map (renameModule ρ ν))[i]? = _
      rw [List.getElem?_map, hm]; rfl
    rw [hm, hm']
    simp only
    rw [← ih]
    congr 1
    unfold renameState
    simp only [List.map_append, List.map_cons, List.map_nil, eraseIdx_map]
    congr 1
    exact erase_map_inj h.modules _ _
  | case4 i s hl =>
    rw [orderPass.eq_def i s, orderPass.eq_def i (renameState ρ ν s), dif_neg hl, dif_neg (by
      show ¬ i < (s.names.map ν).length
      rw [List.length_map]; exact hl)]

theorem orderLoop_rename (fuel : Nat) : ∀ s : OrderState,
    orderLoop fuel (renameState ρ ν s) = (orderLoop fuel s).map (List.map (renameModule ρ ν)) := by
  induction fuel with
  | zero => intro s; rfl
  | succ fuel ih =>
    intro s
    rw [orderLoop, orderLoop]
    cases hs : s.mods with
    | nil =>
      have : (renameState ρ ν s).mods = [] := by show s.mods.map (renameModule ρ ν) = []; rw [hs]; rfl
      rw [this]; rfl
    | cons m ms =>
      have : (renameState ρ ν s).mods = renameModule ρ ν m :: ms.map (renameModule ρ ν) := by
        show s.mods.map (renameModule ρ ν) = _; rw [hs]; rfl
      rw [this]
      simp only
      rw [orderPass_rename h, ih]

theorem orderModules_rename (fuel : Nat) (ms : List Module) :
    orderModules fuel (ms.map (renameModule ρ ν)) = (orderModules fuel ms).map (List.map (renameModule ρ ν)) := by
  unfold orderModules
  rw [← orderLoop_rename h, map_renameModule_name]
  rfl

theorem orderedMods_rename (b : Bundle) (ms : List Module) :
    orderedMods (renameBundle ρ ν b) (ms.map (renameModule ρ ν)) = (orderedMods b ms).map (renameBMod ρ ν) := by
  unfold orderedMods
  rw [List.filterMap_map, List.map_filterMap]
  congr 1
  funext m
  simp only [Function.comp_apply]
  show (b.mods.map (renameBMod ρ ν)).find? _ = _
  rw [List.find?_map]
  congr 2
  funext bm
  exact decide_eq_decide.2 ⟨fun e => renameModule_inj h e, fun e => congrArg (renameModule ρ ν) e⟩

/-! ### Sizes and types -/

theorem resolveType_rename (ds : List Def) (t : AType) :
    resolveType (ds.map (renameDef ρ)) (renameType ρ t) = (resolveType ds t).map (renameDef ρ) := by
  cases t with
  | plain n lo hi => exact lastDef_rename h ds n
  | str n l => rfl
  | arr e l => rfl

theorem unresolvedSizeBits_rename (t : AType) : unresolvedSizeBits (renameType ρ t) = unresolvedSizeBits t := by
  cases t with
  | plain n lo hi =>
    have := cType_rename h (.plain n lo hi)
    simp only [renameType] at this ⊢
    simp only [unresolvedSizeBits, this]
    rfl
  | str n l => rfl
  | arr e l => rfl

theorem sumSizes_rename {rec rec' : Def → Except Err Int} (hr : ∀ d, rec' (renameDef ρ d) = rec d) (ds : List Def)
    (ms : List Member) : sumSizes rec' (ds.map (renameDef ρ)) (ms.map (renameMember ρ)) = sumSizes rec ds ms := by
  induction ms with
  | nil => rfl
  | cons m ms ih =>
    rw [List.map_cons, sumSizes, sumSizes, ih]
    congr 1
    show (match resolveType (ds.map (renameDef ρ)) (renameType ρ m.type) with
      | some d => rec' d | none => unresolvedSizeBits (renameType ρ m.type)) = _
    rw [resolveType_rename h]
    cases resolveType ds m.type with
    | none => exact unresolvedSizeBits_rename h m.type
    | some d => exact hr d

theorem sizeDef_rename (ds : List Def) (fuel : Nat) : ∀ d,
    sizeDef (ds.map (renameDef ρ)) fuel (renameDef ρ d) = sizeDef ds fuel d := by
  induction fuel with
  | zero => intro d; rfl
  | succ fuel ih =>
    intro d
    cases d with
    | seq n c ms => exact sumSizes_rename h ih ds ms
    | enum n c its => rfl
    | simple n c t => exact unresolvedSizeBits_rename h t
    | choice n c ms => rfl

theorem sizeMember_rename (ds : List Def) (fuel : Nat) (m : Member) :
    sizeMember (ds.map (renameDef ρ)) fuel (renameMember ρ m) = sizeMember ds fuel m := by
  unfold sizeMember
  show (match resolveType (ds.map (renameDef ρ)) (renameType ρ m.type) with
      | some d => sizeDef (ds.map (renameDef ρ)) fuel d | none => unresolvedSizeBits (renameType ρ m.type)) = _
  rw [resolveType_rename h]
  cases resolveType ds m.type with
  | none => exact unresolvedSizeBits_rename h m.type
  | some d => exact sizeDef_rename h ds fuel d

theorem mapNumeric_rename (t : AType) : mapNumeric (renameType ρ t) = mapNumeric t := by
  unfold mapNumeric
  rw [cType_rename h, renameType_lo, renameType_hi]

omit h in
/-- A C type under its new name. -/
def retype (ρ : String → String) (n : String) (f : Mapped) : Mapped :=
  { f with ctype := if f.ctype = cName n then cName (ρ n) else f.ctype }

omit h in
theorem retype_same {n : String} (hn : ρ n = n) (f : Mapped) : retype ρ n f = f := by
  unfold retype
  rw [hn]
  cases f
  simp only
  congr 1
  split
  · rename_i e; exact e.symm
  · rfl

omit h in
/-- The name is built in or can be written in the grammar, before and after. -/
def Writable (ρ : String → String) (n : String) : Prop :=
  n ∈ predefined ∨ (isNameCapital n = true ∧ isNameCapital (ρ n) = true)

theorem predefined_same {n : String} (hn : n ∈ Apg.predefined) : ρ n = n := by
  have : ∀ n ∈ Apg.predefined, n ∈ reservedNames := by decide
  exact h.reserved n (this n hn)

theorem mapMember_rename (ds : List Def) {t : AType} (hw : Writable ρ t.name) :
    mapMember (ds.map (renameDef ρ)) (renameType ρ t) = (mapMember ds t).map (retype ρ t.name) := by
  unfold mapMember
  simp only [renameType_name, mapNumeric_rename h, resolveType_rename h]
  rcases hw with hw | ⟨h1, h2⟩
  · have hn := predefined_same h hw
    have hid : retype ρ t.name = id := funext fun f => retype_same hn f
    rw [hn, hid]
    have hmap : ∀ {x : Except Err Mapped}, x.map id = x := by intro x; cases x <;> rfl
    rw [hmap]
    split
    · rfl
    · split
      · rfl
      · cases resolveType ds t with
        | none => rfl
        | some d => cases d <;> rfl
  · obtain ⟨a1, a2, a3⟩ := cName_not_builtin h1
    obtain ⟨b1, b2, b3⟩ := cName_not_builtin h2
    rw [if_neg (by rintro (e | e); exact b1 e; exact b2 e), if_neg b3, if_neg (by rintro (e | e); exact a1 e; exact a2 e),
      if_neg a3]
    cases resolveType ds t with
    | none => simp [Except.map, retype]
    | some d =>
      cases d with
      | enum n c its =>
        simp only [Option.map_some, renameDef]
        cases enumSizeBits its <;> simp [Except.map, bind, Except.bind, retype]
      | _ => simp [Except.map, retype, renameDef]

omit h in
theorem posix_named {n : String} {ct : Text} (hp : Posix n ct) : n ∈ reservedNames := by
  cases hp <;> decide

theorem std_rename {n : String} (h1 : isNameCapital n = true) (h2 : isNameCapital (ρ n) = true) :
    posixCTypes.contains (lowerize (cName (ρ n))) = posixCTypes.contains (lowerize (cName n)) := by
  rw [Bool.eq_iff_iff]
  constructor
  · intro hc
    have := posix_named (lowerize_posix h2 hc)
    rwa [(h.fixed this).1 rfl]
  · intro hc
    have := posix_named (lowerize_posix h1 hc)
    rwa [h.reserved n this]

omit h in
theorem aliasOf_rename {simple : List Def} (hs : ∀ d ∈ simple, (renameDef ρ d).isSimple = d.isSimple) {ct ct' : Text}
    (hc : ∀ d ∈ simple, (cName (ρ d.name) = ct' ↔ cName d.name = ct)) :
    aliasOf (simple.map (renameDef ρ)) ct' = (aliasOf simple ct).map (renameType ρ) := by
  unfold aliasOf
  have e : (simple.map (renameDef ρ)).find? (fun d => d.isSimple && cName d.name == ct') =
      (simple.find? (fun d => d.isSimple && cName d.name == ct)).map (renameDef ρ) := by
    induction simple with
    | nil => rfl
    | cons d ds ih =>
      have e1 : ((renameDef ρ d).isSimple && cName (renameDef ρ d).name == ct') = (d.isSimple && cName d.name == ct) := by
        rw [hs d (by simp), renameDef_name]
        congr 1
        rw [Bool.eq_iff_iff, beq_iff_eq, beq_iff_eq]
        exact hc d (by simp)
      rw [List.map_cons, List.find?_cons, List.find?_cons, e1,
        ih (fun x hx => hs x (by simp [hx])) fun x hx => hc x (by simp [hx])]
      split <;> rfl
  rw [e]
  cases simple.find? (fun d => d.isSimple && cName d.name == ct) with
  | none => rfl
  | some d => cases d <;> rfl

omit h in
theorem aliasOf_lower {simple : List Def} (hcap : ∀ d ∈ simple, isNameCapital d.name = true) {ct : Text}
    (hct : ∀ c ∈ ct.head?, reUpper c = false) : aliasOf simple ct = none := by
  unfold aliasOf
  rw [find_simple_none hcap hct]

omit h in
theorem aliasOf_predefined {simple : List Def} (hcap : ∀ d ∈ simple, isNameCapital d.name = true) {n : String}
    (hn : n ∈ predefined) : aliasOf simple (cName n) = none := by
  unfold aliasOf
  have : simple.find? (fun d => d.isSimple && cName d.name == cName n) = none := by
    rw [List.find?_eq_none]
    intro d hd hx
    simp only [Bool.and_eq_true, beq_iff_eq] at hx
    have h2 := hx.2
    obtain ⟨n1, n2, n3⟩ := cName_not_builtin (hcap d hd)
    obtain ⟨c, r, _, hc, hup⟩ := capital_head (hcap d hd)
    simp only [predefined, List.mem_cons, List.not_mem_nil, or_false] at hn
    rcases hn with e | e | e | e | e <;> rw [e] at h2
    · exact n3 (h2.trans (by decide))
    · exact n1 (h2.trans (by decide))
    · exact n2 (h2.trans (by decide))
    · rw [hc] at h2
      have : cName "IA5String" = ['c', 'h', 'a', 'r'] := by decide
      rw [this, List.cons.injEq] at h2
      rw [h2.1] at hup
      exact absurd hup (by decide)
    · rw [hc] at h2
      have : cName "NumericString" = ['c', 'h', 'a', 'r'] := by decide
      rw [this, List.cons.injEq] at h2
      rw [h2.1] at hup
      exact absurd hup (by decide)
  rw [this]

theorem fieldType_rename (ds simple : List Def) {t : AType} (hw : Writable ρ t.name)
    (hcap : ∀ d ∈ simple, isNameCapital d.name = true) (hcap' : ∀ d ∈ simple, isNameCapital (ρ d.name) = true) :
    fieldType (ds.map (renameDef ρ)) (simple.map (renameDef ρ)) (renameType ρ t) =
      (fieldType ds simple t).map (retype ρ t.name) := by
  have hcap2 : ∀ d ∈ simple.map (renameDef ρ), isNameCapital d.name = true := by
    intro d hd
    obtain ⟨x, hx, rfl⟩ := List.mem_map.1 hd
    rw [renameDef_name]
    exact hcap' x hx
  have hh : ∀ ct ∈ posixCTypes, ∀ c ∈ ct.head?, reUpper c = false := by decide
  rw [fieldType_eq_alias, fieldType_eq_alias, mapMember_rename h ds hw]
  cases hm : mapMember ds t with
  | error e => rfl
  | ok m =>
    simp only [Except.map, bind, Except.bind]
    rcases hw with hw | ⟨h1, h2⟩
    · rw [retype_same (predefined_same h hw)]
      have key : ∀ {simple : List Def}, (∀ d ∈ simple, isNameCapital d.name = true) →
          aliasOf simple (if posixCTypes.contains (lowerize m.ctype) then lowerize m.ctype else m.ctype) = none := by
        intro simple hcap
        split
        · rename_i hp
          exact aliasOf_lower hcap (hh _ (List.contains_iff_mem.1 hp))
        · rcases mapMember_ctype hm with hl | he
          · exact aliasOf_lower hcap hl
          · rw [he]; exact aliasOf_predefined hcap hw
      rw [key hcap, key hcap2]
      simp only
      rw [retype_same (predefined_same h hw)]
    · have hct : m.ctype = cName t.name := by
        unfold mapMember at hm
        obtain ⟨a1, a2, a3⟩ := cName_not_builtin h1
        simp only at hm
        rw [if_neg (by rintro (e | e); exact a1 e; exact a2 e), if_neg a3] at hm
        split at hm
        · simp only [bind_ok] at hm
          obtain ⟨_, _, hm⟩ := hm
          cases hm
          rfl
        · cases hm
          rfl
      have hct' : (retype ρ t.name m).ctype = cName (ρ t.name) := by
        show (if m.ctype = cName t.name then cName (ρ t.name) else m.ctype) = _
        rw [if_pos hct]
      rw [hct', hct, std_rename h h1 h2]
      have hb : (retype ρ t.name m).bits = m.bits ∧ (retype ρ t.name m).stdbool = m.stdbool ∧
          (retype ρ t.name m).stdint = m.stdint := ⟨rfl, rfl, rfl⟩
      rw [hb.1, hb.2.1, hb.2.2]
      by_cases hp : posixCTypes.contains (lowerize (cName t.name)) = true
      · have hn : ρ t.name = t.name := h.reserved _ (posix_named (lowerize_posix h1 hp))
        rw [if_pos hp, if_pos hp, hn, aliasOf_lower hcap (hh _ (List.contains_iff_mem.1 hp)),
          aliasOf_lower hcap2 (hh _ (List.contains_iff_mem.1 hp))]
        simp only
        rw [retype_same hn]
      · rw [if_neg hp, if_neg hp, aliasOf_rename (ct := cName t.name) (fun d _ => by cases d <;> rfl) fun d hd => ⟨fun e => ?_, fun e => ?_⟩]
        · cases ha : aliasOf simple (cName t.name) with
          | none => simp [retype]
          | some st =>
            simp only [Option.map_some, mapSimpleDef, mapNumeric_rename h]
            cases hs : mapNumeric st with
            | error e => rfl
            | ok m' =>
              simp only [retype]
              have : m'.ctype ≠ cName t.name := by
                intro e
                obtain ⟨c, r, _, hc, hup⟩ := capital_head h1
                have := not_upper_of_lower (mapNumeric_lower hs c (by rw [e, hc]; rfl))
                rw [hup] at this
                cases this
              rw [if_neg this]
        · rw [h.types _ _ (cName_inj (Or.inr (hcap' d hd)) (Or.inr h2) e)]
        · rw [cName_inj (Or.inr (hcap d hd)) (Or.inr h1) e]

omit h in
theorem simpleList_rename (bm : BMod) : simpleList (renameBMod ρ ν bm) = (simpleList bm).map (renameDef ρ) := by
  have hs : ∀ ds : List Def, simpleDefs (ds.map (renameDef ρ)) = (simpleDefs ds).map (renameDef ρ) := by
    intro ds
    unfold simpleDefs
    rw [List.filter_map]
    congr 2
    funext d
    cases d <;> rfl
  unfold simpleList renameBMod
  simp only [List.map_append, List.flatMap_map, List.map_flatMap]
  congr 1
  · exact hs bm.mod.defs
  · congr 1
    funext m
    exact hs m.defs

/-! ### Binary definitions -/

omit h in
/-- What is known of a member, under the new name of its type. -/
def renameSpec (ρ : String → String) (x : String × BinSpec) : String × BinSpec :=
  (x.1, { x.2 with typeName := ρ x.2.typeName })

omit h in
/-- What is known of the members of a sequence, under new names. -/
def renameSpecs (ρ : String → String) (x : String × List (String × BinSpec)) : String × List (String × BinSpec) :=
  (ρ x.1, x.2.map (renameSpec ρ))

theorem binMembers_rename (ds : List Def) (fuel : Nat) (ms : List Member) :
    binMembers (ds.map (renameDef ρ)) fuel (ms.map (renameMember ρ)) =
      (binMembers ds fuel ms).map (List.map (renameSpec ρ)) := by
  induction ms with
  | nil => rfl
  | cons m ms ih =>
    rw [List.map_cons, binMembers, binMembers, ih, sizeMember_rename h]
    have e : (renameMember ρ m).comps = m.comps := rfl
    have e1 : (renameMember ρ m).type.cType = m.type.cType := cType_rename h m.type
    have e2 : (renameMember ρ m).type.name = ρ m.type.name := renameType_name m.type
    rw [e, e1, e2]
    cases m.comps with
    | some c => rfl
    | none =>
      simp only
      cases sizeMember ds fuel m with
      | error e => rfl
      | ok size => cases binMembers ds fuel ms <;> rfl

theorem binDefs_rename (ds : List Def) (fuel : Nat) (es : List Def) :
    binDefs (ds.map (renameDef ρ)) fuel (es.map (renameDef ρ)) = (binDefs ds fuel es).map (List.map (renameSpecs ρ)) := by
  induction es with
  | nil => rfl
  | cons d es ih =>
    cases d with
    | seq n c ms =>
      simp only [List.map_cons, renameDef, binDefs, ih, binMembers_rename h]
      cases binMembers ds fuel ms with
      | error e => rfl
      | ok s => cases binDefs ds fuel es <;> rfl
    | _ => simp only [List.map_cons, renameDef, binDefs, ih]

omit h in
theorem lastVal_renameSpec (l : List (String × BinSpec)) (k : String) :
    lastVal (l.map (renameSpec ρ)) k = (lastVal l k).map fun s => { s with typeName := ρ s.typeName } := by
  induction l with
  | nil => rfl
  | cons x l ih =>
    obtain ⟨a, s⟩ := x
    rw [List.map_cons, lastVal, lastVal, ih]
    cases lastVal l k with
    | some r => rfl
    | none =>
      simp only [Option.map_none]
      by_cases e : a = k
      · rw [if_pos (c := (renameSpec ρ (a, s)).1 = k) e, if_pos e]; rfl
      · rw [if_neg (c := (renameSpec ρ (a, s)).1 = k) e, if_neg e]; rfl

theorem lastVal_renameSpecs (l : List (String × List (String × BinSpec))) (n : String) :
    lastVal (l.map (renameSpecs ρ)) (ρ n) = (lastVal l n).map (List.map (renameSpec ρ)) := by
  induction l with
  | nil => rfl
  | cons x l ih =>
    obtain ⟨a, s⟩ := x
    rw [List.map_cons, lastVal, lastVal, ih]
    cases lastVal l n with
    | some r => rfl
    | none =>
      simp only [Option.map_none]
      by_cases e : a = n
      · rw [if_pos (c := (renameSpecs ρ (a, s)).1 = ρ n) (h.iff.2 e), if_pos e]; rfl
      · rw [if_neg (c := (renameSpecs ρ (a, s)).1 = ρ n) (fun k => e (h.iff.1 k)), if_neg e]; rfl

theorem compBytes_rename (defs : List (String × List (String × BinSpec))) (e : Option Endian) (c : Comps) : ∀ tn,
    compBytes (defs.map (renameSpecs ρ)) e (ρ tn) c = compBytes defs e tn c := by
  have hl : ∀ tn k, binLookup (defs.map (renameSpecs ρ)) (ρ tn) k =
      (binLookup defs tn k).map fun s => { s with typeName := ρ s.typeName } := by
    intro tn k
    unfold binLookup
    rw [lastVal_renameSpecs h]
    cases lastVal defs tn with
    | none => rfl
    | some ms =>
      simp only [Option.map_some, lastVal_renameSpec]
      cases lastVal ms k <;> rfl
  induction c with
  | nil => intro tn; rfl
  | leaf k v rest ih =>
    intro tn
    rw [compBytes, compBytes, hl, ih]
    cases binLookup defs tn k with
    | error e => rfl
    | ok s => rfl
  | node k c rest ih1 ih2 =>
    intro tn
    rw [compBytes, compBytes, hl, ih2]
    cases binLookup defs tn k with
    | error e => rfl
    | ok s =>
      simp only [Except.map, bind, Except.bind, ih1]

/-! ### Runs -/

omit h in
/-- How a computation ends. -/
def ended {α : Type} (r : Except Err α) : Except Err Unit := r.map fun _ => ()

omit h in
theorem ended_map {α β : Type} (f : α → β) (r : Except Err α) : ended (r.map f) = ended r := by cases r <;> rfl

omit h in
theorem ended_bind {α β α' β' : Type} {r : Except Err α} {r' : Except Err α'} {f : α → Except Err β}
    {f' : α' → Except Err β'} (hr : ended r' = ended r) (hf : ∀ a a', r = .ok a → r' = .ok a' → ended (f' a') = ended (f a)) :
    ended (r' >>= f') = ended (r >>= f) := by
  cases r with
  | error e =>
    cases r' with
    | error e' => exact hr
    | ok a' => cases hr
  | ok a =>
    cases r' with
    | error e' => cases hr
    | ok a' => exact hf a a' rfl rfl

omit h in
/-- Back ends that end in the same way. -/
structure EndAlike (ρ ν : String → String) (be be' : Backend) (mod : Module) : Prop where
  note : ∀ n t, ended (be'.note (ρ n) (renameType ρ t)) = ended (be.note n t)
  handler : ∀ cn cn' m, ended (be'.handler cn' (renameMember ρ m) (renameModule ρ ν mod)) = ended (be.handler cn m mod)

omit h in
theorem convertMembers_end {be be' : Backend} {mod : Module} (hb : EndAlike ρ ν be be' mod) {ds simple : List Def}
    (cn cn' : Text) (ms : List Member)
    (hf : ∀ m ∈ ms, ended (fieldType (ds.map (renameDef ρ)) (simple.map (renameDef ρ)) (renameType ρ m.type)) =
      ended (fieldType ds simple m.type)) : ∀ cd cd' : CData,
    ended (convertMembers be'.handler (ds.map (renameDef ρ)) (simple.map (renameDef ρ)) (renameModule ρ ν mod) cn'
      (ms.map (renameMember ρ)) cd') = ended (convertMembers be.handler ds simple mod cn ms cd) := by
  induction ms with
  | nil => intro cd cd'; rfl
  | cons m ms ih =>
    intro cd cd'
    rw [List.map_cons, convertMembers, convertMembers]
    refine ended_bind (hf m (by simp)) fun f f' _ _ => ?_
    refine ended_bind ?_ fun a a' _ _ => ?_
    · have e : (renameMember ρ m).comps = m.comps := rfl
      rw [e]
      cases m.comps with
      | none => rfl
      | some c => exact ended_bind (hb.handler cn cn' m) fun _ _ _ _ => rfl
    · exact ended_bind (ih (fun x hx => hf x (by simp [hx])) _ _) fun _ _ _ _ => rfl

omit h in
theorem convertDefs_end {be be' : Backend} {mod : Module} (hb : EndAlike ρ ν be be' mod) {ds simple : List Def}
    (es : List Def) (hf : ∀ d ∈ es, ∀ m ∈ d.members,
      ended (fieldType (ds.map (renameDef ρ)) (simple.map (renameDef ρ)) (renameType ρ m.type)) =
      ended (fieldType ds simple m.type)) : ∀ cd cd' : CData,
    ended (convertDefs be' (ds.map (renameDef ρ)) (simple.map (renameDef ρ)) (renameModule ρ ν mod) cd'
      (es.map (renameDef ρ))) = ended (convertDefs be ds simple mod cd es) := by
  induction es with
  | nil => intro cd cd'; rfl
  | cons d es ih =>
    intro cd cd'
    rw [List.map_cons, convertDefs, convertDefs]
    refine ended_bind ?_ fun a a' _ _ => ih (fun x hx => hf x (by simp [hx])) _ _
    cases d with
    | simple n c t => exact ended_bind (hb.note n t) fun _ _ _ _ => rfl
    | seq n c ms =>
      refine ended_bind ?_ fun _ _ _ _ => rfl
      exact ended_bind (convertMembers_end hb (cName n) (cName (ρ n)) ms (hf (.seq n c ms) (by simp)) {} {}) fun _ _ _ _ => rfl
    | enum n c its => rfl
    | choice n c ms => rfl

theorem moduleData_end {be be' : Backend} {bm : BMod} (hb : EndAlike ρ ν be be' bm.mod) (fuel : Nat) (ds : List Def)
    (hf : ∀ d ∈ bm.mod.defs, ∀ m ∈ d.members,
      ended (fieldType (ds.map (renameDef ρ)) ((simpleList bm).map (renameDef ρ)) (renameType ρ m.type)) =
      ended (fieldType ds (simpleList bm) m.type)) :
    ended (moduleData fuel be' (ds.map (renameDef ρ)) (renameBMod ρ ν bm)) = ended (moduleData fuel be ds bm) := by
  unfold moduleData
  have hs : sortDefs fuel (renameBMod ρ ν bm).mod = (sortDefs fuel bm.mod).map (List.map (renameDef ρ)) :=
    sortDefs_rename h fuel bm.mod
  rw [hs, simpleList_rename]
  cases hsd : sortDefs fuel bm.mod with
  | none => rfl
  | some sorted =>
    simp only [Option.map_some]
    have hp := (sortDefs_spec fuel bm.mod sorted hsd).1
    exact ended_bind (convertDefs_end hb sorted (fun d hd => hf d (hp.mem_iff.1 hd)) _ _) fun _ _ _ _ => rfl

theorem runModules_end {be be' : Backend} (fuel : Nat) (ds : List Def) (bms : List BMod)
    (hb : ∀ bm ∈ bms, EndAlike ρ ν be be' bm.mod)
    (hf : ∀ bm ∈ bms, ∀ d ∈ bm.mod.defs, ∀ m ∈ d.members,
      ended (fieldType (ds.map (renameDef ρ)) ((simpleList bm).map (renameDef ρ)) (renameType ρ m.type)) =
      ended (fieldType ds (simpleList bm) m.type)) :
    (runModules fuel be' (ds.map (renameDef ρ)) (bms.map (renameBMod ρ ν))).result = (runModules fuel be ds bms).result := by
  induction bms with
  | nil => rfl
  | cons bm bms ih =>
    have i := ih (fun x hx => hb x (by simp [hx])) fun x hx => hf x (by simp [hx])
    rw [List.map_cons, runModules, runModules]
    have := moduleData_end h (hb bm (by simp)) fuel ds (hf bm (by simp))
    revert this
    cases moduleData fuel be' (ds.map (renameDef ρ)) (renameBMod ρ ν bm) with
    | error e =>
      cases moduleData fuel be ds bm with
      | error e' =>
        intro he
        simp only [ended, Except.map, Except.error.injEq] at he
        rw [he]
      | ok r => intro he; cases he
    | ok r' =>
      cases moduleData fuel be ds bm with
      | error e' => intro he; cases he
      | ok r => intro _; exact i

/-! ### The back ends -/

theorem cfs_end (p : Printer) (out : Text) (b : Bundle) (mod : Module) :
    EndAlike ρ ν (cfsBackend p out b) (cfsBackend p out (renameBundle ρ ν b)) mod := by
  refine ⟨fun n t => ?_, fun cn cn' m => ?_⟩
  · show ended (cfsNote (renameBundle ρ ν b) (ρ n) (renameType ρ t)) = ended (cfsNote b n t)
    unfold cfsNote
    have e : (renameBundle ρ ν b).uses.find? (fun u => u.1 = ρ n) =
        (b.uses.find? (fun u => u.1 = n)).map (renameUse ρ ν) := by
      show (b.uses.map (renameUse ρ ν)).find? _ = _
      rw [List.find?_map]
      congr 2
      funext u
      exact decide_eq_decide.2 h.iff
    rw [e]
    cases b.uses.find? (fun u => u.1 = n) with
    | none => rfl
    | some u =>
      simp only [Option.map_some, unresolvedSizeBits_rename h]
      exact ended_bind rfl fun _ _ _ _ => rfl
  · have key : ∀ c : Comps, ended (cfsDefines p cn' c) = ended (cfsDefines p cn c) := by
      intro c
      induction c with
      | nil => rfl
      | leaf k v r ih => exact ended_bind ih fun _ _ _ _ => rfl
      | node k c r ih1 ih2 =>
        refine ended_bind ?_ fun _ _ _ _ => ended_bind ih2 fun _ _ _ _ => rfl
        split
        · exact ended_bind rfl fun _ _ _ _ => rfl
        · exact ih1
    show ended (cfsHandler p cn' (renameMember ρ m) (renameModule ρ ν mod)) = ended (cfsHandler p cn m mod)
    unfold cfsHandler
    have e : (renameMember ρ m).comps = m.comps := rfl
    rw [e]
    cases m.comps with
    | none => rfl
    | some c => exact ended_bind (key c) fun _ _ _ _ => rfl

omit h in
theorem c_end (p : Printer) (out : Text) (b b' : Bundle) (mod : Module) :
    EndAlike ρ ν (cBackend p out b) (cBackend p out b') mod := by
  refine ⟨fun n t => rfl, fun cn cn' m => ?_⟩
  show ended (cHandler p cn' (renameMember ρ m) (renameModule ρ ν mod)) = ended (cHandler p cn m mod)
  unfold cHandler
  have e : (renameMember ρ m).comps = m.comps := rfl
  rw [e]
  cases m.comps <;> rfl

theorem binary_end (fuel : Nat) (e : Option Endian) (out : Text) (b : Bundle) (mod : Module) :
    EndAlike ρ ν (binBackend fuel e out b) (binBackend fuel e out (renameBundle ρ ν b)) mod := by
  refine ⟨fun n t => ?_, fun cn cn' m => ?_⟩
  · show ended (binNote (ρ n) (renameType ρ t)) = ended (binNote n t)
    have : ∀ n t, ended (binNote n t) = .ok () := by
      intro n t
      unfold binNote
      split <;> rfl
    rw [this, this]
  · show ended (binHandler (renameBundle ρ ν b).defs fuel e cn' (renameMember ρ m) (renameModule ρ ν mod)) =
      ended (binHandler b.defs fuel e cn m mod)
    unfold binHandler
    have e1 : (renameMember ρ m).comps = m.comps := rfl
    have e2 : (renameModule ρ ν mod).defs = mod.defs.map (renameDef ρ) := rfl
    have e3 : (renameMember ρ m).type.name = ρ m.type.name := renameType_name m.type
    rw [e1, e2, e3, renameBundle_defs, binDefs_rename h]
    cases m.comps with
    | none => rfl
    | some c =>
      simp only
      cases binDefs b.defs fuel mod.defs with
      | error e => rfl
      | ok defs =>
        simp only [Except.map, bind, Except.bind, compBytes_rename h]
        cases compBytes defs e m.type.name c <;> rfl

/-- Names of types in an accepted bundle are built in or those of definitions. -/
theorem member_writable {raw : List Module} {cfg : List String} {b : Bundle} (hg : ∀ m ∈ raw, GrammarModule m)
    (hg' : ∀ m ∈ raw, GrammarModule (renameModule ρ ν m)) (hb : buildFromConfig raw cfg = .ok b) {bm : BMod}
    (hbm : bm ∈ b.mods) {d : Def} (hd : d ∈ bm.mod.defs) {k : Member} (hk : k ∈ d.members) : Writable ρ k.type.name := by
  have hbt := buildFromTexts_of_config hb
  have hb' : buildFromTexts (raw.map (renameModule ρ ν)) = .ok (renameBundle ρ ν b) := by
    rw [buildFromTexts_rename h, hbt]; rfl
  have hg2 : ∀ m ∈ raw.map (renameModule ρ ν), GrammarModule m := by
    intro m hm
    obtain ⟨x, hx, rfl⟩ := List.mem_map.1 hm
    exact hg' x hx
  by_cases hn : BuiltIn k.type.name
  · left
    rcases hn with e | e | e | e | e <;> rw [e] <;> decide
  · right
    obtain ⟨x, hx, hxn⟩ := (used_simple hb hbm hd hk (usesName_name _) hn).1
    refine ⟨?_, ?_⟩
    · rw [← hxn]; exact def_capital (accepted_grammar hg hbt x hx).1
    · have := def_capital (accepted_grammar hg2 hb' (renameDef ρ x) (by
        rw [renameBundle_defs]; exact List.mem_map_of_mem hx)).1
      rw [renameDef_name, hxn] at this
      exact this

theorem runCommand_rename {mk : Bundle → Backend} {raw : List Module} (hg : ∀ m ∈ raw, GrammarModule m)
    (hg' : ∀ m ∈ raw, GrammarModule (renameModule ρ ν m)) (fuel : Nat) (cfg : List String) (out : Text)
    (hb : ∀ b mod, EndAlike ρ ν (mk b) (mk (renameBundle ρ ν b)) mod) :
    (runCommand fuel mk (raw.map (renameModule ρ ν)) (cfg.map ν) out).result = (runCommand fuel mk raw cfg out).result := by
  unfold runCommand
  rw [buildFromConfig_rename h]
  cases hbb : buildFromConfig raw cfg with
  | error e => rfl
  | ok b =>
    simp only [Except.map, generate, renameBundle_modules, orderModules_rename h]
    cases ho : orderModules fuel b.modules with
    | none => rfl
    | some ms =>
      simp only [Option.map_some]
      rw [orderedMods_rename h, renameBundle_defs]
      have hmem : ∀ bm ∈ orderedMods b ms, bm ∈ b.mods := by
        intro bm hbm
        obtain ⟨m, _, hm⟩ := List.mem_filterMap.1 hbm
        exact List.mem_of_find?_eq_some hm
      have hbt := buildFromTexts_of_config hbb
      have hb' : buildFromTexts (raw.map (renameModule ρ ν)) = .ok (renameBundle ρ ν b) := by
        rw [buildFromTexts_rename h, hbt]; rfl
      have hg2 : ∀ m ∈ raw.map (renameModule ρ ν), GrammarModule m := by
        intro m hm
        obtain ⟨x, hx, rfl⟩ := List.mem_map.1 hm
        exact hg' x hx
      refine runModules_end h fuel b.defs (orderedMods b ms) (fun bm _ => hb b bm.mod) fun bm hbm d hd k hk => ?_
      rw [fieldType_rename h b.defs (simpleList bm) (member_writable h hg hg' hbb (hmem bm hbm) hd hk), ended_map]
      · intro x hx
        exact def_capital (accepted_grammar hg hbt x (simpleList_defs hbb (hmem bm hbm) x hx)).1
      · intro x hx
        have := def_capital (accepted_grammar hg2 hb' (renameDef ρ x) (by
          rw [renameBundle_defs]; exact List.mem_map_of_mem (simpleList_defs hbb (hmem bm hbm) x hx))).1
        rwa [renameDef_name] at this

end Apg
