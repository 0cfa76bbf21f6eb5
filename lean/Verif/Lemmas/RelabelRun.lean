import Verif.Lemmas.Relabel
import Verif.Lemmas.RenameRun

/-!
# Order, sizes, types and ends of runs do not depend on the names of members and items
-/

namespace Apg

open Spec

variable {κ ι : String → String}

/-! ### Order of definitions -/

theorem ready_relabel (l : List String) (d : Def) : ((relabelDef κ ι) d).ready l = d.ready l := by
  cases d <;> simp only [relabelDef, Def.ready, List.all_map] <;> rfl

theorem sortPass_relabel (ds : List Def) : ∀ l : List String, sortPass l (ds.map (relabelDef κ ι)) =
    ((sortPass l ds).1.map (relabelDef κ ι), (sortPass l ds).2.1.map (relabelDef κ ι), (sortPass l ds).2.2) := by
  induction ds with
  | nil => intro l; rfl
  | cons d ds ih =>
    intro l
    rw [List.map_cons, sortPass, sortPass, ready_relabel, relabelDef_name]
    split <;> simp only [ih, List.map_cons]

theorem sortLoop_relabel (fuel : Nat) : ∀ (l : List String) (done todo : List Def),
    sortLoop fuel l (done.map (relabelDef κ ι)) (todo.map (relabelDef κ ι)) = (sortLoop fuel l done todo).map (List.map (relabelDef κ ι)) := by
  induction fuel with
  | zero => intro l done todo; rfl
  | succ fuel ih =>
    intro l done todo
    cases todo with
    | nil => rfl
    | cons d ds =>
      have e := sortPass_relabel (κ := κ) (ι := ι) (d :: ds) l
      rw [List.map_cons] at e
      rw [List.map_cons, sortLoop, sortLoop]
      simp only [e]
      rw [← ih, List.map_append]

theorem sortDefs_relabel (fuel : Nat) (m : Module) :
    sortDefs fuel ((relabelModule κ ι) m) = (sortDefs fuel m).map (List.map (relabelDef κ ι)) := sortLoop_relabel fuel (sortBase m) [] m.defs

/-! ### Order of modules -/

/-- The state of the loops under new labels. -/
def relabelState (κ ι : String → String) (s : OrderState) : OrderState :=
  { mods := s.mods.map (relabelModule κ ι), names := s.names, order := s.order.map (relabelModule κ ι) }

theorem importNames_relabel (ms : List Module) : importNames (ms.map (relabelModule κ ι)) = importNames ms := by
  unfold importNames
  rw [List.flatMap_map]
  rfl

theorem orderPass_relabel (i : Nat) (s : OrderState) : orderPass i (relabelState κ ι s) = relabelState κ ι (orderPass i s) := by
  induction i, s using orderPass.induct with
  | case1 i s h name hc ih =>
    rw [orderPass.eq_def i s, orderPass.eq_def i (relabelState κ ι s)]
    have h' : i < (relabelState κ ι s).names.length := h
    rw [dif_pos h, dif_pos h']
    have hc' : (importNames (relabelState κ ι s).mods).contains name = true := by
      show (importNames (s.mods.map (relabelModule κ ι))).contains name = true
      rw [importNames_relabel]; exact hc
    simp only
    rw [if_pos hc, if_pos (show (importNames (relabelState κ ι s).mods).contains (relabelState κ ι s).names[i] = true from hc')]
    exact ih
  | case2 i s h name hc hm =>
    rw [orderPass.eq_def i s, orderPass.eq_def i (relabelState κ ι s)]
    have h' : i < (relabelState κ ι s).names.length := h
    rw [dif_pos h, dif_pos h']
    have hc' : ¬ (importNames (relabelState κ ι s).mods).contains name = true := by
      show ¬ (importNames (s.mods.map (relabelModule κ ι))).contains name = true
      rw [importNames_relabel]; exact hc
    simp only
    rw [if_neg hc, if_neg (show ¬ (importNames (relabelState κ ι s).mods).contains (relabelState κ ι s).names[i] = true from hc')]
    have hm' : (relabelState κ ι s).mods[i]? = none := by
      show (s.mods.map (relabelModule κ ι))[i]? = none
      rw [List.getElem?_map, hm]; rfl
    rw [hm, hm']
  | case3 i s h name hc m hm ih =>
    rw [orderPass.eq_def i s, orderPass.eq_def i (relabelState κ ι s)]
    have h' : i < (relabelState κ ι s).names.length := h
    rw [dif_pos h, dif_pos h']
    have hc' : ¬ (importNames (relabelState κ ι s).mods).contains name = true := by
      show ¬ (importNames (s.mods.map (relabelModule κ ι))).contains name = true
      rw [importNames_relabel]; exact hc
    simp only
    rw [if_neg hc, if_neg (show ¬ (importNames (relabelState κ ι s).mods).contains (relabelState κ ι s).names[i] = true from hc')]
    have hm' : (relabelState κ ι s).mods[i]? = some ((relabelModule κ ι) m) := by
      show (s.mods.map (relabelModule κ ι))[i]? = _
      rw [List.getElem?_map, hm]; rfl
    rw [hm, hm']
    simp only
    rw [← ih]
    congr 1
    unfold relabelState
    simp only [List.map_append, List.map_cons, List.map_nil]
    congr 1
    exact eraseIdx_map _ _ _
  | case4 i s h =>
    rw [orderPass.eq_def i s, orderPass.eq_def i (relabelState κ ι s), dif_neg h, dif_neg (show ¬ i < (relabelState κ ι s).names.length from h)]

theorem orderLoop_relabel (fuel : Nat) : ∀ s : OrderState,
    orderLoop fuel (relabelState κ ι s) = (orderLoop fuel s).map (List.map (relabelModule κ ι)) := by
  induction fuel with
  | zero => intro s; rfl
  | succ fuel ih =>
    intro s
    rw [orderLoop, orderLoop]
    cases hs : s.mods with
    | nil =>
      have : (relabelState κ ι s).mods = [] := by show s.mods.map (relabelModule κ ι) = []; rw [hs]; rfl
      rw [this]; rfl
    | cons m ms =>
      have : (relabelState κ ι s).mods = (relabelModule κ ι) m :: ms.map (relabelModule κ ι) := by show s.mods.map (relabelModule κ ι) = _; rw [hs]; rfl
      rw [this]
      simp only
      rw [orderPass_relabel, ih]

theorem orderModules_relabel (fuel : Nat) (ms : List Module) :
    orderModules fuel (ms.map (relabelModule κ ι)) = (orderModules fuel ms).map (List.map (relabelModule κ ι)) := by
  unfold orderModules
  rw [← orderLoop_relabel, map_relabelModule_name]
  rfl

theorem orderedMods_relabel (h : Relabelling κ ι) (b : Bundle) (ms : List Module) :
    orderedMods (relabelBundle κ ι b) (ms.map (relabelModule κ ι)) = (orderedMods b ms).map (relabelBMod κ ι) := by
  unfold orderedMods
  rw [List.filterMap_map, List.map_filterMap]
  congr 1
  funext m
  simp only [Function.comp_apply]
  show (b.mods.map (relabelBMod κ ι)).find? _ = _
  rw [List.find?_map]
  congr 2
  funext bm
  exact decide_eq_decide.2 ⟨fun e => relabelModule_inj h e, fun e => congrArg (relabelModule κ ι) e⟩

/-! ### Sizes and types -/

theorem resolveType_relabel (ds : List Def) (t : AType) :
    resolveType (ds.map (relabelDef κ ι)) t = (resolveType ds t).map (relabelDef κ ι) := by
  cases t with
  | plain n lo hi => exact lastDef_relabel ds n
  | str n l => rfl
  | arr e l => rfl

theorem enumSizeBits_relabel (its : List EnumItem) : enumSizeBits (its.map (relabelEnumItem ι)) = enumSizeBits its := by
  unfold enumSizeBits
  rw [List.map_map]
  rfl

theorem sumSizes_relabel {rec rec' : Def → Except Err Int} (h : ∀ d, rec' ((relabelDef κ ι) d) = rec d) (ds : List Def)
    (ms : List Member) : sumSizes rec' (ds.map (relabelDef κ ι)) (ms.map (relabelMember κ)) = sumSizes rec ds ms := by
  induction ms with
  | nil => rfl
  | cons m ms ih =>
    rw [List.map_cons, sumSizes, sumSizes, ih]
    congr 1
    show (match resolveType (ds.map (relabelDef κ ι)) m.type with
      | some d => rec' d | none => unresolvedSizeBits m.type) = _
    rw [resolveType_relabel]
    cases resolveType ds m.type with
    | none => rfl
    | some d => exact h d

theorem sizeDef_relabel (ds : List Def) (fuel : Nat) : ∀ d,
    sizeDef (ds.map (relabelDef κ ι)) fuel ((relabelDef κ ι) d) = sizeDef ds fuel d := by
  induction fuel with
  | zero => intro d; rfl
  | succ fuel ih =>
    intro d
    cases d with
    | seq n c ms => exact sumSizes_relabel ih ds ms
    | enum n c its => exact enumSizeBits_relabel its
    | simple n c t => rfl
    | choice n c ms => rfl

theorem sizeMember_relabel (ds : List Def) (fuel : Nat) (m : Member) :
    sizeMember (ds.map (relabelDef κ ι)) fuel ((relabelMember κ) m) = sizeMember ds fuel m := by
  unfold sizeMember
  show (match resolveType (ds.map (relabelDef κ ι)) m.type with
      | some d => sizeDef (ds.map (relabelDef κ ι)) fuel d | none => unresolvedSizeBits m.type) = _
  rw [resolveType_relabel]
  cases resolveType ds m.type with
  | none => rfl
  | some d => exact sizeDef_relabel ds fuel d

theorem mapMember_relabel (ds : List Def) (t : AType) : mapMember (ds.map (relabelDef κ ι)) t = mapMember ds t := by
  unfold mapMember
  rw [resolveType_relabel]
  cases resolveType ds t with
  | none => rfl
  | some d =>
    cases d with
    | enum n c its => simp only [Option.map_some, relabelDef, enumSizeBits_relabel]
    | _ => rfl

theorem isSimple_relabel (d : Def) : ((relabelDef κ ι) d).isSimple = d.isSimple := by cases d <;> rfl

theorem fieldType_relabel (ds simple : List Def) (t : AType) :
    fieldType (ds.map (relabelDef κ ι)) (simple.map (relabelDef κ ι)) t = fieldType ds simple t := by
  unfold fieldType
  rw [mapMember_relabel]
  cases mapMember ds t with
  | error e => rfl
  | ok m =>
    show (match (simple.map (relabelDef κ ι)).find? _ with | some (.simple _ _ st) => _ | _ => _) =
      (match simple.find? _ with | some (.simple _ _ st) => _ | _ => _)
    rw [List.find?_map]
    have e : ((fun d : Def => d.isSimple && cName d.name ==
        (if posixCTypes.contains (lowerize m.ctype) = true then lowerize m.ctype else m.ctype)) ∘ (relabelDef κ ι)) =
        (fun d : Def => d.isSimple && cName d.name ==
        (if posixCTypes.contains (lowerize m.ctype) = true then lowerize m.ctype else m.ctype)) := by
      funext d
      simp only [Function.comp_apply, isSimple_relabel, relabelDef_name]
    rw [e]
    cases List.find? _ simple with
    | none => rfl
    | some d => cases d <;> rfl

theorem simpleDefs_relabel (ds : List Def) : simpleDefs (ds.map (relabelDef κ ι)) = (simpleDefs ds).map (relabelDef κ ι) := by
  unfold simpleDefs
  rw [List.filter_map]
  congr 2
  funext d
  exact isSimple_relabel d

theorem simpleList_relabel (bm : BMod) : simpleList (relabelBMod κ ι bm) = (simpleList bm).map (relabelDef κ ι) := by
  unfold simpleList relabelBMod
  simp only [List.map_append, List.flatMap_map, List.map_flatMap]
  congr 1
  · exact simpleDefs_relabel bm.mod.defs
  · congr 1
    funext m
    exact simpleDefs_relabel m.defs

/-! ### Binary definitions -/

/-- What is known of a member, under its new name. -/
def relabelSpec (κ : String → String) (x : String × BinSpec) : String × BinSpec := (κ x.1, x.2)

/-- What is known of the members of a sequence, under their new names. -/
def relabelSpecs (κ : String → String) (x : String × List (String × BinSpec)) : String × List (String × BinSpec) :=
  (x.1, x.2.map (relabelSpec κ))

theorem binMembers_relabel (ds : List Def) (fuel : Nat) (ms : List Member) :
    binMembers (ds.map (relabelDef κ ι)) fuel (ms.map (relabelMember κ)) =
      (binMembers ds fuel ms).map (List.map (relabelSpec κ)) := by
  induction ms with
  | nil => rfl
  | cons m ms ih =>
    rw [List.map_cons, binMembers, binMembers, ih, sizeMember_relabel]
    have e : (relabelMember κ m).comps = m.comps.map (relabelComps κ) := rfl
    rw [e]
    cases m.comps with
    | some c => rfl
    | none =>
      simp only [Option.map_none]
      cases sizeMember ds fuel m with
      | error e => rfl
      | ok size => cases binMembers ds fuel ms <;> rfl

theorem binDefs_relabel (ds : List Def) (fuel : Nat) (es : List Def) :
    binDefs (ds.map (relabelDef κ ι)) fuel (es.map (relabelDef κ ι)) =
      (binDefs ds fuel es).map (List.map (relabelSpecs κ)) := by
  induction es with
  | nil => rfl
  | cons d es ih =>
    cases d with
    | seq n c ms =>
      simp only [List.map_cons, relabelDef, binDefs, ih, binMembers_relabel]
      cases binMembers ds fuel ms with
      | error e => rfl
      | ok s => cases binDefs ds fuel es <;> rfl
    | _ => simp only [List.map_cons, relabelDef, binDefs, ih]

theorem lastVal_relabelSpec (h : Relabelling κ ι) (l : List (String × BinSpec)) (k : String) :
    lastVal (l.map (relabelSpec κ)) (κ k) = lastVal l k := by
  induction l with
  | nil => rfl
  | cons x l ih =>
    obtain ⟨a, s⟩ := x
    rw [List.map_cons, lastVal, ih, relabelSpec, lastVal]
    cases lastVal l k with
    | some r => rfl
    | none =>
      by_cases e : a = k
      · rw [if_pos e]; exact if_pos (h.iff.2 e)
      · rw [if_neg e]; exact if_neg fun x => e (h.iff.1 x)

theorem lastVal_relabelSpecs (l : List (String × List (String × BinSpec))) (n : String) :
    lastVal (l.map (relabelSpecs κ)) n = (lastVal l n).map (List.map (relabelSpec κ)) := by
  induction l with
  | nil => rfl
  | cons x l ih =>
    obtain ⟨a, s⟩ := x
    rw [List.map_cons, lastVal, ih, relabelSpecs, lastVal]
    cases lastVal l n with
    | some r => rfl
    | none =>
      simp only [Option.map_none]
      split <;> rfl

theorem compBytes_relabel (h : Relabelling κ ι) (defs : List (String × List (String × BinSpec))) (e : Option Endian)
    (c : Comps) : ∀ tn, compBytes (defs.map (relabelSpecs κ)) e tn (relabelComps κ c) = compBytes defs e tn c := by
  have hl : ∀ tn k, binLookup (defs.map (relabelSpecs κ)) tn (κ k) = binLookup defs tn k := by
    intro tn k
    unfold binLookup
    rw [lastVal_relabelSpecs]
    cases lastVal defs tn with
    | none => rfl
    | some ms => simp only [Option.map_some, lastVal_relabelSpec h]
  induction c with
  | nil => intro tn; rfl
  | leaf k v rest ih => intro tn; rw [relabelComps, compBytes, compBytes, hl, ih]
  | node k c rest ih1 ih2 =>
    intro tn
    rw [relabelComps, compBytes, compBytes, hl, ih2]
    cases binLookup defs tn k with
    | error e => rfl
    | ok s => simp only [bind, Except.bind, ih1]

theorem binHandler_bytes_relabel (h : Relabelling κ ι) (ds es : List Def) (fuel : Nat) (e : Option Endian) (tn : String)
    (c : Comps) :
    (binDefs (ds.map (relabelDef κ ι)) fuel (es.map (relabelDef κ ι)) >>= fun defs =>
      compBytes defs e tn (relabelComps κ c)) = (binDefs ds fuel es >>= fun defs => compBytes defs e tn c) := by
  rw [binDefs_relabel]
  cases binDefs ds fuel es with
  | error e => rfl
  | ok defs => exact compBytes_relabel h defs e c tn

/-! ### Message identifiers -/

theorem msgIdStep_relabel (h : Relabelling κ ι) (id : Int) (k : String) {v w : CVal}
    (hv : ∀ n, shiftLeft w n = shiftLeft v n) : msgIdStep id (κ k) w = msgIdStep id k v := by
  unfold msgIdStep
  simp only [h.fixed (a := k) (r := "packet-version-number") (by decide),
    h.fixed (a := k) (r := "packet-type-is-cmd") (by decide),
    h.fixed (a := k) (r := "sec-hdr-flag-is-present") (by decide),
    h.fixed (a := k) (r := "application-process-identifier") (by decide), hv]

theorem msgIdInner_relabel (h : Relabelling κ ι) (c : Comps) : ∀ id, msgIdInner id (relabelComps κ c) = msgIdInner id c := by
  induction c with
  | nil => intro id; rfl
  | leaf k v r ih =>
    intro id
    simp only [relabelComps, msgIdInner, msgIdStep_relabel h (v := .leaf v) id k fun _ => rfl, ih]
  | node k c r _ ih =>
    intro id
    simp only [relabelComps, msgIdInner, msgIdStep_relabel h (v := .node c) (w := .node (relabelComps κ c)) id k fun _ => rfl, ih]

theorem msgIdOuter_relabel (h : Relabelling κ ι) (c : Comps) : ∀ id, msgIdOuter id (relabelComps κ c) = msgIdOuter id c := by
  induction c with
  | nil => intro id; rfl
  | leaf k v r ih =>
    intro id
    simp only [relabelComps, msgIdOuter, h.fixed (a := k) (r := "packet-identification") (by decide)]
  | node k c r _ ih =>
    intro id
    simp only [relabelComps, msgIdOuter, h.fixed (a := k) (r := "packet-identification") (by decide),
      msgIdInner_relabel h, ih]

theorem msgId_relabel (h : Relabelling κ ι) (c : Comps) : msgId (relabelComps κ c) = msgId c := msgIdOuter_relabel h c 0

/-! ### Runs -/

/-- Back ends that end in the same way. -/
structure LabelAlike (κ ι : String → String) (be be' : Backend) (mod : Module) : Prop where
  note : ∀ n t, ended (be'.note n t) = ended (be.note n t)
  handler : ∀ cn m, ended (be'.handler cn (relabelMember κ m) (relabelModule κ ι mod)) = ended (be.handler cn m mod)

theorem convertMembers_relabel {be be' : Backend} {mod : Module} (hb : LabelAlike κ ι be be' mod) (ds simple : List Def)
    (cn : Text) (ms : List Member) : ∀ cd cd' : CData,
    ended (convertMembers be'.handler (ds.map (relabelDef κ ι)) (simple.map (relabelDef κ ι)) (relabelModule κ ι mod) cn
      (ms.map (relabelMember κ)) cd') = ended (convertMembers be.handler ds simple mod cn ms cd) := by
  induction ms with
  | nil => intro cd cd'; rfl
  | cons m ms ih =>
    intro cd cd'
    rw [List.map_cons, convertMembers, convertMembers]
    refine ended_bind ?_ fun f f' _ _ => ?_
    · exact congrArg ended (fieldType_relabel ds simple m.type)
    refine ended_bind ?_ fun a a' _ _ => ?_
    · have e : (relabelMember κ m).comps = m.comps.map (relabelComps κ) := rfl
      rw [e]
      cases m.comps with
      | none => rfl
      | some c => exact ended_bind (hb.handler cn m) fun _ _ _ _ => rfl
    · exact ended_bind (ih _ _) fun _ _ _ _ => rfl

theorem convertDefs_relabel {be be' : Backend} {mod : Module} (hb : LabelAlike κ ι be be' mod) (ds simple : List Def)
    (es : List Def) : ∀ cd cd' : CData,
    ended (convertDefs be' (ds.map (relabelDef κ ι)) (simple.map (relabelDef κ ι)) (relabelModule κ ι mod) cd'
      (es.map (relabelDef κ ι))) = ended (convertDefs be ds simple mod cd es) := by
  induction es with
  | nil => intro cd cd'; rfl
  | cons d es ih =>
    intro cd cd'
    rw [List.map_cons, convertDefs, convertDefs]
    refine ended_bind ?_ fun a a' _ _ => ih _ _
    cases d with
    | simple n c t => exact ended_bind (hb.note n t) fun _ _ _ _ => rfl
    | seq n c ms =>
      refine ended_bind ?_ fun _ _ _ _ => rfl
      exact ended_bind (convertMembers_relabel hb ds simple (cName n) ms {} {}) fun _ _ _ _ => rfl
    | enum n c its => rfl
    | choice n c ms => rfl

theorem moduleData_relabel {be be' : Backend} {bm : BMod} (hb : LabelAlike κ ι be be' bm.mod) (fuel : Nat)
    (ds : List Def) :
    ended (moduleData fuel be' (ds.map (relabelDef κ ι)) (relabelBMod κ ι bm)) = ended (moduleData fuel be ds bm) := by
  unfold moduleData
  have hs : sortDefs fuel (relabelBMod κ ι bm).mod = (sortDefs fuel bm.mod).map (List.map (relabelDef κ ι)) :=
    sortDefs_relabel fuel bm.mod
  rw [hs, simpleList_relabel]
  cases sortDefs fuel bm.mod with
  | none => rfl
  | some sorted => exact ended_bind (convertDefs_relabel hb ds (simpleList bm) sorted _ _) fun _ _ _ _ => rfl

theorem runModules_relabel {be be' : Backend} (fuel : Nat) (ds : List Def) (bms : List BMod)
    (hb : ∀ bm ∈ bms, LabelAlike κ ι be be' bm.mod) :
    (runModules fuel be' (ds.map (relabelDef κ ι)) (bms.map (relabelBMod κ ι))).result =
      (runModules fuel be ds bms).result := by
  induction bms with
  | nil => rfl
  | cons bm bms ih =>
    have i := ih fun x hx => hb x (by simp [hx])
    rw [List.map_cons, runModules, runModules]
    have := moduleData_relabel (hb bm (by simp)) fuel ds
    revert this
    cases moduleData fuel be' (ds.map (relabelDef κ ι)) (relabelBMod κ ι bm) with
    | error e =>
      cases moduleData fuel be ds bm with
      | error e' =>
        intro he
        simp only [ended, Except.map, Except.error.injEq] at he
        rw [he]
      | ok r => intro he; cases he
    | ok r' =>
      cases moduleData fuel be ds bm with
      | error e' => intro he; cases he
      | ok r => intro _; exact i

theorem runCommand_relabel (h : Relabelling κ ι) {mk : Bundle → Backend} (fuel : Nat) (raw : List Module)
    (cfg : List String) (out : Text) (hb : ∀ b mod, LabelAlike κ ι (mk b) (mk (relabelBundle κ ι b)) mod) :
    (runCommand fuel mk (raw.map (relabelModule κ ι)) cfg out).result = (runCommand fuel mk raw cfg out).result := by
  unfold runCommand
  rw [buildFromConfig_relabel h]
  cases buildFromConfig raw cfg with
  | error e => rfl
  | ok b =>
    simp only [Except.map, generate, relabelBundle_modules, orderModules_relabel]
    cases orderModules fuel b.modules with
    | none => rfl
    | some ms =>
      simp only [Option.map_some]
      rw [orderedMods_relabel h, relabelBundle_defs]
      exact runModules_relabel fuel b.defs (orderedMods b ms) fun bm _ => hb b bm.mod

/-! ### The back ends -/

theorem cfs_relabel (h : Relabelling κ ι) (p : Printer) (out : Text) (b : Bundle) (mod : Module) :
    LabelAlike κ ι (cfsBackend p out b) (cfsBackend p out (relabelBundle κ ι b)) mod := by
  refine ⟨fun n t => rfl, fun cn m => ?_⟩
  have key : ∀ c : Comps, ended (cfsDefines p cn (relabelComps κ c)) = ended (cfsDefines p cn c) := by
    intro c
    induction c with
    | nil => rfl
    | leaf k v r ih => exact ended_bind ih fun _ _ _ _ => rfl
    | node k c r ih1 ih2 =>
      refine ended_bind ?_ fun _ _ _ _ => ended_bind ih2 fun _ _ _ _ => rfl
      by_cases e : k = "primary"
      · rw [if_pos e, if_pos ((h.fixed (by decide)).2 e), msgId_relabel h]
      · rw [if_neg e, if_neg fun x => e ((h.fixed (by decide)).1 x)]
        exact ih1
  show ended (cfsHandler p cn (relabelMember κ m) (relabelModule κ ι mod)) = ended (cfsHandler p cn m mod)
  unfold cfsHandler
  have e : (relabelMember κ m).comps = m.comps.map (relabelComps κ) := rfl
  rw [e]
  cases m.comps with
  | none => rfl
  | some c => exact ended_bind (key c) fun _ _ _ _ => rfl

theorem c_relabel (p : Printer) (out : Text) (b b' : Bundle) (mod : Module) :
    LabelAlike κ ι (cBackend p out b) (cBackend p out b') mod := by
  refine ⟨fun n t => rfl, fun cn m => ?_⟩
  show ended (cHandler p cn (relabelMember κ m) (relabelModule κ ι mod)) = ended (cHandler p cn m mod)
  unfold cHandler
  have e : (relabelMember κ m).comps = m.comps.map (relabelComps κ) := rfl
  rw [e]
  cases m.comps <;> rfl

theorem binary_relabel (h : Relabelling κ ι) (fuel : Nat) (e : Option Endian) (out : Text) (b : Bundle) (mod : Module) :
    LabelAlike κ ι (binBackend fuel e out b) (binBackend fuel e out (relabelBundle κ ι b)) mod := by
  refine ⟨fun n t => rfl, fun cn m => ?_⟩
  show ended (binHandler (relabelBundle κ ι b).defs fuel e cn (relabelMember κ m) (relabelModule κ ι mod)) =
    ended (binHandler b.defs fuel e cn m mod)
  unfold binHandler
  have e1 : (relabelMember κ m).comps = m.comps.map (relabelComps κ) := rfl
  have e2 : (relabelModule κ ι mod).defs = mod.defs.map (relabelDef κ ι) := rfl
  have e3 : (relabelMember κ m).type = m.type := rfl
  rw [e1, e2, e3, relabelBundle_defs]
  cases m.comps with
  | none => rfl
  | some c =>
    have := binHandler_bytes_relabel h b.defs mod.defs fuel e m.type.name c
    simp only [Option.map_some]
    rw [← bind_assoc, ← bind_assoc, this]

end Apg
