import Verif.Lemmas.BareOrder
import Verif.Lemmas.Files

/-!
# Runs on modules without comments
-/

namespace Apg
open Spec

/-- The data of a module but for its texts. -/
def coreOf (cd : CData) : CData := { cd with data := [], includes := [], headerComment := [] }

theorem coreOf_extend (a b : CData) : coreOf (a.extend b) = (coreOf a).extend (coreOf b) := rfl

theorem extend_core {a a' b b' : CData} (h : coreOf a' = coreOf a) (h' : coreOf b' = coreOf b) :
    coreOf (a'.extend b') = coreOf (a.extend b) := by rw [coreOf_extend, coreOf_extend, h, h']

/-- The handler does not look at comments. -/
def Blind (h h' : Handler) (mod : Module) : Prop := ∀ cn m, h' cn (bareMember m) (bare mod) = h cn m mod

theorem convertMembers_core {h h' : Handler} {mod : Module} (hh : Blind h h' mod) (ds simple : List Def) (cn : Text)
    (ms : List Member) : ∀ {cd cd' : CData}, coreOf cd' = coreOf cd →
    (convertMembers h' (ds.map bareDef) (simple.map bareDef) (bare mod) cn (ms.map bareMember) cd').map
        (fun r => coreOf r.2) =
      (convertMembers h ds simple mod cn ms cd).map fun r => coreOf r.2 := by
  induction ms with
  | nil =>
    intro cd cd' hc
    exact congrArg Except.ok hc
  | cons m ms ih =>
    intro cd cd' hc
    rw [List.map_cons, convertMembers, convertMembers]
    have e : fieldType (ds.map bareDef) (simple.map bareDef) (bareMember m).type = fieldType ds simple m.type :=
      fieldType_bare ds simple m.type
    rw [e]
    cases fieldType ds simple m.type with
    | error e => rfl
    | ok f =>
      simp only [bind, Except.bind]
      have hc' : coreOf { cd' with stdbool := cd'.stdbool || f.stdbool, stdint := cd'.stdint || f.stdint } =
          coreOf { cd with stdbool := cd.stdbool || f.stdbool, stdint := cd.stdint || f.stdint } := by
        have h1 : cd'.stdbool = cd.stdbool := show (coreOf cd').stdbool = (coreOf cd).stdbool by rw [hc]
        have h2 : cd'.stdint = cd.stdint := show (coreOf cd').stdint = (coreOf cd).stdint by rw [hc]
        have := congrArg (fun c : CData => { c with stdbool := cd.stdbool || f.stdbool, stdint := cd.stdint || f.stdint }) hc
        rw [h1, h2]
        exact this
      have em : (bareMember m).comps = m.comps := rfl
      rw [em]
      cases m.comps with
      | none =>
        have := ih hc'
        simp only
        revert this
        cases convertMembers h' _ _ _ _ _ _ <;> cases convertMembers h ds simple mod cn ms _ <;>
          simp [Except.map]
      | some c =>
        simp only [hh cn m]
        cases h cn m mod with
        | error e => rfl
        | ok x =>
          have := ih (extend_core hc' (rfl : coreOf x = coreOf x))
          simp only
          revert this
          cases convertMembers h' _ _ _ _ _ _ <;> cases convertMembers h ds simple mod cn ms _ <;>
            simp [Except.map]

theorem convertSequence_core {h h' : Handler} {mod : Module} (hh : Blind h h' mod) (ds simple : List Def) (n : String)
    (c : Option Comment) (ms : List Member) :
    (convertSequence h' (ds.map bareDef) (simple.map bareDef) (bare mod) n none (ms.map bareMember)).map coreOf =
      (convertSequence h ds simple mod n c ms).map coreOf := by
  unfold convertSequence
  have := convertMembers_core hh ds simple (cName n) ms (rfl : coreOf {} = coreOf {})
  revert this
  cases convertMembers h' _ _ _ _ _ _ with
  | error e => 
    cases convertMembers h ds simple mod (cName n) ms {} with
    | error e' => simp [Except.map, bind, Except.bind]
    | ok r => simp [Except.map]
  | ok r' =>
    cases convertMembers h ds simple mod (cName n) ms {} with
    | error e' => simp [Except.map]
    | ok r => 
      intro he
      simp only [Except.map, Except.ok.injEq] at he
      exact congrArg Except.ok he

theorem convertChoice_core (n : String) (c : Option Comment) (ms : List Member) :
    coreOf (convertChoice n none (ms.map bareMember)) = coreOf (convertChoice n c ms) := by
  unfold convertChoice coreOf
  simp only [List.any_map]
  rfl

/-- Back ends that differ only in comments. -/
structure BareBackend (be be' : Backend) (mod : Module) : Prop where
  note : be'.note = be.note
  handler : Blind be.handler be'.handler mod

theorem convertDef_core {be be' : Backend} {mod : Module} (hb : BareBackend be be' mod) (ds simple : List Def)
    {cd cd' : CData} (hc : coreOf cd' = coreOf cd) (d : Def) :
    (convertDef be' (ds.map bareDef) (simple.map bareDef) (bare mod) cd' (bareDef d)).map coreOf =
      (convertDef be ds simple mod cd d).map coreOf := by
  cases d with
  | simple n c t =>
    simp only [bareDef, convertDef, hb.note]
    cases be.note n t with
    | error e => rfl
    | ok ls => exact congrArg Except.ok hc
  | seq n c ms =>
    simp only [bareDef, convertDef]
    have := convertSequence_core hb.handler ds simple n c ms
    revert this
    cases convertSequence be'.handler _ _ _ _ _ _ with
    | error e =>
      cases convertSequence be.handler ds simple mod n c ms with
      | error e' => simp [Except.map, bind, Except.bind]
      | ok r => simp [Except.map]
    | ok r' =>
      cases convertSequence be.handler ds simple mod n c ms with
      | error e' => simp [Except.map]
      | ok r =>
        intro he
        simp only [Except.map, Except.ok.injEq] at he
        exact congrArg Except.ok (extend_core hc he)
  | enum n c its => exact congrArg Except.ok (extend_core hc rfl)
  | choice n c ms => exact congrArg Except.ok (extend_core hc (convertChoice_core n c ms))

theorem convertDefs_core {be be' : Backend} {mod : Module} (hb : BareBackend be be' mod) (ds simple : List Def)
    (es : List Def) : ∀ {cd cd' : CData}, coreOf cd' = coreOf cd →
    (convertDefs be' (ds.map bareDef) (simple.map bareDef) (bare mod) cd' (es.map bareDef)).map coreOf =
      (convertDefs be ds simple mod cd es).map coreOf := by
  induction es with
  | nil => intro cd cd' hc; exact congrArg Except.ok hc
  | cons d es ih =>
    intro cd cd' hc
    rw [List.map_cons, convertDefs, convertDefs]
    have := convertDef_core hb ds simple hc d
    revert this
    cases convertDef be' _ _ _ _ _ with
    | error e =>
      cases convertDef be ds simple mod cd d with
      | error e' => simp [Except.map, bind, Except.bind]
      | ok r => simp [Except.map]
    | ok r' =>
      cases convertDef be ds simple mod cd d with
      | error e' => simp [Except.map]
      | ok r =>
        intro he
        simp only [Except.map, Except.ok.injEq] at he
        exact ih he

/-- The data of a module without comments. -/
theorem moduleData_core {be be' : Backend} {bm : BMod} (hb : BareBackend be be' bm.mod) (fuel : Nat) (ds : List Def) :
    (moduleData fuel be' (ds.map bareDef) (bareBMod bm)).map coreOf = (moduleData fuel be ds bm).map coreOf := by
  unfold moduleData
  have hs : sortDefs fuel (bareBMod bm).mod = (sortDefs fuel bm.mod).map (List.map bareDef) := sortDefs_bare fuel bm.mod
  rw [hs, simpleList_bare]
  cases sortDefs fuel bm.mod with
  | none => rfl
  | some sorted =>
    simp only [Option.map_some]
    have := convertDefs_core hb ds (simpleList bm) sorted
      (cd := { includes := importIncludes be.includeFile bm.mod })
      (cd' := { includes := importIncludes be'.includeFile (bareBMod bm).mod }) rfl
    revert this
    show Except.map coreOf (convertDefs be' (ds.map bareDef) ((simpleList bm).map bareDef) (bareBMod bm).mod _ _) = _ → _
    cases convertDefs be' _ _ _ _ _ with
    | error e =>
      cases convertDefs be ds (simpleList bm) bm.mod _ sorted with
      | error e' => simp [Except.map, bind, Except.bind]
      | ok r => simp [Except.map]
    | ok r' =>
      cases convertDefs be ds (simpleList bm) bm.mod _ sorted with
      | error e' => simp [Except.map]
      | ok r =>
        intro he
        simp only [Except.map, Except.ok.injEq] at he
        exact congrArg Except.ok (show coreOf r' = coreOf r from he)

/-- The same operation, or the same file written at one of the paths `P`. -/
def OpAlike (P : Text → Prop) (o o' : FileOp) : Prop :=
  o = o' ∨ ∃ p c c', P p ∧ o = .write p c ∧ o' = .write p c'

theorem OpAlike.refl {P : Text → Prop} (os : List FileOp) : All2 (OpAlike P) os os := by
  induction os with
  | nil => exact .nil
  | cons o os ih => exact .cons (.inl rfl) ih

theorem OpAlike.trans {P : Text → Prop} {a b c : FileOp} (h : OpAlike P a b) (h' : OpAlike P c b) : OpAlike P a c := by
  rcases h with rfl | ⟨p, x, y, h1, rfl, rfl⟩
  · rcases h' with rfl | ⟨p', x', y', k1, rfl, rfl⟩
    · exact .inl rfl
    · exact .inr ⟨p', y', x', k1, rfl, rfl⟩
  · rcases h' with rfl | ⟨p', x', y', k1, rfl, k3⟩
    · exact .inr ⟨p, x, y, h1, rfl, rfl⟩
    · rw [FileOp.write.injEq] at k3
      obtain ⟨rfl, rfl⟩ := k3
      exact .inr ⟨p, x, x', h1, rfl, rfl⟩

theorem OpAlike.trans_all {P : Text → Prop} {a b c : List FileOp} (h : All2 (OpAlike P) a b) (h' : All2 (OpAlike P) c b) :
    All2 (OpAlike P) a c := by
  induction h generalizing c with
  | nil => cases h'; exact .nil
  | cons h1 _ ih =>
    cases h' with
    | cons h2 h3 => exact .cons (h1.trans h2) (ih h3)

theorem opAlike_apply {P : Text → Prop} {a b : List FileOp} (h : All2 (OpAlike P) a b) {q : Text} (hq : ¬ P q) :
    ∀ {fs fs' : Files}, fs q = fs' q → a.foldl FileOp.apply fs q = b.foldl FileOp.apply fs' q := by
  induction h with
  | nil => intro fs fs' h; exact h
  | @cons o o' a b h1 _ ih =>
    intro fs fs' hf
    refine ih ?_
    rcases h1 with rfl | ⟨p, c, c', k1, rfl, rfl⟩
    · cases o with
      | mkdir p => exact hf
      | write p c =>
        simp only [FileOp.apply]
        split
        · rfl
        · exact hf
      | append p c =>
        simp only [FileOp.apply]
        split
        · rename_i e
          subst e
          rw [hf]
        · exact hf
    · have hne : q ≠ p := fun e => hq (e ▸ k1)
      simp only [FileOp.apply, if_neg hne]
      exact hf

theorem runModules_bare {be be' : Backend} {P : Text → Prop} (fuel : Nat) (ds : List Def) (bms : List BMod)
    (hb : ∀ bm ∈ bms, BareBackend be be' bm.mod)
    (hp : ∀ bm ∈ bms, ∀ cd cd', coreOf cd' = coreOf cd → All2 (OpAlike P) (be.print bm.mod cd) (be'.print (bare bm.mod) cd')) :
    (runModules fuel be ds bms).result = (runModules fuel be' (ds.map bareDef) (bms.map bareBMod)).result ∧
    All2 (OpAlike P) (runModules fuel be ds bms).ops (runModules fuel be' (ds.map bareDef) (bms.map bareBMod)).ops := by
  induction bms with
  | nil => exact ⟨rfl, .nil⟩
  | cons bm bms ih =>
    obtain ⟨i1, i2⟩ := ih (fun x hx => hb x (by simp [hx])) fun x hx => hp x (by simp [hx])
    rw [List.map_cons, runModules, runModules]
    have := moduleData_core (hb bm (by simp)) fuel ds
    revert this
    cases moduleData fuel be' (ds.map bareDef) (bareBMod bm) with
    | error e =>
      cases moduleData fuel be ds bm with
      | error e' =>
        intro he
        simp only [Except.map, Except.error.injEq] at he
        exact ⟨by rw [he], .nil⟩
      | ok r => simp [Except.map]
    | ok r' =>
      cases moduleData fuel be ds bm with
      | error e' => simp [Except.map]
      | ok r =>
        intro he
        simp only [Except.map, Except.ok.injEq] at he
        exact ⟨i1, (hp bm (by simp) r r' he).append i2⟩

/-- A run on modules without comments. -/
theorem runCommand_bare {mk : Bundle → Backend} {raw : List Module} (hc : ∀ m ∈ raw, CleanComments m) {P : Text → Prop}
    (fuel : Nat) (cfg : List String) (out : Text)
    (hb : ∀ b, buildFromConfig raw cfg = .ok b → ∀ m ∈ b.modules, BareBackend (mk b) (mk (bareBundle b)) m)
    (hp : ∀ b, buildFromConfig raw cfg = .ok b → ∀ m ∈ b.modules, ∀ cd cd', coreOf cd' = coreOf cd →
      All2 (OpAlike P) ((mk b).print m cd) ((mk (bareBundle b)).print (bare m) cd')) :
    (runCommand fuel mk raw cfg out).result = (runCommand fuel mk (raw.map bare) cfg out).result ∧
    All2 (OpAlike P) (runCommand fuel mk raw cfg out).ops (runCommand fuel mk (raw.map bare) cfg out).ops := by
  unfold runCommand
  rw [buildFromConfig_map hc]
  cases hbb : buildFromConfig raw cfg with
  | error e => exact ⟨rfl, .nil⟩
  | ok b =>
    simp only [Except.map, generate, bareBundle_modules, orderModules_bare]
    cases ho : orderModules fuel b.modules with
    | none => exact ⟨rfl, OpAlike.refl _⟩
    | some ms =>
      have hn := config_names_nodup hbb
      have hperm : ms.Perm b.modules := (orderLoop_spec b.modules fuel _ ms ⟨rfl, hn⟩ ⟨by simp, by simp, by simp⟩ ho).1
      simp only [Option.map_some]
      rw [orderedMods_bare hn fun m hm => hperm.mem_iff.1 hm, bareBundle_defs]
      have hmem : ∀ bm ∈ orderedMods b ms, bm.mod ∈ b.modules := by
        intro bm hbm
        obtain ⟨m, _, hm⟩ := List.mem_filterMap.1 hbm
        exact List.mem_map.2 ⟨bm, List.mem_of_find?_eq_some hm, rfl⟩
      obtain ⟨h1, h2⟩ := runModules_bare (P := P) fuel b.defs (orderedMods b ms)
        (fun bm hbm => hb b hbb _ (hmem bm hbm)) fun bm hbm => hp b hbb _ (hmem bm hbm)
      exact ⟨h1, .cons (.inl rfl) h2⟩

end Apg
