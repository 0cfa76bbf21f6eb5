import Verif.Model.Output
import Verif.Lemmas.Bundle
import Verif.Spec.Files
import Verif.Lemmas.Sorter

namespace Apg
open Spec

/-! ### Lists related element by element -/

theorem All2.length_eq {α β} {R : α → β → Prop} {l : List α} {l' : List β} (h : All2 R l l') :
    l.length = l'.length := by
  induction h with
  | nil => rfl
  | cons _ _ ih => simp [ih]

theorem All2.imp {α β} {R S : α → β → Prop} {l : List α} {l' : List β} (h : All2 R l l')
    (hi : ∀ a b, R a b → S a b) : All2 S l l' := by
  induction h with
  | nil => exact .nil
  | cons h1 _ ih => exact .cons (hi _ _ h1) ih

theorem All2.flip {α β} {P : α → β → Prop} {l : List α} {l' : List β} (h : All2 P l l') :
    All2 (fun b a => P a b) l' l := by
  induction h with
  | nil => exact .nil
  | cons h _ ih => exact .cons h ih

theorem All2.imp_mem {α β} {R S : α → β → Prop} {l : List α} {l' : List β} (h : All2 R l l')
    (hi : ∀ a ∈ l, ∀ b, R a b → S a b) : All2 S l l' := by
  induction h with
  | nil => exact .nil
  | cons h1 _ ih =>
    exact .cons (hi _ (by simp) _ h1) (ih (fun a ha => hi a (by simp [ha])))

theorem All2.append {α β} {R : α → β → Prop} {l m : List α} {l' m' : List β} (h : All2 R l l')
    (h' : All2 R m m') : All2 R (l ++ m) (l' ++ m') := by
  induction h with
  | nil => exact h'
  | cons h1 _ ih => exact .cons h1 ih

theorem All2.zip_mem {α β} {R : α → β → Prop} {l : List α} {l' : List β} (h : All2 R l l')
    {x : α × β} (hx : x ∈ l.zip l') : R x.1 x.2 := by
  induction h with
  | nil => simp at hx
  | cons h1 _ ih =>
    simp only [List.zip_cons_cons, List.mem_cons] at hx
    rcases hx with rfl | hx
    · exact h1
    · exact ih hx

theorem All2.zip_mem_left {α β} {R : α → β → Prop} {l : List α} {l' : List β} (h : All2 R l l')
    {a : α} (ha : a ∈ l) : ∃ b, (a, b) ∈ l.zip l' ∧ R a b := by
  induction h with
  | nil => cases ha
  | cons h1 _ ih =>
    simp only [List.mem_cons] at ha
    rcases ha with rfl | ha
    · exact ⟨_, by simp, h1⟩
    · obtain ⟨b, hb, hr⟩ := ih ha
      exact ⟨b, by simp [hb], hr⟩

/-! ### Definitions of a module -/

/-- What one definition contributes. -/
def defPart (be : Backend) (ds simple : List Def) (mod : Module) : Def → Except Err CData
  | .simple n _ t => be.note n t >>= fun notes => .ok { includes := notes }
  | .seq n c ms => convertSequence be.handler ds simple mod n c ms
  | .enum n c its => .ok (convertEnum n c its)
  | .choice n c ms => .ok (convertChoice n c ms)

/-- `cd'` is `cd` with the data of `ps` added. -/
structure Joined (cd : CData) (ps : List CData) (cd' : CData) : Prop where
  data : cd'.data = cd.data ++ ps.flatMap (·.data)
  defines : cd'.defines = cd.defines ++ ps.flatMap (·.defines)
  includes : cd'.includes = cd.includes ++ ps.flatMap (·.includes)
  inits : cd'.inits = cd.inits ++ ps.flatMap (·.inits)
  predefs : cd'.predefs = cd.predefs ++ ps.flatMap (·.predefs)
  stdbool : cd'.stdbool = (cd.stdbool || ps.any (·.stdbool))
  stdint : cd'.stdint = (cd.stdint || ps.any (·.stdint))
  bins : cd'.bins = ps.foldl (fun d p => dictUpdate d p.bins) cd.bins
  headerComment : cd'.headerComment = cd.headerComment

theorem Joined.nil (cd : CData) : Joined cd [] cd := by
  constructor <;> simp

theorem Joined.extend (cd e : CData) : Joined cd [e] (cd.extend e) := by
  constructor <;> simp [CData.extend]

theorem Joined.trans {a b c : CData} {ps qs : List CData} (h : Joined a ps b) (h' : Joined b qs c) :
    Joined a (ps ++ qs) c := by
  constructor
  · rw [h'.data, h.data]; simp
  · rw [h'.defines, h.defines]; simp
  · rw [h'.includes, h.includes]; simp
  · rw [h'.inits, h.inits]; simp
  · rw [h'.predefs, h.predefs]; simp
  · rw [h'.stdbool, h.stdbool]; simp [Bool.or_assoc]
  · rw [h'.stdint, h.stdint]; simp [Bool.or_assoc]
  · rw [h'.bins, h.bins]; simp
  · rw [h'.headerComment, h.headerComment]

theorem convertDef_ok {be : Backend} {ds simple : List Def} {mod : Module} {cd cd' : CData} {d : Def}
    (h : convertDef be ds simple mod cd d = .ok cd') :
    ∃ p, defPart be ds simple mod d = .ok p ∧ Joined cd [p] cd' := by
  cases d with
  | simple n c t =>
    simp only [convertDef, bind_ok, Except.ok.injEq] at h
    obtain ⟨notes, h1, rfl⟩ := h
    refine ⟨{ includes := notes }, by simp [defPart, h1, bind, Except.bind], ?_⟩
    constructor <;> simp [dictUpdate]
  | seq n c ms =>
    simp only [convertDef, bind_ok, Except.ok.injEq] at h
    obtain ⟨e, h1, rfl⟩ := h
    exact ⟨e, h1, Joined.extend _ _⟩
  | enum n c its =>
    simp only [convertDef, Except.ok.injEq] at h
    subst h
    exact ⟨_, rfl, Joined.extend _ _⟩
  | choice n c ms =>
    simp only [convertDef, Except.ok.injEq] at h
    subst h
    exact ⟨_, rfl, Joined.extend _ _⟩

theorem convertDefs_ok {be : Backend} {ds simple : List Def} {mod : Module} {l : List Def} :
    ∀ {cd cd' : CData}, convertDefs be ds simple mod cd l = .ok cd' →
    ∃ ps, All2 (fun d p => defPart be ds simple mod d = .ok p) l ps ∧ Joined cd ps cd' := by
  induction l with
  | nil =>
    intro cd cd' h
    simp only [convertDefs, Except.ok.injEq] at h
    subst h
    exact ⟨[], .nil, Joined.nil _⟩
  | cons d l ih =>
    intro cd cd' h
    simp only [convertDefs, bind_ok] at h
    obtain ⟨c1, h1, h2⟩ := h
    obtain ⟨p, hp, hj⟩ := convertDef_ok h1
    obtain ⟨ps, hps, hjs⟩ := ih h2
    exact ⟨p :: ps, .cons hp hps, hj.trans hjs⟩

/-- What the clause of one member contributes. -/
def memberPart (h : Handler) (cn : Text) (mod : Module) (m : Member) : Except Err CData :=
  match m.comps with
  | none => .ok {}
  | some _ => h cn m mod

/-- `convertMembers` in closed form. -/
theorem convertMembers_ok {h : Handler} {ds simple : List Def} {mod : Module} {cn : Text}
    {ms : List Member} : ∀ {cd : CData} {r : List CLine × CData},
    convertMembers h ds simple mod cn ms cd = .ok r →
    ∃ rs : List (Mapped × CData),
      All2 (fun m x => fieldType ds simple m.type = .ok x.1 ∧ memberPart h cn mod m = .ok x.2) ms rs ∧
      r.1 = (ms.zip rs).flatMap (fun x => commentLines x.1 ++ [fieldLine x.1 x.2.1]) ∧
      Joined { cd with
        stdbool := cd.stdbool || rs.any (·.1.stdbool)
        stdint := cd.stdint || rs.any (·.1.stdint) } (rs.map (·.2)) r.2 := by
  induction ms with
  | nil =>
    intro cd r hr
    simp only [convertMembers, Except.ok.injEq] at hr
    subst hr
    refine ⟨[], .nil, by simp, ?_⟩
    simpa using Joined.nil cd
  | cons m ms ih =>
    intro cd r hr
    simp only [convertMembers, bind_ok] at hr
    obtain ⟨f, hf, cd1, hc, r1, hr1, hr2⟩ := hr
    simp only [Except.ok.injEq] at hr2
    subst hr2
    obtain ⟨rs, h1, h2, h3⟩ := ih hr1
    obtain ⟨e, he, hj⟩ : ∃ e, memberPart h cn mod m = .ok e ∧
        Joined { cd with stdbool := cd.stdbool || f.stdbool, stdint := cd.stdint || f.stdint } [e] cd1 := by
      unfold memberPart
      cases hm : m.comps with
      | none =>
        rw [hm] at hc
        simp only [Except.ok.injEq] at hc
        subst hc
        refine ⟨_, rfl, ?_⟩
        constructor <;> simp [dictUpdate]
      | some c =>
        rw [hm] at hc
        simp only [bind_ok, Except.ok.injEq] at hc
        obtain ⟨e, he, rfl⟩ := hc
        exact ⟨e, he, Joined.extend _ _⟩
    refine ⟨(f, e) :: rs, .cons ⟨hf, he⟩ h1, ?_, ?_⟩
    · simp [h2]
    · constructor
      · rw [h3.data]; simp [hj.data]
      · rw [h3.defines]; simp [hj.defines]
      · rw [h3.includes]; simp [hj.includes]
      · rw [h3.inits]; simp [hj.inits]
      · rw [h3.predefs]; simp [hj.predefs]
      · rw [h3.stdbool]; simp only [hj.stdbool]
        simp only [List.any_cons, List.any_nil, Bool.or_false, List.map_cons]
        ac_rfl
      · rw [h3.stdint]; simp only [hj.stdint]
        simp only [List.any_cons, List.any_nil, Bool.or_false, List.map_cons]
        ac_rfl
      · rw [h3.bins]; simp [hj.bins]
      · rw [h3.headerComment]; simp [hj.headerComment]

theorem moduleData_ok {fuel : Nat} {be : Backend} {ds : List Def} {bm : BMod} {cd : CData}
    (h : moduleData fuel be ds bm = .ok cd) :
    ∃ sorted, sortDefs fuel bm.mod = some sorted ∧ sorted.Perm bm.mod.defs ∧
    ∃ ps, All2 (fun d p => defPart be ds (simpleList bm) bm.mod d = .ok p) sorted ps ∧
    ∃ cd1, Joined { includes := importIncludes be.includeFile bm.mod } ps cd1 ∧
      convertDefs be ds (simpleList bm) bm.mod
        { includes := importIncludes be.includeFile bm.mod } sorted = .ok cd1 ∧
      cd = { cd1 with headerComment := headerDoc bm.mod } := by
  unfold moduleData at h
  split at h
  · cases h
  · rename_i sorted hs
    simp only [bind_ok, Except.ok.injEq] at h
    obtain ⟨cd1, h1, rfl⟩ := h
    obtain ⟨ps, h2, h3⟩ := convertDefs_ok h1
    exact ⟨sorted, hs, (sortDefs_spec fuel bm.mod sorted hs).1, ps, h2, cd1, h3, h1, rfl⟩

/-! ### Runs -/

/-- The modules printed, all of them if the run succeeds. -/
theorem runModules_spec (fuel : Nat) (be : Backend) (ds : List Def) (bms : List BMod) :
    ∃ done rest cds, bms = done ++ rest ∧
      All2 (fun bm cd => moduleData fuel be ds bm = .ok cd) done cds ∧
      (runModules fuel be ds bms).ops = (done.zip cds).flatMap (fun x => be.print x.1.mod x.2) ∧
      ((runModules fuel be ds bms).result = .ok () → rest = []) := by
  induction bms with
  | nil => exact ⟨[], [], [], rfl, .nil, rfl, fun _ => rfl⟩
  | cons bm bms ih =>
    rw [runModules]
    cases h : moduleData fuel be ds bm with
    | error e => exact ⟨[], bm :: bms, [], rfl, .nil, rfl, by simp⟩
    | ok cd =>
      obtain ⟨done, rest, cds, h1, h2, h3, h4⟩ := ih
      refine ⟨bm :: done, rest, cd :: cds, by simp [h1], .cons h h2, ?_, h4⟩
      simp only [h3]
      simp

theorem orderedMods_spec {b : Bundle} (hn : (b.modules.map (·.name)).Nodup) {ms : List Module}
    (hp : ms.Perm b.modules) :
    (orderedMods b ms).Perm b.mods ∧ (orderedMods b ms).map (·.mod) = ms := by
  have hnd : (b.mods.map (·.mod)).Nodup := by
    have h : b.modules.Nodup := (List.pairwise_map.1 hn).imp (fun h e => h (by rw [e]))
    exact h
  have hfind : ∀ bm ∈ b.mods, b.mods.find? (fun x => x.mod = bm.mod) = some bm := by
    intro bm hbm
    have h1 : (b.mods.find? (fun x => decide (x.mod = bm.mod))).isSome := by
      rw [List.find?_isSome]
      exact ⟨bm, hbm, by simp⟩
    obtain ⟨y, hy⟩ := Option.isSome_iff_exists.1 h1
    have h2 := List.mem_of_find?_eq_some hy
    have h3 := List.find?_some hy
    simp only [decide_eq_true_eq] at h3
    rw [hy]
    congr 1
    exact mem_unique_of_nodup_map hnd h2 hbm h3
  have hmap : ∀ l : List BMod, (∀ x ∈ l, x ∈ b.mods) → orderedMods b (l.map (·.mod)) = l := by
    intro l
    induction l with
    | nil => intro _; rfl
    | cons x l ih =>
      intro hl
      have h1 := hfind x (hl x (by simp))
      have h2 := ih (fun y hy => hl y (by simp [hy]))
      unfold orderedMods at h2 ⊢
      simp only [List.map_cons]
      rw [List.filterMap_cons_some (f := fun m => b.mods.find? (fun bm => decide (bm.mod = m))) h1, h2]
  have hperm : (orderedMods b ms).Perm b.mods := by
    have h1 : (orderedMods b ms).Perm (orderedMods b b.modules) := List.Perm.filterMap _ hp
    have h2 := hmap b.mods (fun _ h => h)
    unfold Bundle.modules at h1
    rwa [h2] at h1
  refine ⟨hperm, ?_⟩
  have : ∀ l : List Module, (∀ x ∈ l, x ∈ b.modules) → (orderedMods b l).map (·.mod) = l := by
    intro l
    induction l with
    | nil => intro _; rfl
    | cons x l ih =>
      intro hl
      have hx := hl x (by simp)
      unfold Bundle.modules at hx
      obtain ⟨bm, hbm, rfl⟩ := List.mem_map.1 hx
      have h1 := hfind bm hbm
      have h2 := ih (fun y hy => hl y (by simp [hy]))
      unfold orderedMods at h2 ⊢
      rw [List.filterMap_cons_some (f := fun m => b.mods.find? (fun bm => decide (bm.mod = m))) h1]
      simp [h2]
  exact this ms (fun x hx => hp.mem_iff.1 hx)

/-- Anatomy of a run of generate-cfs, generate-c or generate-binary. -/
theorem runCommand_spec (fuel : Nat) (mk : Bundle → Backend) (raw : List Module) (cfg : List String)
    (out : Text) :
    ((runCommand fuel mk raw cfg out).ops = [] ∧
      ∃ e, buildFromConfig raw cfg = .error e ∧ (runCommand fuel mk raw cfg out).result = .error e) ∨
    ∃ b, buildFromConfig raw cfg = .ok b ∧
      ∃ bms done rest cds, bms.Perm b.mods ∧ bms = done ++ rest ∧
        All2 (fun bm cd => moduleData fuel (mk b) b.defs bm = .ok cd) done cds ∧
        (runCommand fuel mk raw cfg out).ops =
          .mkdir out :: (done.zip cds).flatMap (fun x => (mk b).print x.1.mod x.2) ∧
        ((runCommand fuel mk raw cfg out).result = .ok () →
          rest = [] ∧ orderModules fuel b.modules = some (bms.map (·.mod))) := by
  unfold runCommand
  cases hb : buildFromConfig raw cfg with
  | error e => exact Or.inl ⟨rfl, e, rfl, rfl⟩
  | ok b =>
    refine Or.inr ⟨b, rfl, ?_⟩
    have hn : (b.modules.map (·.name)).Nodup := by
      obtain ⟨ms, h1, h2, _, h4, _⟩ := buildFromConfig_ok.1 hb
      rw [build_modules h4]; exact h2
    simp only [generate]
    cases ho : orderModules fuel b.modules with
    | none =>
      exact ⟨b.mods, [], b.mods, [], List.Perm.refl _, rfl, .nil, rfl, by simp⟩
    | some ms =>
      have hp : ms.Perm b.modules := (orderLoop_spec b.modules fuel _ ms ⟨rfl, hn⟩
        ⟨by simp, by simp, by simp⟩ ho).1
      obtain ⟨h1, h2⟩ := orderedMods_spec hn hp
      obtain ⟨done, rest, cds, k1, k2, k3, k4⟩ :=
        runModules_spec fuel (mk b) b.defs (orderedMods b ms)
      refine ⟨orderedMods b ms, done, rest, cds, h1, k1, k2, ?_, ?_⟩
      · simp only [k3]
      · intro hr
        exact ⟨k4 hr, by rw [h2]⟩

/-! ### Effects on files -/

/-- No operation appends. -/
def NoAppend (ops : List FileOp) : Prop := ∀ o ∈ ops, ∀ p c, o ≠ .append p c

theorem apply_eq_writes {ops : List FileOp} (h : NoAppend ops) (fs : Files) :
    ops.foldl FileOp.apply fs =
      (ops.filterMap FileOp.written).foldl (fun fs w => FileOp.apply fs (.write w.1 w.2)) fs := by
  induction ops generalizing fs with
  | nil => rfl
  | cons o ops ih =>
    have ih := ih (fun o ho => h o (by simp [ho]))
    cases o with
    | mkdir p =>
      rw [List.filterMap_cons_none (by rfl)]
      exact ih fs
    | write p c => simpa [FileOp.written] using ih _
    | append p c => exact absurd rfl (h _ (by simp) p c)

/-- Content of a file after a list of writes. -/
theorem writes_get (ws : List (Text × Content)) (fs : Files) (q : Text) :
    (ws.foldl (fun fs w => FileOp.apply fs (.write w.1 w.2)) fs) q =
      match ws.reverse.find? (fun w => w.1 = q) with
      | some w => some w.2
      | none => fs q := by
  induction ws generalizing fs with
  | nil => rfl
  | cons w ws ih =>
    simp only [List.foldl_cons, ih, List.reverse_cons, List.find?_append]
    cases hf : ws.reverse.find? (fun w => decide (w.1 = q)) with
    | some x => simp
    | none =>
      simp only [Option.none_or, FileOp.apply]
      by_cases hq : w.1 = q
      · simp [hq]
      · simp [hq, Ne.symm hq]

theorem writes_get_nodup {ws : List (Text × Content)} (hn : (ws.map (·.1)).Nodup) (fs : Files)
    {w : Text × Content} (hw : w ∈ ws) :
    (ws.foldl (fun fs w => FileOp.apply fs (.write w.1 w.2)) fs) w.1 = some w.2 := by
  rw [writes_get]
  have h1 : (ws.reverse.find? (fun x => decide (x.1 = w.1))).isSome := by
    rw [List.find?_isSome]
    exact ⟨w, by simp [hw], by simp⟩
  obtain ⟨y, hy⟩ := Option.isSome_iff_exists.1 h1
  have h2 := List.mem_of_find?_eq_some hy
  have h3 := List.find?_some hy
  simp only [decide_eq_true_eq] at h3
  rw [hy]
  have : y = w := mem_unique_of_nodup_map hn (by simpa using h2) hw h3
  simp [this]

theorem writes_get_other {ws : List (Text × Content)} (fs : Files) {q : Text}
    (hq : ∀ w ∈ ws, w.1 ≠ q) :
    (ws.foldl (fun fs w => FileOp.apply fs (.write w.1 w.2)) fs) q = fs q := by
  rw [writes_get]
  have : ws.reverse.find? (fun x => decide (x.1 = q)) = none := by
    rw [List.find?_eq_none]
    intro x hx
    simpa using hq x (by simpa using hx)
  rw [this]

theorem printToFile_noAppend (cd : CData) (fn out : Text) (ty : HeaderType) :
    NoAppend (printToFile cd fn out ty) := by
  intro o ho p c
  unfold printToFile at ho
  simp only [List.mem_cons] at ho
  rcases ho with rfl | ho
  · simp
  · split at ho
    · simp at ho; rw [ho]; simp
    · split at ho
      · obtain ⟨b, _, rfl⟩ := List.mem_map.1 ho
        simp
      · cases ho

theorem noAppend_flatMap {α} {l : List α} {f : α → List FileOp} (h : ∀ a ∈ l, NoAppend (f a)) :
    NoAppend (l.flatMap f) := by
  intro o ho
  obtain ⟨a, ha, hoa⟩ := List.mem_flatMap.1 ho
  exact h a ha o hoa

theorem runCommand_noAppend (fuel : Nat) (mk : Bundle → Backend) (raw : List Module)
    (cfg : List String) (out : Text) (hpr : ∀ b m cd, NoAppend ((mk b).print m cd)) :
    NoAppend (runCommand fuel mk raw cfg out).ops := by
  rcases runCommand_spec fuel mk raw cfg out with ⟨h, _⟩ | ⟨b, _, bms, done, rest, cds, _, _, _, h, _⟩
  · rw [h]; intro o ho; cases ho
  · rw [h]
    intro o ho p c
    simp only [List.mem_cons] at ho
    rcases ho with rfl | ho
    · simp
    · exact noAppend_flatMap (fun x _ => hpr b x.1.mod x.2) o ho p c

end Apg
