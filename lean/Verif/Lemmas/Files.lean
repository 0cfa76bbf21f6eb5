import Verif.Lemmas.Run
import Verif.Lemmas.FieldType
import Verif.Model.Cfs
import Verif.Model.Binary

namespace Apg
open Spec

theorem accepted_names {raw : List Module} {b : Bundle} (hg : ∀ m ∈ raw, GrammarModule m)
    (h : buildFromTexts raw = .ok b) : ∀ m ∈ b.modules, isNameLower m.name = true := by
  obtain ⟨ms, h1, h2, h3⟩ := buildFromTexts_ok.1 h
  rw [build_modules h2]
  intro m hm
  have : m.name ∈ ms.map (·.name) := List.mem_map.2 ⟨m, hm, rfl⟩
  rw [processModules_names h1] at this
  obtain ⟨m0, hm0, he⟩ := List.mem_map.1 this
  rw [← he]
  exact (hg m0 hm0).1

theorem config_names_nodup {raw : List Module} {cfg : List String} {b : Bundle}
    (h : buildFromConfig raw cfg = .ok b) : (b.modules.map (·.name)).Nodup := by
  obtain ⟨ms, h1, h2, _, h4, _⟩ := buildFromConfig_ok.1 h
  rw [build_modules h4]; exact h2

/-! ### Paths -/

theorem joinPath_eq (out : Text) {f : Text} (hf : f.head? ≠ some '/') : joinPath out f = inDir out f := by
  unfold joinPath inDir
  rw [if_neg hf]

theorem inDir_inj {out f g : Text} (h : inDir out f = inDir out g) : f = g := by
  unfold inDir at h
  split at h
  · exact List.append_cancel_left h
  · have := List.append_cancel_left h
    simpa using this

theorem ident_head {s : String} (h : GrammarName s) (r : Text) :
    (ident s ++ r).head? ≠ some '/' := by
  obtain ⟨c, cs, hs, hc, _⟩ := grammarName_cases h
  have hne : c ≠ '-' := by
    rintro rfl
    rcases hc with hc | hc <;> revert hc <;> decide
  simp only [ident, hs, List.map_cons, if_neg hne, List.cons_append, List.head?_cons]
  rintro ⟨⟩
  rcases hc with hc | hc <;> revert hc <;> decide

theorem lowerize_ident {s : String} (h : isNameCapital s = true) :
    ∃ c r, ident s = c :: r ∧ reUpper c = true ∧ lowerize (ident s) = c.toLower :: r := by
  obtain ⟨c, r, _, h2, h3⟩ := capital_head h
  rw [cName_eq (Or.inr h)] at h2
  exact ⟨c, _, h2, h3, by rw [h2]; rfl⟩

theorem toLower_upper_val {c : Char} (h : reUpper c = true) : c.toLower.toNat = c.toNat + 32 := by
  have hr := h
  simp only [reUpper, Bool.and_eq_true, decide_eq_true_eq] at hr
  have h1 : 65 ≤ c.toNat := hr.1
  have h2 : c.toNat ≤ 90 := hr.2
  have : ∀ n : Fin 91, 65 ≤ n.val → (Char.ofNat n.val).toLower.toNat = n.val + 32 := by decide
  have := this ⟨c.toNat, by omega⟩ h1
  simpa [Char.ofNat_toNat] using this

theorem toLower_upper_inj {c d : Char} (hc : reUpper c = true) (hd : reUpper d = true)
    (h : c.toLower = d.toLower) : c = d := by
  have h1 := toLower_upper_val hc
  have h2 := toLower_upper_val hd
  rw [h] at h1
  have : c.toNat = d.toNat := by omega
  rw [← Char.ofNat_toNat c, this, Char.ofNat_toNat]

theorem lowerize_ident_inj {s t : String} (hs : isNameCapital s = true) (ht : isNameCapital t = true)
    (h : lowerize (ident s) = lowerize (ident t)) : s = t := by
  obtain ⟨c, r, h1, h2, h3⟩ := lowerize_ident hs
  obtain ⟨c', r', h1', h2', h3'⟩ := lowerize_ident ht
  rw [h3, h3'] at h
  simp only [List.cons.injEq] at h
  have := toLower_upper_inj h2 h2' h.1
  apply ident_inj (Or.inr hs) (Or.inr ht)
  rw [h1, h1', this, h.2]

theorem lowerize_ident_head {s : String} (h : isNameCapital s = true) (r : Text) :
    (lowerize (ident s) ++ r).head? ≠ some '/' := by
  obtain ⟨c, r', _, h2, h3⟩ := lowerize_ident h
  rw [h3]
  intro he
  simp only [List.cons_append, List.head?_cons, Option.some.injEq] at he
  have h4 := toLower_upper_val h2
  rw [he] at h4
  simp only [reUpper, Bool.and_eq_true, decide_eq_true_eq] at h2
  have h1 : 65 ≤ c.toNat := h2.1
  have : '/'.toNat = 47 := by decide
  omega

/-! ### Dictionaries -/

theorem dictSet_keys {α} (d : List (Text × α)) (k : Text) (v : α) :
    (dictSet d k v).map (·.1) = if k ∈ d.map (·.1) then d.map (·.1) else d.map (·.1) ++ [k] := by
  induction d with
  | nil => rfl
  | cons x d ih =>
    obtain ⟨k', v'⟩ := x
    simp only [dictSet]
    by_cases h : k' = k
    · simp [h]
    · simp only [if_neg h, List.map_cons, ih, List.mem_cons, Ne.symm h, false_or]
      split <;> simp

theorem dictSet_nodup {α} {d : List (Text × α)} (k : Text) (v : α) (h : (d.map (·.1)).Nodup) :
    ((dictSet d k v).map (·.1)).Nodup := by
  rw [dictSet_keys]
  split
  · exact h
  · rename_i hk
    exact List.nodup_append.2 ⟨h, by simp, by
      intro a ha b hb
      simp at hb
      subst hb
      rintro rfl
      exact hk ha⟩

theorem dictUpdate_nodup {α} {d : List (Text × α)} (e : List (Text × α)) (h : (d.map (·.1)).Nodup) :
    ((dictUpdate d e).map (·.1)).Nodup := by
  unfold dictUpdate
  induction e generalizing d with
  | nil => exact h
  | cons x e ih => exact ih (dictSet_nodup _ _ h)

theorem dictUpdate_keys {α} {d e : List (Text × α)} (k : Text) :
    k ∈ (dictUpdate d e).map (·.1) ↔ k ∈ d.map (·.1) ∨ k ∈ e.map (·.1) := by
  unfold dictUpdate
  induction e generalizing d with
  | nil => simp
  | cons x e ih =>
    rw [List.foldl_cons, ih, dictSet_keys]
    split
    · rename_i hx
      simp only [List.map_cons, List.mem_cons]
      constructor
      · rintro (h | h)
        · exact Or.inl h
        · exact Or.inr (Or.inr h)
      · rintro (h | rfl | h)
        · exact Or.inl h
        · exact Or.inl hx
        · exact Or.inr h
    · simp only [List.map_cons, List.mem_cons, List.mem_append, List.not_mem_nil, or_false]
      constructor
      · rintro ((h | h) | h)
        · exact Or.inl h
        · exact Or.inr (Or.inl h)
        · exact Or.inr (Or.inr h)
      · rintro (h | h | h)
        · exact Or.inl (Or.inl h)
        · exact Or.inl (Or.inr h)
        · exact Or.inr h

theorem foldl_dictUpdate_nodup {ps : List CData} {d : List (Text × List (List UInt8))}
    (h : (d.map (·.1)).Nodup) :
    ((ps.foldl (fun d p => dictUpdate d p.bins) d).map (·.1)).Nodup := by
  induction ps generalizing d with
  | nil => exact h
  | cons p ps ih => exact ih (dictUpdate_nodup _ h)

theorem foldl_dictUpdate_keys {ps : List CData} {d : List (Text × List (List UInt8))} (k : Text) :
    k ∈ (ps.foldl (fun d p => dictUpdate d p.bins) d).map (·.1) ↔
      k ∈ d.map (·.1) ∨ ∃ p ∈ ps, k ∈ p.bins.map (·.1) := by
  induction ps generalizing d with
  | nil => simp
  | cons p ps ih =>
    rw [List.foldl_cons, ih, dictUpdate_keys]
    simp [or_assoc]

/-- Handlers file binary data under the lower-case sequence name only. -/
def BinKeys (h : Handler) : Prop :=
  ∀ cn m mod cd, h cn m mod = .ok cd → ∀ b ∈ cd.bins, b.1 = lowerize cn

theorem binHandler_keys (ds : List Def) (fuel : Nat) (e : Option Endian) :
    BinKeys (binHandler ds fuel e) := by
  intro cn m mod cd h b hb
  unfold binHandler at h
  split at h
  · cases h; simp at hb
  · simp only [bind_ok, Except.ok.injEq] at h
    obtain ⟨_, _, _, _, rfl⟩ := h
    simp at hb
    rw [hb]

theorem defPart_keys {be : Backend} (hb : BinKeys be.handler) {ds simple : List Def} {mod : Module}
    {d : Def} {p : CData} (h : defPart be ds simple mod d = .ok p) :
    ∀ k ∈ p.bins.map (·.1), (∃ n c ms, d = .seq n c ms) ∧ k = lowerize (cName d.name) := by
  intro k hk
  cases d with
  | simple n c t =>
    simp only [defPart, bind_ok, Except.ok.injEq] at h
    obtain ⟨_, _, rfl⟩ := h
    simp at hk
  | enum n c its =>
    simp only [defPart, convertEnum, Except.ok.injEq] at h
    subst h
    simp at hk
  | choice n c ms =>
    simp only [defPart, convertChoice, Except.ok.injEq] at h
    subst h
    simp at hk
  | seq n c ms =>
    refine ⟨⟨n, c, ms, rfl⟩, ?_⟩
    simp only [defPart, convertSequence, bind_ok, Except.ok.injEq] at h
    obtain ⟨r, hr, rfl⟩ := h
    obtain ⟨rs, h1, _, h3⟩ := convertMembers_ok hr
    simp only [h3.bins] at hk
    rw [foldl_dictUpdate_keys] at hk
    simp only [List.map_nil, List.not_mem_nil, false_or] at hk
    obtain ⟨q, hq, hkq⟩ := hk
    obtain ⟨x, hx, rfl⟩ := List.mem_map.1 hq
    obtain ⟨m, _, _, hm⟩ := all2_mem_right h1 hx
    unfold memberPart at hm
    obtain ⟨bb, hbb, rfl⟩ := List.mem_map.1 hkq
    split at hm
    · simp only [Except.ok.injEq] at hm
      rw [← hm] at hbb
      simp at hbb
    · exact hb _ _ _ _ hm bb hbb

theorem moduleData_keys {fuel : Nat} {be : Backend} (hb : BinKeys be.handler) {ds : List Def}
    {bm : BMod} {cd : CData} (h : moduleData fuel be ds bm = .ok cd) :
    (cd.bins.map (·.1)).Nodup ∧
    ∀ k ∈ cd.bins.map (·.1), ∃ n c ms, Def.seq n c ms ∈ bm.mod.defs ∧ k = lowerize (cName n) := by
  obtain ⟨sorted, _, hp, ps, h1, cd1, hj, _, rfl⟩ := moduleData_ok h
  constructor
  · simp only [hj.bins]
    exact foldl_dictUpdate_nodup (by simp)
  · intro k hk
    simp only [hj.bins] at hk
    rw [foldl_dictUpdate_keys] at hk
    simp only [List.map_nil, List.not_mem_nil, false_or] at hk
    obtain ⟨p, hp', hk⟩ := hk
    obtain ⟨d, hd, hdp⟩ := all2_mem_right h1 hp'
    obtain ⟨⟨n, c, ms, rfl⟩, he⟩ := defPart_keys hb hdp k hk
    exact ⟨n, c, ms, hp.mem_iff.1 hd, he⟩

/-! ### The files of a run -/

/-- Paths of the files printed for a module. -/
def printed (ops : List FileOp) : List (Text × Content) := ops.filterMap FileOp.written

theorem printed_append (a b : List FileOp) : printed (a ++ b) = printed a ++ printed b :=
  List.filterMap_append

theorem printed_flatMap {α} (l : List α) (f : α → List FileOp) :
    printed (l.flatMap f) = l.flatMap (fun a => printed (f a)) := by
  induction l with
  | nil => rfl
  | cons a l ih => simp [printed_append, ih]

theorem printed_cfs (p : Printer) (out : Text) (b : Bundle) (m : Module) (cd : CData)
    (hm : isNameLower m.name = true) :
    printed ((cfsBackend p out b).print m cd) =
      [(inDir out (ident m.name ++ "_msg.h".toList),
        textContent (headerText .msg (ident m.name ++ "_msg.h".toList) cd)),
       (inDir out (ident m.name ++ "_msgids.h".toList),
        textContent (headerText .msgids (ident m.name ++ "_msgids.h".toList) cd))] := by
  have h1 : cName m.name ++ "_msg".toList ++ ".h".toList = ident m.name ++ "_msg.h".toList := by
    rw [cName_eq (Or.inl hm), List.append_assoc]; rfl
  have h2 : cName m.name ++ "_msgids".toList ++ ".h".toList = ident m.name ++ "_msgids.h".toList := by
    rw [cName_eq (Or.inl hm), List.append_assoc]; rfl
  simp only [cfsBackend, printToFile, msgFilename, msgidsFilename, h1, h2,
    joinPath_eq out (ident_head (Or.inl hm) _)]
  rfl

theorem printed_c (p : Printer) (out : Text) (b : Bundle) (m : Module) (cd : CData)
    (hm : isNameLower m.name = true) :
    printed ((cBackend p out b).print m cd) =
      [(inDir out (ident m.name ++ ".h".toList),
        textContent (headerText .stored (ident m.name ++ ".h".toList) cd)),
       (inDir out (ident m.name ++ ".c".toList), textContent (sourceText cd))] := by
  simp only [cBackend, printToFile, cFilename, cName_eq (Or.inl hm),
    joinPath_eq out (ident_head (Or.inl hm) _)]
  rfl

theorem printed_bin (fuel : Nat) (e : Option Endian) (out : Text) (b : Bundle) (m : Module)
    (cd : CData) (hm : isNameLower m.name = true) :
    printed ((binBackend fuel e out b).print m cd) =
      (inDir out (ident m.name ++ ".h".toList),
        textContent (headerText .storedBinary (ident m.name ++ ".h".toList) cd)) ::
      cd.bins.map (fun x => (joinPath out (x.1 ++ ".bin".toList), byteContent x.2)) := by
  simp only [binBackend, printToFile, cFilename, cName_eq (Or.inl hm),
    joinPath_eq out (ident_head (Or.inl hm) _)]
  rw [printed, List.filterMap_cons_some (by rfl)]
  simp only [reduceCtorEq, if_true, if_false, List.filterMap_map]
  congr 1
  induction cd.bins with
  | nil => rfl
  | cons x l ih => simp [FileOp.written]; exact ih

/-- What holds for the modules and data of every run that gets past validation. -/
structure RunInfo (b : Bundle) (done : List BMod) (cds : List CData)
    (data : BMod → CData → Prop) : Prop where
  len : All2 data done cds
  sub : ∀ bm ∈ done, bm ∈ b.mods
  names : (done.map (·.mod.name)).Nodup
  defs : ((done.flatMap (·.mod.defs)).map Def.name).Nodup

theorem runInfo {raw : List Module} {cfg : List String} {b : Bundle}
    (h : buildFromConfig raw cfg = .ok b) {bms done rest : List BMod} (hp : bms.Perm b.mods)
    (he : bms = done ++ rest) {cds : List CData} {data : BMod → CData → Prop}
    (ha : All2 data done cds) : RunInfo b done cds data := by
  have hsub : done.Sublist bms := by rw [he]; exact List.sublist_append_left _ _
  refine ⟨ha, fun bm hbm => hp.mem_iff.1 (hsub.subset hbm), ?_, ?_⟩
  · have h1 := config_names_nodup h
    unfold Bundle.modules at h1
    rw [List.map_map] at h1
    have h2 : (bms.map (·.mod.name)).Nodup := (hp.map _).nodup_iff.2 h1
    exact h2.sublist (hsub.map _)
  · have h1 := accepted_nodup (buildFromTexts_of_config h)
    rw [← defsOf_eq] at h1
    unfold defsOf Bundle.modules at h1
    rw [List.flatMap_map] at h1
    have h2 : ((bms.flatMap (·.mod.defs)).map Def.name).Nodup :=
      ((hp.flatMap_right _).map _).nodup_iff.2 h1
    refine h2.sublist (List.Sublist.map _ ?_)
    rw [he, List.flatMap_append]
    exact List.sublist_append_left _ _

/-- The writes of a run, module by module. -/
theorem run_writes (fuel : Nat) (mk : Bundle → Backend) (raw : List Module) (cfg : List String)
    (out : Text) :
    ((runCommand fuel mk raw cfg out).writes = [] ∧ (runCommand fuel mk raw cfg out).result ≠ .ok ()) ∨
    ∃ b, buildFromConfig raw cfg = .ok b ∧ ∃ done cds,
      RunInfo b done cds (fun bm cd => moduleData fuel (mk b) b.defs bm = .ok cd) ∧
      (runCommand fuel mk raw cfg out).writes =
        (done.zip cds).flatMap (fun x => printed ((mk b).print x.1.mod x.2)) ∧
      ((runCommand fuel mk raw cfg out).result = .ok () →
        done.Perm b.mods ∧ orderModules fuel b.modules = some (done.map (·.mod))) := by
  rcases runCommand_spec fuel mk raw cfg out with ⟨h, _, _, he⟩ | ⟨b, hb, bms, done, rest, cds, hp, he, ha, h, hr⟩
  · left; rw [Run.writes, h, he]; exact ⟨rfl, by simp⟩
  · right
    refine ⟨b, hb, done, cds, runInfo hb hp he ha, ?_, ?_⟩
    · rw [Run.writes, h, List.filterMap_cons_none (by rfl)]
      exact printed_flatMap _ _
    · intro hok
      obtain ⟨rfl, ho⟩ := hr hok
      simp only [List.append_nil] at he
      subst he
      exact ⟨hp, ho⟩

/-- Content of a file after a run that writes every file once. -/
theorem apply_get {r : Run} (hna : NoAppend r.ops) (hn : (r.writes.map (·.1)).Nodup) (fs : Files)
    {w : Text × Content} (hw : w ∈ r.writes) : r.apply fs w.1 = some w.2 := by
  unfold Run.apply
  rw [apply_eq_writes hna]
  exact writes_get_nodup hn fs hw

theorem apply_other {r : Run} (hna : NoAppend r.ops) (fs : Files) {q : Text}
    (hq : q ∉ r.writes.map (·.1)) : r.apply fs q = fs q := by
  unfold Run.apply
  rw [apply_eq_writes hna]
  exact writes_get_other fs (fun w hw he => hq (List.mem_map.2 ⟨w, hw, he⟩))

theorem cfs_noAppend (fuel : Nat) (p : Printer) (raw : List Module) (cfg : List String) (out : Text) :
    NoAppend (runCfs fuel p raw cfg out).ops := by
  refine runCommand_noAppend _ _ _ _ _ ?_
  intro b m cd o ho
  rcases List.mem_append.1 ho with ho | ho <;> exact printToFile_noAppend _ _ _ _ o ho

theorem c_noAppend (fuel : Nat) (p : Printer) (raw : List Module) (cfg : List String) (out : Text) :
    NoAppend (runC fuel p raw cfg out).ops :=
  runCommand_noAppend _ _ _ _ _ (fun _ _ _ => printToFile_noAppend _ _ _ _)

theorem binary_noAppend (fuel : Nat) (e : Option Endian) (raw : List Module) (cfg : List String)
    (out : Text) : NoAppend (runBinary fuel e raw cfg out).ops :=
  runCommand_noAppend _ _ _ _ _ (fun _ _ _ => printToFile_noAppend _ _ _ _)

/-- Every module of a successful run is printed. -/
theorem run_module {fuel : Nat} {mk : Bundle → Backend} {raw : List Module} {cfg : List String}
    {out : Text} (h : (runCommand fuel mk raw cfg out).result = .ok ()) {b : Bundle}
    (hb : buildFromConfig raw cfg = .ok b) {bm : BMod} (hm : bm ∈ b.mods) :
    ∃ cd, moduleData fuel (mk b) b.defs bm = .ok cd ∧
      ∀ w ∈ printed ((mk b).print bm.mod cd), w ∈ (runCommand fuel mk raw cfg out).writes := by
  rcases run_writes fuel mk raw cfg out with ⟨_, hw⟩ | ⟨b', hb', done, cds, hi, hw, hr⟩
  · exact absurd h hw
  · rw [hb] at hb'
    cases hb'
    obtain ⟨hp, _⟩ := hr h
    obtain ⟨cd, hz, hcd⟩ := hi.len.zip_mem_left (hp.mem_iff.2 hm)
    refine ⟨cd, hcd, fun w hwp => ?_⟩
    rw [hw]
    exact List.mem_flatMap.2 ⟨_, hz, hwp⟩

theorem zip_nodup_names {b : Bundle} {done : List BMod} {cds : List CData}
    {data : BMod → CData → Prop} (h : RunInfo b done cds data) :
    (done.zip cds).Pairwise (fun x y => x.1.mod.name ≠ y.1.mod.name) := by
  have h1 : (done.zip cds).map (·.1) = done := List.map_fst_zip (by rw [h.len.length_eq]; exact Nat.le_refl _)
  have h2 := h.names
  rw [← h1, List.map_map] at h2
  exact List.pairwise_map.1 h2

theorem zip_disjoint_defs {b : Bundle} {done : List BMod} {cds : List CData}
    {data : BMod → CData → Prop} (h : RunInfo b done cds data) :
    (done.zip cds).Pairwise (fun x y => ∀ d ∈ x.1.mod.defs, ∀ e ∈ y.1.mod.defs, d.name ≠ e.name) := by
  have h1 : (done.zip cds).map (·.1) = done := List.map_fst_zip (by rw [h.len.length_eq]; exact Nat.le_refl _)
  have h2 := h.defs
  rw [← h1] at h2
  unfold List.Nodup at h2
  rw [List.pairwise_map, List.pairwise_flatMap] at h2
  exact List.pairwise_map.1 h2.2

theorem nodup_flatMap_paths {α} {l : List α} {f : α → List (Text × Content)}
    (h1 : ∀ a ∈ l, ((f a).map (·.1)).Nodup)
    (h2 : l.Pairwise (fun a b => ∀ x ∈ f a, ∀ y ∈ f b, x.1 ≠ y.1)) :
    ((l.flatMap f).map (·.1)).Nodup := by
  unfold List.Nodup
  rw [List.pairwise_map, List.pairwise_flatMap]
  exact ⟨fun a ha => List.pairwise_map.1 (h1 a ha), h2⟩

/-- Comparison of path ends. -/
theorem ends_ne {a b x y : Text} {n : Nat} (hx : n ≤ x.length) (hy : n ≤ y.length)
    (h : x.reverse.take n ≠ y.reverse.take n) : a ++ x ≠ b ++ y := by
  intro he
  apply h
  have := congrArg (fun l => l.reverse.take n) he
  simp only [List.reverse_append] at this
  rwa [List.take_append_of_le_length (by simpa using hx),
    List.take_append_of_le_length (by simpa using hy)] at this

theorem inDir_ident_ne {out : Text} {s t : String} (hs : GrammarName s) (ht : GrammarName t)
    (hne : s ≠ t) (x : Text) : inDir out (ident s ++ x) ≠ inDir out (ident t ++ x) := by
  intro h
  exact hne (ident_inj hs ht (List.append_cancel_right (inDir_inj h)))

end Apg
