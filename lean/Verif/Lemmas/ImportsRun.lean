import Verif.Lemmas.Imports
import Verif.Props.FieldTypes

/-!
# Files of runs on modules that import the same in another way
-/

namespace Apg
open Spec

/-! ### One module -/

theorem convertDefs_includes (be : Backend) (ds simple : List Def) (mod : Module) (l : List Def) : ∀ cd : CData,
    ∃ r : Except Err (CData × List Text), ∀ inc, convertDefs be ds simple mod { cd with includes := inc } l =
      r.map fun x => { x.1 with includes := inc ++ x.2 } := by
  induction l with
  | nil => exact fun cd => ⟨.ok (cd, []), fun inc => by rw [convertDefs, Except.map, List.append_nil]⟩
  | cons d l ih =>
    intro cd
    have step : ∀ (f : List Text → Except Err CData) (g : Except Err (CData × List Text)),
        (∀ inc, f inc = g.map fun x => { x.1 with includes := inc ++ x.2 }) →
        ∃ r : Except Err (CData × List Text), ∀ inc, (f inc >>= fun cd' => convertDefs be ds simple mod cd' l) =
          r.map fun x => { x.1 with includes := inc ++ x.2 } := by
      intro f g hf
      cases g with
      | error e => exact ⟨.error e, fun inc => by rw [hf]; rfl⟩
      | ok x =>
        obtain ⟨r, hr⟩ := ih x.1
        refine ⟨r.map fun y => (y.1, x.2 ++ y.2), fun inc => ?_⟩
        rw [hf]
        show convertDefs be ds simple mod { x.1 with includes := inc ++ x.2 } l = _
        rw [hr]
        cases r with
        | error e => rfl
        | ok y => simp only [Except.map, List.append_assoc]
    simp only [convertDefs]
    cases d with
    | simple n c t =>
      refine step _ ((be.note n t).map fun notes => (cd, notes)) fun inc => ?_
      simp only [convertDef]
      cases be.note n t <;> rfl
    | seq n c ms =>
      refine step _ ((convertSequence be.handler ds simple mod n c ms).map fun e => (cd.extend e, e.includes)) fun inc => ?_
      simp only [convertDef]
      cases convertSequence be.handler ds simple mod n c ms <;> rfl
    | enum n c its =>
      exact step _ (.ok (cd.extend (convertEnum n c its), (convertEnum n c its).includes)) fun inc => rfl
    | choice n c ms =>
      exact step _ (.ok (cd.extend (convertChoice n c ms), (convertChoice n c ms).includes)) fun inc => rfl

theorem convertMembers_same {h h' : Handler} {ds simple simple' : List Def} {mod mod' : Module} {cn : Text}
    (hf : ∀ t, fieldType ds simple' t = fieldType ds simple t) (hh : ∀ n m, h' n m mod' = h n m mod) :
    ∀ (ms : List Member) (cd : CData), convertMembers h' ds simple' mod' cn ms cd = convertMembers h ds simple mod cn ms cd := by
  intro ms
  induction ms with
  | nil => intro cd; rfl
  | cons m ms ih => intro cd; simp only [convertMembers, hf, hh, ih]

theorem convertDefs_same {be be' : Backend} {ds simple simple' : List Def} {mod mod' : Module}
    (hf : ∀ t, fieldType ds simple' t = fieldType ds simple t) (hn : be'.note = be.note)
    (hh : ∀ n m, be'.handler n m mod' = be.handler n m mod) (l : List Def) : ∀ cd,
    convertDefs be' ds simple' mod' cd l = convertDefs be ds simple mod cd l := by
  induction l with
  | nil => intro; rfl
  | cons d l ih =>
    intro cd
    have : convertDef be' ds simple' mod' cd d = convertDef be ds simple mod cd d := by
      cases d with
      | simple n c t => simp only [convertDef, hn]
      | seq n c ms => simp only [convertDef, convertSequence, convertMembers_same hf hh]
      | _ => rfl
    simp only [convertDefs, this, ih]

theorem mem_simpleList_reimported {bm bm' : BMod} (h : ReimportedB bm bm') (d : Def) :
    d ∈ simpleList bm ↔ d ∈ simpleList bm' := by
  rw [mem_simpleList, mem_simpleList, h.mod.defs]
  constructor
  · rintro ⟨h1, h2 | ⟨m, h2, h3⟩⟩
    · exact ⟨h1, .inl h2⟩
    · obtain ⟨m', q1, q2⟩ := h.left m h2
      exact ⟨h1, .inr ⟨m', q1, q2.defs ▸ h3⟩⟩
  · rintro ⟨h1, h2 | ⟨m, h2, h3⟩⟩
    · exact ⟨h1, .inl h2⟩
    · obtain ⟨m', q1, q2⟩ := h.right m h2
      exact ⟨h1, .inr ⟨m', q1, q2.defs ▸ h3⟩⟩

/-- Two back ends that treat two versions of a module alike. -/
structure LikeBackend (be be' : Backend) (mod mod' : Module) : Prop where
  file : be'.includeFile = be.includeFile
  note : be'.note = be.note
  handler : ∀ n m, be'.handler n m mod' = be.handler n m mod

/-- The include lines for the imports, without newlines. -/
def importLines (fileOf : String → Text) (m : Module) : List Text :=
  m.imports.map fun i => "#include \"".toList ++ fileOf i.module ++ ['"']

/-- The same data but for the include lines of imports. -/
def OtherLines (fileOf : String → Text) (m m' : Module) (cd cd' : CData) : Prop :=
  ∃ (x : CData) (a z : List Text), cd = { x with includes := a ++ importLines fileOf m ++ z } ∧
    cd' = { x with includes := a ++ importLines fileOf m' ++ z }

theorem moduleData_reimported {be be' : Backend} {ds : List Def} {bm bm' : BMod} (h : ReimportedB bm bm')
    (hb : LikeBackend be be' bm.mod bm'.mod)
    (hu : ∀ d ∈ simpleList bm, ∀ e ∈ simpleList bm, cName d.name = cName e.name → d = e) (fuel : Nat) :
    EndsAlike (OtherLines be.includeFile bm.mod bm'.mod) (moduleData fuel be ds bm) (moduleData fuel be' ds bm') := by
  unfold moduleData
  rw [sortDefs_reimported h.mod]
  cases sortDefs fuel bm.mod with
  | none => exact .error _
  | some sorted =>
    simp only
    have hf : ∀ t, fieldType ds (simpleList bm') t = fieldType ds (simpleList bm) t := fun t =>
      (fieldType_shuffled (fun _ => rfl) (mem_simpleList_reimported h) hu t).symm
    rw [convertDefs_same hf hb.note hb.handler]
    obtain ⟨r, hr⟩ := convertDefs_includes be ds (simpleList bm) bm.mod sorted {}
    have hd : headerDoc bm'.mod = headerDoc bm.mod := by unfold headerDoc; rw [h.mod.comment]
    rw [hr (importIncludes be.includeFile bm.mod), hr (importIncludes be'.includeFile bm'.mod), hd, hb.file]
    cases r with
    | error e => exact .error e
    | ok x =>
      refine .ok ⟨{ x.1 with headerComment := headerDoc bm.mod },
        (match bm.mod.commentImport with | none => [] | some c => [lineComment c.text.toList]), x.2, ?_, ?_⟩
      · unfold importIncludes importLines
        rfl
      · unfold importIncludes importLines
        rw [h.mod.commentImport]
        rfl

/-! ### Texts -/

theorem frame_text (g s a i z q r e : Text) :
    g ++ (s ++ (a ++ i ++ z)) ++ q ++ r ++ e = (g ++ s ++ a) ++ i ++ (z ++ q ++ r ++ e) := by
  simp only [List.append_assoc]

theorem headerText_includes (ty : HeaderType) (hty : ty ≠ .msgids) (fn : Text) (x : CData) (a z : List Text) :
    ∃ pre post, ∀ inc : List Text, headerText ty fn { x with includes := a ++ inc ++ z } =
      pre ++ inc.flatMap (fun i => i ++ ['\n']) ++ post := by
  unfold headerText
  simp only [hty, false_and, if_false, List.append_nil, List.flatMap_append]
  exact ⟨(guardOpen fn ++ ['\n'] ++ fileHeader x.headerComment ++ ['\n']) ++
      ((if x.stdbool = true then "#include <stdbool.h>\n".toList else []) ++
        (if x.stdint = true then "#include <stdint.h>\n".toList else [])) ++ a.flatMap (fun i => i ++ ['\n']),
    z.flatMap (fun i => i ++ ['\n']) ++ ('\n' :: x.data.flatMap fun d => d ++ "\n\n".toList) ++
      (if ty = HeaderType.stored ∧ x.predefs ≠ [] then x.predefs.flatMap (fun i => i ++ ['\n']) ++ ['\n'] else []) ++
        guardClose fn, fun inc => frame_text _ _ _ _ _ _ _ _⟩

theorem headerText_ids (fn : Text) (x : CData) (inc : List Text) :
    headerText .msgids fn { x with includes := inc } = headerText .msgids fn x := rfl

/-! ### Files -/

/-- Two operations: the same, or writing contents in relation. -/
def OpImports (H : Text → Content → Content → Prop) : FileOp → FileOp → Prop
  | .mkdir a, .mkdir c => c = a
  | .write p c, .write q d => q = p ∧ (d = c ∨ H p c d)
  | _, _ => False

/-- Two contents of a file: the same, or contents in relation. -/
def FileAlike (H : Text → Content → Content → Prop) (fs fs' : Files) (q : Text) : Prop :=
  fs' q = fs q ∨ ∃ c d, fs q = some c ∧ fs' q = some d ∧ H q c d

theorem apply_opImports {H : Text → Content → Content → Prop} {ops ops' : List FileOp} (h : All2 (OpImports H) ops ops') :
    ∀ fs fs' : Files, (∀ q, FileAlike H fs fs' q) →
      ∀ q, FileAlike H (ops.foldl FileOp.apply fs) (ops'.foldl FileOp.apply fs') q := by
  induction h with
  | nil => exact fun fs fs' h => h
  | @cons a c l l' hac _ ih =>
    intro fs fs' hfs
    rw [List.foldl_cons, List.foldl_cons]
    refine ih _ _ fun q => ?_
    cases a with
    | mkdir p =>
      cases c with
      | mkdir p' => exact hfs q
      | write => cases hac
      | append => cases hac
    | append => cases c <;> cases hac
    | write p x =>
      cases c with
      | mkdir => cases hac
      | append => cases hac
      | write p' x' =>
        obtain ⟨rfl, hx⟩ := hac
        unfold FileAlike
        simp only [FileOp.apply]
        by_cases hq : q = p'
        · rw [if_pos hq, if_pos hq]
          rcases hx with rfl | hx
          · exact .inl rfl
          · exact .inr ⟨_, _, rfl, rfl, hq ▸ hx⟩
        · rw [if_neg hq, if_neg hq]
          exact hfs q

theorem opImports_refl {H : Text → Content → Content → Prop} {ops : List FileOp} (h : NoAppend ops) : All2 (OpImports H) ops ops := by
  induction ops with
  | nil => exact .nil
  | cons a l ih =>
    refine .cons ?_ (ih fun o ho => h o (List.Mem.tail _ ho))
    cases a with
    | mkdir => rfl
    | write => exact ⟨rfl, .inl rfl⟩
    | append p c => exact absurd rfl (h _ (List.Mem.head _) p c)

/-- Contents of a header that only differ in the include lines of imports. -/
def OtherHeader (path : Text) (fileOf : String → Text) (m m' : Module) (q : Text) (c d : Content) : Prop :=
  q = path ∧ ∃ pre post, c = textContent (pre ++ (importLines fileOf m).flatMap (fun i => i ++ ['\n']) ++ post) ∧
    d = textContent (pre ++ (importLines fileOf m').flatMap (fun i => i ++ ['\n']) ++ post)

theorem printToFile_other {fileOf : String → Text} {m m' : Module} {cd cd' : CData} (h : OtherLines fileOf m m' cd cd')
    (fn out : Text) (ty : HeaderType) (hty : ty ≠ .msgids) :
    All2 (OpImports (OtherHeader (joinPath out (fn ++ ".h".toList)) fileOf m m')) (printToFile cd fn out ty)
      (printToFile cd' fn out ty) := by
  obtain ⟨x, a, z, rfl, rfl⟩ := h
  unfold printToFile
  refine .cons ⟨rfl, .inr ⟨rfl, ?_⟩⟩ ?_
  · obtain ⟨pre, post, hp⟩ := headerText_includes ty hty (fn ++ ".h".toList) x a z
    exact ⟨pre, post, by rw [hp], by rw [hp]⟩
  · refine opImports_refl ?_
    intro o ho p c
    split at ho
    · rcases List.mem_cons.1 ho with rfl | ho
      · intro e; cases e
      · cases ho
    · split at ho
      · obtain ⟨y, _, rfl⟩ := List.mem_map.1 ho
        intro e; cases e
      · cases ho

theorem printToFile_msgids {fileOf : String → Text} {m m' : Module} {cd cd' : CData} (h : OtherLines fileOf m m' cd cd')
    (H : Text → Content → Content → Prop) (fn out : Text) :
    All2 (OpImports H) (printToFile cd fn out .msgids) (printToFile cd' fn out .msgids) := by
  obtain ⟨x, a, z, rfl, rfl⟩ := h
  exact .cons ⟨rfl, .inl rfl⟩ .nil

/-- Two runs: the same result, and operations in relation. -/
structure RunAlike (H : Text → Content → Content → Prop) (r r' : Run) : Prop where
  result : r'.result = r.result
  ops : All2 (OpImports H) r.ops r'.ops

theorem runModules_reimported {H : Text → Content → Content → Prop} {be be' : Backend} {ds : List Def}
    (fuel : Nat) {bms bms' : List BMod} (hs : All2 ReimportedB bms bms')
    (hd : ∀ bm ∈ bms, ∀ bm' ∈ bms', ReimportedB bm bm' → EndsAlike (fun cd cd' =>
      All2 (OpImports H) (be.print bm.mod cd) (be'.print bm'.mod cd')) (moduleData fuel be ds bm) (moduleData fuel be' ds bm')) :
    RunAlike H (runModules fuel be ds bms) (runModules fuel be' ds bms') := by
  induction hs with
  | nil => exact ⟨rfl, .nil⟩
  | @cons bm bm' l l' h _ ih =>
    have ih := ih fun x hx y hy => hd x (List.Mem.tail _ hx) y (List.Mem.tail _ hy)
    have h1 := hd bm (List.Mem.head _) bm' (List.Mem.head _) h
    rw [runModules, runModules]
    cases e : moduleData fuel be ds bm with
    | error x =>
      rw [e] at h1
      cases e' : moduleData fuel be' ds bm' with
      | error y => rw [e'] at h1; cases h1; exact ⟨rfl, .nil⟩
      | ok y => rw [e'] at h1; cases h1
    | ok x =>
      rw [e] at h1
      cases e' : moduleData fuel be' ds bm' with
      | error y => rw [e'] at h1; cases h1
      | ok y =>
        rw [e'] at h1
        cases h1 with
        | ok h1 => exact ⟨ih.result, all2_append h1 ih.ops⟩

theorem generate_reimported {H : Text → Content → Content → Prop} {be be' : Backend} {b b' : Bundle}
    (h : ReimportedBundle b b') (hn : (b.modules.map (·.name)).Nodup) (fuel : Nat) (out : Text)
    (hd : ∀ bm ∈ b.mods, ∀ bm' ∈ b'.mods, ReimportedB bm bm' → EndsAlike (fun cd cd' =>
      All2 (OpImports H) (be.print bm.mod cd) (be'.print bm'.mod cd')) (moduleData fuel be b.defs bm)
        (moduleData fuel be' b.defs bm')) :
    RunAlike H (generate fuel be out b) (generate fuel be' out b') := by
  unfold generate
  have hn' : (b'.modules.map (·.name)).Nodup := by rw [names_reimported h.modules]; exact hn
  rcases orderModules_reimported h.modules fuel with ⟨e, e'⟩ | ⟨o, o', e, e', ho⟩
  · rw [e, e']; exact ⟨rfl, .cons rfl .nil⟩
  · rw [e, e', h.defs]
    have hp : o.Perm b.modules := (orderLoop_spec b.modules fuel _ o ⟨rfl, hn⟩ ⟨by simp, by simp, by simp⟩ e).1
    have hp' : o'.Perm b'.modules := (orderLoop_spec b'.modules fuel _ o' ⟨rfl, hn'⟩ ⟨by simp, by simp, by simp⟩ e').1
    have hm := orderedMods_reimported h hn ho (fun m hm => hp.mem_iff.1 hm) fun m hm => hp'.mem_iff.1 hm
    have hsub : ∀ {b : Bundle} {o : List Module}, ∀ x ∈ orderedMods b o, x ∈ b.mods := by
      intro b o x hx
      obtain ⟨m, _, hm⟩ := List.mem_filterMap.1 hx
      exact List.mem_of_find?_eq_some hm
    have := runModules_reimported (H := H) (be := be) (be' := be') (ds := b.defs) fuel hm fun x hx y hy =>
      hd x (hsub x hx) y (hsub y hy)
    exact ⟨this.result, .cons rfl this.ops⟩

end Apg
