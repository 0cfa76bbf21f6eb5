import Verif.Spec.Shared
import Verif.Lemmas.Header
import Verif.Props.Files

/-!
# Lemmas on several commands on the same input
-/

namespace Apg
open Spec

/-! ### Files of a run -/

/-- The file an operation works on. -/
def FileOp.target : FileOp → Option Text
  | .mkdir _ => none
  | .write p _ => some p
  | .append p _ => some p

theorem op_other {fs : Files} {o : FileOp} {q : Text} (h : o.target ≠ some q) : o.apply fs q = fs q := by
  cases o with
  | mkdir p => rfl
  | write p c => exact if_neg fun he => h (by rw [he]; rfl)
  | append p c => exact if_neg fun he => h (by rw [he]; rfl)

theorem op_target {fs : Files} {o : FileOp} {q : Text} (h : o.target = some q) : o.apply fs q ≠ none := by
  cases o with
  | mkdir p => cases h
  | write p c => cases h; simp [FileOp.apply]
  | append p c => cases h; simp [FileOp.apply]

theorem ops_other {ops : List FileOp} {q : Text} (h : ∀ o ∈ ops, o.target ≠ some q) (fs : Files) :
    ops.foldl FileOp.apply fs q = fs q := by
  induction ops generalizing fs with
  | nil => rfl
  | cons o ops ih =>
    rw [List.foldl_cons, ih (fun o ho => h o (by simp [ho])), op_other (h o (by simp))]

theorem ops_some {ops : List FileOp} {q : Text} {fs : Files} (h : fs q ≠ none) :
    ops.foldl FileOp.apply fs q ≠ none := by
  induction ops generalizing fs with
  | nil => exact h
  | cons o ops ih =>
    rw [List.foldl_cons]
    refine ih ?_
    by_cases ho : o.target = some q
    · exact op_target ho
    · rw [op_other ho]; exact h

theorem ops_target {ops : List FileOp} {q : Text} (h : ∃ o ∈ ops, o.target = some q) (fs : Files) :
    ops.foldl FileOp.apply fs q ≠ none := by
  induction ops generalizing fs with
  | nil => obtain ⟨o, ho, _⟩ := h; cases ho
  | cons o ops ih =>
    rw [List.foldl_cons]
    by_cases ho : o.target = some q
    · exact ops_some (op_target ho)
    · obtain ⟨o', h1, h2⟩ := h
      rcases List.mem_cons.1 h1 with rfl | h1
      · exact absurd h2 ho
      · exact ih ⟨o', h1, h2⟩ _

theorem fileOf_iff {r : Run} {q : Text} : FileOf r q ↔ ∃ o ∈ r.ops, o.target = some q := by
  constructor
  · intro h
    refine Classical.byContradiction fun hn => h ?_
    exact ops_other (fun o ho he => hn ⟨o, ho, he⟩) _
  · exact fun h => ops_target h _

theorem not_fileOf {r : Run} {q : Text} (h : ¬ FileOf r q) (fs : Files) : r.apply fs q = fs q :=
  ops_other (fun o ho he => h (fileOf_iff.2 ⟨o, ho, he⟩)) fs

/-- What a run leaves in a file depends only on what was in this file. -/
theorem apply_local {r : Run} {q : Text} {fs fs' : Files} (h : fs q = fs' q) : r.apply fs q = r.apply fs' q := by
  unfold Run.apply
  generalize r.ops = ops
  induction ops generalizing fs fs' with
  | nil => exact h
  | cons o ops ih =>
    rw [List.foldl_cons, List.foldl_cons]
    refine ih ?_
    cases o with
    | mkdir p => exact h
    | write p c =>
      simp only [FileOp.apply]
      split
      · rfl
      · exact h
    | append p c =>
      simp only [FileOp.apply]
      split
      · rename_i he
        rw [← he, h]
      · exact h

theorem keeps_of_apart {r r' : Run} (h : NoCommonFile r r') : Keeps r r' := fun _ q hq =>
  not_fileOf (fun hq' => h q ⟨hq, hq'⟩) _

theorem orderFree_of_apart {r r' : Run} (h : NoCommonFile r r') : OrderFree r r' := by
  intro fs
  funext q
  by_cases hq : FileOf r q
  · have hq' : ¬ FileOf r' q := fun hq' => h q ⟨hq, hq'⟩
    rw [not_fileOf hq', apply_local (not_fileOf hq' fs)]
  · rw [not_fileOf hq, apply_local (not_fileOf hq fs)]

theorem noCommonFile_symm {r r' : Run} (h : NoCommonFile r r') : NoCommonFile r' r := fun q hq => h q hq.symm

/-- Without appending, the files of a run are those it writes. -/
theorem fileOf_writes {r : Run} (hna : NoAppend r.ops) {q : Text} : FileOf r q ↔ q ∈ r.writes.map (·.1) := by
  rw [fileOf_iff]
  unfold Run.writes
  constructor
  · rintro ⟨o, ho, h⟩
    cases o with
    | mkdir p => cases h
    | write p c => cases h; exact List.mem_map.2 ⟨_, List.mem_filterMap.2 ⟨_, ho, rfl⟩, rfl⟩
    | append p c => exact absurd rfl (hna _ ho p c)
  · intro h
    obtain ⟨w, hw, rfl⟩ := List.mem_map.1 h
    obtain ⟨o, ho, h⟩ := List.mem_filterMap.1 hw
    refine ⟨o, ho, ?_⟩
    cases o with
    | mkdir p => cases h
    | write p c => cases h; rfl
    | append p c => cases h

/-! ### Paths -/

theorem command_noAppend (cmd : Command) (fuel : Nat) (raw : List Module) (cfg : List String) (out : Text) :
    NoAppend (cmd.run fuel raw cfg out).ops := by
  cases cmd with
  | cfs p => exact cfs_noAppend _ _ _ _ _
  | c p => exact c_noAppend _ _ _ _ _
  | binary e => exact binary_noAppend _ _ _ _ _

theorem command_nodup (cmd : Command) (fuel : Nat) {raw : List Module} (hg : ∀ m ∈ raw, GrammarModule m)
    (cfg : List String) (out : Text) : ((cmd.run fuel raw cfg out).writes.map (·.1)).Nodup := by
  cases cmd with
  | cfs p => exact C27_cfs _ _ _ hg _ _
  | c p => exact C27_c _ _ _ hg _ _
  | binary e => exact C27_binary _ _ _ hg _ _

theorem joinPath_ends (out k x : Text) : ∃ r, joinPath out (k ++ x) = r ++ x := by
  unfold joinPath
  split
  · exact ⟨_, rfl⟩
  · split
    · exact ⟨out ++ k, by simp⟩
    · exact ⟨out ++ '/' :: k, by simp⟩

/-- The kind of the header with the types. -/
def Spec.Command.kind : Command → HeaderType
  | .cfs _ => .msg
  | .c _ => .stored
  | .binary _ => .storedBinary

/-- Endings of the files of the three commands. -/
theorem command_endings {cmd : Command} {fuel : Nat} {raw : List Module} {cfg : List String} {out q : Text}
    (h : FileOf (cmd.run fuel raw cfg out) q) :
    ∃ r, q = r ++ ".h".toList ∨ (cmd.kind = .stored ∧ q = r ++ ".c".toList) ∨
      (cmd.kind = .storedBinary ∧ q = r ++ ".bin".toList) := by
  rw [fileOf_iff] at h
  obtain ⟨o, ho, hq⟩ := h
  have key : ∀ (cd : CData) (f : Text) (ty : HeaderType), o ∈ printToFile cd f out ty →
      ∃ r, q = r ++ ".h".toList ∨ (ty = .stored ∧ q = r ++ ".c".toList) ∨
        (ty = .storedBinary ∧ q = r ++ ".bin".toList) := by
    intro cd f ty ho
    unfold printToFile at ho
    rcases List.mem_cons.1 ho with rfl | ho
    · obtain ⟨r, hr⟩ := joinPath_ends out f ".h".toList
      exact ⟨r, Or.inl (by rw [← Option.some.inj hq, hr])⟩
    · split at ho
      · rename_i ht
        rw [List.mem_singleton] at ho
        subst ho
        obtain ⟨r, hr⟩ := joinPath_ends out f ".c".toList
        exact ⟨r, Or.inr (Or.inl ⟨ht, by rw [← Option.some.inj hq, hr]⟩)⟩
      · split at ho
        · rename_i ht
          obtain ⟨x, _, rfl⟩ := List.mem_map.1 ho
          obtain ⟨r, hr⟩ := joinPath_ends out x.1 ".bin".toList
          exact ⟨r, Or.inr (Or.inr ⟨ht, by rw [← Option.some.inj hq, hr]⟩)⟩
        · cases ho
  have hp : ∀ (b : Bundle) (m : Module) (cd : CData), o ∈ (cmd.backend fuel out b).print m cd →
      ∃ r, q = r ++ ".h".toList ∨ (cmd.kind = .stored ∧ q = r ++ ".c".toList) ∨
        (cmd.kind = .storedBinary ∧ q = r ++ ".bin".toList) := by
    intro b m cd ho
    cases cmd with
    | cfs p => 
      rcases List.mem_append.1 ho with ho | ho
      · exact key _ _ _ ho
      · obtain ⟨r, hr | ⟨hr, _⟩ | ⟨hr, _⟩⟩ := key _ _ _ ho
        · exact ⟨r, Or.inl hr⟩
        · cases hr
        · cases hr
    | c p => exact key _ _ _ ho
    | binary e => exact key _ _ _ ho
  have hrun : cmd.run fuel raw cfg out = runCommand fuel (fun b => cmd.backend fuel out b) raw cfg out := by
    cases cmd <;> rfl
  rw [hrun] at ho
  rcases runCommand_spec fuel (fun b => cmd.backend fuel out b) raw cfg out with ⟨h, _⟩ | ⟨b, _, bms, done, rest, cds, _, _, _, h, _⟩
  · rw [h] at ho; cases ho
  · rw [h] at ho
    rcases List.mem_cons.1 ho with rfl | ho
    · cases hq
    · obtain ⟨x, _, hx⟩ := List.mem_flatMap.1 ho
      exact hp _ _ _ hx

theorem cosmos_files {fuel : Nat} {p : Printer} {raw : List Module} {module : String} {messages : List String}
    {target out q : Text} (h : FileOf (runCosmos fuel p raw module messages target out) q) :
    q = joinPath out (target ++ ".txt".toList) := by
  rw [fileOf_iff] at h
  obtain ⟨o, ho, hq⟩ := h
  have hf : ∀ pk : List Text, o ∈ [FileOp.mkdir (dirName (joinPath out (target ++ ".txt".toList))),
      .append (joinPath out (target ++ ".txt".toList)) (textContent (cosmosText pk))] →
      q = joinPath out (target ++ ".txt".toList) := by
    intro pk ho
    rcases List.mem_cons.1 ho with rfl | ho
    · cases hq
    · rw [List.mem_singleton] at ho
      subst ho
      exact (Option.some.inj hq).symm
  unfold runCosmos at ho
  split at ho
  · cases ho
  · unfold generateCosmos at ho
    simp only at ho
    split at ho
    · cases ho
    · split at ho
      · split at ho
        · exact hf _ ho
        · cases ho
      · split at ho
        · cases ho
        · split at ho
          · cases ho
          · exact hf _ ho

theorem inDir_file {out f : Text} : ∃ r, inDir out f = r ++ f := by
  unfold inDir
  split
  · exact ⟨out, rfl⟩
  · exact ⟨out ++ ['/'], by simp⟩

/-! ### Data of a module for two back ends -/

theorem sortLoop_fuel {fuel fuel' : Nat} {defd : List String} {done todo l l' : List Def}
    (h : sortLoop fuel defd done todo = some l) (h' : sortLoop fuel' defd done todo = some l') : l = l' := by
  induction fuel generalizing fuel' defd done todo with
  | zero => cases h
  | succ fuel ih =>
    cases fuel' with
    | zero => cases h'
    | succ fuel' =>
      cases todo with
      | nil =>
        simp only [sortLoop, Option.some.injEq] at h h'
        rw [← h, ← h']
      | cons d todo =>
        rw [sortLoop] at h h'
        exact ih h h'

theorem sortDefs_fuel {fuel fuel' : Nat} {m : Module} {l l' : List Def} (h : sortDefs fuel m = some l)
    (h' : sortDefs fuel' m = some l') : l = l' := sortLoop_fuel h h'

theorem all2_det {α β : Type} {R : α → β → Prop} (hf : ∀ a b b', R a b → R a b' → b = b') {l : List α} {l₁ l₂ : List β}
    (h₁ : All2 R l l₁) (h₂ : All2 R l l₂) : l₁ = l₂ := by
  induction h₁ generalizing l₂ with
  | nil => cases h₂; rfl
  | cons h _ ih =>
    cases h₂ with
    | cons h' h'' => rw [hf _ _ _ h h', ih h'']

/-- A definition gives the same types whatever the command. -/
theorem defPart_same {be be' : Backend} (hq : Quiet be.handler) (hq' : Quiet be'.handler) {ds simple : List Def}
    {mod : Module} {d : Def} {p p' : CData} (h : defPart be ds simple mod d = .ok p)
    (h' : defPart be' ds simple mod d = .ok p') :
    p'.data = p.data ∧ p'.stdbool = p.stdbool ∧ p'.stdint = p.stdint := by
  cases d with
  | simple n c t =>
    simp only [defPart, bind_ok, Except.ok.injEq] at h h'
    obtain ⟨_, _, rfl⟩ := h
    obtain ⟨_, _, rfl⟩ := h'
    exact ⟨rfl, rfl, rfl⟩
  | enum n c its =>
    simp only [defPart, Except.ok.injEq] at h h'
    subst h h'
    exact ⟨rfl, rfl, rfl⟩
  | choice n c ms =>
    simp only [defPart, Except.ok.injEq] at h h'
    subst h h'
    exact ⟨rfl, rfl, rfl⟩
  | seq n c ms =>
    have key : ∀ {be : Backend}, Quiet be.handler → ∀ {p : CData}, defPart be ds simple mod (.seq n c ms) = .ok p →
        ∃ fs : List Mapped, All2 (fun (m : Member) f => fieldType ds simple m.type = .ok f) ms fs ∧
          p.data = [defComment c ++ structText ((ms.zip fs).flatMap fun x => commentLines x.1 ++ [fieldLine x.1 x.2])
            (cName n)] ∧ p.stdbool = fs.any (·.stdbool) ∧ p.stdint = fs.any (·.stdint) := by
      intro be hq p h
      simp only [defPart, convertSequence, bind_ok, Except.ok.injEq] at h
      obtain ⟨r, hr, rfl⟩ := h
      obtain ⟨rs, h1, h2, h3⟩ := convertMembers_ok hr
      have hqs : ∀ x ∈ rs, x.2.data = [] ∧ x.2.stdbool = false ∧ x.2.stdint = false := by
        intro x hx
        obtain ⟨m, _, _, hm⟩ := all2_mem_right h1 hx
        unfold memberPart at hm
        split at hm
        · simp only [Except.ok.injEq] at hm
          rw [← hm]; exact ⟨rfl, rfl, rfl⟩
        · obtain ⟨q1, q2, q3, _⟩ := hq _ _ _ _ hm
          exact ⟨q1, q2, q3⟩
      refine ⟨rs.map (·.1), ?_, ?_, ?_, ?_⟩
      · clear h2 h3 hqs hr h h'
        induction h1 with
        | nil => exact .nil
        | cons hx _ ih => exact .cons hx.1 ih
      · have hd : r.2.data = [] := by
          rw [h3.data]
          simp only [List.nil_append, List.flatMap_map, List.flatMap_eq_nil_iff]
          exact fun x hx => (hqs x hx).1
        simp only [hd, List.nil_append, h2, List.zip_map_right, List.flatMap_map]
        rfl
      · rw [h3.stdbool]
        have : (rs.map (·.2)).any (·.stdbool) = false := by
          simp only [List.any_map, List.any_eq_false, Function.comp_apply, Bool.not_eq_true]
          exact fun x hx => (hqs x hx).2.1
        simp only [this, Bool.or_false, Bool.false_or, List.any_map]
        rfl
      · rw [h3.stdint]
        have : (rs.map (·.2)).any (·.stdint) = false := by
          simp only [List.any_map, List.any_eq_false, Function.comp_apply, Bool.not_eq_true]
          exact fun x hx => (hqs x hx).2.2
        simp only [this, Bool.or_false, Bool.false_or, List.any_map]
        rfl
    obtain ⟨fs, a1, a2, a3, a4⟩ := key hq h
    obtain ⟨fs', b1, b2, b3, b4⟩ := key hq' h'
    have := all2_det (fun a b b' hb hb' => Except.ok.inj (hb.symm.trans hb')) a1 b1
    subst this
    exact ⟨b2.trans a2.symm, b3.trans a3.symm, b4.trans a4.symm⟩

theorem defParts_same {be be' : Backend} (hq : Quiet be.handler) (hq' : Quiet be'.handler) {ds simple : List Def}
    {mod : Module} {L : List Def} {ps ps' : List CData}
    (h : All2 (fun d p => defPart be ds simple mod d = .ok p) L ps)
    (h' : All2 (fun d p => defPart be' ds simple mod d = .ok p) L ps') :
    ps'.flatMap (·.data) = ps.flatMap (·.data) ∧ ps'.any (·.stdbool) = ps.any (·.stdbool) ∧
      ps'.any (·.stdint) = ps.any (·.stdint) := by
  induction h generalizing ps' with
  | nil => cases h'; exact ⟨rfl, rfl, rfl⟩
  | cons hd _ ih =>
    cases h' with
    | cons hd' h'' =>
      obtain ⟨a1, a2, a3⟩ := ih h''
      obtain ⟨b1, b2, b3⟩ := defPart_same hq hq' hd hd'
      simp only [List.flatMap_cons, List.any_cons, a1, a2, a3, b1, b2, b3, and_self]

/-- The data of a module are the same for two commands, except includes, notes and variables. -/
theorem moduleData_same {be be' : Backend} (hq : Quiet be.handler) (hq' : Quiet be'.handler) {fuel fuel' : Nat}
    {ds : List Def} {bm : BMod} {cd cd' : CData} (h : moduleData fuel be ds bm = .ok cd)
    (h' : moduleData fuel' be' ds bm = .ok cd') :
    cd'.data = cd.data ∧ cd'.stdbool = cd.stdbool ∧ cd'.stdint = cd.stdint ∧ cd'.headerComment = cd.headerComment := by
  obtain ⟨sorted, s1, _, ps, s3, cd1, hj, _, rfl⟩ := moduleData_ok h
  obtain ⟨sorted', s1', _, ps', s3', cd1', hj', _, rfl⟩ := moduleData_ok h'
  cases sortDefs_fuel s1 s1'
  obtain ⟨a1, a2, a3⟩ := defParts_same hq hq' s3 s3'
  refine ⟨?_, ?_, ?_, rfl⟩
  · simp only [hj.data, hj'.data, a1]
  · simp only [hj.stdbool, hj'.stdbool, a2]
  · simp only [hj.stdint, hj'.stdint, a3]

theorem command_quiet (cmd : Command) (fuel : Nat) (out : Text) (b : Bundle) : Quiet (cmd.backend fuel out b).handler := by
  cases cmd with
  | cfs p => exact cfs_quiet p
  | c p => exact c_quiet p
  | binary e => exact bin_quiet _ _ _

/-- The header of a module after a successful run. -/
theorem header_written {cmd : Command} {fuel : Nat} {raw : List Module} {cfg : List String} {out : Text} {b : Bundle}
    (hin : Input raw cfg b) (hr : (cmd.run fuel raw cfg out).result = .ok ()) {bm : BMod} (hm : bm ∈ b.mods) :
    ∃ cd, moduleData fuel (cmd.backend fuel out b) b.defs bm = .ok cd ∧
      (cmd.path out bm.mod.name, textContent (headerText cmd.kind (cmd.header bm.mod.name) cd)) ∈
        (cmd.run fuel raw cfg out).writes := by
  have hbt := buildFromTexts_of_config hin.accepted
  have hn := accepted_names hin.grammar hbt _ (List.mem_map.2 ⟨bm, hm, rfl⟩)
  cases cmd with
  | cfs p =>
    obtain ⟨cd, h1, h2⟩ := run_module hr hin.accepted hm
    exact ⟨cd, h1, h2 _ (by rw [printed_cfs _ _ _ _ _ hn]; exact List.Mem.head _)⟩
  | c p =>
    obtain ⟨cd, h1, h2⟩ := run_module hr hin.accepted hm
    exact ⟨cd, h1, h2 _ (by rw [printed_c _ _ _ _ _ hn]; exact List.Mem.head _)⟩
  | binary e =>
    obtain ⟨cd, h1, h2⟩ := run_module hr hin.accepted hm
    exact ⟨cd, h1, h2 _ (by rw [printed_bin _ _ _ _ _ _ hn]; exact List.Mem.head _)⟩

theorem header_after {cmd : Command} {fuel : Nat} {raw : List Module} {cfg : List String} {out : Text} {b : Bundle}
    (hin : Input raw cfg b) (fs : Files) {w : Text × Content} (hw : w ∈ (cmd.run fuel raw cfg out).writes) :
    (cmd.run fuel raw cfg out).apply fs w.1 = some w.2 :=
  apply_get (command_noAppend _ _ _ _ _) (command_nodup _ _ hin.grammar _ _) fs hw

end Apg
