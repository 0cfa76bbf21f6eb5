import Verif.Model.Program
import Verif.Lemmas.Files
import Verif.Lemmas.Shared
import Verif.Spec.Folder

/-!
# Runs with different output folders
-/

namespace Apg
open Spec

/-- Files with names in a folder. -/
def placed (out : Text) (fl : List (Text × Content)) : List FileOp := fl.map fun x => .write (joinPath out x.1) x.2

theorem placed_append (out : Text) (a b : List (Text × Content)) : placed out (a ++ b) = placed out a ++ placed out b :=
  List.map_append

theorem printToFile_placed (cd : CData) (fn : Text) (ty : HeaderType) :
    ∃ fl, ∀ out, printToFile cd fn out ty = placed out fl := by
  by_cases h : ty = .stored
  · exact ⟨[(fn ++ ".h".toList, textContent (headerText ty (fn ++ ".h".toList) cd)),
      (fn ++ ".c".toList, textContent (sourceText cd))], fun out => by rw [printToFile, if_pos h]; rfl⟩
  · by_cases h' : ty = .storedBinary
    · refine ⟨(fn ++ ".h".toList, textContent (headerText ty (fn ++ ".h".toList) cd)) ::
        cd.bins.map fun b => (b.1 ++ ".bin".toList, byteContent b.2), fun out => ?_⟩
      rw [printToFile, if_neg h, if_pos h', placed, List.map_cons, List.map_map]
      rfl
    · exact ⟨[(fn ++ ".h".toList, textContent (headerText ty (fn ++ ".h".toList) cd))], fun out => by
        rw [printToFile, if_neg h, if_neg h']; rfl⟩

/-- A back end in which the folder matters for the paths only. -/
structure Portable (mk : Text → Backend) : Prop where
  includes : ∀ a b, (mk a).includeFile = (mk b).includeFile
  note : ∀ a b, (mk a).note = (mk b).note
  handler : ∀ a b, (mk a).handler = (mk b).handler
  print : ∀ m cd, ∃ fl, ∀ out, (mk out).print m cd = placed out fl

theorem portable_cfs (p : Printer) (b : Bundle) : Portable fun out => cfsBackend p out b := by
  refine ⟨fun _ _ => rfl, fun _ _ => rfl, fun _ _ => rfl, fun m cd => ?_⟩
  obtain ⟨fl, h⟩ := printToFile_placed cd (msgFilename m.name) .msg
  obtain ⟨fl', h'⟩ := printToFile_placed cd (msgidsFilename m.name) .msgids
  exact ⟨fl ++ fl', fun out => by rw [placed_append, ← h, ← h']; rfl⟩

theorem portable_c (p : Printer) (b : Bundle) : Portable fun out => cBackend p out b :=
  ⟨fun _ _ => rfl, fun _ _ => rfl, fun _ _ => rfl, fun m cd => printToFile_placed cd (cFilename m.name) .stored⟩

theorem portable_binary (fuel : Nat) (e : Option Endian) (b : Bundle) : Portable fun out => binBackend fuel e out b :=
  ⟨fun _ _ => rfl, fun _ _ => rfl, fun _ _ => rfl, fun m cd => printToFile_placed cd (cFilename m.name) .storedBinary⟩

theorem convertDefs_portable {be be' : Backend} (hn : be.note = be'.note) (hh : be.handler = be'.handler)
    (ds simple : List Def) (mod : Module) (l : List Def) : ∀ cd,
    convertDefs be ds simple mod cd l = convertDefs be' ds simple mod cd l := by
  induction l with
  | nil => exact fun _ => rfl
  | cons d l ih =>
    intro cd
    have hd : convertDef be ds simple mod cd d = convertDef be' ds simple mod cd d := by
      cases d <;> simp only [convertDef, hn, hh]
    simp only [convertDefs, hd]
    congr 1
    funext x
    exact ih x

theorem moduleData_portable {mk : Text → Backend} (h : Portable mk) (fuel : Nat) (ds : List Def) (bm : BMod)
    (out out' : Text) : moduleData fuel (mk out) ds bm = moduleData fuel (mk out') ds bm := by
  unfold moduleData
  cases sortDefs fuel bm.mod with
  | none => rfl
  | some l => simp only [h.includes out out', convertDefs_portable (h.note out out') (h.handler out out')]

theorem runModules_placed {mk : Text → Backend} (h : Portable mk) (fuel : Nat) (ds : List Def) (bms : List BMod) :
    ∃ fl res, ∀ out, runModules fuel (mk out) ds bms = ⟨placed out fl, res⟩ := by
  induction bms with
  | nil => exact ⟨[], .ok (), fun _ => rfl⟩
  | cons bm bms ih =>
    obtain ⟨fl, res, ih⟩ := ih
    cases hm : moduleData fuel (mk []) ds bm with
    | error e =>
      refine ⟨[], .error e, fun out => ?_⟩
      rw [runModules, moduleData_portable h fuel ds bm out [], hm]
      rfl
    | ok cd =>
      obtain ⟨fl', hp⟩ := h.print bm.mod cd
      refine ⟨fl' ++ fl, res, fun out => ?_⟩
      simp only [runModules, moduleData_portable h fuel ds bm out [], hm, ih, hp, placed_append]

theorem generate_placed {mk : Text → Backend} (h : Portable mk) (fuel : Nat) (b : Bundle) :
    ∃ fl res, ∀ out, generate fuel (mk out) out b = ⟨.mkdir out :: placed out fl, res⟩ := by
  cases ho : orderModules fuel b.modules with
  | none => exact ⟨[], .error .running, fun out => by simp only [generate, ho]; rfl⟩
  | some ms =>
    obtain ⟨fl, res, hr⟩ := runModules_placed h fuel b.defs (orderedMods b ms)
    exact ⟨fl, res, fun out => by simp only [generate, ho, hr]⟩

theorem apply_mkdir (d : Text) (ops : List FileOp) (res : Except Err Unit) (fs : Files) :
    Run.apply ⟨.mkdir d :: ops, res⟩ fs = ops.foldl FileOp.apply fs := rfl

theorem placed_moved {fl : List (Text × Content)} (hfl : ∀ x ∈ fl, x.1.head? ≠ some '/') {out out' f : Text} :
    ∀ {fs fs' : Files}, fs (inDir out f) = fs' (inDir out' f) →
    (placed out fl).foldl FileOp.apply fs (inDir out f) = (placed out' fl).foldl FileOp.apply fs' (inDir out' f) := by
  induction fl with
  | nil => exact fun h => h
  | cons x fl ih =>
    intro fs fs' h
    have hx := hfl x List.mem_cons_self
    simp only [placed, List.map_cons, List.foldl_cons]
    refine ih (fun y hy => hfl y (List.mem_cons_of_mem _ hy)) ?_
    simp only [FileOp.apply, joinPath_eq _ hx]
    by_cases e : f = x.1
    · subst e
      simp only [if_pos]
    · rw [if_neg fun h => e (inDir_inj h), if_neg fun h => e (inDir_inj h), h]

theorem joinPath_slash {out : Text} (ho : out ≠ []) (hs : out.getLast? ≠ some '/') (f : Text) :
    joinPath (out ++ ['/']) f = joinPath out f := by
  unfold joinPath
  split
  · rfl
  · rw [if_pos (.inr (by simp)), if_neg (by simp [ho, hs])]
    simp

/-- The folder only decides where the files are; with a name from the root it does not matter. -/
theorem generateCosmos_cases (fuel : Nat) (p : Printer) (b : Bundle) (module : String) (messages : List String)
    (target : Text) : (∃ e, ∀ out, generateCosmos fuel p b module messages target out = ⟨[], .error e⟩) ∨
    ∃ pkts, ∀ out, generateCosmos fuel p b module messages target out =
      ⟨[.mkdir (dirName (joinPath out (target ++ ".txt".toList))),
        .append (joinPath out (target ++ ".txt".toList)) (textContent (cosmosText pkts))], .ok ()⟩ := by
  by_cases hb : b.mods = []
  · exact .inl ⟨.assertion, fun out => by simp only [generateCosmos, if_pos hb]⟩
  · cases hm : b.getModule module with
    | none =>
      by_cases hn : messages = []
      · exact .inr ⟨[], fun out => by simp only [generateCosmos, if_neg hb, hm, if_pos hn]⟩
      · exact .inl ⟨.exception, fun out => by simp only [generateCosmos, if_neg hb, hm, if_neg hn]⟩
    | some bm =>
      by_cases hn : messages.any (fun n => !(bm.mod.defs.map Def.name).contains n) = true
      · exact .inl ⟨.exception, fun out => by simp only [generateCosmos, if_neg hb, hm, if_pos hn]⟩
      · cases hp : packets p b fuel bm target (initialStore b.defs) messages with
        | error e => exact .inl ⟨e, fun out => by simp only [generateCosmos, if_neg hb, hm, if_neg hn, hp]⟩
        | ok pk => exact .inr ⟨pk, fun out => by simp only [generateCosmos, if_neg hb, hm, if_neg hn, hp]⟩

/-- Runs of a command in all folders. -/
inductive PlacedRun (run : Text → Run) : Prop
  | error {e} : (∀ out, run out = ⟨[], .error e⟩) → PlacedRun run
  | writes {fl res} : (∀ out, run out = ⟨.mkdir out :: placed out fl, res⟩) → PlacedRun run

theorem program_placed (fuel : Nat) (p : Printer) (files : List (Option Text)) (a : Args)
    (ha : ∀ m ms target out, a ≠ .cosmos m ms target out) : PlacedRun fun out => program fuel p files (inFolder a out) := by
  cases a with
  | cosmos m ms target out => exact absurd rfl (ha m ms target out)
  | cfs ms out =>
    cases hb : (readFiles files >>= fun ts => buildConfig ts (nameList ms)) with
    | error e => exact .error (e := e) fun out => by simp only [inFolder, program, hb]; rfl
    | ok b =>
      obtain ⟨fl, res, h⟩ := generate_placed (portable_cfs p b) fuel b
      exact .writes fun out => by simp only [inFolder, program, hb]; exact h out
  | c ms out =>
    cases hb : (readFiles files >>= fun ts => buildConfig ts (nameList ms)) with
    | error e => exact .error (e := e) fun out => by simp only [inFolder, program, hb]; rfl
    | ok b =>
      obtain ⟨fl, res, h⟩ := generate_placed (portable_c p b) fuel b
      exact .writes fun out => by simp only [inFolder, program, hb]; exact h out
  | binary ms out e =>
    cases hb : (readFiles files >>= fun ts => buildConfig ts (nameList ms)) with
    | error e => exact .error (e := e) fun out => by simp only [inFolder, program, hb]; rfl
    | ok b =>
      obtain ⟨fl, res, h⟩ := generate_placed (portable_binary fuel e b) fuel b
      exact .writes fun out => by simp only [inFolder, program, hb]; exact h out

theorem program_cosmos_cases (fuel : Nat) (p : Printer) (files : List (Option Text)) (m ms target : Text) :
    (∃ e, ∀ out, program fuel p files (.cosmos m ms target out) = ⟨[], .error e⟩) ∨
    ∃ pkts, ∀ out, program fuel p files (.cosmos m ms target out) =
      ⟨[.mkdir (dirName (joinPath out (target ++ ".txt".toList))),
        .append (joinPath out (target ++ ".txt".toList)) (textContent (cosmosText pkts))], .ok ()⟩ := by
  cases hb : readFiles files >>= buildTexts with
  | error e => exact .inl ⟨e, fun out => by simp only [program, hb]; rfl⟩
  | ok b =>
    rcases generateCosmos_cases fuel p b (String.ofList m) (nameList ms) target with ⟨e, h⟩ | ⟨pk, h⟩
    · exact .inl ⟨e, fun out => by simp only [program, hb]; exact h out⟩
    · exact .inr ⟨pk, fun out => by simp only [program, hb]; exact h out⟩

end Apg
