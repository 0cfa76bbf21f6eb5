import Verif.Lemmas.Folder
import Verif.Props.CommandLine

/-!
# C92: the output folder only decides where the files are
-/

namespace Apg
open Spec

/-- **C92, in full.** With another output folder a command ends in the same way, and leaves the same file under each
name in the folder. -/
def C92_full : Prop :=
  ∀ (fuel : Nat) (p : Printer) (files : List (Option Text)) (a : Args) (out out' f : Text) (fs fs' : Files),
    ¬ Absolute f → fs (inDir out f) = fs' (inDir out' f) →
    (program fuel p files (inFolder a out)).result = (program fuel p files (inFolder a out')).result ∧
    (program fuel p files (inFolder a out)).apply fs (inDir out f) =
      (program fuel p files (inFolder a out')).apply fs' (inDir out' f)

theorem placed_names {fuel : Nat} {p : Printer} {files : List (Option Text)} {a : Args}
    (ha : ∀ m ms target out, a ≠ .cosmos m ms target out) {fl : List (Text × Content)} {res : Except Err Unit}
    (h : program fuel p files (inFolder a []) = ⟨.mkdir [] :: placed [] fl, res⟩) :
    ∀ x ∈ fl, x.1.head? ≠ some '/' := by
  intro x hx hs
  have hf : FileOf (program fuel p files (inFolder a [])) x.1 := by
    rw [fileOf_iff, h]
    refine ⟨.write (joinPath [] x.1) x.2, List.mem_cons_of_mem _ (List.mem_map.2 ⟨x, hx, rfl⟩), ?_⟩
    show some (joinPath [] x.1) = some x.1
    unfold joinPath
    rw [if_pos hs]
  have hd : DirectlyIn [] x.1 := by
    rcases C53_grammatical _ decimalFloat_rounds fuel p files (inFolder a []) with ⟨e, he⟩ | ⟨raw, _, _, _, _, _, hg, he⟩
    · rw [he] at hf
      exact absurd rfl hf
    · rw [he] at hf
      have hg := fun m hm => (hg m hm).1
      cases a with
      | cosmos m ms target out => exact absurd rfl (ha m ms target out)
      | cfs ms out => exact command_folder (cmd := .cfs p) hg hf
      | c ms out => exact command_folder (cmd := .c p) hg hf
      | binary ms out e => exact command_folder (cmd := .binary e) hg hf
  obtain ⟨f, hf, e⟩ := hd
  have e : x.1 = f := e
  rw [← e] at hf
  cases hx1 : x.1 with
  | nil => rw [hx1] at hs; cases hs
  | cons c t =>
    rw [hx1] at hs hf
    cases hs
    exact hf List.mem_cons_self

/-- **C92, partial.** With another output folder a command ends in the same way, and leaves the same file under each
name in the folder, if the file name given to generate-cosmos is not a path from the root. -/
theorem C92_folder_partial (fuel : Nat) (p : Printer) (files : List (Option Text)) (a : Args) (ha : RelativeName a)
    (out out' f : Text) (fs fs' : Files) (hf : ¬ Absolute f) (h : fs (inDir out f) = fs' (inDir out' f)) :
    (program fuel p files (inFolder a out)).result = (program fuel p files (inFolder a out')).result ∧
    (program fuel p files (inFolder a out)).apply fs (inDir out f) =
      (program fuel p files (inFolder a out')).apply fs' (inDir out' f) := by
  by_cases hc : ∀ m ms target out, a ≠ .cosmos m ms target out
  · cases program_placed fuel p files a hc with
    | error he =>
      rw [he out, he out']
      exact ⟨rfl, h⟩
    | writes hw =>
      have hn := placed_names hc (hw [])
      rw [hw out, hw out']
      exact ⟨rfl, placed_moved hn h⟩
  · cases a with
    | cosmos m ms target o =>
      show (program fuel p files (.cosmos m ms target out)).result = (program fuel p files (.cosmos m ms target out')).result ∧
        (program fuel p files (.cosmos m ms target out)).apply fs _ =
          (program fuel p files (.cosmos m ms target out')).apply fs' _
      rcases program_cosmos_cases fuel p files m ms target with ⟨e, he⟩ | ⟨pk, he⟩
      · rw [he out, he out']
        exact ⟨rfl, h⟩
      · rw [he out, he out']
        have hh : (target ++ ".txt".toList).head? ≠ some '/' := by
          cases target with
          | nil => decide
          | cons c t => exact ha
        refine ⟨rfl, ?_⟩
        simp only [Run.apply, List.foldl_cons, List.foldl_nil, FileOp.apply, joinPath_eq _ hh]
        by_cases e : f = target ++ ".txt".toList
        · subst e
          simp only [if_pos, h]
        · rw [if_neg fun h => e (inDir_inj h), if_neg fun h => e (inDir_inj h), h]
    | cfs => exact absurd (fun _ _ _ _ h => by cases h) hc
    | c => exact absurd (fun _ _ _ _ h => by cases h) hc
    | binary => exact absurd (fun _ _ _ _ h => by cases h) hc

/-- **C92, names from the root.** If the file name given to generate-cosmos is a path from the root, then the output
folder does not matter at all. -/
theorem C92_absolute (fuel : Nat) (p : Printer) (files : List (Option Text)) (m ms target out out' : Text)
    (ht : Absolute target) :
    program fuel p files (.cosmos m ms target out) = program fuel p files (.cosmos m ms target out') := by
  have hj : ∀ o, joinPath o (target ++ ".txt".toList) = target ++ ".txt".toList := by
    intro o
    unfold joinPath
    rw [if_pos]
    cases target with
    | nil => cases ht
    | cons c t => exact ht
  rcases program_cosmos_cases fuel p files m ms target with ⟨e, he⟩ | ⟨pk, he⟩
  · rw [he, he]
  · rw [he, he, hj, hj]

/-- **C92, slash at the end.** A slash at the end of the output folder changes nothing. -/
theorem C92_slash (fuel : Nat) (p : Printer) (files : List (Option Text)) (a : Args) (out : Text) (ho : out ≠ [])
    (hs : out.getLast? ≠ some '/') :
    (program fuel p files (inFolder a (out ++ ['/']))).result = (program fuel p files (inFolder a out)).result ∧
    (program fuel p files (inFolder a (out ++ ['/']))).apply = (program fuel p files (inFolder a out)).apply := by
  by_cases hc : ∀ m ms target out, a ≠ .cosmos m ms target out
  · cases program_placed fuel p files a hc with
    | error he => rw [he, he]; exact ⟨rfl, rfl⟩
    | writes hw =>
      rw [hw, hw]
      refine ⟨rfl, funext fun fs => ?_⟩
      simp only [apply_mkdir, placed, joinPath_slash ho hs]
  · cases a with
    | cosmos m ms target o =>
      show (program fuel p files (.cosmos m ms target _)).result = (program fuel p files (.cosmos m ms target _)).result ∧
        (program fuel p files (.cosmos m ms target _)).apply = (program fuel p files (.cosmos m ms target _)).apply
      rcases program_cosmos_cases fuel p files m ms target with ⟨e, he⟩ | ⟨pk, he⟩
      · rw [he, he]; exact ⟨rfl, rfl⟩
      · rw [he, he, joinPath_slash ho hs]; exact ⟨rfl, rfl⟩
    | cfs => exact absurd (fun _ _ _ _ h => by cases h) hc
    | c => exact absurd (fun _ _ _ _ h => by cases h) hc
    | binary => exact absurd (fun _ _ _ _ h => by cases h) hc

/-- The source of the examples. -/
def exPointFile : List (Option Text) := [some
  "Module-base DEFINITIONS AUTOMATIC TAGS ::= BEGIN\nPoint ::= SEQUENCE {\n  x INTEGER(0..255)\n}\nEND\n".toList]

/-- It fails for generate-cosmos with the file name `/t`: the file is in the folder `/` but not in the folder `gen`. -/
theorem C92_full_false : ¬ C92_full := by
  intro h
  have h := (h 30 exPrinter exPointFile (.cosmos "base".toList "Point".toList "/t".toList []) "/".toList "gen".toList
    "t.txt".toList (fun _ => none) (fun _ => none) (by unfold Absolute; decide) rfl).2
  exact absurd h (by decide +kernel)

/-- The header of the example in two folders. -/
example : (program 30 exPrinter exPointFile (inFolder (.c "base".toList []) "gen".toList)).apply (fun _ => none)
      "gen/base.h".toList =
    (program 30 exPrinter exPointFile (inFolder (.c "base".toList []) "a/b/".toList)).apply (fun _ => none)
      "a/b/base.h".toList ∧
    (program 30 exPrinter exPointFile (inFolder (.c "base".toList []) "gen".toList)).apply (fun _ => none)
      "gen/base.h".toList ≠ none :=
  ⟨(C92_folder_partial 30 exPrinter exPointFile (.c "base".toList []) trivial "gen".toList "a/b/".toList "base.h".toList
    (fun _ => none) (fun _ => none) (by unfold Absolute; decide) rfl).2, by decide +kernel⟩

/-- The folders `gen` and `gen/` are the same. -/
example : ((program 30 exPrinter exPointFile (.c "base".toList "gen/".toList)).apply fun _ => none) =
    (program 30 exPrinter exPointFile (.c "base".toList "gen".toList)).apply fun _ => none :=
  congrFun (C92_slash 30 exPrinter exPointFile (.c "base".toList []) "gen".toList (by decide) (by decide)).2 _

end Apg
