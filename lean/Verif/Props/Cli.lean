import Verif.Model.Main
import Verif.Lemmas.Examples

/-!
# Property C48: lists of names on the command line
-/

namespace Apg

namespace Spec

/-- The names of a list separated by commas. -/
def commaList : List (List Char) → List Char
  | [] => []
  | [t] => t
  | t :: ts => t ++ ',' :: commaList ts

end Spec

open Spec

theorem splitComma_ne_nil (t : Text) : splitComma t ≠ [] := by
  cases t with
  | nil => simp [splitComma]
  | cons c cs =>
    unfold splitComma
    split
    · simp
    · split <;> simp

theorem splitComma_comma (t : Text) : splitComma (',' :: t) = [] :: splitComma t := by
  rw [splitComma]
  split
  · rename_i h; exact absurd h (splitComma_ne_nil t)
  · rename_i h; rw [h]; simp

theorem splitComma_name {n : Text} (hn : ',' ∉ n) {t x : Text} {ts : List Text}
    (h : splitComma t = x :: ts) : splitComma (n ++ t) = (n ++ x) :: ts := by
  induction n with
  | nil => exact h
  | cons c n ih =>
    rw [List.cons_append, splitComma, ih (fun hm => hn (by simp [hm]))]
    have : c ≠ ',' := by rintro rfl; exact hn (by simp)
    simp [this]

/-- **C48.** A list of names without commas, joined by commas, is split into exactly these
names. -/
theorem C48_split_join (ns : List Text) (hne : ns ≠ []) (hc : ∀ n ∈ ns, ',' ∉ n) :
    splitComma (commaList ns) = ns := by
  induction ns with
  | nil => exact absurd rfl hne
  | cons n ns ih =>
    cases ns with
    | nil =>
      have := splitComma_name (hc n (by simp)) (t := []) (x := []) (ts := []) rfl
      simpa [commaList] using this
    | cons m ns =>
      have h1 := ih (by simp) (fun k hk => hc k (by simp [hk]))
      have h2 := splitComma_name (hc n (by simp)) (splitComma_comma (commaList (m :: ns)))
      rw [h1] at h2
      simpa [commaList] using h2

/-- **C48.** Every argument is split into at least one part, no part has a comma, and the
parts joined by commas are the argument. -/
theorem C48_join_split (t : Text) :
    splitComma t ≠ [] ∧ (∀ n ∈ splitComma t, ',' ∉ n) ∧ commaList (splitComma t) = t := by
  refine ⟨splitComma_ne_nil t, ?_⟩
  induction t with
  | nil => simp [splitComma, commaList]
  | cons c cs ih =>
    by_cases hc : c = ','
    · subst hc
      rw [splitComma_comma]
      refine ⟨?_, ?_⟩
      · intro n hn
        rcases List.mem_cons.1 hn with rfl | hn
        · simp
        · exact ih.1 n hn
      · cases hs : splitComma cs with
        | nil => exact absurd hs (splitComma_ne_nil cs)
        | cons x xs =>
          rw [← ih.2, hs]
          rfl
    · cases hs : splitComma cs with
      | nil => exact absurd hs (splitComma_ne_nil cs)
      | cons x xs =>
        rw [hs] at ih
        have : splitComma (c :: cs) = (c :: x) :: xs := by
          rw [splitComma, hs]
          simp [hc]
        rw [this]
        refine ⟨?_, ?_⟩
        · intro n hn
          rcases List.mem_cons.1 hn with rfl | hn
          · intro hm
            rcases List.mem_cons.1 hm with h | h
            · exact hc h.symm
            · exact ih.1 x (by simp) h
          · exact ih.1 n (by simp [hn])
        · rw [← ih.2]
          cases xs <;> rfl

/-- **C48.** The commands get exactly the names written on the command line: the runs are
those for the list of names. -/
theorem C48_commands (fuel : Nat) (p : Printer) (raw : List Module) (ns : List String)
    (hne : ns ≠ []) (hc : ∀ n ∈ ns, ',' ∉ n.toList) (m target out : Text) (e : Option Endian) :
    let arg := commaList (ns.map String.toList)
    runMain fuel p raw (.cfs arg out) = runCfs fuel p raw ns out ∧
    runMain fuel p raw (.c arg out) = runC fuel p raw ns out ∧
    runMain fuel p raw (.binary arg out e) = runBinary fuel e raw ns out ∧
    runMain fuel p raw (.cosmos m arg target out) =
      runCosmos fuel p raw (String.ofList m) ns target out := by
  intro arg
  have h : nameList arg = ns := by
    unfold nameList
    rw [C48_split_join _ (by simpa using hne) (by simpa using hc), List.map_map]
    have : String.ofList ∘ String.toList = id := by
      funext s
      simp
    rw [this, List.map_id]
  simp only [runMain, h, and_self]

example : splitComma "Base,Geo-data,".toList = ["Base".toList, "Geo-data".toList, []] := by decide

example : (["Base", "Geo"] : List String) ≠ [] ∧ ∀ n ∈ ["Base", "Geo"], ',' ∉ n.toList := by decide

end Apg
