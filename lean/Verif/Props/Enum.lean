import Verif.Lemmas.Enum
import Verif.Spec.Enum

/-!
# Properties C05, C06: numbering of enumerations
-/

namespace Apg
open Spec

/-- **C05.** An accepted enumeration ends up with exactly its own items, numbered
`0, 1, ..., n-1` in list order, with no hole. -/
theorem C05_numbered (items : List EnumItem) (slots : List (Option EnumItem))
    (h : checkEnumerated items = .ok slots) :
    ∃ items' : List EnumItem, slots = items'.map some ∧
      items'.map (·.pos) = numbers items.length ∧
      (items'.map label).Perm (items.map label) := by
  unfold checkEnumerated at h
  simp only at h
  split at h
  · cases h
    refine ⟨renumberFrom 0 items, rfl, ?_, ?_⟩
    · rw [renumberFrom_pos]; simp [numbers, List.range_eq_range']
    · have := renumberFrom_keys items 0
      unfold label
      rw [this]
  · split at h
    · cases h
    · rename_i h1 h2
      obtain ⟨items', rfl, hp, hpos⟩ := fillSlots_explicit items slots (by omega) h
      exact ⟨items', rfl, hpos, hp.map _⟩

example : checkEnumerated [⟨"a", 2, none⟩, ⟨"b", 0, none⟩, ⟨"c", 1, none⟩] =
    .ok [some ⟨"b", 0, none⟩, some ⟨"c", 1, none⟩, some ⟨"a", 2, none⟩] := by decide +kernel
example : checkEnumerated [⟨"a", 0, none⟩, ⟨"b", 0, none⟩] =
    .ok [some ⟨"a", 0, none⟩, some ⟨"b", 1, none⟩] := by decide +kernel

/-- **C06 (valid numbering honoured).** If the written numbers are a permutation of
`0 .. n-1`, the enumeration is accepted, every item keeps the number written, and
the items come out in the order of their numbers. -/
theorem C06_valid_honoured (items : List EnumItem) (hv : ValidPositions items) :
    ∃ items' : List EnumItem, checkEnumerated items = .ok (items'.map some) ∧
      items'.Perm items ∧ items'.map (·.pos) = numbers items.length := by
  unfold ValidPositions at hv
  unfold checkEnumerated
  simp only
  by_cases hs : (items.map (·.pos)).sum = 0
  · rw [if_pos hs]
    have h0 := perm_zero_one (l := items.map (·.pos)) (by simpa using hv) hs
    rw [List.length_map] at h0
    have h1 : renumberFrom 0 items = items := by
      apply renumberFrom_self
      rw [h0]; simp [numbers, List.range_eq_range']
    exact ⟨items, by rw [h1], List.Perm.refl _, h0⟩
  · have hsum : (items.map (·.pos)).sum =
        ((List.range items.length).map (fun (i : Nat) => (i : Int))).sum := perm_sum_int hv
    rw [if_neg hs, if_neg (by omega)]
    obtain ⟨r, hr⟩ := fillSlots_succeeds items (List.replicate items.length none)
      (by
        refine hv.nodup_iff.2 ?_
        unfold numbers
        refine List.Pairwise.map (R := (· ≠ ·)) _ ?_ List.nodup_range
        intro a b hab; omega)
      (by
        intro it hit
        have : it.pos ∈ numbers items.length := hv.mem_iff.1 (List.mem_map_of_mem hit)
        simp only [numbers, List.mem_map, List.mem_range] at this
        obtain ⟨i, hi, hip⟩ := this
        refine ⟨i, hip.symm, ?_⟩
        rw [List.getElem?_replicate, if_pos hi])
    obtain ⟨items', rfl, hp, hpos⟩ := fillSlots_explicit items r hsum hr
    exact ⟨items', hr, hp, hpos⟩

example : ValidPositions [⟨"a", 2, none⟩, ⟨"b", 0, none⟩, ⟨"c", 1, none⟩] := by
  unfold ValidPositions; decide

/-- Full statement of the refusal half of C06: any enumeration in which some
non-zero number is written and the numbers are not a permutation of `0 .. n-1` is
refused. -/
def C06_refusal_full : Prop :=
  ∀ items : List EnumItem, (∃ it ∈ items, it.pos ≠ 0) → ¬ ValidPositions items →
    ∃ e, checkEnumerated items = .error e

/-- The code does not satisfy it: `{a(1), b(-1)}` is silently renumbered. -/
theorem C06_refusal_full_false : ¬ C06_refusal_full := by
  intro h
  obtain ⟨e, he⟩ := h [⟨"a", 1, none⟩, ⟨"b", -1, none⟩] ⟨⟨"a", 1, none⟩, by simp, by decide⟩
    (by unfold ValidPositions; decide)
  revert he
  have : checkEnumerated [⟨"a", 1, none⟩, ⟨"b", -1, none⟩] =
    .ok [some ⟨"a", 0, none⟩, some ⟨"b", 1, none⟩] := by decide +kernel
  rw [this]; simp

/-- **C06 (bad numbering refused), partial.** Missing: numbers that are not a
permutation of `0 .. n-1` but sum to zero, which the code renumbers. -/
theorem C06_refusal_partial (items : List EnumItem)
    (hs : (items.map (·.pos)).sum ≠ 0) (hv : ¬ ValidPositions items) :
    checkEnumerated items = .error .indexError := by
  cases hc : checkEnumerated items with
  | ok slots =>
    exfalso
    apply hv
    unfold checkEnumerated at hc
    simp only at hc
    rw [if_neg hs] at hc
    split at hc
    · cases hc
    · rename_i h2
      obtain ⟨items', rfl, hp, hpos⟩ := fillSlots_explicit items slots (by omega) hc
      unfold ValidPositions numbers
      rw [← hpos]
      exact (hp.map _).symm
  | error e =>
    unfold checkEnumerated at hc
    simp only at hc
    rw [if_neg hs] at hc
    split at hc
    · cases hc; rfl
    · have : ∀ (its : List EnumItem) sl e, fillSlots sl its = .error e → e = .indexError := by
        intro its
        induction its with
        | nil => intro sl e h; simp [fillSlots] at h
        | cons it rest ih =>
          intro sl e h
          rw [fillSlots] at h
          split at h
          · cases h; rfl
          · split at h
            · exact ih _ _ h
            · cases h; rfl
      rw [this _ _ _ hc]

example : (([⟨"a", 2, none⟩, ⟨"b", 1, none⟩] : List EnumItem).map (·.pos)).sum ≠ 0 ∧
    ¬ ValidPositions [⟨"a", 2, none⟩, ⟨"b", 1, none⟩] := by
  unfold ValidPositions; decide

end Apg
