import Verif.Model.Processor
import Verif.Spec.Enum

namespace Apg

theorem pyIndex_some {n : Nat} {p : Int} {i : Nat} (h : pyIndex n p = some i) :
    i < n ∧ (p = i ∨ p = (i : Int) - n) := by
  unfold pyIndex at h
  split at h
  · cases h; omega
  · split at h
    · cases h; omega
    · cases h

theorem pyIndex_of_lt {n i : Nat} (h : i < n) : pyIndex n (i : Int) = some i := by
  unfold pyIndex
  rw [if_pos (by omega)]; simp

theorem filterMap_set_none {α} (l : List (Option α)) (i : Nat) (a : α)
    (h : l[i]? = some none) :
    ((l.set i (some a)).filterMap id).Perm (a :: l.filterMap id) := by
  induction l generalizing i with
  | nil => simp at h
  | cons x xs ih =>
    cases i with
    | zero =>
      simp at h; subst h; simp
    | succ i =>
      simp at h
      have := ih i h
      cases x with
      | none => simpa using this
      | some y =>
        simp only [List.set_cons_succ, List.filterMap_cons, id]
        exact (this.cons y).trans (List.Perm.swap ..)

theorem perm_sum_int {l l' : List Int} (h : l.Perm l') : l.sum = l'.sum := by
  induction h with
  | nil => rfl
  | cons x _ ih => simp [ih]
  | swap x y l => simp only [List.sum_cons]; omega
  | trans _ _ ih1 ih2 => exact ih1.trans ih2

theorem fillSlots_ok (items : List EnumItem) : ∀ (slots r : List (Option EnumItem)),
    fillSlots slots items = .ok r →
    r.length = slots.length ∧ (r.filterMap id).Perm (slots.filterMap id ++ items) ∧
    ∀ (i : Nat) it, r[i]? = some (some it) →
      slots[i]? = some (some it) ∨ pyIndex slots.length it.pos = some i := by
  induction items with
  | nil =>
    intro slots r h
    simp [fillSlots] at h
    subst h
    refine ⟨rfl, by simp, fun i it hi => Or.inl hi⟩
  | cons it rest ih =>
    intro slots r h
    rw [fillSlots] at h
    split at h
    · cases h
    · rename_i i hi
      split at h
      · rename_i hs
        obtain ⟨h1, h2, h3⟩ := ih _ _ h
        refine ⟨by simpa using h1, ?_, ?_⟩
        · refine h2.trans ?_
          refine ((filterMap_set_none slots i it hs).append_right rest).trans ?_
          simpa using List.perm_middle.symm
        · intro j jt hj
          have := h3 j jt hj
          simp only [List.length_set] at this
          rcases this with h' | h'
          · by_cases hij : i = j
            · subst hij
              have hlt : i < slots.length := (pyIndex_some hi).1
              rw [List.getElem?_set_self hlt] at h'
              simp at h'
              subst h'
              exact Or.inr hi
            · rw [List.getElem?_set_ne hij] at h'
              exact Or.inl h'
          · exact Or.inr h'
      · cases h

theorem all_some_of_length {α} (l : List (Option α)) (h : (l.filterMap id).length = l.length) :
    l = (l.filterMap id).map some := by
  induction l with
  | nil => rfl
  | cons x xs ih =>
    cases x with
    | none =>
      simp at h
      have := List.length_filterMap_le (f := (id : Option α → Option α)) (l := xs)
      omega
    | some y =>
      simp only [List.filterMap_cons, id, List.length_cons, Nat.add_right_cancel_iff] at h
      simp only [List.filterMap_cons, id, List.map_cons]
      rw [← ih h]

/-- If every entry is its index or its index minus `n`, and the sum is that of the
indices, then every entry is its index. -/
theorem eq_range_of_sum (l : List Int) (n k : Nat) (hn : l.length + k ≤ n)
    (h : ∀ (i : Nat) p, l[i]? = some p → p = (i + k : Nat) ∨ p = ((i + k : Nat) : Int) - n) :
    l.sum ≤ ((List.range' k l.length).map (fun (i : Nat) => (i : Int))).sum ∧
    (l.sum = ((List.range' k l.length).map (fun (i : Nat) => (i : Int))).sum →
      l = (List.range' k l.length).map (fun (i : Nat) => (i : Int))) := by
  induction l generalizing k with
  | nil => simp
  | cons p ps ih =>
    have h0 := h 0 p (by simp)
    have ih' := ih (k + 1) (by simp at hn; omega) (by
      intro i q hi
      have := h (i + 1) q (by simpa using hi)
      rw [show i + (k + 1) = i + 1 + k by omega]
      exact this)
    simp only [List.length_cons, List.range'_succ, List.map_cons, List.sum_cons]
    simp only [List.length_cons] at hn
    constructor
    · have := ih'.1; omega
    · intro hs
      have h1 : ps.sum = ((List.range' (k + 1) ps.length).map (fun (i : Nat) => (i : Int))).sum := by
        have := ih'.1; omega
      rw [← ih'.2 h1]
      have : p = k := by omega
      rw [this]

theorem renumberFrom_pos (items : List EnumItem) (k : Nat) :
    (renumberFrom k items).map (·.pos) = (List.range' k items.length).map (fun (i : Nat) => (i : Int)) := by
  induction items generalizing k with
  | nil => rfl
  | cons x xs ih => simp [renumberFrom, ih, List.range'_succ]

theorem renumberFrom_keys (items : List EnumItem) (k : Nat) :
    (renumberFrom k items).map (fun it => (it.key, it.comment)) =
      items.map (fun it => (it.key, it.comment)) := by
  induction items generalizing k with
  | nil => rfl
  | cons x xs ih => simp [renumberFrom, ih]

theorem renumberFrom_self (items : List EnumItem) (k : Nat)
    (h : items.map (·.pos) = (List.range' k items.length).map (fun (i : Nat) => (i : Int))) :
    renumberFrom k items = items := by
  induction items generalizing k with
  | nil => rfl
  | cons x xs ih =>
    simp only [List.map_cons, List.length_cons, List.range'_succ, List.cons.injEq] at h
    rw [renumberFrom, ih (k + 1) h.2, ← h.1]

/-- Result of the explicit branch. -/
theorem fillSlots_explicit (items : List EnumItem) (r : List (Option EnumItem))
    (hsum : (items.map (·.pos)).sum = ((List.range items.length).map (fun (i : Nat) => (i : Int))).sum)
    (h : fillSlots (List.replicate items.length none) items = .ok r) :
    ∃ items' : List EnumItem, r = items'.map some ∧ items'.Perm items ∧
      items'.map (·.pos) = (List.range items.length).map (fun (i : Nat) => (i : Int)) := by
  obtain ⟨h1, h2, h3⟩ := fillSlots_ok items _ _ h
  have hnone : (List.replicate items.length (none : Option EnumItem)).filterMap id = [] := by
    induction items.length with
    | zero => rfl
    | succ k ih => rw [List.replicate_succ]; simp
  rw [hnone, List.nil_append] at h2
  have hr := all_some_of_length r (by rw [h2.length_eq, h1]; simp)
  refine ⟨r.filterMap id, hr, h2, ?_⟩
  have hlen : ((r.filterMap id).map (·.pos)).length = items.length := by
    simp [h2.length_eq]
  have key := eq_range_of_sum ((r.filterMap id).map (·.pos)) items.length 0 (by omega) (by
    intro i p hp
    rw [List.getElem?_map, Option.map_eq_some_iff] at hp
    obtain ⟨it, hit, rfl⟩ := hp
    have hri : r[i]? = some (some it) := by
      rw [hr, List.getElem?_map, hit]; rfl
    have := h3 i it hri
    rw [List.length_replicate] at this
    rcases this with h' | h'
    · exfalso
      have hlt : i < (List.replicate items.length (none : Option EnumItem)).length := by
        rcases Nat.lt_or_ge i (List.replicate items.length (none : Option EnumItem)).length with hh | hh
        · exact hh
        · rw [List.getElem?_eq_none hh] at h'; cases h'
      rw [List.getElem?_eq_getElem hlt] at h'
      simp at h'
    · have := (pyIndex_some h').2
      simpa using this)
  rw [hlen] at key
  have hs : ((r.filterMap id).map (·.pos)).sum = (items.map (·.pos)).sum :=
    perm_sum_int (h2.map _)
  rw [List.range_eq_range'] at hsum ⊢
  exact key.2 (by rw [hs]; exact hsum)

/-- Slot filling succeeds when the positions are distinct valid indices of free slots. -/
theorem fillSlots_succeeds (items : List EnumItem) : ∀ (slots : List (Option EnumItem)),
    (items.map (·.pos)).Nodup →
    (∀ it ∈ items, ∃ i : Nat, it.pos = i ∧ slots[i]? = some none) →
    ∃ r, fillSlots slots items = .ok r := by
  induction items with
  | nil => intro slots _ _; exact ⟨slots, rfl⟩
  | cons it rest ih =>
    intro slots hnd hfree
    obtain ⟨i, hpos, hi⟩ := hfree it (by simp)
    have hlt : i < slots.length := by
      rcases Nat.lt_or_ge i slots.length with hh | hh
      · exact hh
      · rw [List.getElem?_eq_none hh] at hi; cases hi
    rw [fillSlots, hpos, pyIndex_of_lt hlt]
    simp only [hi]
    simp only [List.map_cons, List.nodup_cons] at hnd
    apply ih _ hnd.2
    intro jt hj
    obtain ⟨j, hjp, hjs⟩ := hfree jt (by simp [hj])
    refine ⟨j, hjp, ?_⟩
    have hne : i ≠ j := by
      intro hij
      apply hnd.1
      rw [hpos, hij, ← hjp]
      exact List.mem_map_of_mem hj
    rw [List.getElem?_set_ne hne]; exact hjs

open Spec in
theorem perm_zero_one {l : List Int} (h : l.Perm (numbers l.length))
    (hs : l.sum = 0) : l = numbers l.length := by
  match l, h, hs with
  | [], _, _ => rfl
  | [x], h, hs => simpa [numbers] using hs
  | x :: y :: l, h, hs =>
    exfalso
    have h1 := perm_sum_int h
    have hnn2 : ∀ (k s : Nat), 0 ≤ ((List.range' s k).map (fun (i : Nat) => (i : Int))).sum := by
      intro k
      induction k with
      | zero => simp
      | succ k ih => intro s; simp only [List.range'_succ, List.map_cons, List.sum_cons]; have := ih (s + 1); omega
    rw [numbers, List.range_eq_range'] at h1
    simp only [List.length_cons, List.range'_succ, List.map_cons, List.sum_cons] at h1 hs
    have := hnn2 l.length (0 + 1 + 1)
    omega

end Apg
