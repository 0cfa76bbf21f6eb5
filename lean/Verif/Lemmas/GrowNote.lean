import Verif.Lemmas.Grow

/-!
# The notes on simple types when modules are added
-/

namespace Apg
open Spec

/-- Number of characters of some lines with their line ends. -/
def lineLength (l : List Text) : Nat := (l.flatMap (fun i => i ++ ['\n'])).length

theorem lineLength_append (a b : List Text) : lineLength (a ++ b) = lineLength a + lineLength b := by
  unfold lineLength; rw [List.flatMap_append, List.length_append]

theorem sub_perm {s s' : List String} (hn : s.Nodup) (hs : ∀ x ∈ s, x ∈ s') : ∃ r, s'.Perm (s ++ r) := by
  induction s generalizing s' with
  | nil => exact ⟨s', .refl _⟩
  | cons a s ih =>
    rw [List.nodup_cons] at hn
    have ha := hs a (List.Mem.head _)
    obtain ⟨r, hr⟩ := ih (s' := s'.erase a) hn.2 fun x hx =>
      (List.mem_erase_of_ne (by rintro rfl; exact hn.1 hx)).2 (hs x (List.Mem.tail _ hx))
    exact ⟨r, (List.perm_cons_erase ha).trans (hr.cons a)⟩

/-- Length of the list of names in a note. -/
def namesLength (s : List String) : Nat := (s.map fun n => n.toList.length + 4).sum

theorem joinComma_length (s : List String) (hs : s ≠ []) :
    (joinComma (s.map fun n => '\'' :: n.toList ++ ['\''])).length + 2 = namesLength s := by
  induction s with
  | nil => exact absurd rfl hs
  | cons a s ih =>
    cases s with
    | nil => simp [joinComma, namesLength]
    | cons c s =>
      have ih := ih (by simp)
      have : (", ".toList).length = 2 := by decide
      simp only [List.map_cons, joinComma, List.length_append, List.length_cons, namesLength, List.sum_cons,
        List.length_nil, this] at ih ⊢
      omega

theorem namesLength_perm {s s' : List String} (h : s.Perm s') : namesLength s = namesLength s' :=
  (h.map _).sum_nat

/-- A type used by more modules has a longer note. -/
theorem cfsNote_longer {b b' : Bundle} {n : String} (u3 : ∀ p ∈ b.uses, p.2.Nodup ∧ p.2 ≠ [])
    (v2 : (b'.uses.map (·.1)).Nodup) (v3 : ∀ p ∈ b'.uses, p.2.Nodup ∧ p.2 ≠ [])
    (hsub : ∀ mod, (∃ s, (n, s) ∈ b.uses ∧ mod ∈ s) → ∃ s, (n, s) ∈ b'.uses ∧ mod ∈ s) {t : AType} {x x' : List Text}
    (h : cfsNote b n t = .ok x) (h' : cfsNote b' n t = .ok x') : lineLength x ≤ lineLength x' ∧
      ((∃ mod, (∃ s, (n, s) ∈ b'.uses ∧ mod ∈ s) ∧ ¬ ∃ s, (n, s) ∈ b.uses ∧ mod ∈ s) →
        lineLength x < lineLength x') := by
  unfold cfsNote at h h'
  split at h
  · cases h
    refine ⟨Nat.zero_le _, fun ⟨mod, ⟨s, hs, _⟩, _⟩ => ?_⟩
    split at h'
    · rename_i hf
      rw [List.find?_eq_none] at hf
      exact absurd (by simp) (hf _ hs)
    · simp only [bind_ok, Except.ok.injEq] at h'
      obtain ⟨_, _, rfl⟩ := h'
      unfold lineLength
      simp only [List.flatMap_cons, List.flatMap_nil, List.append_nil, List.length_append, List.length_cons,
        List.length_nil]
      omega
  · rename_i u hu
    have hu1 := List.mem_of_find?_eq_some hu
    have hu2 := List.find?_some hu
    simp only [decide_eq_true_eq] at hu2
    obtain ⟨k, s⟩ := u
    simp only at hu2
    subst hu2
    obtain ⟨y, hy⟩ := List.exists_mem_of_ne_nil _ (u3 _ hu1).2
    obtain ⟨s', hs', _⟩ := hsub y ⟨s, hu1, hy⟩
    have hin : ∀ z ∈ s, z ∈ s' := by
      intro z hz
      obtain ⟨s2, h1, h2⟩ := hsub z ⟨s, hu1, hz⟩
      cases mem_unique_of_nodup_map v2 h1 hs' rfl
      exact h2
    split at h'
    · rename_i hf
      rw [List.find?_eq_none] at hf
      exact absurd (by simp) (hf _ hs')
    · rename_i v hv
      have hv1 := List.mem_of_find?_eq_some hv
      have hv2 := List.find?_some hv
      simp only [decide_eq_true_eq] at hv2
      cases mem_unique_of_nodup_map v2 hv1 hs' hv2
      simp only [bind_ok, Except.ok.injEq] at h h'
      obtain ⟨sz, hsz, rfl⟩ := h
      obtain ⟨sz', hsz', rfl⟩ := h'
      rw [hsz] at hsz'
      cases hsz'
      obtain ⟨r, hr⟩ := sub_perm (u3 _ hu1).1 hin
      have hne : ∀ {l : List String}, l ≠ [] → l.mergeSort (fun a b => decide (a ≤ b)) ≠ [] := by
        intro l hl h0
        exact hl (by rw [← List.length_eq_zero_iff, ← (List.mergeSort_perm l _).length_eq, h0]; rfl)
      have l1 := joinComma_length _ (hne (u3 _ hu1).2)
      have l2 := joinComma_length _ (hne (v3 _ hs').2)
      rw [namesLength_perm (List.mergeSort_perm _ _)] at l1 l2
      have l3 : namesLength s' = namesLength s + namesLength r := by
        rw [namesLength_perm hr]; unfold namesLength; rw [List.map_append, List.sum_append]
      simp only at l1 l2
      have hstrict : (∃ mod, (∃ s, (k, s) ∈ b'.uses ∧ mod ∈ s) ∧ ¬ ∃ s, (k, s) ∈ b.uses ∧ mod ∈ s) →
          0 < namesLength r := by
        rintro ⟨mod, ⟨s2, q1, q2⟩, q3⟩
        cases mem_unique_of_nodup_map v2 q1 hs' rfl
        have : mod ∈ r := by
          rcases List.mem_append.1 (hr.mem_iff.1 q2) with h | h
          · exact absurd ⟨s, hu1, h⟩ q3
          · exact h
        cases r with
        | nil => cases this
        | cons c r => simp only [namesLength, List.map_cons, List.sum_cons]; omega
      unfold lineLength
      simp only [List.flatMap_cons, List.flatMap_nil, List.append_nil, List.length_append]
      exact ⟨by omega, fun q => by have := hstrict q; omega⟩

/-- Data that differ in the lines with includes and notes only. -/
theorem convertDefs_longer {be be' : Backend} {ds ds' simple : List Def} {mod : Module}
    (hh : be.handler = be'.handler) (hr : ∀ d ∈ mod.defs, ∀ m ∈ d.members, resolveType ds m.type = resolveType ds' m.type)
    (hn : ∀ n c t x x', Def.simple n c t ∈ mod.defs → be.note n t = .ok x → be'.note n t = .ok x' →
      lineLength x ≤ lineLength x') :
    ∀ (l : List Def), (∀ d ∈ l, d ∈ mod.defs) → ∀ (cd : CData) (inc : List Text) (r r' : CData),
      convertDefs be ds simple mod cd l = .ok r →
      convertDefs be' ds' simple mod { cd with includes := inc } l = .ok r' →
      ∃ inc', r' = { r with includes := inc' } ∧ ∀ k, lineLength cd.includes + k ≤ lineLength inc →
        lineLength r.includes + k ≤ lineLength inc' ∧
        ((∃ n c t, Def.simple n c t ∈ l ∧ ∀ x x', be.note n t = .ok x → be'.note n t = .ok x' →
          lineLength x < lineLength x') → lineLength r.includes + k < lineLength inc') := by
  intro l
  induction l with
  | nil =>
    intro _ cd inc r r' h h'
    cases h
    cases h'
    exact ⟨inc, rfl, fun k hk => ⟨hk, fun ⟨_, _, _, h, _⟩ => by cases h⟩⟩
  | cons d l ih =>
    intro hl cd inc r r' h h'
    have hd := hl d (List.Mem.head _)
    have ih := ih fun k hk => hl k (List.Mem.tail _ hk)
    simp only [convertDefs, bind_ok] at h h'
    obtain ⟨c1, h1, h2⟩ := h
    obtain ⟨c2, h3, h4⟩ := h'
    -- the other definitions add the same data
    have hsame : ∀ e : CData, d.isSimple = false → c1 = cd.extend e → c2 = CData.extend { cd with includes := inc } e →
        ∃ inc', r' = { r with includes := inc' } ∧ ∀ k, lineLength cd.includes + k ≤ lineLength inc →
        lineLength r.includes + k ≤ lineLength inc' ∧
        ((∃ n c t, Def.simple n c t ∈ d :: l ∧ ∀ x x', be.note n t = .ok x → be'.note n t = .ok x' →
          lineLength x < lineLength x') → lineLength r.includes + k < lineLength inc') := by
      rintro e hd rfl rfl
      obtain ⟨inc', q1, q2⟩ := ih (cd.extend e) (inc ++ e.includes) r r' h2 h4
      refine ⟨inc', q1, fun k hk => ?_⟩
      obtain ⟨q3, q4⟩ := q2 k (by
        simp only [CData.extend, lineLength_append]; omega)
      refine ⟨q3, fun ⟨n, c, t, hm, hx⟩ => q4 ⟨n, c, t, ?_, hx⟩⟩
      rcases List.mem_cons.1 hm with rfl | hm
      · cases hd
      · exact hm
    cases d with
    | simple n c t =>
      simp only [convertDef, bind_ok] at h1 h3
      obtain ⟨x, g1, g2⟩ := h1
      obtain ⟨x', g3, g4⟩ := h3
      cases g2
      cases g4
      have hle := hn n c t x x' hd g1 g3
      obtain ⟨inc', q1, q2⟩ := ih { cd with includes := cd.includes ++ x } (inc ++ x') r r' h2 h4
      refine ⟨inc', q1, fun k hk => ⟨(q2 k (by simp only [lineLength_append]; omega)).1, ?_⟩⟩
      rintro ⟨n', c', t', hm, hx⟩
      rcases List.mem_cons.1 hm with he | hm
      · cases he
        have hlt := hx x x' g1 g3
        have := (q2 (k + 1) (by simp only [lineLength_append]; omega)).1
        omega
      · exact (q2 k (by simp only [lineLength_append]; omega)).2 ⟨n', c', t', hm, hx⟩
    | seq n c ms =>
      simp only [convertDef, bind_ok, Except.ok.injEq] at h1 h3
      obtain ⟨e, g1, g2⟩ := h1
      obtain ⟨e', g3, g4⟩ := h3
      have : e' = e := by
        simp only [convertSequence, bind_ok] at g1 g3
        obtain ⟨x, g5, g6⟩ := g1
        obtain ⟨x', g7, g8⟩ := g3
        have := convertMembers_extends (h' := be'.handler) (fun n m => by rw [hh]; exact fun _ h => h) ms (hr _ hd) _ _ g5
        rw [this] at g7
        cases g7
        rw [g6] at g8
        cases g8
        rfl
      subst this
      exact hsame e' rfl g2.symm g4.symm
    | enum n c its =>
      simp only [convertDef, Except.ok.injEq] at h1 h3
      exact hsame _ rfl h1.symm h3.symm
    | choice n c ms =>
      simp only [convertDef, Except.ok.injEq] at h1 h3
      exact hsame _ rfl h1.symm h3.symm

theorem headerText_longer {f : Text} {cd : CData} {inc : List Text} (h : lineLength cd.includes < lineLength inc) :
    headerText .msg f cd ≠ headerText .msg f { cd with includes := inc } := by
  intro he
  have he := congrArg List.length he
  unfold headerText lineLength at *
  simp only [reduceCtorEq, if_false, false_and, List.length_append] at he h
  omega

theorem moduleData_longer {fuel fuel' : Nat} {be be' : Backend} {ds ds' : List Def} {bm : BMod}
    (hi : be.includeFile = be'.includeFile)
    (hh : be.handler = be'.handler) (hr : ∀ d ∈ bm.mod.defs, ∀ m ∈ d.members, resolveType ds m.type = resolveType ds' m.type)
    (hn : ∀ n c t x x', Def.simple n c t ∈ bm.mod.defs → be.note n t = .ok x → be'.note n t = .ok x' →
      lineLength x ≤ lineLength x')
    (hlt : ∃ n c t, Def.simple n c t ∈ bm.mod.defs ∧ ∀ x x', be.note n t = .ok x → be'.note n t = .ok x' →
      lineLength x < lineLength x') {cd cd' : CData} (h : moduleData fuel be ds bm = .ok cd)
    (h' : moduleData fuel' be' ds' bm = .ok cd') (f : Text) : headerText .msg f cd ≠ headerText .msg f cd' := by
  unfold moduleData at h h'
  split at h
  · cases h
  rename_i sorted hs
  split at h'
  · cases h'
  rename_i sorted' hs'
  have h1 : sortDefs (max fuel fuel') bm.mod = some sorted := sortLoop_mono _ _ _ _ _ _ (by omega) hs
  have h2 : sortDefs (max fuel fuel') bm.mod = some sorted' := sortLoop_mono _ _ _ _ _ _ (by omega) hs'
  rw [h1] at h2
  cases h2
  simp only [bind_ok, Except.ok.injEq] at h h'
  obtain ⟨c1, g1, rfl⟩ := h
  obtain ⟨c2, g2, rfl⟩ := h'
  have hp := (sortDefs_spec _ _ _ hs).1
  obtain ⟨inc, rfl, q⟩ := convertDefs_longer hh hr hn sorted (fun d hd => hp.mem_iff.1 hd) _
    (importIncludes be'.includeFile bm.mod) c1 c2 g1 g2
  obtain ⟨n, c, t, hm, hx⟩ := hlt
  have := (q 0 (by rw [hi]; exact Nat.le_refl _)).2 ⟨n, c, t, hp.mem_iff.2 hm, hx⟩
  exact headerText_longer (cd := { c1 with headerComment := headerDoc bm.mod }) this

end Apg
