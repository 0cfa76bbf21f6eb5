import Verif.Model.Sorter
import Verif.Spec.Order
import Verif.Lemmas.Bundle

/-!
# Lemmas about the sorters
-/

namespace Apg
open Spec

theorem mem_sortBase (m : Module) (n : String) : n ∈ sortBase m ↔ Outside m n := by
  unfold sortBase Outside
  rw [List.mem_append, ← builtIn_iff]
  simp [List.mem_flatMap]

theorem ready_iff (defined : List String) (d : Def) :
    d.ready defined = true ↔ ∀ n, Uses d n → n ∈ defined := by
  have key : ∀ ms : List Member, ms.all (fun m => defined.contains m.type.name) = true ↔
      ∀ n, (∃ mem ∈ ms, UsesName mem.type n) → n ∈ defined := by
    intro ms
    simp only [List.all_eq_true, List.contains_iff_mem]
    constructor
    · rintro h n ⟨mem, hm, hu⟩
      rw [usesName_iff] at hu
      exact hu ▸ h mem hm
    · intro h mem hm
      exact h _ ⟨mem, hm, (usesName_iff _ _).2 rfl⟩
  cases d with
  | seq nm c ms => simp only [Def.ready, key]; simp [Uses, Def.members]
  | choice nm c ms => simp only [Def.ready, key]; simp [Uses, Def.members]
  | enum nm c its => simp [Def.ready, Uses]
  | simple nm c t => simp [Def.ready, Uses]

theorem sortPass_spec (defined : List String) (ds : List Def) :
    (sortPass defined ds).2.2 = defined ++ (sortPass defined ds).1.map Def.name ∧
    ((sortPass defined ds).1 ++ (sortPass defined ds).2.1).Perm ds := by
  induction ds generalizing defined with
  | nil => simp [sortPass]
  | cons d ds ih =>
    rw [sortPass]
    split
    · obtain ⟨h1, h2⟩ := ih (defined ++ [d.name])
      refine ⟨by simp [h1], ?_⟩
      simpa using h2
    · obtain ⟨h1, h2⟩ := ih defined
      refine ⟨by simp [h1], ?_⟩
      exact List.perm_middle.trans (h2.cons d)

/-- Everything emitted in a pass was ready when emitted. -/
theorem sortPass_order (defined : List String) (ds : List Def) (i : Nat) (d : Def)
    (h : (sortPass defined ds).1[i]? = some d) (n : String) (hu : Uses d n) :
    n ∈ defined ∨ ∃ j, j < i ∧ ∃ e, (sortPass defined ds).1[j]? = some e ∧ e.name = n := by
  induction ds generalizing defined i with
  | nil => simp [sortPass] at h
  | cons d' ds ih =>
    rw [sortPass] at h ⊢
    by_cases hr : d'.ready defined = true
    · simp only [hr, if_true] at h ⊢
      cases i with
      | zero =>
        simp at h; subst h
        exact .inl ((ready_iff _ _).1 hr n hu)
      | succ i =>
        simp at h
        rcases ih _ i h with h1 | ⟨j, hj, e, he, hn⟩
        · rw [List.mem_append, List.mem_singleton] at h1
          rcases h1 with h1 | h1
          · exact .inl h1
          · exact .inr ⟨0, by omega, d', by simp, h1.symm⟩
        · exact .inr ⟨j + 1, by omega, e, by simpa using he, hn⟩
    · simp only [hr] at h ⊢
      exact ih _ i h

/-- A definition ready at the beginning of a pass does not stay. -/
theorem sortPass_progress (defined : List String) (ds : List Def) (d : Def) (hd : d ∈ ds)
    (hr : ∀ n, Uses d n → n ∈ defined) : (sortPass defined ds).2.1.length < ds.length := by
  have hlen : ∀ defined ds, (sortPass defined ds).2.1.length ≤ ds.length := by
    intro defined ds
    have := (sortPass_spec defined ds).2.length_eq
    simp at this; omega
  induction ds generalizing defined with
  | nil => simp at hd
  | cons d' ds ih =>
    rw [sortPass]
    split
    · exact Nat.lt_succ_of_le (hlen (defined ++ [d'.name]) ds)
    · rename_i hnr
      rcases List.mem_cons.1 hd with rfl | hd
      · exact absurd ((ready_iff _ _).2 hr) hnr
      · exact Nat.succ_lt_succ (ih defined hd hr)

/-- Each entry uses only names that are given or come from an earlier entry. -/
def OrderedFrom (base : List String) (l : List Def) : Prop :=
  ∀ (i : Nat) (d : Def), l[i]? = some d → ∀ n, Uses d n →
    n ∈ base ∨ ∃ j : Nat, j < i ∧ ∃ e : Def, l[j]? = some e ∧ e.name = n

theorem sortPass_ordered (base : List String) (done ds : List Def)
    (h : OrderedFrom base done) :
    OrderedFrom base (done ++ (sortPass (base ++ done.map Def.name) ds).1) := by
  intro i d hi n hu
  by_cases hlt : i < done.length
  · rw [List.getElem?_append_left hlt] at hi
    rcases h i d hi n hu with h1 | ⟨j, hj, e, he, hn⟩
    · exact .inl h1
    · exact .inr ⟨j, hj, e, by rw [List.getElem?_append_left (by omega)]; exact he, hn⟩
  · rw [List.getElem?_append_right (by omega)] at hi
    rcases sortPass_order _ _ _ d hi n hu with h1 | ⟨j, hj, e, he, hn⟩
    · rw [List.mem_append] at h1
      rcases h1 with h1 | h1
      · exact .inl h1
      · obtain ⟨e, he, hn⟩ := List.mem_map.1 h1
        obtain ⟨j, hj, hje⟩ := List.getElem_of_mem he
        refine .inr ⟨j, by omega, e, ?_, hn⟩
        rw [List.getElem?_append_left hj, List.getElem?_eq_getElem hj, hje]
    · refine .inr ⟨done.length + j, by omega, e, ?_, hn⟩
      rw [List.getElem?_append_right (by omega)]
      simpa using he

theorem sortLoop_eq (fuel : Nat) (defined : List String) (done todo : List Def) :
    sortLoop (fuel + 1) defined done todo = match todo with
      | [] => some done
      | _ :: _ =>
        sortLoop fuel (sortPass defined todo).2.2 (done ++ (sortPass defined todo).1)
          (sortPass defined todo).2.1 := by
  cases todo <;> rfl

theorem sortLoop_spec (base : List String) (fuel : Nat) (done todo out : List Def)
    (hord : OrderedFrom base done)
    (h : sortLoop fuel (base ++ done.map Def.name) done todo = some out) :
    out.Perm (done ++ todo) ∧ OrderedFrom base out := by
  induction fuel generalizing done todo with
  | zero => simp [sortLoop] at h
  | succ fuel ih =>
    rw [sortLoop_eq] at h
    split at h
    · cases h; simpa using hord
    · rename_i d ds
      have hs := sortPass_spec (base ++ done.map Def.name) (d :: ds)
      rw [hs.1, List.append_assoc, ← List.map_append] at h
      obtain ⟨h1, h2⟩ := ih _ _ (sortPass_ordered base done (d :: ds) hord) h
      refine ⟨h1.trans ?_, h2⟩
      rw [List.append_assoc]
      exact hs.2.append_left done

theorem sortDefs_spec (fuel : Nat) (m : Module) (out : List Def)
    (h : sortDefs fuel m = some out) :
    out.Perm m.defs ∧ OrderedFrom (sortBase m) out := by
  have := sortLoop_spec (sortBase m) fuel [] m.defs out (by intro i d hi; simp at hi)
    (by simpa [sortDefs] using h)
  simpa using this

theorem exists_min {α : Type} (f : α → Nat) : ∀ l : List α, l ≠ [] →
    ∃ a ∈ l, ∀ b ∈ l, f a ≤ f b
  | [], h => absurd rfl h
  | [a], _ => ⟨a, by simp, by simp⟩
  | a :: b :: l, _ => by
    obtain ⟨c, hc, hm⟩ := exists_min f (b :: l) (by simp)
    by_cases h : f a ≤ f c
    · refine ⟨a, by simp, ?_⟩
      intro x hx
      rcases List.mem_cons.1 hx with rfl | hx
      · exact Nat.le_refl _
      · exact Nat.le_trans h (hm x hx)
    · refine ⟨c, List.mem_cons_of_mem _ hc, ?_⟩
      intro x hx
      rcases List.mem_cons.1 hx with rfl | hx
      · omega
      · exact hm x hx

theorem sortLoop_terminates (m : Module) (rank : Def → Nat) (hw : Spec.WellFounded m rank) :
    ∀ (fuel : Nat) (done todo : List Def), (done ++ todo).Perm m.defs → todo.length < fuel →
      ∃ out, sortLoop fuel (sortBase m ++ done.map Def.name) done todo = some out := by
  intro fuel
  induction fuel with
  | zero => intro _ _ _ h; omega
  | succ fuel ih =>
    intro done todo hp hlt
    rw [sortLoop_eq]
    cases todo with
    | nil => exact ⟨done, rfl⟩
    | cons d0 ds =>
      simp only
      have hs := sortPass_spec (sortBase m ++ done.map Def.name) (d0 :: ds)
      rw [hs.1, List.append_assoc, ← List.map_append]
      apply ih
      · refine List.Perm.trans ?_ hp
        rw [List.append_assoc]
        exact hs.2.append_left done
      · obtain ⟨d, hd, hmin⟩ := exists_min rank (d0 :: ds) (by simp)
        have := sortPass_progress (sortBase m ++ done.map Def.name) (d0 :: ds) d hd (by
          intro n hu
          rcases hw d (hp.mem_iff.1 (List.mem_append_right _ hd)) n hu with h1 | ⟨e, he, hn, hlt⟩
          · exact List.mem_append_left _ ((mem_sortBase _ _).2 h1)
          · rcases List.mem_append.1 (hp.mem_iff.2 he) with h2 | h2
            · exact List.mem_append_right _ (hn ▸ List.mem_map_of_mem h2)
            · have := hmin e h2; omega)
        omega

theorem sortLoop_mono (fuel fuel' : Nat) (defined : List String) (done todo out : List Def)
    (hle : fuel ≤ fuel') (h : sortLoop fuel defined done todo = some out) :
    sortLoop fuel' defined done todo = some out := by
  induction fuel generalizing fuel' defined done todo with
  | zero => simp [sortLoop] at h
  | succ fuel ih =>
    obtain ⟨f, rfl⟩ : ∃ f, fuel' = f + 1 := ⟨fuel' - 1, by omega⟩
    rw [sortLoop_eq] at h ⊢
    cases todo with
    | nil => exact h
    | cons d ds => exact ih f _ _ _ (by omega) h

theorem idxOf_le_of_getElem? {l : List Def} {j : Nat} {e : Def} (h : l[j]? = some e) :
    l.idxOf e ≤ j := by
  induction l generalizing j with
  | nil => simp at h
  | cons a l ih =>
    by_cases hae : a = e
    · subst hae; simp
    · cases j with
      | zero => simp at h; exact absurd h hae
      | succ j =>
        simp at h
        have := ih h
        rw [List.idxOf_cons]; rw [show (a == e) = false by simpa using hae]; simp; exact this

theorem getElem?_idxOf {l : List Def} {e : Def} (h : e ∈ l) : l[l.idxOf e]? = some e := by
  have := List.idxOf_lt_length_of_mem h
  rw [List.getElem?_eq_getElem this, List.getElem_idxOf this]

theorem sortDefs_rank (fuel : Nat) (m : Module) (out : List Def)
    (h : sortDefs fuel m = some out) : Spec.WellFounded m (fun d => out.idxOf d) := by
  obtain ⟨hp, ho⟩ := sortDefs_spec fuel m out h
  intro d hd n hu
  rcases ho _ d (getElem?_idxOf (hp.mem_iff.2 hd)) n hu with h1 | ⟨j, hj, e, he, hn⟩
  · exact .inl ((mem_sortBase _ _).1 h1)
  · refine .inr ⟨e, hp.mem_iff.1 (List.mem_of_getElem? he), hn, ?_⟩
    have := idxOf_le_of_getElem? he
    show out.idxOf e < out.idxOf d
    omega

theorem stuck_not_wf (m : Module) (S : List Def) (hS : Stuck m S) (rank : Def → Nat) :
    ¬ Spec.WellFounded m rank := by
  intro hw
  obtain ⟨d, hd, hmin⟩ := exists_min rank S hS.1
  obtain ⟨hdm, n, hu, hno, hall⟩ := hS.2 d hd
  rcases hw d hdm n hu with h1 | ⟨e, he, hn, hlt⟩
  · exact hno h1
  · have := hmin e (hall e he hn); omega

/-! ## Module order -/

theorem mem_importNames (ms : List Module) (b : Module) :
    b.name ∈ importNames ms ↔ ∃ a ∈ ms, Imports a b := by
  simp [importNames, Imports, List.mem_flatMap]

/-- The parallel lists stay parallel. -/
def Parallel (s : OrderState) : Prop :=
  s.names = s.mods.map (·.name) ∧ (s.mods.map (·.name)).Nodup

theorem erase_eraseIdx {l : List String} (hn : l.Nodup) {i : Nat} {a : String}
    (h : l[i]? = some a) : l.erase a = l.eraseIdx i := by
  induction l generalizing i with
  | nil => simp at h
  | cons b l ih =>
    cases i with
    | zero => simp at h; subst h; simp
    | succ i =>
      simp at h
      have hm := List.mem_of_getElem? h
      have hne : b ≠ a := by
        intro hh; subst hh
        exact (List.nodup_cons.1 hn).1 hm
      rw [List.erase_cons_tail (by simpa using hne), List.eraseIdx_cons_succ, ih (List.nodup_cons.1 hn).2 h]

theorem map_eraseIdx' {α β : Type} (f : α → β) (l : List α) (i : Nat) :
    (l.eraseIdx i).map f = (l.map f).eraseIdx i := by
  induction l generalizing i with
  | nil => simp
  | cons a l ih => cases i <;> simp [ih]

theorem perm_eraseIdx {α : Type} {l : List α} {i : Nat} {a : α} (h : l[i]? = some a) :
    (a :: l.eraseIdx i).Perm l := by
  induction l generalizing i with
  | nil => simp at h
  | cons b l ih =>
    cases i with
    | zero => simp at h; subst h; simp
    | succ i =>
      simp at h
      rw [List.eraseIdx_cons_succ]
      exact (List.Perm.swap b a _).trans ((ih h).cons b)

/-- One step of the pass: invariants of the step, in the form used below. -/
theorem orderPass_ind (P : OrderState → Prop)
    (hstep : ∀ s i m, Parallel s → P s → s.mods[i]? = some m → m.name ∉ importNames s.mods →
      P ⟨s.mods.eraseIdx i, s.names.erase m.name, s.order ++ [m]⟩) :
    ∀ (k i : Nat) (s : OrderState), s.names.length - i ≤ k → Parallel s → P s →
      P (orderPass i s) ∧ Parallel (orderPass i s) := by
  intro k
  induction k with
  | zero =>
    intro i s hk hp h
    rw [orderPass, dif_neg (by omega)]
    exact ⟨h, hp⟩
  | succ k ih =>
    intro i s hk hp h
    rw [orderPass]
    split
    · rename_i hlt
      simp only
      split
      · exact ih (i + 1) s (by omega) hp h
      · rename_i hnc
        split
        · exact ⟨h, hp⟩
        · rename_i m hm
          have hname : s.names[i] = m.name := by
            have : s.names[i]? = some m.name := by rw [hp.1, List.getElem?_map, hm]; rfl
            rw [List.getElem?_eq_getElem hlt] at this
            exact Option.some.inj this
          have hnot : m.name ∉ importNames s.mods := by
            rw [hname] at hnc
            simpa using hnc
          have hpar : Parallel ⟨s.mods.eraseIdx i, s.names.erase m.name, s.order ++ [m]⟩ := by
            refine ⟨?_, ?_⟩
            · show s.names.erase m.name = _
              rw [hp.1, erase_eraseIdx hp.2 (by rw [List.getElem?_map, hm]; rfl), map_eraseIdx']
            · show ((s.mods.eraseIdx i).map _).Nodup
              rw [map_eraseIdx']
              exact hp.2.sublist (List.eraseIdx_sublist _ _)
          have hl : (s.names.erase m.name).length ≤ s.names.length := List.length_erase_le ..
          exact ih (i + 1) _ (by simp only; omega) hpar (hstep s i m hp h hm hnot)
    · exact ⟨h, hp⟩

theorem orderPass_inv (P : OrderState → Prop)
    (hstep : ∀ s i m, Parallel s → P s → s.mods[i]? = some m → m.name ∉ importNames s.mods →
      P ⟨s.mods.eraseIdx i, s.names.erase m.name, s.order ++ [m]⟩)
    (i : Nat) (s : OrderState) (hp : Parallel s) (h : P s) :
    P (orderPass i s) ∧ Parallel (orderPass i s) :=
  orderPass_ind P hstep _ i s (Nat.le_refl _) hp h

theorem length_eraseIdx_some {α : Type} {l : List α} {i : Nat} {a : α} (h : l[i]? = some a) :
    (l.eraseIdx i).length + 1 = l.length := by
  have := (perm_eraseIdx h).length_eq
  simpa using this

theorem orderPass_le (i : Nat) (s : OrderState) (hp : Parallel s) :
    (orderPass i s).mods.length ≤ s.mods.length :=
  (orderPass_inv (fun t => t.mods.length ≤ s.mods.length) (by
    intro t i m _ h hm _
    have := length_eraseIdx_some hm
    show (t.mods.eraseIdx i).length ≤ _
    omega) i s hp (Nat.le_refl _)).1

theorem orderPass_progress : ∀ (k i : Nat) (s : OrderState), s.names.length - i ≤ k → Parallel s →
    (∃ j m, i ≤ j ∧ s.mods[j]? = some m ∧ m.name ∉ importNames s.mods) →
    (orderPass i s).mods.length < s.mods.length := by
  intro k
  induction k with
  | zero =>
    rintro i s hk hp ⟨j, m, hij, hj, _⟩
    have : j < s.mods.length := (List.getElem?_eq_some_iff.1 hj).1
    have hl : s.names.length = s.mods.length := by rw [hp.1]; simp
    omega
  | succ k ih =>
    rintro i s hk hp ⟨j, m, hij, hj, hno⟩
    have hjl : j < s.mods.length := (List.getElem?_eq_some_iff.1 hj).1
    have hl : s.names.length = s.mods.length := by rw [hp.1]; simp
    rw [orderPass, dif_pos (by omega)]
    simp only
    have hname : ∀ i (hlt : i < s.names.length) m, s.mods[i]? = some m → s.names[i] = m.name := by
      intro i hlt m hm
      have : s.names[i]? = some m.name := by rw [hp.1, List.getElem?_map, hm]; rfl
      rw [List.getElem?_eq_getElem hlt] at this
      exact Option.some.inj this
    split
    · rename_i hc
      refine ih (i + 1) s (by omega) hp ⟨j, m, ?_, hj, hno⟩
      rcases Nat.lt_or_eq_of_le hij with h | h
      · exact h
      · exfalso
        subst h
        rw [hname i (by omega) m hj] at hc
        exact hno (by simpa using hc)
    · split
      · rename_i hnone
        rw [List.getElem?_eq_none_iff] at hnone
        omega
      · rename_i hnc m' hm'
        have hpar : Parallel ⟨s.mods.eraseIdx i, s.names.erase m'.name, s.order ++ [m']⟩ := by
          refine ⟨?_, ?_⟩
          · show s.names.erase m'.name = _
            rw [hp.1, erase_eraseIdx hp.2 (by rw [List.getElem?_map, hm']; rfl), map_eraseIdx']
          · show ((s.mods.eraseIdx i).map _).Nodup
            rw [map_eraseIdx']
            exact hp.2.sublist (List.eraseIdx_sublist _ _)
        have h1 := orderPass_le (i + 1) _ hpar
        have h2 := length_eraseIdx_some hm'
        simp only at h1
        omega

/-- What the loops keep: nothing lost, and no module emitted before one of its
importers. -/
def OrderInv (ms : List Module) (s : OrderState) : Prop :=
  (s.order ++ s.mods).Perm ms ∧
  s.order.Pairwise (fun a b => ¬ Imports b a) ∧
  ∀ a ∈ s.order, ∀ b ∈ s.mods, ¬ Imports b a

theorem orderInv_step (ms : List Module) : ∀ s i m, Parallel s → OrderInv ms s →
    s.mods[i]? = some m → m.name ∉ importNames s.mods →
      OrderInv ms ⟨s.mods.eraseIdx i, s.names.erase m.name, s.order ++ [m]⟩ := by
  intro s i m _ ⟨h1, h2, h3⟩ hm hno
  have hmem := List.mem_of_getElem? hm
  refine ⟨?_, ?_, ?_⟩
  · refine List.Perm.trans ?_ h1
    show ((s.order ++ [m]) ++ s.mods.eraseIdx i).Perm _
    rw [List.append_assoc]
    exact (perm_eraseIdx hm).append_left _
  · show (s.order ++ [m]).Pairwise _
    rw [List.pairwise_append]
    refine ⟨h2, List.pairwise_singleton _ _, ?_⟩
    intro a ha b hb
    rw [List.mem_singleton] at hb; subst hb
    exact h3 a ha b hmem
  · intro a ha b hb
    have hb' : b ∈ s.mods := List.mem_of_mem_eraseIdx hb
    simp only [List.mem_append, List.mem_singleton] at ha
    rcases ha with ha | rfl
    · exact h3 a ha b hb'
    · intro hi
      exact hno ((mem_importNames _ _).2 ⟨b, hb', hi⟩)

theorem orderLoop_spec (ms : List Module) (fuel : Nat) (s : OrderState) (out : List Module)
    (hp : Parallel s) (hi : OrderInv ms s) (h : orderLoop fuel s = some out) :
    out.Perm ms ∧ out.Pairwise (fun a b => ¬ Imports b a) := by
  induction fuel generalizing s with
  | zero => simp [orderLoop] at h
  | succ fuel ih =>
    rw [orderLoop] at h
    split at h
    · rename_i he
      cases h
      obtain ⟨h1, h2, _⟩ := hi
      rw [he, List.append_nil] at h1
      exact ⟨h1, h2⟩
    · obtain ⟨h1, h2⟩ := orderPass_inv (OrderInv ms) (orderInv_step ms) 0 s hp hi
      exact ih _ h2 h1 h

theorem orderLoop_terminates (ms : List Module) (rank : Module → Nat)
    (ha : AcyclicImports ms rank) : ∀ (fuel : Nat) (s : OrderState), Parallel s → OrderInv ms s →
      s.mods.length < fuel → ∃ out, orderLoop fuel s = some out := by
  intro fuel
  induction fuel with
  | zero => intro s _ _ h; omega
  | succ fuel ih =>
    intro s hp hi hlt
    rw [orderLoop]
    split
    · exact ⟨_, rfl⟩
    · rename_i m0 rest he
      obtain ⟨h1, h2⟩ := orderPass_inv (OrderInv ms) (orderInv_step ms) 0 s hp hi
      apply ih _ h2 h1
      obtain ⟨m, hm, hmin⟩ := exists_min rank s.mods (by rw [he]; simp)
      obtain ⟨j, hj, hjm⟩ := List.getElem_of_mem hm
      have := orderPass_progress _ 0 s (Nat.le_refl _) hp ⟨j, m, Nat.zero_le _,
        by rw [List.getElem?_eq_getElem hj, hjm], by
          intro hin
          obtain ⟨a, ha', hia⟩ := (mem_importNames _ _).1 hin
          have hsub : ∀ x ∈ s.mods, x ∈ ms := fun x hx =>
            hi.1.mem_iff.1 (List.mem_append_right _ hx)
          have h3 := ha a (hsub a ha') m (hsub m hm) hia
          have h4 := hmin a ha'
          omega⟩
      omega

theorem orderLoop_mono (fuel fuel' : Nat) (s : OrderState) (out : List Module)
    (hle : fuel ≤ fuel') (h : orderLoop fuel s = some out) : orderLoop fuel' s = some out := by
  induction fuel generalizing fuel' s with
  | zero => simp [orderLoop] at h
  | succ fuel ih =>
    obtain ⟨f, rfl⟩ : ∃ f, fuel' = f + 1 := ⟨fuel' - 1, by omega⟩
    rw [orderLoop] at h ⊢
    split
    · rename_i he; simpa [he] using h
    · rename_i he; exact ih f _ (by omega) (by simpa [he] using h)

theorem orderLoop_stuck (S : List Module) (hne : S ≠ [])
    (hS : ∀ b ∈ S, ∃ a ∈ S, Imports a b) (fuel : Nat) :
    ∀ s, Parallel s → (∀ b ∈ S, b ∈ s.mods) → orderLoop fuel s = none := by
  induction fuel with
  | zero => intro s _ _; rfl
  | succ fuel ih =>
    intro s hp hsub
    rw [orderLoop]
    split
    · rename_i he
      exfalso
      apply hne
      rw [List.eq_nil_iff_forall_not_mem]
      intro b hb
      have := hsub b hb
      rw [he] at this
      simp at this
    · obtain ⟨h1, h2⟩ := orderPass_inv (fun t => ∀ b ∈ S, b ∈ t.mods) (by
        intro t i m _ ht hm hno b hb
        obtain ⟨a, ha, hia⟩ := hS b hb
        have hbm : b ≠ m := by
          rintro rfl
          exact hno ((mem_importNames _ _).2 ⟨a, ht a ha, hia⟩)
        rcases List.mem_cons.1 ((perm_eraseIdx hm).mem_iff.2 (ht b hb)) with h | h
        · exact absurd h hbm
        · exact h) 0 s hp hsub
      exact ih _ h2 h1

end Apg
