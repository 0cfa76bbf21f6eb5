import Verif.Lemmas.Clear

/-!
# Clear leaves have one value
-/

namespace Apg
open Spec

theorem once_fixes_unique {ks : List String} {c : Comps} (h : Once c ks) {v v' : Leaf} (hv : CompFixes c ks v)
    (hv' : CompFixes c ks v') : v = v' := by
  induction ks generalizing c with
  | nil => exact absurd hv compFixes_nil
  | cons k ks ih =>
    have h1 : ∀ {s s'}, s ∈ c.values k → s' ∈ c.values k → s = s' := by
      intro s s' hs hs'
      rcases once_values h with e | ⟨a, e⟩
      · rw [e] at hs
        cases hs
      · rw [e] at hs hs'
        rw [List.mem_singleton.1 hs, List.mem_singleton.1 hs']
    by_cases hks : ks = []
    · subst hks
      exact Specific.leaf.inj (h1 (compFixes_values_leaf.1 hv) (compFixes_values_leaf.1 hv'))
    · obtain ⟨i, g1, g2⟩ := (compFixes_values_node hks).1 hv
      obtain ⟨i', g1', g2'⟩ := (compFixes_values_node hks).1 hv'
      cases h1 g1 g1'
      exact ih (h.2 i (hasNode_iff.2 g1)).2 g2 g2'

/-- The clauses of members that no other clause reaches into do not fix what that other clause fixes. -/
theorem fixed_once {ds : List Def} {ms : List Member} {ls : List (List Member)} (h : Leaves ds ms ls) :
    ∀ n ms0, IsSequence ds n ms0 → (∀ m ∈ ms, m ∈ ms0) → ∀ c, ClauseOn ds c n → ∀ path ∈ ls,
      (∀ m ∈ path, ¬ Contended ds m) → ∀ v, CompFixes c (path.map (·.key)) v → ∀ v', ¬ FixedTo path v' := by
  induction h with
  | nil => intro n ms0 _ _ c _ path hp; cases hp
  | @leaf m ms ps hm _ ih =>
    intro n ms0 hs hsub c hc path hp hno v hv v' hv'
    rcases List.mem_cons.1 hp with rfl | hp
    · rcases fixedTo_cons.1 hv' with ⟨c', _, h⟩ | ⟨pre, x, post, _, he, _⟩
      · exact compFixes_nil h
      · cases pre <;> cases he
    · exact ih n ms0 hs (fun x hx => hsub x (.tail _ hx)) c hc path hp hno v hv v' hv'
  | @seq m ms n' inner ps qs hu hi _ _ ih ih' =>
    intro n ms0 hs hsub c hc path hp hno v hv v' hv'
    rcases List.mem_append.1 hp with hp | hp
    · obtain ⟨rest, hr, rfl⟩ := List.mem_map.1 hp
      have hne : rest.map (·.key) ≠ [] := by
        intro he
        rw [List.map_eq_nil_iff] at he
        subst he
        rcases fixedTo_cons.1 hv' with ⟨c', _, h⟩ | ⟨pre, x, post, _, he, _⟩
        · exact compFixes_nil h
        · cases pre <;> cases he
      obtain ⟨i, g1, g2⟩ := (compFixes_values_node hne).1 hv
      have hnode := hasNode_iff.2 g1
      have hm0 := hsub m (List.Mem.head _)
      rcases fixedTo_cons.1 hv' with ⟨c', e, _⟩ | h'
      · exact hno m (List.Mem.head _) ⟨by rw [e]; exact Option.some_ne_none _, n, ms0, c, i, hs, hm0, hc, hnode⟩
      · exact ih n' inner hi (fun _ hx => hx) i (.inner hc hs hm0 hnode hu) rest hr
          (fun x hx => hno x (.tail _ hx)) v g2 v' h'
    · exact ih' n ms0 hs (fun x hx => hsub x (.tail _ hx)) c hc path hp hno v hv v' hv'

/-- A clear leaf of a sequence is fixed to one value at most. -/
theorem fixed_unique {ds : List Def} {ms : List Member} {ls : List (List Member)} (h : Leaves ds ms ls) :
    ∀ n ms0, IsSequence ds n ms0 → (∀ m ∈ ms, m ∈ ms0) → ∀ path ∈ ls, Clear ds path →
      ∀ v v', FixedTo path v → FixedTo path v' → v = v' := by
  induction h with
  | nil => intro n ms0 _ _ path hp; cases hp
  | @leaf m ms ps hm _ ih =>
    intro n ms0 hs hsub path hp hcl v v' hv hv'
    rcases List.mem_cons.1 hp with rfl | hp
    · rcases fixedTo_cons.1 hv' with ⟨c', _, h⟩ | ⟨pre, x, post, _, he, _⟩
      · exact absurd h compFixes_nil
      · cases pre <;> cases he
    · exact ih n ms0 hs (fun x hx => hsub x (.tail _ hx)) path hp hcl v v' hv hv'
  | @seq m ms n' inner ps qs hu hi hin _ ih ih' =>
    intro n ms0 hs hsub path hp hcl v v' hv hv'
    rcases List.mem_append.1 hp with hp | hp
    · obtain ⟨rest, hr, rfl⟩ := List.mem_map.1 hp
      obtain ⟨k1, k2, k3⟩ := clear_cons.1 hcl
      have hm0 := hsub m (List.Mem.head _)
      rcases fixedTo_cons.1 hv with ⟨c, e, f⟩ | f <;> rcases fixedTo_cons.1 hv' with ⟨c', e', f'⟩ | f'
      · rw [e] at e'
        cases e'
        exact once_fixes_unique (k2 c e) f f'
      · exact absurd f' (fixed_once hin n' inner hi (fun _ hx => hx) c (.own hs hm0 e hu) rest hr k3.1 v f v')
      · exact absurd f (fixed_once hin n' inner hi (fun _ hx => hx) c' (.own hs hm0 e' hu) rest hr k3.1 v' f' v)
      · exact ih n' inner hi (fun _ hx => hx) rest hr k3 v v' f f'
    · exact ih' n ms0 hs (fun x hx => hsub x (.tail _ hx)) path hp hcl v v' hv hv'

end Apg
