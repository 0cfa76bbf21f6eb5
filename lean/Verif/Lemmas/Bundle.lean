import Verif.Lemmas.Process
import Verif.Spec.Bundle

namespace Apg
open Spec

theorem builtIn_iff (n : String) : BuiltIn n ↔ n ∈ predefined := by
  simp [BuiltIn, predefined]

theorem usesName_iff (t : AType) (n : String) : UsesName t n ↔ t.name = n := by
  induction t with
  | plain m lo hi =>
    constructor
    · intro h; cases h; rfl
    · intro h; cases h; exact .plain
  | str m len =>
    constructor
    · intro h; cases h; rfl
    · intro h; cases h; exact .str
  | arr e len ih =>
    constructor
    · intro h; cases h with | arr h => exact ih.1 h
    · intro h; exact .arr (ih.2 h)

theorem containsNull_name {t : AType} (h : ContainsNull t) : t.name = "NULL" := by
  induction h with
  | here => rfl
  | elem _ ih => exact ih

theorem defsOf_eq (b : Bundle) : defsOf b.modules = b.defs := rfl

/-! ## The use map -/

/-- Keys are distinct. -/
def UsesWF (l : List (String × List String)) : Prop :=
  (l.map (·.1)).Nodup ∧ ∀ p ∈ l, p.2.Nodup ∧ p.2 ≠ []

theorem addUse_keys (l : List (String × List String)) (t m k : String) :
    k ∈ (addUse l t m).map (·.1) ↔ k = t ∨ k ∈ l.map (·.1) := by
  induction l with
  | nil => simp [addUse]
  | cons p l ih =>
    obtain ⟨t', s⟩ := p
    rw [addUse]
    by_cases h : t' = t
    · subst h; simp
    · simp only [h, if_false, List.map_cons, List.mem_cons, ih]
      constructor <;> (intro h'; rcases h' with h' | h' | h' <;> simp [h'])

theorem addUse_wf {l : List (String × List String)} (t m : String) (h : UsesWF l) :
    UsesWF (addUse l t m) := by
  induction l with
  | nil => simp [addUse, UsesWF]
  | cons p l ih =>
    obtain ⟨t', s⟩ := p
    obtain ⟨h1, h2⟩ := h
    simp only [List.map_cons, List.nodup_cons] at h1
    rw [addUse]
    by_cases ht : t' = t
    · subst ht
      simp only [if_true]
      refine ⟨by simpa using h1, ?_⟩
      intro p hp
      rcases List.mem_cons.1 hp with rfl | hp
      · have := h2 (t', s) (by simp)
        by_cases hm : m ∈ s
        · simpa [hm] using this
        · simp only [List.contains_eq_mem, hm, decide_false, Bool.false_eq_true, if_false]
          refine ⟨?_, by simp⟩
          rw [List.nodup_append]
          refine ⟨this.1, by simp, ?_⟩
          intro a ha b hb
          rw [List.mem_singleton] at hb
          subst hb
          intro hab; subst hab; exact hm ha
      · exact h2 p (by simp [hp])
    · simp only [ht, if_false]
      obtain ⟨i1, i2⟩ := ih ⟨h1.2, fun p hp => h2 p (by simp [hp])⟩
      refine ⟨?_, ?_⟩
      · simp only [List.map_cons, List.nodup_cons]
        refine ⟨?_, i1⟩
        rw [addUse_keys]
        simp [ht, h1.1]
      · intro p hp
        rcases List.mem_cons.1 hp with rfl | hp
        · exact h2 _ (by simp)
        · exact i2 p hp

/-- `mod` is recorded for `t`. -/
def Recorded (l : List (String × List String)) (t mod : String) : Prop :=
  ∃ s, (t, s) ∈ l ∧ mod ∈ s

theorem recorded_addUse (l : List (String × List String)) (t m k mod : String) :
    Recorded (addUse l t m) k mod ↔ (k = t ∧ mod = m) ∨ Recorded l k mod := by
  induction l with
  | nil =>
    simp only [Recorded, addUse, List.mem_singleton, Prod.mk.injEq, List.not_mem_nil, false_and,
      exists_false, or_false]
    constructor
    · rintro ⟨s, ⟨h1, h2⟩, h3⟩; subst h2; exact ⟨h1, by simpa using h3⟩
    · rintro ⟨h1, h2⟩; exact ⟨[m], ⟨h1, rfl⟩, by simp [h2]⟩
  | cons p l ih =>
    obtain ⟨t', s⟩ := p
    have cons_iff : ∀ (s : List String) (l : List (String × List String)),
        Recorded ((t', s) :: l) k mod ↔ (k = t' ∧ mod ∈ s) ∨ Recorded l k mod := by
      intro s l
      simp only [Recorded, List.mem_cons, Prod.mk.injEq]
      constructor
      · rintro ⟨s', h1 | h1, h2⟩
        · obtain ⟨h3, rfl⟩ := h1; exact Or.inl ⟨h3, h2⟩
        · exact Or.inr ⟨s', h1, h2⟩
      · rintro (⟨h1, h2⟩ | ⟨s', h1, h2⟩)
        · exact ⟨s, Or.inl ⟨h1, rfl⟩, h2⟩
        · exact ⟨s', Or.inr h1, h2⟩
    rw [addUse]
    by_cases ht : t' = t
    · subst ht
      simp only [if_true, cons_iff]
      by_cases hm : m ∈ s
      · simp only [List.contains_eq_mem, hm, decide_true, if_true]
        constructor
        · intro h; exact Or.inr h
        · rintro (⟨rfl, rfl⟩ | h)
          · exact Or.inl ⟨rfl, hm⟩
          · exact h
      · simp only [List.contains_eq_mem, hm, decide_false, Bool.false_eq_true, if_false,
          List.mem_append, List.mem_singleton]
        constructor
        · rintro (⟨h1, h2 | h2⟩ | h)
          · exact Or.inr (Or.inl ⟨h1, h2⟩)
          · exact Or.inl ⟨h1, h2⟩
          · exact Or.inr (Or.inr h)
        · rintro (⟨h1, h2⟩ | ⟨h1, h2⟩ | h)
          · exact Or.inl ⟨h1, Or.inr h2⟩
          · exact Or.inl ⟨h1, Or.inl h2⟩
          · exact Or.inr h
    · simp only [ht, if_false, cons_iff, ih]
      constructor
      · rintro (h | h | h)
        · exact Or.inr (Or.inl h)
        · exact Or.inl h
        · exact Or.inr (Or.inr h)
      · rintro (h | h | h)
        · exact Or.inr (Or.inl h)
        · exact Or.inl h
        · exact Or.inr (Or.inr h)

theorem recorded_inner (ts : List String) (acc : List (String × List String)) (m k mod : String) :
    Recorded (ts.foldl (fun acc t => addUse acc t m) acc) k mod ↔
      (k ∈ ts ∧ mod = m) ∨ Recorded acc k mod := by
  induction ts generalizing acc with
  | nil => simp
  | cons t ts ih =>
    simp only [List.foldl_cons, ih, recorded_addUse, List.mem_cons]
    constructor
    · rintro (⟨h1, h2⟩ | ⟨h1, h2⟩ | h)
      · exact Or.inl ⟨Or.inr h1, h2⟩
      · exact Or.inl ⟨Or.inl h1, h2⟩
      · exact Or.inr h
    · rintro (⟨h1 | h1, h2⟩ | h)
      · exact Or.inr (Or.inl ⟨h1, h2⟩)
      · exact Or.inl ⟨h1, h2⟩
      · exact Or.inr (Or.inr h)

theorem recorded_fold (ms : List Module) (acc : List (String × List String)) (k mod : String) :
    Recorded (ms.foldl (fun acc m => (simpleDefsUsed m).foldl (fun acc t => addUse acc t m.name) acc) acc) k mod ↔
      (∃ m ∈ ms, k ∈ simpleDefsUsed m ∧ mod = m.name) ∨ Recorded acc k mod := by
  induction ms generalizing acc with
  | nil => simp
  | cons m ms ih =>
    simp only [List.foldl_cons, ih, recorded_inner]
    constructor
    · rintro (⟨m', h1, h2⟩ | h | h)
      · exact Or.inl ⟨m', by simp [h1], h2⟩
      · exact Or.inl ⟨m, by simp, h⟩
      · exact Or.inr h
    · rintro (⟨m', h1, h2⟩ | h)
      · rcases List.mem_cons.1 h1 with rfl | h1
        · exact Or.inr (Or.inl h2)
        · exact Or.inl ⟨m', h1, h2⟩
      · exact Or.inr (Or.inr h)

theorem wf_fold (ms : List Module) (acc : List (String × List String)) (h : UsesWF acc) :
    UsesWF (ms.foldl (fun acc m => (simpleDefsUsed m).foldl (fun acc t => addUse acc t m.name) acc) acc) := by
  induction ms generalizing acc with
  | nil => exact h
  | cons m ms ih =>
    apply ih
    have : ∀ (ts : List String) acc, UsesWF acc →
        UsesWF (ts.foldl (fun acc t => addUse acc t m.name) acc) := by
      intro ts
      induction ts with
      | nil => intro acc h; exact h
      | cons t ts ih2 => intro acc h; exact ih2 _ (addUse_wf t m.name h)
    exact this _ _ h

theorem mem_simpleDefsUsed (m : Module) (n : String) :
    n ∈ simpleDefsUsed m ↔ UsedPlainly m n ∧ ¬ BuiltIn n := by
  unfold simpleDefsUsed UsedPlainly
  rw [builtIn_iff]
  simp only [List.mem_flatMap, List.mem_filterMap, usesName_iff]
  constructor
  · rintro ⟨d, hd, k, hk, h⟩
    split at h
    · rename_i hc
      cases h
      simp at hc
      exact ⟨⟨d, hd, k, hk, hc.1, rfl⟩, hc.2⟩
    · cases h
  · rintro ⟨⟨d, hd, k, hk, hc, rfl⟩, hn⟩
    refine ⟨d, hd, k, hk, ?_⟩
    rw [if_pos (by simp [hc, hn])]

/-! ## WITH COMPONENTS -/

theorem seqsNamed_mem {ds : List Def} {n : String} {ms : List Member} :
    ms ∈ seqsNamed ds n ↔ IsSequence ds n ms := by
  unfold seqsNamed IsSequence
  rw [List.mem_filterMap]
  constructor
  · rintro ⟨d, hd, h⟩
    cases d <;> simp at h
    obtain ⟨h1, h2⟩ := h
    subst h1; subst h2
    exact ⟨_, hd⟩
  · rintro ⟨c, h⟩
    exact ⟨_, h, by simp⟩

theorem seqsNamed_single {ds : List Def} {n : String} {ms : List Member}
    (h : seqsNamed ds n = [ms]) : IsSequence ds n ms :=
  seqsNamed_mem.1 (by rw [h]; simp)

theorem memberTypeName_some {ms : List Member} {k t : String}
    (h : memberTypeName ms k = some t) : ∃ m, FirstOf ms m ∧ m.key = k ∧ m.type.name = t := by
  unfold memberTypeName at h
  rw [Option.map_eq_some_iff] at h
  obtain ⟨m, hm, ht⟩ := h
  obtain ⟨hk, pre, post, rfl, hpre⟩ := List.find?_eq_some_iff_append.1 hm
  have hk : m.key = k := by simpa using hk
  refine ⟨m, ⟨pre, post, rfl, fun x hx => ?_⟩, hk, ht⟩
  rw [hk]
  simpa using hpre x hx

theorem memberTypeName_first {ms : List Member} {m : Member} (h : FirstOf ms m) :
    memberTypeName ms m.key = some m.type.name := by
  obtain ⟨pre, post, rfl, hpre⟩ := h
  unfold memberTypeName
  rw [List.find?_eq_some_iff_append.2 ⟨by simp, pre, post, rfl, fun x hx => by simpa using hpre x hx⟩]
  rfl

theorem go_addresses {ds : List Def} {cs : Comps} : ∀ {n : String} {ms : List Member},
    IsSequence ds n ms → checkWithComponent.go ds ms cs = .ok () →
      Addresses BuiltIn ds n cs := by
  induction cs with
  | nil => intro n ms hs _; exact .nil hs
  | leaf k v rest ih =>
    intro n ms hs h
    rw [checkWithComponent.go] at h
    split at h
    · rename_i hk
      obtain ⟨m, hm, hmk⟩ := List.any_eq_true.1 hk
      have hmk : m.key = k := by simpa using hmk
      subst hmk
      exact .leaf hs hm (ih hs h)
    · cases h
  | node k inner rest ih1 ih2 =>
    intro n ms hs h
    rw [checkWithComponent.go] at h
    split at h
    · cases h
    · rename_i tn htn
      obtain ⟨m, hm, hmk, hmt⟩ := memberTypeName_some htn
      subst hmk
      rw [bind_unit_ok] at h
      obtain ⟨h1, h2⟩ := h
      refine .node hs hm ((usesName_iff _ _).2 hmt) ?_ (ih2 hs h2)
      split at h1
      · rename_i ms' hs'
        exact ih1 (seqsNamed_single hs') h1
      · split at h1
        · rename_i hp
          exact .exempt ((builtIn_iff _).2 (by simpa using hp))
        · cases h1

theorem checkWithComponent_addresses {ds : List Def} {cs : Comps} {n : String}
    (h : checkWithComponent ds n cs = .ok ()) : Addresses BuiltIn ds n cs := by
  unfold checkWithComponent at h
  split at h
  · rename_i ms hs
    exact go_addresses (seqsNamed_single hs) h
  · split at h
    · rename_i hp
      exact .exempt ((builtIn_iff _).2 (by simpa using hp))
    · cases h

theorem checkComponents_inner_ok (ds : List Def) (ms : List Member) :
    checkComponents.inner ds ms = .ok () ↔
      ∀ m ∈ ms, ∀ cs, m.comps = some cs → checkWithComponent ds m.type.name cs = .ok () := by
  induction ms with
  | nil => simp [checkComponents.inner]
  | cons m ms ih =>
    rw [checkComponents.inner, bind_unit_ok, ih]
    simp only [List.mem_cons, forall_eq_or_imp]
    cases m.comps with
    | none => simp
    | some cs => simp

theorem checkComponents_outer_ok (ds l : List Def) :
    checkComponents.outer ds l = .ok () ↔
      ∀ n c ms, Def.seq n c ms ∈ l → checkComponents.inner ds ms = .ok () := by
  induction l with
  | nil => simp [checkComponents.outer]
  | cons d l ih =>
    cases d with
    | seq n c ms =>
      rw [checkComponents.outer, bind_unit_ok, ih]
      simp only [List.mem_cons]
      constructor
      · rintro ⟨h1, h2⟩ n' c' ms' (h | h)
        · cases h; exact h1
        · exact h2 _ _ _ h
      · intro h
        exact ⟨h n c ms (Or.inl rfl), fun n' c' ms' h' => h n' c' ms' (Or.inr h')⟩
    | choice n c ms => rw [checkComponents.outer, ih] <;> simp
    | enum n c ms => rw [checkComponents.outer, ih] <;> simp
    | simple n c ms => rw [checkComponents.outer, ih] <;> simp

theorem checkComponents_ok (ds : List Def) :
    checkComponents ds = .ok () ↔
      ∀ n c ms, Def.seq n c ms ∈ ds → ∀ m ∈ ms, ∀ cs, m.comps = some cs →
        checkWithComponent ds m.type.name cs = .ok () := by
  unfold checkComponents
  rw [checkComponents_outer_ok]
  constructor
  · intro h n c ms hm; exact (checkComponents_inner_ok ds ms).1 (h n c ms hm)
  · intro h n c ms hm; exact (checkComponents_inner_ok ds ms).2 (h n c ms hm)

end Apg
