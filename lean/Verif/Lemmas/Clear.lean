import Verif.Lemmas.Telemetry

/-!
# Members that at most one clause reaches
-/

namespace Apg
open Spec

theorem hasNode_iff {c : Comps} {k : String} {i : Comps} : HasNode c k i ↔ Specific.node i ∈ c.values k := by
  induction c with
  | nil => simp only [Comps.values, List.not_mem_nil, iff_false]; intro h; cases h
  | leaf k' w r ih =>
    rw [Comps.values]
    constructor
    · intro h
      cases h with
      | afterLeaf h =>
        have := ih.1 h
        split
        · exact .tail _ this
        · exact this
    · intro h
      refine .afterLeaf (ih.2 ?_)
      split at h
      · rcases List.mem_cons.1 h with h | h
        · cases h
        · exact h
      · exact h
  | node k' c r _ ih =>
    rw [Comps.values]
    constructor
    · intro h
      cases h with
      | here => simp
      | afterNode h =>
        have := ih.1 h
        split
        · exact .tail _ this
        · exact this
    · intro h
      split at h
      · rename_i e
        rcases List.mem_cons.1 h with h | h
        · cases h; subst e; exact .here
        · exact .afterNode (ih.2 h)
      · exact .afterNode (ih.2 h)

theorem values_length {c : Comps} {k : String} : (c.values k).length = (compKeys c).count k := by
  induction c with
  | nil => rfl
  | leaf k' w r ih =>
    rw [Comps.values, compKeys, List.count_cons]
    by_cases h : k' = k
    · simp [h, ih]
    · simp [h, ih]
  | node k' c r _ ih =>
    rw [Comps.values, compKeys, List.count_cons]
    by_cases h : k' = k
    · simp [h, ih]
    · simp [h, ih]

theorem hasNode_append {a b : Comps} {k : String} {i : Comps} :
    HasNode (a.append b) k i ↔ HasNode a k i ∨ HasNode b k i := by
  induction a with
  | nil =>
    rw [Comps.append]
    exact ⟨.inr, fun h => h.elim (fun h => by cases h) id⟩
  | leaf k' w r ih =>
    rw [Comps.append]
    constructor
    · intro h
      cases h with
      | afterLeaf h => exact (ih.1 h).imp .afterLeaf id
    · rintro (h | h)
      · cases h with
        | afterLeaf h => exact .afterLeaf (ih.2 (.inl h))
      · exact .afterLeaf (ih.2 (.inr h))
  | node k' c r _ ih =>
    rw [Comps.append]
    constructor
    · intro h
      cases h with
      | here => exact .inl .here
      | afterNode h => exact (ih.1 h).imp .afterNode id
    · rintro (h | h)
      · cases h with
        | here => exact .here
        | afterNode h => exact .afterNode (ih.2 (.inl h))
      · exact .afterNode (ih.2 (.inr h))

/-- The inner clauses in a list come from clauses of the definitions. -/
def Sourced (ds : List Def) (c : Comps) (n : String) : Prop :=
  ∀ k i, HasNode c k i → ∃ c0, ClauseOn ds c0 n ∧ HasNode c0 k i

/-- The lists come from the definitions, and those of members that are not contended are as
parsed. -/
def Tidy (ds : List Def) (st : Store) : Prop :=
  ∀ n ms i m, IsSequence ds n ms → ms[i]? = some m →
    (∀ c, st n i = some c → m.comps ≠ none ∧ ∀ t, UsesName m.type t → Sourced ds c t) ∧
    (¬ Contended ds m → st n i = m.comps)

theorem sourced_own {ds : List Def} {n : String} {ms : List Member} {m : Member} {c : Comps} {t : String}
    (hs : IsSequence ds n ms) (hm : m ∈ ms) (hc : m.comps = some c) (ht : UsesName m.type t) : Sourced ds c t :=
  fun _ _ h => ⟨c, .own hs hm hc ht, h⟩

theorem Sourced.append {ds : List Def} {a b : Comps} {n : String} (ha : Sourced ds a n) (hb : Sourced ds b n) :
    Sourced ds (a.append b) n :=
  fun k i h => (hasNode_append.1 h).elim (ha k i) (hb k i)

theorem sourced_nil {ds : List Def} {n : String} : Sourced ds .nil n := fun _ _ h => by cases h

/-- The inner clause for a member. -/
theorem sourced_inner {ds : List Def} {wc : Comps} {n : String} {ms : List Member} {m : Member} {c : Comps}
    {t : String} (hw : Sourced ds wc n) (hs : IsSequence ds n ms) (hm : m ∈ ms)
    (hc : specificValue wc m.key = .node c) (ht : UsesName m.type t) : Sourced ds c t := by
  obtain ⟨c0, h1, h2⟩ := hw m.key c (hasNode_iff.2 (by rw [specific_values hc (by simp)]; exact List.Mem.head _))
  exact fun k i h => ⟨c, .inner h1 hs hm h2 ht, h⟩

theorem contended_of {ds : List Def} {wc : Comps} {n : String} {ms : List Member} {m : Member} {c : Comps}
    (hw : Sourced ds wc n) (hs : IsSequence ds n ms) (hm : m ∈ ms)
    (hc : specificValue wc m.key = .node c) (hn : m.comps ≠ none) : Contended ds m := by
  obtain ⟨c0, h1, h2⟩ := hw m.key c (hasNode_iff.2 (by rw [specific_values hc (by simp)]; exact List.Mem.head _))
  exact ⟨hn, n, ms, c0, c, hs, hm, h1, h2⟩

theorem tidy_initial {ds : List Def} (hnd : (ds.map Def.name).Nodup) : Tidy ds (initialStore ds) := by
  intro n ms i m hs hi
  have : initialStore ds n i = m.comps := by rw [initialStore_seq hnd hs, hi]; rfl
  refine ⟨fun c hc => ?_, fun _ => this⟩
  rw [this] at hc
  exact ⟨by rw [hc]; simp, fun t ht => sourced_own hs (List.mem_of_getElem? hi) hc ht⟩

theorem isSequence_unique {ds : List Def} (hnd : (ds.map Def.name).Nodup) {n : String} {ms ms' : List Member}
    (h : IsSequence ds n ms) (h' : IsSequence ds n ms') : ms = ms' := by
  obtain ⟨c, h⟩ := h
  obtain ⟨c', h'⟩ := h'
  have := mem_unique_of_nodup_map hnd h h' rfl
  cases this
  rfl

/-- Extending a list leaves the lists tidy. -/
theorem Tidy.extend {ds : List Def} (hnd : (ds.map Def.name).Nodup) {st : Store} (h : Tidy ds st) {wc : Comps}
    {n : String} {ms : List Member} {i : Nat} {m : Member} (hw : Sourced ds wc n) (hs : IsSequence ds n ms)
    (hi : ms[i]? = some m) : Tidy ds (extendStore st n i (specificValue wc m.key)) := by
  cases hsp : specificValue wc m.key with
  | empty => exact h
  | leaf v => exact h
  | node c =>
    unfold extendStore
    simp only
    split
    · rename_i o ho
      have hm := List.mem_of_getElem? hi
      obtain ⟨h1, h2⟩ := (h n ms i m hs hi).1 o ho
      intro n' ms' i' m' hs' hi'
      unfold Store.set
      by_cases he : n' = n ∧ i' = i
      · obtain ⟨rfl, rfl⟩ := he
        have := isSequence_unique hnd hs hs'
        subst this
        rw [hi] at hi'
        cases hi'
        simp only [and_self, if_true]
        refine ⟨fun c' hc' => ?_, fun hn => absurd (contended_of hw hs hm hsp h1) hn⟩
        cases hc'
        exact ⟨h1, fun t ht => (h2 t ht).append (sourced_inner hw hs hm hsp ht)⟩
      · rw [if_neg he]
        exact h n' ms' i' m' hs' hi'
    · exact h

/-- The list for the members of a member. -/
theorem sourced_innerComps {ds : List Def} {st : Store} (h : Tidy ds st) {wc : Comps}
    {n : String} {ms : List Member} {i : Nat} {m : Member} {t : String} (hw : Sourced ds wc n)
    (hs : IsSequence ds n ms) (hi : ms[i]? = some m) (ht : UsesName m.type t) :
    Sourced ds (innerComps (st n i) (specificValue wc m.key)) t := by
  have hm := List.mem_of_getElem? hi
  have hown : Sourced ds ((st n i).getD .nil) t := by
    cases ho : st n i with
    | none => exact sourced_nil
    | some o => exact ((h n ms i m hs hi).1 o ho).2 t ht
  cases hsp : specificValue wc m.key with
  | empty => exact hown
  | leaf v => exact hown
  | node c => exact hown.append (sourced_inner hw hs hm hsp ht)

theorem once_values {c : Comps} {k : String} {ks : List String} (h : Once c (k :: ks)) :
    c.values k = [] ∨ ∃ s, c.values k = [s] := by
  have := h.1
  rw [← values_length] at this
  cases hv : c.values k with
  | nil => exact .inl rfl
  | cons s r =>
    rw [hv] at this
    cases r with
    | nil => exact .inr ⟨s, rfl⟩
    | cons => simp at this

theorem once_mem_values {wc : Comps} {k : String} {ks : List String} (hc : Once wc (k :: ks))
    {s : Specific} (hs : s ≠ .empty) : s ∈ wc.values k ↔ specificValue wc k = s := by
  constructor
  · intro h
    rcases once_values hc with h1 | ⟨s', h1⟩
    · rw [h1] at h; cases h
    · rw [h1] at h
      simp only [List.mem_singleton] at h
      subst h
      unfold specificValue
      rw [h1]
  · intro h
    rw [specific_values h hs]
    exact List.Mem.head _

theorem clear_cons {ds : List Def} {m : Member} {path : List Member} : Clear ds (m :: path) ↔
    ¬ Contended ds m ∧ (∀ c, m.comps = some c → Once c (path.map (·.key))) ∧ Clear ds path := by
  constructor
  · intro h
    exact ⟨h.1 m (List.Mem.head _), fun c hc => h.2 [] m path c rfl hc,
      fun x hx => h.1 x (.tail _ hx), fun pre x post c he hc => h.2 (m :: pre) x post c (by rw [he]; rfl) hc⟩
  · rintro ⟨h1, h2, h3⟩
    refine ⟨fun x hx => ?_, fun pre x post c he hc => ?_⟩
    · rcases List.mem_cons.1 hx with rfl | hx
      · exact h1
      · exact h3.1 x hx
    · cases pre with
      | nil => cases he; exact h2 c hc
      | cons y pre => cases he; exact h3.2 pre x post c rfl hc

/-- What a search for entries yields, leaf by leaf. -/
def YieldsAt (p : Printer) (ds : List Def) (wc : Comps) (ms : List Member)
    (r : List Entry × Store) : Prop :=
  (∃ ls, Leaves ds ms ls ∧
    All2 (EntryFor p ds fun path s => Clear ds path → Once wc (path.map (·.key)) → FoundValue wc path s) ls r.1) ∧
  Tidy ds r.2

/-- The values below a member that is not contended. -/
theorem inner_fixes {ds : List Def} {st : Store} (hst : Tidy ds st) {wc : Comps} {n : String}
    {all : List Member} {i : Nat} {m : Member} {path : List Member} (hw : Sourced ds wc n)
    (hall : IsSequence ds n all) (hget : all[i]? = some m) (hcl : Clear ds (m :: path)) (hne : path ≠ [])
    (ho : Once wc ((m :: path).map (·.key))) :
    Once (innerComps (st n i) (specificValue wc m.key)) (path.map (·.key)) ∧
    ∀ v, CompFixes (innerComps (st n i) (specificValue wc m.key)) (path.map (·.key)) v ↔
      CompFixes wc (m.key :: path.map (·.key)) v ∨ ∃ c, m.comps = some c ∧ CompFixes c (path.map (·.key)) v := by
  obtain ⟨h1, h2, _⟩ := clear_cons.1 hcl
  have hks : path.map (·.key) ≠ [] := by simpa using hne
  have hm := List.mem_of_getElem? hget
  rw [(hst n all i m hall hget).2 h1]
  have hown : Once (m.comps.getD .nil) (path.map (·.key)) := by
    cases hmc : m.comps with
    | none =>
      cases hp : path.map (·.key) with
      | nil => trivial
      | cons k ks => exact ⟨by simp [compKeys], fun c' h => by cases h⟩
    | some c => exact h2 c hmc
  have hownfix : ∀ v, CompFixes (m.comps.getD .nil) (path.map (·.key)) v ↔
      ∃ c, m.comps = some c ∧ CompFixes c (path.map (·.key)) v := by
    intro v
    cases hmc : m.comps with
    | none => constructor
              · intro h; cases h
              · rintro ⟨c, h, _⟩; cases h
    | some c => simp
  cases hs : specificValue wc m.key with
  | node c =>
    have hv := specific_values hs (by simp)
    have hnone : m.comps = none := by
      cases hmc : m.comps with
      | none => rfl
      | some x => exact absurd (contended_of hw hall hm hs (by rw [hmc]; simp)) h1
    simp only [innerComps, hnone, Option.getD_none, Comps.append]
    refine ⟨(ho.2 c (hasNode_iff.2 (by rw [hv]; exact List.Mem.head _))).2, fun v => ?_⟩
    rw [compFixes_values_node hks, hv]
    simp
  | empty =>
    refine ⟨hown, fun v => ?_⟩
    rw [compFixes_values_node hks]
    show CompFixes (m.comps.getD .nil) _ v ↔ _
    rw [hownfix]
    constructor
    · exact .inr
    · rintro (⟨j, h, _⟩ | h)
      · rw [once_mem_values ho (by simp), hs] at h
        cases h
      · exact h
  | leaf w =>
    refine ⟨hown, fun v => ?_⟩
    rw [compFixes_values_node hks]
    show CompFixes (m.comps.getD .nil) _ v ↔ _
    rw [hownfix]
    constructor
    · exact .inr
    · rintro (⟨j, h, _⟩ | h)
      · rw [once_mem_values ho (by simp), hs] at h
        cases h
      · exact h

theorem entriesFrom_yieldsAt {p : Printer} {b : Bundle} {fuel : Nat} {bm : BMod} (hbm : bm ∈ b.mods)
    (hnd : (b.defs.map Def.name).Nodup) (hg : ∀ d ∈ b.defs, GrammarDef d)
    {rec : Store → Def → Comps → Except Err (List Entry × Store)}
    (hrec : ∀ st d wc r, d ∈ b.defs → Tidy b.defs st → Sourced b.defs wc d.name → rec st d wc = .ok r →
      ∃ n c ms, d = .seq n c ms ∧ YieldsAt p b.defs wc ms r)
    {n : String} {all : List Member} (hall : IsSequence b.defs n all) {wc : Comps} (hw : Sourced b.defs wc n) :
    ∀ (ms : List Member) (i : Nat) (st : Store) (r : List Entry × Store), all.drop i = ms → Tidy b.defs st →
      entriesFrom p b fuel bm rec n wc st i ms = .ok r → YieldsAt p b.defs wc ms r := by
  intro ms
  induction ms with
  | nil =>
    intro i st r _ hst h
    cases h
    exact ⟨⟨[], .nil, .nil⟩, hst⟩
  | cons m ms ih =>
    intro i st r hdrop hst h
    have hget : all[i]? = some m := by
      rw [← List.head?_drop, hdrop]; rfl
    have hm : m ∈ all := List.mem_of_getElem? hget
    have hdrop' : all.drop (i + 1) = ms := by
      rw [← List.tail_drop, hdrop]; rfl
    have hgm : GrammarMember m := by
      obtain ⟨c, hs⟩ := hall
      exact (hg _ hs).2.2 m hm
    have hmd : ∃ d ∈ b.defs, m ∈ d.members := by
      obtain ⟨c, hs⟩ := hall
      exact ⟨_, hs, hm⟩
    simp only [entriesFrom, bind_ok] at h
    obtain ⟨shape, h1, r1, h2, r2, h3, h4⟩ := h
    simp only [Except.ok.injEq] at h4
    subst h4
    have hst' := hst.extend hnd hw hall hget
    cases shape with
    | item c lo hi states =>
      simp only [bind_ok, Except.ok.injEq] at h2
      obtain ⟨e, h5, rfl⟩ := h2
      have hshape := shapeOf_item hbm h1
      have hns := hshape.not_seq hnd hg hgm.2.1
      obtain ⟨⟨ls, k1, k2⟩, k3⟩ := ih (i + 1) _ r2 hdrop' hst' h3
      refine ⟨⟨[m] :: ls, .leaf hns k1, .cons ?_ k2⟩, k3⟩
      refine ⟨m, specificValue wc m.key, c, lo, hi, states, rfl, hmd, hshape, h5, fun _ ho => ?_⟩
      refine ⟨fun c hc => ?_, fun v => ?_⟩
      · have hv := specific_values hc (by simp)
        exact (ho.2 c (hasNode_iff.2 (by rw [hv]; exact List.Mem.head _))).1 rfl
      · rw [List.map_cons, List.map_nil, compFixes_values_leaf, fixedTo_cons,
          once_mem_values ho (by simp)]
        constructor
        · intro h; exact .inl h
        · rintro (h | ⟨c', _, h⟩ | h)
          · exact h
          · exact absurd h compFixes_nil
          · exact absurd h fixedTo_nil
    | inner d =>
      simp only at h2
      obtain ⟨hd, hdn⟩ := shapeOf_inner hbm h1
      have ht : UsesName m.type d.name := (usesName_iff _ _).2 hdn.symm
      obtain ⟨n', c', inner, rfl, ⟨⟨ls, k1, k2⟩, k3⟩⟩ := hrec _ _ _ _ hd hst'
        (sourced_innerComps hst hw hall hget ht) h2
      obtain ⟨⟨ls', k4, k5⟩, k6⟩ := ih (i + 1) _ r2 hdrop' k3 h3
      refine ⟨⟨ls.map (m :: ·) ++ ls', .seq ht ⟨c', hd⟩ k1 k4, ?_⟩, k6⟩
      refine All2.append (All2.of_map_left (k2.imp_mem fun path hp e he => ?_)) k5
      have hne := k1.ne_nil path hp
      obtain ⟨m', s, c, lo, hi, states, g1, g2, g3, g4, g5⟩ := he
      refine ⟨m', s, c, lo, hi, states, ?_, g2, g3, g4, fun hcl ho => ?_⟩
      · cases path with
        | nil => exact absurd rfl hne
        | cons x path => rw [List.getLast?_cons_cons]; exact g1
      · obtain ⟨w1, w2⟩ := inner_fixes hst hw hall hget hcl hne ho
        have := g5 (clear_cons.1 hcl).2.2 w1
        refine ⟨this.1, fun v => ?_⟩
        rw [this.2 v, w2, List.map_cons, fixedTo_cons]
        constructor
        · rintro ((h | h) | h)
          · exact .inl h
          · exact .inr (.inl h)
          · exact .inr (.inr h)
        · rintro (h | h | h)
          · exact .inl (.inl h)
          · exact .inl (.inr h)
          · exact .inr h

theorem telemetry_yieldsAt {p : Printer} {b : Bundle} {fuel : Nat} {bm : BMod} (hbm : bm ∈ b.mods)
    (hnd : (b.defs.map Def.name).Nodup) (hg : ∀ d ∈ b.defs, GrammarDef d) (depth : Nat) :
    ∀ st d wc r, d ∈ b.defs → Tidy b.defs st → Sourced b.defs wc d.name →
      telemetry p b fuel bm depth st d wc = .ok r →
      ∃ n c ms, d = .seq n c ms ∧ YieldsAt p b.defs wc ms r := by
  induction depth with
  | zero => intro st d wc r _ _ _ h; simp [telemetry] at h
  | succ depth ih =>
    intro st d wc r hd hst hw h
    cases d with
    | seq n c ms =>
      rw [telemetry] at h
      exact ⟨n, c, ms, rfl, entriesFrom_yieldsAt hbm hnd hg ih ⟨c, hd⟩ hw ms 0 st r rfl hst h⟩
    | choice n c ms => cases h
    | enum n c its => cases h
    | simple n c t => cases h

theorem once_nil (ks : List String) : Once .nil ks := by
  cases ks with
  | nil => trivial
  | cons k ks => exact ⟨by simp [compKeys], fun c' h => by cases h⟩

/-! ### Separate clauses -/

theorem clean_hasNode {ds : List Def} {n k : String} {c i : Comps} (hc : Clean ds c n) (h : HasNode c k i)
    {ms : List Member} (hs : IsSequence ds n ms) {m : Member} (hm : m ∈ ms) (hk : m.key = k) :
    m.comps = none ∧ ∃ t inner, UsesName m.type t ∧ IsSequence ds t inner ∧ Clean ds i t :=
  clean_node hc (hasNode_iff.1 h) ms hs m hm hk

theorem clauseOn_clean {ds : List Def} (hsep : Separate ds) {c : Comps} {n : String} (h : ClauseOn ds c n) :
    Clean ds c n := by
  induction h with
  | own h1 h2 h3 h4 => exact hsep _ _ h1 _ h2 _ h3 _ h4
  | inner h1 h2 h3 h4 h5 ih =>
    obtain ⟨_, t, inner, k1, _, k3⟩ := clean_hasNode ih h4 h2 h3 rfl
    rw [usesName_iff] at k1 h5
    rw [← h5, k1]
    exact k3

theorem clean_once {ds : List Def} {ms : List Member} {ls : List (List Member)} (h : Leaves ds ms ls) :
    ∀ (all : List Member) (n : String) (c : Comps), IsSequence ds n all → (∀ m ∈ ms, m ∈ all) → Clean ds c n →
      ∀ path ∈ ls, Once c (path.map (·.key)) := by
  have hcount : ∀ {n : String} {c : Comps} (k : String), Clean ds c n → (compKeys c).count k ≤ 1 := by
    intro n c k hc
    rw [← values_length]
    rcases clean_values k hc with h | ⟨s, h⟩ <;> rw [h] <;> simp
  induction h with
  | nil => intro _ _ _ _ _ _ path hp; cases hp
  | @leaf m ms ps hns _ ih =>
    intro all n c hs hsub hc path hp
    rcases List.mem_cons.1 hp with rfl | hp
    · refine ⟨hcount _ hc, fun c' hn => ?_⟩
      obtain ⟨_, t, inner, k1, k2, _⟩ := clean_hasNode hc hn hs (hsub m (List.Mem.head _)) rfl
      exact absurd k2 (hns t inner k1)
    · exact ih all n c hs (fun x hx => hsub x (.tail _ hx)) hc path hp
  | @seq m ms n' inner ps qs h1 h2 h3 _ ih1 ih2 =>
    intro all n c hs hsub hc path hp
    rcases List.mem_append.1 hp with hp | hp
    · obtain ⟨q, hq, rfl⟩ := List.mem_map.1 hp
      refine ⟨hcount _ hc, fun c' hn => ?_⟩
      obtain ⟨_, t, _, k1, _, k3⟩ := clean_hasNode hc hn hs (hsub m (List.Mem.head _)) rfl
      have : t = n' := by
        rw [usesName_iff] at k1 h1
        exact k1.symm.trans h1
      subst this
      exact ⟨by simpa using h3.ne_nil q hq, ih1 inner t c' h2 (fun _ h => h) k3 q hq⟩
    · exact ih2 all n c hs (fun x hx => hsub x (.tail _ hx)) hc path hp

theorem Spec.Separate.not_contended {ds : List Def} (hsep : Separate ds) (m : Member) : ¬ Contended ds m := by
  rintro ⟨h1, n, ms, c, c', h2, h3, h4, h5⟩
  exact h1 (clean_hasNode (clauseOn_clean hsep h4) h5 h2 h3 rfl).1

/-- If all clauses are separate, each leaf is reached by at most one. -/
theorem Spec.Separate.clear {ds : List Def} (hsep : Separate ds) {ms : List Member} {ls : List (List Member)}
    (h : Leaves ds ms ls) : ∀ (all : List Member) (n : String), IsSequence ds n all → (∀ m ∈ ms, m ∈ all) →
      ∀ path ∈ ls, Clear ds path := by
  have hno := hsep.not_contended
  induction h with
  | nil => intro _ _ _ _ path hp; cases hp
  | @leaf m ms ps hns _ ih =>
    intro all n hs hsub path hp
    rcases List.mem_cons.1 hp with rfl | hp
    · exact clear_cons.2 ⟨hno m, fun c _ => trivial,
        ⟨fun x hx => absurd hx (by simp), fun pre x post c he _ => absurd he (by simp)⟩⟩
    · exact ih all n hs (fun x hx => hsub x (.tail _ hx)) path hp
  | @seq m ms n' inner ps qs h1 h2 h3 _ ih1 ih2 =>
    intro all n hs hsub path hp
    rcases List.mem_append.1 hp with hp | hp
    · obtain ⟨q, hq, rfl⟩ := List.mem_map.1 hp
      refine clear_cons.2 ⟨hno m, fun c hc => ?_, ih1 inner n' h2 (fun _ h => h) q hq⟩
      exact clean_once h3 inner n' c h2 (fun _ h => h)
        (hsep n all hs m (hsub m (List.Mem.head _)) c hc n' h1) q hq
    · exact ih2 all n hs (fun x hx => hsub x (.tail _ hx)) path hp

end Apg
