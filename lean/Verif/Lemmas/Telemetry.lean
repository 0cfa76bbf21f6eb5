import Verif.Lemmas.Cosmos
import Verif.Lemmas.Run
import Verif.Lemmas.CMap
import Verif.Lemmas.Binary

namespace Apg
open Spec

/-! ### The search for definitions -/

theorem lastBMod_some {bs : List BMod} {n : String} {bm : BMod} (h : lastBMod bs n = some bm) :
    bm ∈ bs ∧ bm.mod.name = n := by
  induction bs with
  | nil => cases h
  | cons x bs ih =>
    rw [lastBMod] at h
    split at h
    · rename_i r hr
      cases h
      exact ⟨List.Mem.tail _ (ih hr).1, (ih hr).2⟩
    · split at h
      · rename_i hn
        cases h
        exact ⟨List.Mem.head _, hn⟩
      · cases h

theorem mem_dedup {ds : List Def} {d : Def} : d ∈ dedup ds ↔ d ∈ ds := by
  unfold dedup
  induction ds generalizing d with
  | nil => simp
  | cons x ds ih =>
    rw [List.foldr_cons]
    split
    · rename_i hc
      rw [List.contains_iff_mem, ih] at hc
      rw [ih]
      constructor
      · intro h; exact List.Mem.tail _ h
      · intro h
        rcases List.mem_cons.1 h with rfl | h
        · exact hc
        · exact h
    · rw [List.mem_cons, List.mem_cons, ih]

theorem dedup_nodup (ds : List Def) : (dedup ds).Nodup := by
  unfold dedup
  induction ds with
  | nil => simp
  | cons x ds ih =>
    rw [List.foldr_cons]
    split
    · exact ih
    · rename_i hc
      rw [List.contains_iff_mem] at hc
      exact List.nodup_cons.2 ⟨hc, ih⟩

theorem collectDefs_sound {b : Bundle} {rec : BMod → Except Err (List Def)} {P : Def → Prop}
    (hrec : ∀ bm ∈ b.mods, ∀ ds, rec bm = .ok ds → ∀ d ∈ ds, P d) (ms : List Module) :
    ∀ ds, collectDefs rec b ms = .ok ds → ∀ d ∈ ds, P d := by
  induction ms with
  | nil => intro ds h; cases h; simp
  | cons m ms ih =>
    intro ds h d hd
    simp only [collectDefs, bind_ok, Except.ok.injEq] at h
    obtain ⟨a, h1, r, h2, rfl⟩ := h
    rcases List.mem_append.1 hd with hd | hd
    · split at h1
      · cases h1; cases hd
      · rename_i bm hbm
        exact hrec bm (lastBMod_some hbm).1 _ h1 d hd
    · exact ih r h2 d hd

theorem mem_defs_of_bmod {b : Bundle} {bm : BMod} (h : bm ∈ b.mods) {d : Def} (hd : d ∈ bm.mod.defs) :
    d ∈ b.defs :=
  List.mem_flatMap.2 ⟨bm.mod, List.mem_map.2 ⟨bm, h, rfl⟩, hd⟩

theorem defsRecurs_sound {b : Bundle} {name : String} (fuel : Nat) : ∀ bm ∈ b.mods, ∀ ds,
    defsRecurs b name fuel bm = .ok ds → ∀ d ∈ ds, d ∈ b.defs ∧ d.name = name := by
  induction fuel with
  | zero => intro bm _ ds h; cases h
  | succ fuel ih =>
    intro bm hbm ds h d hd
    simp only [defsRecurs, bind_ok, Except.ok.injEq] at h
    obtain ⟨r, h1, rfl⟩ := h
    rw [mem_dedup, List.mem_filter, List.mem_append, decide_eq_true_eq] at hd
    refine ⟨?_, hd.2⟩
    rcases hd.1 with hd' | hd'
    · exact mem_defs_of_bmod hbm hd'
    · exact (collectDefs_sound ih _ r h1 d hd').1

theorem getDefinition_sound {b : Bundle} {fuel : Nat} {name : String} {bm : BMod} (hbm : bm ∈ b.mods)
    {d : Def} (h : getDefinition b fuel name bm = .ok d) : d ∈ b.defs ∧ d.name = name := by
  simp only [getDefinition, bind_ok] at h
  obtain ⟨ds, h1, h2⟩ := h
  split at h2
  · cases h2
    exact defsRecurs_sound fuel bm hbm _ h1 d (List.Mem.head _)
  · cases h2

/-! ### Shapes -/

/-- What makes a member an item, with C type, bounds and states. -/
inductive ItemShape (ds : List Def) (t : AType) : Option CType → Option Num → Option Num → List Text → Prop
  | number : t.name = "INTEGER" ∨ t.name = "REAL" → ItemShape ds t t.cType t.lo t.hi []
  | bool : t.name = "BOOLEAN" → ItemShape ds t t.cType t.lo t.hi ["False".toList, "True".toList]
  | str {n len} : t = .str n len → ItemShape ds t t.cType t.lo (some (.int len)) []
  | simple {n c st} : t.name = n → Def.simple n c st ∈ ds → ItemShape ds t st.cType st.lo st.hi []
  | enum {n c its} : t.name = n → Def.enum n c its ∈ ds → ItemShape ds t (some .uint) (some (.int 0))
      (some (.int ((its.length : Int) - 1))) (its.map (·.key.toList))

theorem shapeOf_item {b : Bundle} {fuel : Nat} {bm : BMod} (hbm : bm ∈ b.mods) {t : AType}
    {c : Option CType} {lo hi : Option Num} {states : List Text}
    (h : shapeOf b fuel bm t = .ok (.item c lo hi states)) : ItemShape b.defs t c lo hi states := by
  unfold shapeOf at h
  simp only at h
  split at h
  · rename_i hn
    simp only [Except.ok.injEq, Shape.item.injEq] at h
    obtain ⟨rfl, rfl, rfl, rfl⟩ := h
    exact .number hn
  · split at h
    · rename_i hn
      simp only [Except.ok.injEq, Shape.item.injEq] at h
      obtain ⟨rfl, rfl, rfl, rfl⟩ := h
      exact .bool hn
    · split at h
      · simp only [Except.ok.injEq, Shape.item.injEq] at h
        obtain ⟨rfl, rfl, rfl, rfl⟩ := h
        exact .str rfl
      · simp only [bind_ok] at h
        obtain ⟨d, h1, h2⟩ := h
        obtain ⟨k1, k2⟩ := getDefinition_sound hbm h1
        split at h2
        · simp only [Except.ok.injEq, Shape.item.injEq] at h2
          obtain ⟨rfl, rfl, rfl, rfl⟩ := h2
          exact .simple k2.symm k1
        · simp only [Except.ok.injEq, Shape.item.injEq] at h2
          obtain ⟨rfl, rfl, rfl, rfl⟩ := h2
          exact .enum k2.symm k1
        · cases h2

theorem shapeOf_inner {b : Bundle} {fuel : Nat} {bm : BMod} (hbm : bm ∈ b.mods) {t : AType} {d : Def}
    (h : shapeOf b fuel bm t = .ok (.inner d)) : d ∈ b.defs ∧ d.name = t.name := by
  unfold shapeOf at h
  simp only at h
  split at h
  · cases h
  · split at h
    · cases h
    · split at h
      · cases h
      · simp only [bind_ok] at h
        obtain ⟨d', h1, h2⟩ := h
        obtain ⟨k1, k2⟩ := getDefinition_sound hbm h1
        split at h2
        · cases h2
        · cases h2
        · cases h2
          exact ⟨k1, k2⟩

/-- Names of definitions start with a capital letter and continue in lower case. -/
theorem builtin_not_def {ds : List Def} (hg : ∀ d ∈ ds, GrammarDef d) {n : String}
    (hn : n ∈ ["INTEGER", "REAL", "BOOLEAN", "NULL", "IA5String", "NumericString"]) :
    ∀ d ∈ ds, d.name ≠ n := by
  intro d hd he
  have := def_capital (hg d hd)
  rw [he] at this
  simp only [List.mem_cons, List.not_mem_nil, or_false] at hn
  rcases hn with rfl | rfl | rfl | rfl | rfl | rfl <;> exact absurd this (by decide)

theorem ItemShape.not_seq {ds : List Def} (hnd : (ds.map Def.name).Nodup) (hg : ∀ d ∈ ds, GrammarDef d)
    {t : AType} (ht : GrammarType t) {c : Option CType} {lo hi : Option Num} {states : List Text}
    (h : ItemShape ds t c lo hi states) : ∀ n inner, UsesName t n → ¬ IsSequence ds n inner := by
  rintro n inner hu ⟨cm, hs⟩
  rw [usesName_iff] at hu
  have hb : ∀ k ∈ ["INTEGER", "REAL", "BOOLEAN", "NULL", "IA5String", "NumericString"], t.name ≠ k := by
    intro k hk he
    exact builtin_not_def hg hk _ hs (hu ▸ he)
  cases h with
  | number h =>
    rcases h with h | h
    · exact hb _ (by decide) h
    · exact hb _ (by decide) h
  | bool h => exact hb _ (by decide) h
  | str h =>
    subst h
    cases ht with
    | ia5 => exact hb "IA5String" (by decide) rfl
    | numeric => exact hb "NumericString" (by decide) rfl
  | simple h1 h2 =>
    have := mem_unique_of_nodup_map hnd h2 hs (by show _ = n; rw [← hu, h1]; rfl)
    cases this
  | enum h1 h2 =>
    have := mem_unique_of_nodup_map hnd h2 hs (by show _ = n; rw [← hu, h1]; rfl)
    cases this

/-! ### Clauses -/

theorem mem_compKeys {c : Comps} {k : String} (h : k ∉ compKeys c) : c.values k = [] := by
  induction c with
  | nil => rfl
  | leaf k' v r ih =>
    simp only [compKeys, List.mem_cons, not_or] at h
    rw [Comps.values, if_neg (fun e => h.1 e.symm), ih h.2]
  | node k' i r _ ih =>
    simp only [compKeys, List.mem_cons, not_or] at h
    rw [Comps.values, if_neg (fun e => h.1 e.symm), ih h.2]

theorem clean_values {ds : List Def} {n : String} (k : String) : ∀ {c : Comps}, Clean ds c n →
    c.values k = [] ∨ ∃ s, c.values k = [s]
  | .nil, _ => .inl rfl
  | .leaf k' v r, h => by
    rw [Comps.values]
    split
    · rename_i e
      subst e
      rw [mem_compKeys h.1]
      exact .inr ⟨_, rfl⟩
    · exact clean_values k h.2
  | .node k' i r, h => by
    rw [Comps.values]
    split
    · rename_i e
      subst e
      rw [mem_compKeys h.1]
      exact .inr ⟨_, rfl⟩
    · exact clean_values k h.2.1

theorem compFixes_nil {c : Comps} {v : Leaf} : ¬ CompFixes c [] v := by
  induction c with
  | nil => intro h; cases h
  | leaf k' w r ih => intro h; cases h with | afterLeaf h => exact ih h
  | node k' i r _ ih => intro h; cases h with | afterNode h => exact ih h

theorem compFixes_values_leaf {c : Comps} {k : String} {v : Leaf} :
    CompFixes c [k] v ↔ Specific.leaf v ∈ c.values k := by
  induction c with
  | nil => simp only [Comps.values, List.not_mem_nil, iff_false]; intro h; cases h
  | leaf k' w r ih =>
    rw [Comps.values]
    constructor
    · intro h
      cases h with
      | here => simp
      | afterLeaf h =>
        split
        · exact List.Mem.tail _ (ih.1 h)
        · exact ih.1 h
    · intro h
      split at h
      · rename_i e
        subst e
        simp only [List.mem_cons, Specific.leaf.injEq] at h
        rcases h with rfl | h
        · exact .here
        · exact .afterLeaf (ih.2 h)
      · exact .afterLeaf (ih.2 h)
  | node k' i r _ ih =>
    rw [Comps.values]
    constructor
    · intro h
      cases h with
      | inside h => exact absurd h compFixes_nil
      | afterNode h =>
        split
        · exact List.Mem.tail _ (ih.1 h)
        · exact ih.1 h
    · intro h
      split at h
      · simp only [List.mem_cons, reduceCtorEq, false_or] at h
        exact .afterNode (ih.2 h)
      · exact .afterNode (ih.2 h)

theorem compFixes_values_node {c : Comps} {k : String} {ks : List String} (hks : ks ≠ []) {v : Leaf} :
    CompFixes c (k :: ks) v ↔ ∃ i, Specific.node i ∈ c.values k ∧ CompFixes i ks v := by
  induction c with
  | nil =>
    simp only [Comps.values, List.not_mem_nil, false_and, exists_false, iff_false]
    intro h; cases h
  | leaf k' w r ih =>
    rw [Comps.values]
    constructor
    · intro h
      cases h with
      | here => exact absurd rfl hks
      | afterLeaf h =>
        obtain ⟨i, h1, h2⟩ := ih.1 h
        refine ⟨i, ?_, h2⟩
        split
        · exact List.Mem.tail _ h1
        · exact h1
    · rintro ⟨i, h1, h2⟩
      refine .afterLeaf (ih.2 ⟨i, ?_, h2⟩)
      split at h1
      · simpa using h1
      · exact h1
  | node k' j r _ ih =>
    rw [Comps.values]
    constructor
    · intro h
      cases h with
      | inside h => exact ⟨j, by simp, h⟩
      | afterNode h =>
        obtain ⟨i, h1, h2⟩ := ih.1 h
        refine ⟨i, ?_, h2⟩
        split
        · exact List.Mem.tail _ h1
        · exact h1
    · rintro ⟨i, h1, h2⟩
      split at h1
      · rename_i e
        subst e
        simp only [List.mem_cons, Specific.node.injEq] at h1
        rcases h1 with rfl | h1
        · exact .inside h2
        · exact .afterNode (ih.2 ⟨i, h1, h2⟩)
      · exact .afterNode (ih.2 ⟨i, h1, h2⟩)

theorem clean_node {ds : List Def} {n k : String} {i : Comps} : ∀ {c : Comps}, Clean ds c n →
    Specific.node i ∈ c.values k → ∀ ms, IsSequence ds n ms → ∀ m ∈ ms, m.key = k →
      m.comps = none ∧ ∃ t inner, UsesName m.type t ∧ IsSequence ds t inner ∧ Clean ds i t
  | .nil, _, h => by cases h
  | .leaf k' v r, hc, h => by
    rw [Comps.values] at h
    refine clean_node hc.2 ?_
    split at h
    · simpa using h
    · exact h
  | .node k' j r, hc, h => by
    rw [Comps.values] at h
    split at h
    · rename_i e
      subst e
      rw [mem_compKeys hc.1] at h
      simp only [List.mem_singleton, Specific.node.injEq] at h
      subst h
      exact hc.2.2
    · exact clean_node hc.2.1 h

theorem fixedTo_cons {m : Member} {path : List Member} {v : Leaf} : FixedTo (m :: path) v ↔
    (∃ c, m.comps = some c ∧ CompFixes c (path.map (·.key)) v) ∨ FixedTo path v := by
  constructor
  · rintro ⟨pre, m', post, c, h1, h2, h3⟩
    cases pre with
    | nil =>
      cases h1
      exact .inl ⟨c, h2, h3⟩
    | cons x pre =>
      cases h1
      exact .inr ⟨pre, m', post, c, rfl, h2, h3⟩
  · rintro (⟨c, h1, h2⟩ | ⟨pre, m', post, c, rfl, h2, h3⟩)
    · exact ⟨[], m, path, c, rfl, h1, h2⟩
    · exact ⟨m :: pre, m', post, c, rfl, h2, h3⟩

theorem fixedTo_nil {v : Leaf} : ¬ FixedTo [] v := by
  rintro ⟨pre, m', post, c, h1, _⟩
  cases pre <;> cases h1

/-! ### Entries -/

/-- The clauses can be read one by one: none of them has been or will be merged with another. -/
def Apart (ds : List Def) (st : Store) (withComp : Comps) (n : String) : Prop :=
  Separate ds ∧ st = initialStore ds ∧ Clean ds withComp n

/-- The value found for the leaf at the end of the path. -/
def FoundValue (withComp : Comps) (path : List Member) (s : Specific) : Prop :=
  (∀ c, s ≠ .node c) ∧
  ∀ v, s = .leaf v ↔ CompFixes withComp (path.map (·.key)) v ∨ FixedTo path v

/-- The entry is made for the leaf at the end of the path. -/
def EntryFor (p : Printer) (ds : List Def) (Q : List Member → Specific → Prop) (path : List Member)
    (e : Entry) : Prop :=
  ∃ (m : Member) (s : Specific) (c : Option CType) (lo hi : Option Num) (states : List Text),
    path.getLast? = some m ∧ (∃ d ∈ ds, m ∈ d.members) ∧ ItemShape ds m.type c lo hi states ∧
    makeEntry p m s c lo hi states = .ok e ∧ Q path s

theorem EntryFor.imp {p : Printer} {ds : List Def} {Q Q' : List Member → Specific → Prop}
    {path : List Member} {e : Entry} (h : EntryFor p ds Q path e) (hi : ∀ s, Q path s → Q' path s) :
    EntryFor p ds Q' path e := by
  obtain ⟨m, s, c, lo, hi', states, h1, h2, h3, h4, h5⟩ := h
  exact ⟨m, s, c, lo, hi', states, h1, h2, h3, h4, hi s h5⟩

theorem All2.of_map_left {α β γ} {R : γ → β → Prop} {f : α → γ} {l : List α} {l' : List β}
    (h : All2 (fun a b => R (f a) b) l l') : All2 R (l.map f) l' := by
  induction h with
  | nil => exact .nil
  | cons h1 _ ih => exact .cons h1 ih

theorem Spec.Leaves.ne_nil {ds : List Def} {ms : List Member} {ls : List (List Member)}
    (h : Leaves ds ms ls) : ∀ path ∈ ls, path ≠ [] := by
  induction h with
  | nil => intro path hp; cases hp
  | leaf _ _ ih =>
    intro path hp
    rcases List.mem_cons.1 hp with rfl | hp
    · simp
    · exact ih path hp
  | seq _ _ _ _ _ ih =>
    intro path hp
    rcases List.mem_append.1 hp with hp | hp
    · obtain ⟨q, _, rfl⟩ := List.mem_map.1 hp
      simp
    · exact ih path hp

/-- What a search for entries yields. -/
def Yields (p : Printer) (ds : List Def) (st : Store) (wc : Comps) (n : String) (ms : List Member)
    (r : List Entry × Store) : Prop :=
  (∃ ls, Leaves ds ms ls ∧
    All2 (EntryFor p ds fun path s => Apart ds st wc n → FoundValue wc path s) ls r.1) ∧
  (Apart ds st wc n → r.2 = initialStore ds)

theorem initialStore_seq {ds : List Def} (hnd : (ds.map Def.name).Nodup) {n : String}
    {ms : List Member} (h : IsSequence ds n ms) (i : Nat) :
    initialStore ds n i = (ms[i]?).bind (·.comps) := by
  obtain ⟨c, h⟩ := h
  unfold initialStore
  rw [(lastDef_eq_some_iff hnd n _).2 ⟨h, rfl⟩]

theorem specific_values {wc : Comps} {k : String} {s : Specific} (h : specificValue wc k = s)
    (hs : s ≠ .empty) : wc.values k = [s] := by
  unfold specificValue at h
  split at h
  · rename_i v hv
    rw [hv, h]
  · exact absurd h.symm hs

theorem specific_empty {ds : List Def} {n : String} {wc : Comps} {k : String} (hc : Clean ds wc n)
    (h : specificValue wc k = .empty) : ∀ s, s ≠ .empty → s ∉ wc.values k := by
  intro s hs hm
  rcases clean_values k hc with h1 | ⟨s', h1⟩
  · rw [h1] at hm; cases hm
  · rw [h1] at hm
    unfold specificValue at h
    rw [h1] at h
    simp only at h
    simp only [List.mem_singleton] at hm
    exact hs (hm.trans h)

theorem mem_values_iff {ds : List Def} {n : String} {wc : Comps} {k : String} (hc : Clean ds wc n)
    {s : Specific} (hs : s ≠ .empty) : s ∈ wc.values k ↔ specificValue wc k = s := by
  constructor
  · intro h
    rcases clean_values k hc with h1 | ⟨s', h1⟩
    · rw [h1] at h; cases h
    · rw [h1] at h
      simp only [List.mem_singleton] at h
      subst h
      unfold specificValue
      rw [h1]
  · intro h
    rw [specific_values h hs]
    exact List.Mem.head _

theorem entriesFrom_yields {p : Printer} {b : Bundle} {fuel : Nat} {bm : BMod} (hbm : bm ∈ b.mods)
    (hnd : (b.defs.map Def.name).Nodup) (hg : ∀ d ∈ b.defs, GrammarDef d)
    {rec : Store → Def → Comps → Except Err (List Entry × Store)}
    (hrec : ∀ st d wc r, d ∈ b.defs → rec st d wc = .ok r →
      ∃ n c ms, d = .seq n c ms ∧ Yields p b.defs st wc n ms r)
    {n : String} {all : List Member} (hall : IsSequence b.defs n all) {wc : Comps} :
    ∀ (ms : List Member) (i : Nat) (st : Store) (r : List Entry × Store), all.drop i = ms →
      entriesFrom p b fuel bm rec n wc st i ms = .ok r → Yields p b.defs st wc n ms r := by
  intro ms
  induction ms with
  | nil =>
    intro i st r _ h
    cases h
    exact ⟨⟨[], .nil, .nil⟩, fun h => h.2.1⟩
  | cons m ms ih =>
    intro i st r hdrop h
    have hget : all[i]? = some m := by
      rw [← List.head?_drop, hdrop]; rfl
    have hm : m ∈ all := List.mem_of_getElem? hget
    have hdrop' : all.drop (i + 1) = ms := by
      rw [← List.tail_drop, hdrop]; rfl
    have hgm : GrammarMember m := by
      obtain ⟨c, hs⟩ := hall
      exact (hg _ hs).2.2 m hm
    have hmd : ∃ d ∈ b.defs, m ∈ d.members := by
      obtain ⟨c, hs⟩ := hall
      exact ⟨_, hs, hm⟩
    simp only [entriesFrom, bind_ok] at h
    obtain ⟨shape, h1, r1, h2, r2, h3, h4⟩ := h
    simp only [Except.ok.injEq] at h4
    subst h4
    -- the store as the member sees it
    have hst : ∀ wc', Apart b.defs st wc' n → st n i = m.comps := by
      intro wc' ha
      rw [ha.2.1, initialStore_seq hnd hall, hget]; rfl
    have hkeep : Apart b.defs st wc n → extendStore st n i (specificValue wc m.key) = st := by
      intro ha
      cases hs : specificValue wc m.key with
      | empty => rfl
      | leaf v => rfl
      | node c =>
        have hv := specific_values hs (by simp)
        obtain ⟨k1, _⟩ := clean_node ha.2.2 (by rw [hv]; exact List.Mem.head _) all hall m hm rfl
        unfold extendStore
        simp only
        rw [hst wc ha, k1]
    cases shape with
    | item c lo hi states =>
      simp only [bind_ok, Except.ok.injEq] at h2
      obtain ⟨e, h5, rfl⟩ := h2
      have hshape := shapeOf_item hbm h1
      have hns := hshape.not_seq hnd hg hgm.2.1
      obtain ⟨⟨ls, k1, k2⟩, k3⟩ := ih (i + 1) _ r2 hdrop' h3
      refine ⟨⟨[m] :: ls, .leaf hns k1, .cons ?_ (k2.imp fun path e he => he.imp fun s hs ha => ?_)⟩, ?_⟩
      · refine ⟨m, specificValue wc m.key, c, lo, hi, states, rfl, hmd, hshape, h5, fun ha => ?_⟩
        refine ⟨fun c hc => ?_, fun v => ?_⟩
        · have hv := specific_values hc (by simp)
          obtain ⟨_, t, inner, q1, q2, _⟩ :=
            clean_node ha.2.2 (by rw [hv]; exact List.Mem.head _) all hall m hm rfl
          exact hns t inner q1 q2
        · rw [List.map_cons, List.map_nil, compFixes_values_leaf, fixedTo_cons,
            mem_values_iff ha.2.2 (by simp)]
          constructor
          · intro h; exact .inl h
          · rintro (h | ⟨c', _, h⟩ | h)
            · exact h
            · exact absurd h compFixes_nil
            · exact absurd h fixedTo_nil
      · apply hs
        simp only [hkeep ha]
        exact ha
      · intro ha
        apply k3
        simp only [hkeep ha]
        exact ha
    | inner d =>
      simp only at h2
      obtain ⟨hd, hdn⟩ := shapeOf_inner hbm h1
      obtain ⟨n', c', inner, rfl, ⟨⟨ls, k1, k2⟩, k3⟩⟩ := hrec _ _ _ _ hd h2
      obtain ⟨⟨ls', k4, k5⟩, k6⟩ := ih (i + 1) _ r2 hdrop' h3
      have hn' : m.type.name = n' := hdn.symm
      have hinner : IsSequence b.defs n' inner := ⟨c', hd⟩
      -- the inner clause is apart too
      have hin : Apart b.defs st wc n → ∃ wc', innerComps (st n i) (specificValue wc m.key) = wc' ∧ Clean b.defs wc' n' ∧
          ∀ (ks : List String) v, ks ≠ [] → (CompFixes wc' ks v ↔
            CompFixes wc (m.key :: ks) v ∨ ∃ c, m.comps = some c ∧ CompFixes c ks v) := by
        intro ha
        have hown : (st n i).getD .nil = m.comps.getD .nil := by rw [hst wc ha]
        cases hs : specificValue wc m.key with
        | node c =>
          have hv := specific_values hs (by simp)
          obtain ⟨q1, t, inner', q2, q3, q4⟩ :=
            clean_node ha.2.2 (by rw [hv]; exact List.Mem.head _) all hall m hm rfl
          rw [usesName_iff, hn'] at q2
          subst q2
          refine ⟨c, ?_, q4, fun ks v hks => ?_⟩
          · simp only [innerComps, hown, q1, Option.getD_none, Comps.append]
          · rw [compFixes_values_node hks, hv, q1]
            simp
        | empty =>
          refine ⟨m.comps.getD .nil, by simp only [innerComps, hown], ?_, fun ks v hks => ?_⟩
          · cases hmc : m.comps with
            | none => trivial
            | some c => exact ha.1 n all hall m hm c hmc n' (by rw [usesName_iff, hn'])
          · rw [compFixes_values_node hks]
            have := specific_empty ha.2.2 hs
            constructor
            · intro h
              cases hmc : m.comps with
              | none => rw [hmc] at h; cases h
              | some c => rw [hmc] at h; exact .inr ⟨c, rfl, h⟩
            · rintro (⟨j, h, _⟩ | ⟨c, h, h'⟩)
              · exact absurd h (this _ (by simp))
              · rw [h]; exact h'
        | leaf w =>
          have hv := specific_values hs (by simp)
          refine ⟨m.comps.getD .nil, by simp only [innerComps, hown], ?_, fun ks v hks => ?_⟩
          · cases hmc : m.comps with
            | none => trivial
            | some c => exact ha.1 n all hall m hm c hmc n' (by rw [usesName_iff, hn'])
          · rw [compFixes_values_node hks, hv]
            constructor
            · intro h
              cases hmc : m.comps with
              | none => rw [hmc] at h; cases h
              | some c => rw [hmc] at h; exact .inr ⟨c, rfl, h⟩
            · rintro (⟨j, h, _⟩ | ⟨c, h, h'⟩)
              · simp at h
              · rw [h]; exact h'
      refine ⟨⟨ls.map (m :: ·) ++ ls', .seq ((usesName_iff _ _).2 hn') hinner k1 k4, ?_⟩, ?_⟩
      · refine All2.append (All2.of_map_left (k2.imp_mem fun path hp e he => ?_))
          (k5.imp fun path e he => he.imp fun s hs ha => ?_)
        · have hne := k1.ne_nil path hp
          obtain ⟨m', s, c, lo, hi, states, g1, g2, g3, g4, g5⟩ := he
          refine ⟨m', s, c, lo, hi, states, ?_, g2, g3, g4, fun ha => ?_⟩
          · cases path with
            | nil => exact absurd rfl hne
            | cons x path => rw [List.getLast?_cons_cons]; exact g1
          · obtain ⟨wc', w1, w2, w3⟩ := hin ha
            rw [w1] at g5
            have := g5 ⟨ha.1, by rw [hkeep ha]; exact ha.2.1, w2⟩
            refine ⟨this.1, fun v => ?_⟩
            rw [this.2 v, w3 _ v (by simpa using hne), List.map_cons, fixedTo_cons]
            constructor
            · rintro ((h | h) | h)
              · exact .inl h
              · exact .inr (.inl h)
              · exact .inr (.inr h)
            · rintro (h | h | h)
              · exact .inl (.inl h)
              · exact .inl (.inr h)
              · exact .inr h
        · apply hs
          refine ⟨ha.1, ?_, ha.2.2⟩
          obtain ⟨wc', w1, w2, w3⟩ := hin ha
          rw [w1] at k3
          exact k3 ⟨ha.1, by rw [hkeep ha]; exact ha.2.1, w2⟩
      · intro ha
        apply k6
        refine ⟨ha.1, ?_, ha.2.2⟩
        obtain ⟨wc', w1, w2, w3⟩ := hin ha
        rw [w1] at k3
        exact k3 ⟨ha.1, by rw [hkeep ha]; exact ha.2.1, w2⟩

theorem telemetry_yields {p : Printer} {b : Bundle} {fuel : Nat} {bm : BMod} (hbm : bm ∈ b.mods)
    (hnd : (b.defs.map Def.name).Nodup) (hg : ∀ d ∈ b.defs, GrammarDef d) (depth : Nat) :
    ∀ st d wc r, d ∈ b.defs → telemetry p b fuel bm depth st d wc = .ok r →
      ∃ n c ms, d = .seq n c ms ∧ Yields p b.defs st wc n ms r := by
  induction depth with
  | zero => intro st d wc r _ h; simp [telemetry] at h
  | succ depth ih =>
    intro st d wc r hd h
    cases d with
    | seq n c ms =>
      rw [telemetry] at h
      exact ⟨n, c, ms, rfl, entriesFrom_yields hbm hnd hg ih ⟨c, hd⟩ ms 0 st r rfl h⟩
    | choice n c ms => cases h
    | enum n c its => cases h
    | simple n c t => cases h

end Apg
