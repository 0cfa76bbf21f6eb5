import Verif.Lemmas.Clear
import Verif.Lemmas.CosmosLookup
import Verif.Lemmas.SuccessBinary
import Verif.Props.Cosmos
import Verif.Spec.CosmosSuccess

namespace Apg
open Spec

/-! ### Types with a size and a range -/

/-- What `makeEntry` needs of a C type and bounds. -/
def Fits (c : Option CType) (lo hi : Option Num) : Prop :=
  ∃ c' bits r, c = some c' ∧ getBitSize c' lo hi = .ok bits ∧ subrange c' lo hi = .ok r

theorem fits_bool {c : Option CType} {lo hi : Option Num} (h : c = some .bool) : Fits c lo hi :=
  ⟨.bool, 1, none, h, rfl, rfl⟩

theorem subrange_bounded (c : CType) (b e : Num) : ∃ r, subrange c (some b) (some e) = .ok r := by
  unfold subrange
  cases c
  all_goals first
    | exact ⟨_, rfl⟩
    | (simp only; split <;> exact ⟨_, rfl⟩)

theorem cType_bare_float {t : AType} (hl : t.lo = none) (hh : t.hi = none)
    (hs : ∀ n len, t ≠ .str n len) {c : CType} (hc : t.cType = some c) :
    (t.name = "Float" → c = .float) ∧ (t.name = "Double" → c = .double) := by
  have he : asn1Type t = classify t.name none none false := by
    unfold asn1Type
    rw [hl, hh]
    cases t with
    | str n len => exact absurd rfl (hs n len)
    | plain => rfl
    | arr => rfl
  unfold AType.cType at hc
  rw [he] at hc
  constructor <;> intro h <;> rw [h] at hc
  · simp only [show classify "Float" none none false = .ok (some .float) by decide +kernel] at hc
    exact (Option.some.inj hc).symm
  · simp only [show classify "Double" none none false = .ok (some .double) by decide +kernel] at hc
    exact (Option.some.inj hc).symm

theorem not_ranged_bare {t : AType} (hl : t.lo = none) : ¬ Ranged t := by
  intro h
  cases h <;> cases hl

theorem fits_bare {t : AType} (hg : GrammarType t) (hl : t.lo = none) (hh : t.hi = none)
    (hs : ∀ n len, t ≠ .str n len) :
    Fits t.cType t.lo t.hi ↔ Ranged t ∨ UsesName t "BOOLEAN" := by
  constructor
  · rintro ⟨c, s, r, h1, h2, h3⟩
    right
    rw [usesName_iff]
    obtain ⟨k1, k2⟩ := cType_bare_float hl hh hs h1
    rcases cType_bare hl hh hs h1 h2 with h | h | h
    · exact h
    · rw [k1 h, hl, hh] at h3; cases h3
    · rw [k2 h, hl, hh] at h3; cases h3
  · rintro (h | h)
    · exact absurd h (not_ranged_bare hl)
    · exact fits_bool (cType_boolean hg ((usesName_iff _ _).1 h))

/-- Types whose C type and bounds give an item. -/
theorem fits_iff {t : AType} (hs : SoundType t) (hg : GrammarType t) :
    Fits t.cType t.lo t.hi ↔ Ranged t ∨ UsesName t "BOOLEAN" := by
  cases hs with
  | real => exact fits_bare hg rfl rfl (by simp)
  | realRange h1 h2 h3 =>
    refine iff_of_true ?_ (Or.inl (.real h1 h2 h3))
    obtain ⟨c, s, h4, h5, _⟩ := size_realType h1 h2 h3
    obtain ⟨r, h6⟩ := subrange_bounded c _ _
    exact ⟨c, s, r, h4, h5, h6⟩
  | integer => exact fits_bare hg rfl rfl (by simp)
  | @integerRange b e h =>
    have h0 : Fits (intType b e).cType (intType b e).lo (intType b e).hi ↔
        ∃ c s, (intType b e).cType = some c ∧ getBitSize c (intType b e).lo (intType b e).hi = .ok s := by
      constructor
      · rintro ⟨c, s, r, h1, h2, _⟩; exact ⟨c, s, h1, h2⟩
      · rintro ⟨c, s, h1, h2⟩
        obtain ⟨r, h3⟩ := subrange_bounded c (.int b) (.int e)
        exact ⟨c, s, r, h1, h2, h3⟩
    rw [h0, size_intType h]
    constructor
    · intro h1
      left
      by_cases hb : 0 ≤ b
      · exact .unsigned hb h
      · exact .signed (by omega) (by omega) h (by omega)
    · rintro (h1 | h1)
      · generalize ht : intType b e = t at h1
        cases h1 with
        | unsigned h1 h2 => simp only [intType, AType.plain.injEq, Option.some.injEq, Num.int.injEq, true_and] at ht; omega
        | signed h1 h2 h3 h4 => simp only [intType, AType.plain.injEq, Option.some.injEq, Num.int.injEq, true_and] at ht; omega
        | real => simp [intType, realType] at ht
      · simp [usesName_iff, AType.name, intType] at h1
  | boolean => exact fits_bare hg rfl rfl (by simp)
  | @ia5 len =>
    refine iff_of_false ?_ ?_
    · rintro ⟨c, s, r, h1, h2, _⟩
      rw [show (AType.str "IA5String" len).cType = some .string by
        simp [AType.cType, asn1Type, AType.lo, AType.hi, AType.name, classify,
          show posixRange "IA5String" = none by decide]] at h1
      cases h1; cases h2
    · rintro (h | h)
      · cases h
      · simp [usesName_iff, AType.name] at h
  | @numeric len =>
    refine iff_of_false ?_ ?_
    · rintro ⟨c, s, r, h1, h2, _⟩
      rw [show (AType.str "NumericString" len).cType = some .string by
        simp [AType.cType, asn1Type, AType.lo, AType.hi, AType.name, classify,
          show posixRange "NumericString" = none by decide]] at h1
      cases h1; cases h2
    · rintro (h | h)
      · cases h
      · simp [usesName_iff, AType.name] at h
  | arr => exact fits_bare hg rfl rfl (by simp)
  | named => exact fits_bare hg rfl rfl (by simp)

/-- Definitions the search can meet. -/
structure ItemEnv (ds : List Def) : Prop where
  nodup : (ds.map Def.name).Nodup
  grammar : ∀ d ∈ ds, GrammarDef d
  simples : ∀ n c t, Def.simple n c t ∈ ds → SoundType t
  seqs : ∀ n c l, Def.seq n c l ∈ ds → ∀ k ∈ l, SoundType k.type

theorem simple_grammar {ds : List Def} (he : ItemEnv ds) {n : String} {c : Option Comment} {t : AType}
    (h : Def.simple n c t ∈ ds) : GrammarType t := (he.grammar _ h).2

theorem ItemShape.listed {ds : List Def} (he : ItemEnv ds) {t : AType} (hs : SoundType t)
    (hg : GrammarType t) {c : Option CType} {lo hi : Option Num} {states : List Text}
    (h : ItemShape ds t c lo hi states) (hf : Fits c lo hi) : Listed ds t := by
  cases h with
  | number =>
    rcases (fits_iff hs hg).1 hf with h | h
    · exact .inl h
    · exact .inr (.inl h)
  | bool h => exact .inr (.inl ((usesName_iff _ _).2 h))
  | str h => exact .inr (.inr (.inl ⟨_, _, h⟩))
  | simple h1 h2 =>
    exact .inr (.inr (.inr ⟨_, (usesName_iff _ _).2 h1, .inr ⟨_, _, h2,
      (fits_iff (he.simples _ _ _ h2) (simple_grammar he h2)).1 hf⟩⟩))
  | enum h1 h2 => exact .inr (.inr (.inr ⟨_, (usesName_iff _ _).2 h1, .inl ⟨_, _, h2⟩⟩))

/-- A defined name is looked up. -/
theorem shapeOf_named {b : Bundle} (he : ItemEnv b.defs) {t : AType} (hg : GrammarType t) {d : Def}
    (hd : d ∈ b.defs) (hn : t.name = d.name) (fuel : Nat) (bm : BMod) :
    shapeOf b fuel bm t = getDefinition b fuel t.name bm >>= fun d =>
      match d with
      | .simple _ _ st => .ok (.item st.cType st.lo st.hi [])
      | .enum _ _ its =>
        .ok (.item (some .uint) (some (.int 0)) (some (.int ((its.length : Int) - 1)))
          (its.map (·.key.toList)))
      | d => .ok (.inner d) := by
  have hb : ∀ k ∈ ["INTEGER", "REAL", "BOOLEAN", "NULL", "IA5String", "NumericString"], t.name ≠ k := by
    intro k hk h
    exact builtin_not_def he.grammar hk d hd (hn.symm.trans h)
  unfold shapeOf
  simp only
  rw [if_neg (by rintro (h | h) <;> exact hb _ (by decide) h), if_neg (hb _ (by decide))]
  cases t with
  | str n len =>
    exfalso
    cases hg with
    | ia5 => exact hb "IA5String" (by decide) rfl
    | numeric => exact hb "NumericString" (by decide) rfl
  | plain => rfl
  | arr => rfl

/-- Listed types have an item if their names can be looked up. -/
theorem listed_shape {b : Bundle} (he : ItemEnv b.defs) {t : AType} (hs : SoundType t)
    (hg : GrammarType t) (h : Listed b.defs t) {fuel : Nat} {bm : BMod}
    (hl : ∀ d ∈ b.defs, d.name = t.name → getDefinition b fuel t.name bm = .ok d) :
    ∃ c lo hi states, shapeOf b fuel bm t = .ok (.item c lo hi states) ∧ Fits c lo hi := by
  rcases h with h | h | ⟨n, len, rfl⟩ | ⟨n, hu, h⟩
  · refine ⟨_, _, _, [], ?_, (fits_iff hs hg).2 (.inl h)⟩
    unfold shapeOf
    simp only
    rw [if_pos]
    cases h
    · exact .inl rfl
    · exact .inl rfl
    · exact .inr rfl
  · refine ⟨_, _, _, ["False".toList, "True".toList], ?_, (fits_iff hs hg).2 (.inr h)⟩
    rw [usesName_iff] at h
    unfold shapeOf
    simp only
    rw [h, if_neg (by decide), if_pos rfl]
  · refine ⟨some .string, none, some (.int len), [], ?_, .string, len * 8, none, rfl, rfl, rfl⟩
    cases hg <;> rfl
  · rw [usesName_iff] at hu
    rcases h with ⟨c, its, h⟩ | ⟨c, st, h, h'⟩
    · refine ⟨some .uint, some (.int 0), some (.int ((its.length : Int) - 1)), its.map (·.key.toList), ?_,
        .uint, _, none, rfl, rfl, rfl⟩
      rw [shapeOf_named he hg h hu, hl _ h hu.symm]
      rfl
    · refine ⟨st.cType, st.lo, st.hi, [], ?_, (fits_iff (he.simples _ _ _ h) (simple_grammar he h)).2 h'⟩
      rw [shapeOf_named he hg h hu, hl _ h hu.symm]
      rfl

/-! ### Imports -/

theorem uniform_bound {α} {l : List α} {P : α → Nat → Prop} (h : ∀ x ∈ l, ∃ N, ∀ n, N ≤ n → P x n) :
    ∃ N, ∀ x ∈ l, ∀ n, N ≤ n → P x n := by
  induction l with
  | nil => exact ⟨0, by simp⟩
  | cons a l ih =>
    obtain ⟨N, hN⟩ := ih fun x hx => h x (List.Mem.tail _ hx)
    obtain ⟨M, hM⟩ := h a (List.Mem.head _)
    refine ⟨max N M, fun x hx n hn => ?_⟩
    rcases List.mem_cons.1 hx with rfl | hx
    · exact hM n (by omega)
    · exact hN x hx n (by omega)

theorem defsRecurs_ends {b : Bundle} (hl : Linked b) {n : String} (fuel : Nat) : ∀ bm ∈ b.mods, ∀ ds,
    defsRecurs b n fuel bm = .ok ds → ImportsEnd b.modules bm.mod := by
  induction fuel with
  | zero => intro bm _ ds h; cases h
  | succ fuel ih =>
    intro bm hbm ds h
    simp only [defsRecurs, bind_ok, Except.ok.injEq] at h
    obtain ⟨r, h1, rfl⟩ := h
    refine .intro fun m' hm' ⟨i, hi, hi'⟩ => ?_
    obtain ⟨bm', h2, rfl, h3⟩ := hl.bmod hm'
    obtain ⟨a, h4, _⟩ := collectDefs_mem h1 ((hl.link bm hbm _).2 ⟨hm', i, hi, hi'⟩) h3
    exact ih bm' h2 a h4

theorem importsEnd_defsRecurs {b : Bundle} (hl : Linked b) {m : Module} (h : ImportsEnd b.modules m) :
    ∀ bm ∈ b.mods, bm.mod = m → ∃ N, ∀ fuel, N ≤ fuel → ∀ n, ∃ ds, defsRecurs b n fuel bm = .ok ds := by
  induction h with
  | @intro m _ ih =>
    intro bm hbm hm
    subst hm
    have : ∃ N, ∀ bm' ∈ b.mods, ∀ fuel, N ≤ fuel → Imports bm.mod bm'.mod → ∀ n, ∃ ds, defsRecurs b n fuel bm' = .ok ds := by
      refine uniform_bound (P := fun bm' fuel => Imports bm.mod bm'.mod → ∀ n, ∃ ds, defsRecurs b n fuel bm' = .ok ds)
        fun bm' hbm' => ?_
      by_cases hi : Imports bm.mod bm'.mod
      · obtain ⟨N, hN⟩ := ih bm'.mod (List.mem_map.2 ⟨bm', hbm', rfl⟩) hi bm' hbm' rfl
        exact ⟨N, fun n hn _ => hN n hn⟩
      · exact ⟨0, fun _ _ h => absurd h hi⟩
    obtain ⟨N, hN⟩ := this
    refine ⟨N + 1, fun fuel hf n => ?_⟩
    obtain ⟨fuel, rfl⟩ : ∃ f, fuel = f + 1 := ⟨fuel - 1, by omega⟩
    cases h : defsRecurs b n (fuel + 1) bm with
    | ok ds => exact ⟨ds, rfl⟩
    | error e =>
      exfalso
      rw [defsRecurs] at h
      rcases bind_error.1 h with h | ⟨_, _, h⟩
      · obtain ⟨m', hm', bm', hbm', h⟩ := collectDefs_error h
        obtain ⟨k1, i, hi, k2⟩ := (hl.link bm hbm m').1 hm'
        obtain ⟨h1, h2⟩ := lastBMod_some hbm'
        obtain ⟨ds, hds⟩ := hN bm' h1 fuel (by omega) ⟨i, hi, by rw [h2, k2]⟩ n
        rw [hds] at h
        cases h
      · cases h

/-- The search succeeds for every type that is used. -/
theorem getDefinition_ok {b : Bundle} (hl : Linked b) (hnd : (b.defs.map Def.name).Nodup) {n : String}
    {fuel : Nat} {bm : BMod} (hbm : bm ∈ b.mods) {m' : Module} (hm' : m' ∈ b.modules)
    (him : ImportsFrom b.modules bm.mod m') {d : Def} (hd : d ∈ m'.defs) (hn : d.name = n)
    (hok : ∃ ds, defsRecurs b n fuel bm = .ok ds) :
    ∀ d' ∈ b.defs, d'.name = n → getDefinition b fuel n bm = .ok d' := by
  intro d' hd' hn'
  obtain rfl := mem_unique_of_nodup_map hnd hd' (List.mem_flatMap.2 ⟨m', hm', hd⟩ : d ∈ b.defs) (by rw [hn', hn])
  rcases getDefinition_found hl hnd (fuel := fuel) hbm him hd hn with h | ⟨h, _⟩
  · exact h
  · exfalso
    obtain ⟨ds, hds⟩ := hok
    unfold getDefinition at h
    rw [hds] at h
    change (match ds with | [d] => Except.ok d | _ => .error Err.consistency) = _ at h
    split at h <;> cases h

/-- Members inside the members of definitions that can be found can be found. -/
theorem reached_findable {b : Bundle} (he : ItemEnv b.defs) {bm : BMod}
    (hmod : ∀ m' ∈ b.modules, ∀ d ∈ m'.defs, ImportsFrom b.modules bm.mod m' → Findable b bm d.members)
    {l : List Member} {k : Member} (h : Reached b.defs l k) (hf : Findable b bm l) :
    ∀ n, UsesName k.type n → BuiltIn n ∨
      ∃ m', m' ∈ b.modules ∧ ImportsFrom b.modules bm.mod m' ∧ ∃ d ∈ m'.defs, d.name = n := by
  induction h with
  | here h => exact hf _ h
  | @inside ms m n inner m' h1 h2 h3 h4 ih =>
    refine ih ?_
    obtain ⟨c, h3⟩ := h3
    rcases hf m h1 n h2 with hb | ⟨m2, g1, g2, d2, g3, g4⟩
    · refine absurd rfl (builtin_not_def he.grammar (n := n) ?_ _ h3)
      rcases hb with hb | hb | hb | hb | hb <;> rw [hb] <;> decide
    · cases mem_unique_of_nodup_map he.nodup (List.mem_flatMap.2 ⟨m2, g1, g3⟩ : d2 ∈ b.defs) h3 g4
      exact hmod m2 g1 _ g3 g2

/-! ### Success means that everything reached has a shape -/

theorem telemetry_shapes {p : Printer} {b : Bundle} {fuel : Nat} {bm : BMod} (hbm : bm ∈ b.mods)
    (he : ItemEnv b.defs) (depth : Nat) : ∀ st d wc r, d ∈ b.defs →
      telemetry p b fuel bm depth st d wc = .ok r →
      ∀ k, Reached b.defs d.members k → ∃ s, shapeOf b fuel bm k.type = .ok s := by
  induction depth with
  | zero => intro st d wc r _ h; simp [telemetry] at h
  | succ depth ih =>
    intro st d wc r hd h
    cases d with
    | seq n c ms =>
      rw [telemetry] at h
      have key : ∀ (ms' : List Member) (i : Nat) (st : Store) (r : List Entry × Store), (∀ x ∈ ms', x ∈ ms) →
          entriesFrom p b fuel bm (telemetry p b fuel bm depth) n wc st i ms' = .ok r →
          ∀ k ∈ ms', (∃ s, shapeOf b fuel bm k.type = .ok s) ∧
            ∀ n' inner, UsesName k.type n' → IsSequence b.defs n' inner →
              ∀ k', Reached b.defs inner k' → ∃ s, shapeOf b fuel bm k'.type = .ok s := by
        intro ms'
        induction ms' with
        | nil => intro i st r _ _ k hk; cases hk
        | cons m ms' ihm =>
          intro i st r hsub h k hk
          simp only [entriesFrom, bind_ok] at h
          obtain ⟨shape, h1, r1, h2, r2, h3, h4⟩ := h
          rcases List.mem_cons.1 hk with rfl | hk
          · refine ⟨⟨_, h1⟩, fun n' inner hu hq k' hr => ?_⟩
            have hgk := ((he.grammar _ hd).2.2 k (hsub k (List.Mem.head _))).2.1
            cases shape with
            | item c' lo hi states =>
              exact absurd hq ((shapeOf_item hbm h1).not_seq he.nodup he.grammar hgk n' inner hu)
            | inner d' =>
              obtain ⟨k1, k2⟩ := shapeOf_inner hbm h1
              obtain ⟨c', hq⟩ := hq
              rw [usesName_iff] at hu
              cases mem_unique_of_nodup_map he.nodup k1 hq (k2.trans hu)
              exact ih _ _ _ _ hq h2 k' hr
          · exact ihm _ _ _ (fun x hx => hsub x (List.Mem.tail _ hx)) h3 k hk
      have key := key ms 0 st r (fun x hx => hx) h
      intro k hk
      cases hk with
      | here hk => exact (key k hk).1
      | inside h1 h2 h3 h4 => exact (key _ h1).2 _ _ h2 h3 k h4
    | choice n c ms => cases h
    | enum n c its => cases h
    | simple n c t => cases h

/-! ### Clauses that are apart stay apart -/

theorem apart_store {ds : List Def} (hnd : (ds.map Def.name).Nodup) {st : Store} {wc : Comps} {n : String}
    {all : List Member} (hall : IsSequence ds n all) {i : Nat} {m : Member} (hget : all[i]? = some m)
    (ha : Apart ds st wc n) : st n i = m.comps := by
  rw [ha.2.1, initialStore_seq hnd hall, hget]; rfl

theorem apart_keep {ds : List Def} (hnd : (ds.map Def.name).Nodup) {st : Store} {wc : Comps} {n : String}
    {all : List Member} (hall : IsSequence ds n all) {i : Nat} {m : Member} (hget : all[i]? = some m)
    (ha : Apart ds st wc n) : extendStore st n i (specificValue wc m.key) = st := by
  have hm : m ∈ all := List.mem_of_getElem? hget
  cases hs : specificValue wc m.key with
  | empty => rfl
  | leaf v => rfl
  | node c =>
    have hv := specific_values hs (by simp)
    obtain ⟨k1, _⟩ := clean_node ha.2.2 (by rw [hv]; exact List.Mem.head _) all hall m hm rfl
    unfold extendStore
    simp only
    rw [apart_store hnd hall hget ha, k1]

theorem apart_inner {ds : List Def} (hnd : (ds.map Def.name).Nodup) {st : Store} {wc : Comps} {n n' : String}
    {all : List Member} (hall : IsSequence ds n all) {i : Nat} {m : Member} (hget : all[i]? = some m)
    (hn' : m.type.name = n') (ha : Apart ds st wc n) :
    Clean ds (innerComps (st n i) (specificValue wc m.key)) n' ∧
      ∀ (ks : List String) v, ks ≠ [] → (CompFixes (innerComps (st n i) (specificValue wc m.key)) ks v ↔
        CompFixes wc (m.key :: ks) v ∨ ∃ c, m.comps = some c ∧ CompFixes c ks v) := by
  have hm : m ∈ all := List.mem_of_getElem? hget
  have hown : (st n i).getD .nil = m.comps.getD .nil := by rw [apart_store hnd hall hget ha]
  cases hs : specificValue wc m.key with
  | node c =>
    have hv := specific_values hs (by simp)
    obtain ⟨q1, t, inner', q2, q3, q4⟩ :=
      clean_node ha.2.2 (by rw [hv]; exact List.Mem.head _) all hall m hm rfl
    rw [usesName_iff, hn'] at q2
    subst q2
    have he : innerComps (st n i) (.node c) = c := by
      simp only [innerComps, hown, q1, Option.getD_none, Comps.append]
    rw [he]
    refine ⟨q4, fun ks v hks => ?_⟩
    rw [compFixes_values_node hks, hv, q1]
    simp
  | empty =>
    have he : innerComps (st n i) .empty = m.comps.getD .nil := by simp only [innerComps, hown]
    rw [he]
    refine ⟨?_, fun ks v hks => ?_⟩
    · cases hmc : m.comps with
      | none => trivial
      | some c => exact ha.1 n all hall m hm c hmc n' (by rw [usesName_iff, hn'])
    · rw [compFixes_values_node hks]
      have := specific_empty ha.2.2 hs
      constructor
      · intro h
        cases hmc : m.comps with
        | none => rw [hmc] at h; cases h
        | some c => rw [hmc] at h; exact .inr ⟨c, rfl, h⟩
      · rintro (⟨j, h, _⟩ | ⟨c, h, h'⟩)
        · exact absurd h (this _ (by simp))
        · rw [h]; exact h'
  | leaf w =>
    have hv := specific_values hs (by simp)
    have he : innerComps (st n i) (.leaf w) = m.comps.getD .nil := by simp only [innerComps, hown]
    rw [he]
    refine ⟨?_, fun ks v hks => ?_⟩
    · cases hmc : m.comps with
      | none => trivial
      | some c => exact ha.1 n all hall m hm c hmc n' (by rw [usesName_iff, hn'])
    · rw [compFixes_values_node hks, hv]
      constructor
      · intro h
        cases hmc : m.comps with
        | none => rw [hmc] at h; cases h
        | some c => rw [hmc] at h; exact .inr ⟨c, rfl, h⟩
      · rintro (⟨j, h, _⟩ | ⟨c, h, h'⟩)
        · simp at h
        · rw [h]; exact h'

/-! ### Printing succeeds -/

theorem specificText_ok {p : Printer} {m : Member} {bits : Int} {s : Specific}
    (h : m.key = apidKey → (∀ e len, m.type ≠ .arr e len) → ∃ v, s = .leaf v ∧ Whole v) :
    ∃ t, specificText p m bits s = .ok t := by
  unfold specificText
  split
  · exact ⟨_, rfl⟩
  · rename_i ht
    split
    · rename_i hk
      obtain ⟨v, rfl, hv⟩ := h hk ht
      cases hv <;> exact ⟨_, rfl⟩
    · cases s <;> exact ⟨_, rfl⟩

theorem specificText_apid {p : Printer} {m : Member} {bits : Int} {s : Specific} {t : Text}
    (h : specificText p m bits s = .ok t) (hk : m.key = apidKey) (ht : ∀ e len, m.type ≠ .arr e len) :
    ∃ v, s = .leaf v ∧ Whole v := by
  unfold specificText at h
  split at h
  · rename_i ht'; exact absurd ht' (ht _ _)
  · rw [if_pos (show _ = "application-process-identifier" from hk)] at h
    split at h
    · exact ⟨_, rfl, .int⟩
    · exact ⟨_, rfl, .bool⟩
    · cases h
    · cases h

theorem makeEntry_fits {p : Printer} {m : Member} {s : Specific} {c : Option CType} {lo hi : Option Num}
    {states : List Text} (hf : Fits c lo hi)
    (h : m.key = apidKey → (∀ e len, m.type ≠ .arr e len) → ∃ v, s = .leaf v ∧ Whole v) :
    ∃ e, makeEntry p m s c lo hi states = .ok e := by
  obtain ⟨c', bits, r, rfl, h1, h2⟩ := hf
  obtain ⟨t, h3⟩ := specificText_ok (p := p) (bits := bits) h
  simp only [makeEntry, h1, h2, h3, bind, Except.bind]
  exact ⟨_, rfl⟩

/-- The value of the leaf at the end of the path, seen from inside the clause `wc`, if it is an
application id. -/
def IdFixed (ds : List Def) (wc : Comps) (path : List Member) (k : Member) : Prop :=
  k.key = apidKey → (∀ e len, k.type ≠ .arr e len) →
    Clear ds path ∧ Once wc (path.map (·.key)) ∧
      ∃ v, (CompFixes wc (path.map (·.key)) v ∨ FixedTo path v) ∧ Whole v

theorem entriesFrom_succeeds {p : Printer} {b : Bundle} {bm : BMod} (hbm : bm ∈ b.mods) (he : ItemEnv b.defs)
    {ms : List Member} {ls : List (List Member)} (h : Leaves b.defs ms ls) :
    ∃ N, ∀ (fuel depth : Nat) (n : String) (all : List Member) (i : Nat) (wc : Comps) (st : Store),
      N ≤ depth → IsSequence b.defs n all → all.drop i = ms → Tidy b.defs st → Sourced b.defs wc n →
      (∀ path ∈ ls, ∃ k, path.getLast? = some k ∧ Listed b.defs k.type ∧ IdFixed b.defs wc path k) →
      (∀ k, Reached b.defs ms k → ∀ d ∈ b.defs, d.name = k.type.name →
        getDefinition b fuel k.type.name bm = .ok d) →
      ∃ r, entriesFrom p b fuel bm (telemetry p b fuel bm depth) n wc st i ms = .ok r := by
  induction h with
  | nil => exact ⟨0, fun _ _ _ _ _ _ _ _ _ _ _ _ _ _ => ⟨_, rfl⟩⟩
  | @leaf m ms ps h1 h2 ih =>
    obtain ⟨N, hN⟩ := ih
    refine ⟨N, fun fuel depth n all i wc st hdep hall hdrop hst hw hp hl => ?_⟩
    have hget : all[i]? = some m := by rw [← List.head?_drop, hdrop]; rfl
    have hm : m ∈ all := List.mem_of_getElem? hget
    have hdrop' : all.drop (i + 1) = ms := by rw [← List.tail_drop, hdrop]; rfl
    obtain ⟨c0, hseq⟩ := hall
    have hall : IsSequence b.defs n all := ⟨c0, hseq⟩
    obtain ⟨k, hk, hlist, hid⟩ := hp [m] (List.Mem.head _)
    cases hk
    obtain ⟨c, lo, hi, states, g1, g2⟩ := listed_shape he (he.seqs _ _ _ hseq m hm)
      ((he.grammar _ hseq).2.2 m hm).2.1 hlist (hl m (.here (List.Mem.head _)))
    have hval : m.key = apidKey → (∀ e len, m.type ≠ .arr e len) →
        ∃ v, specificValue wc m.key = .leaf v ∧ Whole v := by
      intro ha ht
      obtain ⟨_, ho, v, hv, hw⟩ := hid ha ht
      refine ⟨v, ?_, hw⟩
      rw [List.map_cons, List.map_nil, compFixes_values_leaf, fixedTo_cons] at hv
      rcases hv with hv | ⟨c', _, hv⟩ | hv
      · exact (once_mem_values ho (by simp)).1 hv
      · exact absurd hv compFixes_nil
      · exact absurd hv fixedTo_nil
    obtain ⟨e, g3⟩ := makeEntry_fits (p := p) (states := states) g2 hval
    obtain ⟨r, g4⟩ := hN fuel depth n all (i + 1) wc (extendStore st n i (specificValue wc m.key)) hdep hall hdrop'
      (hst.extend he.nodup hw hall hget) hw (fun path hpath => hp path (List.Mem.tail _ hpath))
      (fun k hk => hl k (hk.mono fun x hx => List.Mem.tail _ hx))
    refine ⟨([e] ++ r.1, r.2), ?_⟩
    rw [entriesFrom]
    simp only [g1, bind, Except.bind, g3, g4]
  | @seq m ms n' inner ps qs h1 h2 h3 h4 ih1 ih2 =>
    obtain ⟨N1, hN1⟩ := ih1
    obtain ⟨N2, hN2⟩ := ih2
    refine ⟨max (N1 + 1) N2, fun fuel depth n all i wc st hdep hall hdrop hst hw hp hl => ?_⟩
    obtain ⟨depth, rfl⟩ : ∃ f, depth = f + 1 := ⟨depth - 1, by omega⟩
    have hget : all[i]? = some m := by rw [← List.head?_drop, hdrop]; rfl
    have hm : m ∈ all := List.mem_of_getElem? hget
    have hdrop' : all.drop (i + 1) = ms := by rw [← List.tail_drop, hdrop]; rfl
    obtain ⟨c0, hseq⟩ := hall
    have hall : IsSequence b.defs n all := ⟨c0, hseq⟩
    obtain ⟨c1, hseq'⟩ := h2
    have hinner : IsSequence b.defs n' inner := ⟨c1, hseq'⟩
    have hn' : m.type.name = n' := (usesName_iff _ _).1 h1
    have hgm := ((he.grammar _ hseq).2.2 m hm).2.1
    have g1 : shapeOf b fuel bm m.type = .ok (.inner (.seq n' c1 inner)) := by
      rw [shapeOf_named he hgm hseq' hn', hl m (.here (List.Mem.head _)) _ hseq' hn'.symm]
      rfl
    have hst' := hst.extend he.nodup hw hall hget
    have hw' := sourced_innerComps hst hw hall hget h1
    obtain ⟨r1, g2⟩ := hN1 fuel depth n' inner 0 (innerComps (st n i) (specificValue wc m.key))
      (extendStore st n i (specificValue wc m.key)) (by omega) hinner rfl hst' hw'
      (fun path hpath => by
        obtain ⟨k, q1, q2, q3⟩ := hp (m :: path) (List.mem_append_left _ (List.mem_map.2 ⟨path, hpath, rfl⟩))
        have hne := h3.ne_nil path hpath
        have q1' : path.getLast? = some k := by
          cases path with
          | nil => exact absurd rfl hne
          | cons x path => rwa [List.getLast?_cons_cons] at q1
        refine ⟨k, q1', q2, fun hk' ht' => ?_⟩
        obtain ⟨hcl, ho, v, hv, hwh⟩ := q3 hk' ht'
        obtain ⟨w1, w2⟩ := inner_fixes hst hw hall hget hcl hne ho
        refine ⟨(clear_cons.1 hcl).2.2, w1, v, ?_, hwh⟩
        rw [w2]
        rw [List.map_cons, fixedTo_cons] at hv
        rcases hv with h | h | h
        · exact .inl (.inl h)
        · exact .inl (.inr h)
        · exact .inr h)
      (fun k hk => hl k (.inside (List.Mem.head _) h1 hinner hk))
    have g2' : telemetry p b fuel bm (depth + 1) (extendStore st n i (specificValue wc m.key))
        (.seq n' c1 inner) (innerComps (st n i) (specificValue wc m.key)) = .ok r1 := g2
    have htidy : Tidy b.defs r1.2 := by
      obtain ⟨_, _, _, _, hy⟩ := telemetry_yieldsAt hbm he.nodup he.grammar _ _ _ _ _ hseq' hst' hw' g2'
      exact hy.2
    obtain ⟨r2, g3⟩ := hN2 fuel (depth + 1) n all (i + 1) wc r1.2 (by omega) hall hdrop' htidy hw
      (fun path hpath => hp path (List.mem_append_right _ hpath))
      (fun k hk => hl k (hk.mono fun x hx => List.Mem.tail _ hx))
    refine ⟨(r1.1 ++ r2.1, r2.2), ?_⟩
    rw [entriesFrom]
    simp only [g1, bind, Except.bind, g2', g3]

end Apg
