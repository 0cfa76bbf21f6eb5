import Verif.Lemmas.Local

/-!
# What binary files and packets depend on
-/

namespace Apg
open Spec

/-! ### Binary files -/

theorem compBytes_local {defs defs' : List (String × List (String × BinSpec))} {N : String → Prop}
    (h : ∀ n s s', N n → lastVal defs n = some s → lastVal defs' n = some s' → s = s')
    (hN : ∀ n s k sp, N n → lastVal defs n = some s → lastVal s k = some sp → N sp.typeName) (e : Option Endian)
    (c : Comps) : ∀ tn r r', N tn → compBytes defs e tn c = .ok r → compBytes defs' e tn c = .ok r' → r = r' := by
  have hb : ∀ tn k s s', N tn → binLookup defs tn k = .ok s → binLookup defs' tn k = .ok s' → s = s' ∧ N s.typeName := by
    intro tn k s s' hn h1 h2
    unfold binLookup at h1 h2
    split at h1
    · cases h1
    rename_i x hx
    split at h2
    · cases h2
    rename_i x' hx'
    cases h _ _ _ hn hx hx'
    split at h1
    · cases h1
    rename_i y hy
    rw [hy] at h2
    cases h1
    cases h2
    exact ⟨rfl, hN _ _ _ _ hn hx hy⟩
  induction c with
  | nil => intro tn r r' _ h1 h2; cases h1; cases h2; rfl
  | leaf k v rest ih =>
    intro tn r r' hn h1 h2
    simp only [compBytes, bind_ok] at h1 h2
    obtain ⟨s, p1, x, p2, y, p3, p4⟩ := h1
    obtain ⟨s', q1, x', q2, y', q3, q4⟩ := h2
    cases (hb _ _ _ _ hn p1 q1).1
    rw [p2] at q2
    cases q2
    cases ih _ _ _ hn p3 q3
    rw [p4] at q4
    cases q4
    rfl
  | node k c rest ih1 ih2 =>
    intro tn r r' hn h1 h2
    simp only [compBytes, bind_ok] at h1 h2
    obtain ⟨s, p1, x, p2, y, p3, p4⟩ := h1
    obtain ⟨s', q1, x', q2, y', q3, q4⟩ := h2
    obtain ⟨e1, e2⟩ := hb _ _ _ _ hn p1 q1
    cases e1
    cases ih1 _ _ _ e2 p2 q2
    cases ih2 _ _ _ hn p3 q3
    rw [p4] at q4
    cases q4
    rfl

/-- All that a definition uses is the same in the second bundle. -/
structure Carried (b b' : Bundle) (d : Def) : Prop where
  mem : d ∈ b.defs
  same : ∀ e, Reaches b.defs d e → e ∈ b'.defs

theorem reaches_mem {ds : List Def} {d e : Def} (hd : d ∈ ds) (h : Reaches ds d e) : e ∈ ds := by
  cases h with
  | refl => exact hd
  | step _ _ h _ => exact h

theorem reaches_closed {raw raw' : List Module} {cfg cfg' : List String} {b b' : Bundle} (hi : Input raw cfg b)
    (hi' : Input raw' cfg' b') {d : Def} (hd : Carried b b' d) : ∀ e, Reaches b.defs d e → ∀ m ∈ e.members,
    resolveType b.defs m.type = resolveType b'.defs m.type ∧
      ∀ f, resolveType b.defs m.type = some f → Reaches b.defs d f := by
  have hbt := buildFromTexts_of_config hi.accepted
  have hbt' := buildFromTexts_of_config hi'.accepted
  have hnone : ∀ {ds : List Def} {n : String}, (∀ d ∈ ds, d.name ≠ n) → lastDef ds n = none := by
    intro ds n h
    cases hl : lastDef ds n with
    | none => rfl
    | some d => exact absurd (lastDef_some hl).2 (h d (lastDef_some hl).1)
  intro e he k hk
  cases ht : k.type with
  | str => exact ⟨rfl, fun f h => by cases h⟩
  | arr => exact ⟨rfl, fun f h => by cases h⟩
  | plain n lo hi1 =>
    simp only [resolveType]
    have hu : UsesName k.type n := by rw [ht]; exact .plain
    refine ⟨?_, fun f hf => ?_⟩
    · have hem := reaches_mem hd.mem he
      rw [← defsOf_eq] at hem
      obtain ⟨m, hm, hem⟩ := List.mem_flatMap.1 hem
      rcases C14_used_types raw cfg b hi.accepted m hm e hem k hk n hu with hbi | ⟨_, m', hm', _, f, hf, rfl⟩
      · have hno : ∀ {raw : List Module} {b : Bundle}, (∀ m ∈ raw, GrammarModule m) → buildFromTexts raw = .ok b →
            ∀ d ∈ b.defs, d.name ≠ n := fun hg hbt =>
          builtin_not_def (fun d hd => (accepted_grammar hg hbt d hd).1)
            (by rcases hbi with rfl | rfl | rfl | rfl | rfl <;> decide)
        rw [hnone (hno hi.grammar hbt), hnone (hno hi'.grammar hbt')]
      · have hf : f ∈ b.defs := by rw [← defsOf_eq]; exact List.mem_flatMap.2 ⟨m', hm', hf⟩
        rw [lastDef_of_mem (accepted_nodup hbt) hf, lastDef_of_mem (accepted_nodup hbt') (hd.same f (.step he hk hf hu))]
    · obtain ⟨h1, rfl⟩ := lastDef_some hf
      exact .step he hk h1 hu

theorem clauseBytes_local {raw raw' : List Module} {cfg cfg' : List String} {b b' : Bundle} (hi : Input raw cfg b)
    (hi' : Input raw' cfg' b') {d : Def} (hd : Carried b b' d) {bm bm' : BMod} (hbm : bm ∈ b.mods) (hbm' : bm' ∈ b'.mods)
    {fuel fuel' : Nat} {e : Option Endian} {x : Member × Comps} (hx : x.1 ∈ d.members) {bss bss' : List (List UInt8)}
    (h : ClauseBytes b.defs fuel e bm.mod x bss) (h' : ClauseBytes b'.defs fuel' e bm'.mod x bss') : bss = bss' := by
  have hcl := reaches_closed hi hi' hd
  have hnd := accepted_nodup (buildFromTexts_of_config hi.accepted)
  have hnd' := accepted_nodup (buildFromTexts_of_config hi'.accepted)
  obtain ⟨defs, p1, p2⟩ := h
  obtain ⟨defs', q1, q2⟩ := h'
  refine compBytes_local (N := fun n => ∀ f ∈ b.defs, f.name = n → Reaches b.defs d f) ?_ ?_ e _ _ _ _ ?_ p2 q2
  · intro n s s' hn hs hs'
    obtain ⟨c, ms, r1, r2⟩ := binDefs_seq p1 (lastVal_mem hs)
    obtain ⟨c', ms', r3, r4⟩ := binDefs_seq q1 (lastVal_mem hs')
    have hdm := mods_defs hbm _ r1
    have hr := hn _ hdm rfl
    have := mem_unique_of_nodup_map hnd' (hd.same _ hr) (mods_defs hbm' _ r3) rfl
    cases this
    have e1 := binMembers_extends (K := Reaches b.defs d) hcl (fuel' := max fuel fuel') (by omega) hr ms
      (fun _ h => h) s r2
    have e2 := binMembers_extends (K := fun _ => True) (ds := b'.defs) (ds' := b'.defs) (fuel' := max fuel fuel')
      (fun _ _ _ _ => ⟨rfl, fun _ _ => trivial⟩) (by omega) (d := .seq n c ms) trivial ms (fun _ h => h) s' r4
    rw [e1] at e2
    cases e2
    rfl
  · intro n s k sp hn hs hk
    obtain ⟨c, ms, r1, r2⟩ := binDefs_seq p1 (lastVal_mem hs)
    obtain ⟨m, hm, _, _, _, he, _⟩ := binMembers_mem r2 (lastVal_mem hk)
    intro f hf hfn
    refine .step (hn _ (mods_defs hbm _ r1) rfl) hm hf ?_
    rw [usesName_iff, hfn]
    exact he.symm
  · intro f hf hfn
    refine .step .refl hx hf ?_
    rw [usesName_iff, hfn]

theorem fixedMembers_mem {d : Def} {x : Member × Comps} (h : x ∈ fixedMembers d) : x.1 ∈ d.members := by
  cases d with
  | seq n c ms =>
    obtain ⟨m, hm, he⟩ := List.mem_filterMap.1 h
    obtain ⟨c', _, rfl⟩ := Option.map_eq_some_iff.1 he
    exact hm
  | choice => cases h
  | enum => cases h
  | simple => cases h

/-- The binary file of a sequence holds the bytes of its last clause. -/
theorem bin_clause {fuel : Nat} {e : Option Endian} {raw : List Module} {cfg : List String}
    {out : Text} (hg : ∀ m ∈ raw, GrammarModule m) {b : Bundle} (hb : buildFromConfig raw cfg = .ok b)
    (hr : (runBinary fuel e raw cfg out).result = .ok ()) {d : Def} (hd : d ∈ b.defs)
    (hf : fixedMembers d ≠ []) (fs : Files) :
    ∃ x blocks, (fixedMembers d).getLast? = some x ∧ (∃ bm ∈ b.mods, d ∈ bm.mod.defs ∧ ClauseBytes b.defs fuel e bm.mod x blocks) ∧
      HasBytes ((runBinary fuel e raw cfg out).apply fs) (binPath out d) blocks.flatten := by
  have hbt := buildFromTexts_of_config hb
  have hcap : ∀ d ∈ b.defs, isNameCapital d.name = true := fun d hd =>
    def_capital (accepted_grammar hg hbt d hd).1
  obtain ⟨m, hm, hdm⟩ : ∃ m ∈ b.modules, d ∈ m.defs := List.mem_flatMap.1 hd
  obtain ⟨bm, hbm, rfl⟩ := List.mem_map.1 hm
  obtain ⟨cd, h1, h2⟩ := run_module hr hb hbm
  obtain ⟨k1, k2⟩ := moduleData_bins h1
  obtain ⟨y, hy, he⟩ := List.mem_map.1 (k2 d hdm hf)
  obtain ⟨d', hd', x, h3, h4, h5⟩ := k1 y hy
  have hdd : d' = d := by
    have hd'b := mem_defs_of_module hm hd'
    have := lowerize_ident_inj (hcap d' hd'b) (hcap d hd) (by
      rw [← cName_eq (Or.inr (hcap d' hd'b)), ← cName_eq (Or.inr (hcap d hd)), ← h4, he])
    exact mem_unique_of_nodup_map (accepted_nodup hbt) hd'b hd this
  subst hdd
  refine ⟨x, y.2, h3, ⟨bm, hbm, hdm, h5⟩, ?_⟩
  have hw := apply_get (binary_noAppend fuel e raw cfg out) (C27_binary fuel e raw hg cfg out) fs
    (h2 (joinPath out (y.1 ++ ".bin".toList), byteContent y.2) (by
      rw [printed_bin _ _ _ _ _ _ (accepted_names hg hbt _ hm)]
      exact List.mem_cons_of_mem _ (List.mem_map.2 ⟨y, hy, rfl⟩)))
  simp only [h4] at hw
  rw [binPath_eq (hcap d' hd)] at hw
  exact hw

/-! ### Packets -/

section
variable {b b' : Bundle} (hnd' : (b'.defs.map Def.name).Nodup) (L : List Def)
  (hsub : ∀ d ∈ L, d ∈ b.defs ∧ d ∈ b'.defs)
  (hcl : ∀ e ∈ L, ∀ k ∈ e.members, ∀ f ∈ b.defs, f.name = k.type.name → f ∈ L)
include hnd' hsub

theorem shapeOf_local {fuel fuel' : Nat} {bm bm' : BMod} (hbm : bm ∈ b.mods) (hbm' : bm' ∈ b'.mods) {t : AType}
    (ht : ∀ f ∈ b.defs, f.name = t.name → f ∈ L) {s s' : Shape} (h : shapeOf b fuel bm t = .ok s) (h' : shapeOf b' fuel' bm' t = .ok s') : s = s' := by
  have hd : ∀ d d', getDefinition b fuel t.name bm = .ok d → getDefinition b' fuel' t.name bm' = .ok d' → d = d' := by
    intro d d' h1 h2
    obtain ⟨p1, p2⟩ := getDefinition_sound hbm h1
    obtain ⟨q1, q2⟩ := getDefinition_sound hbm' h2
    exact mem_unique_of_nodup_map hnd' (hsub d (ht d p1 p2)).2 q1 (p2.trans q2.symm)
  unfold shapeOf at h h'
  simp only at h h'
  split at h
  · rename_i h1
    rw [if_pos h1] at h'
    rw [h] at h'; cases h'; rfl
  · rename_i h1
    rw [if_neg h1] at h'
    split at h
    · rename_i h2
      rw [if_pos h2] at h'
      rw [h] at h'; cases h'; rfl
    · rename_i h2
      rw [if_neg h2] at h'
      have step : ∀ {s s'}, (getDefinition b fuel t.name bm >>= fun d =>
          match d with
          | .simple _ _ st => .ok (.item st.cType st.lo st.hi [])
          | .enum _ _ its =>
            .ok (.item (some .uint) (some (.int 0)) (some (.int ((its.length : Int) - 1))) (its.map (·.key.toList)))
          | d => .ok (.inner d)) = Except.ok s → (getDefinition b' fuel' t.name bm' >>= fun d =>
          match d with
          | .simple _ _ st => .ok (.item st.cType st.lo st.hi [])
          | .enum _ _ its =>
            .ok (.item (some .uint) (some (.int 0)) (some (.int ((its.length : Int) - 1))) (its.map (·.key.toList)))
          | d => .ok (.inner d)) = Except.ok s' → (s : Shape) = s' := by
        intro s s' h h'
        simp only [bind_ok] at h h'
        obtain ⟨d, p1, p2⟩ := h
        obtain ⟨d', q1, q2⟩ := h'
        cases hd d d' p1 q1
        cases d <;> cases p2 <;> cases q2 <;> rfl
      cases t with
      | str n len => rw [h] at h'; cases h'; rfl
      | plain n lo hi => exact step h h'
      | arr e len => exact step h h'

theorem initialStore_local (hnd : (b.defs.map Def.name).Nodup) :
    SameStore L (initialStore b.defs) (initialStore b'.defs) := by
  intro d hd i
  unfold initialStore
  rw [(lastDef_eq_some_iff hnd d.name d).2 ⟨(hsub d hd).1, rfl⟩, (lastDef_eq_some_iff hnd' d.name d).2 ⟨(hsub d hd).2, rfl⟩]

include hcl

theorem telemetry_local (p : Printer) (fuel fuel' : Nat) {bm bm' : BMod} (hbm : bm ∈ b.mods) (hbm' : bm' ∈ b'.mods)
    (depth : Nat) :
    ∀ depth' st st' d wc r r', d ∈ L → SameStore L st st' → telemetry p b fuel bm depth st d wc = .ok r →
      telemetry p b' fuel' bm' depth' st' d wc = .ok r' → r'.1 = r.1 ∧ SameStore L r.2 r'.2 := by
  induction depth with
  | zero => intro depth' st st' d wc r r' _ _ h; cases h
  | succ depth ih =>
    intro depth' st st' d wc r r' hd hs h h'
    cases depth' with
    | zero => cases h'
    | succ depth' =>
    cases d with
    | choice => cases h
    | enum => cases h
    | simple => cases h
    | seq n c ms =>
      rw [telemetry] at h h'
      have key : ∀ (l : List Member) (i : Nat) (st st' : Store) (r r' : List Entry × Store), (∀ k ∈ l, k ∈ ms) → SameStore L st st' →
          entriesFrom p b fuel bm (telemetry p b fuel bm depth) n wc st i l = .ok r →
          entriesFrom p b' fuel' bm' (telemetry p b' fuel' bm' depth') n wc st' i l = .ok r' →
            r'.1 = r.1 ∧ SameStore L r.2 r'.2 := by
        intro l
        induction l with
        | nil =>
          intro i st st' r r' hl hs h h'
          simp only [entriesFrom, Except.ok.injEq] at h h'
          subst h h'
          exact ⟨rfl, hs⟩
        | cons m l ihl =>
          intro i st st' r r' hl hs h h'
          simp only [entriesFrom, bind_ok] at h h'
          obtain ⟨shape, h1, r1, h2, r2, h3, h4⟩ := h
          obtain ⟨shape', g1, s1, g2, s2, g3, g4⟩ := h'
          have hm := hcl _ hd m (hl m (List.Mem.head _))
          cases shapeOf_local hnd' L hsub hbm hbm' hm h1 g1
          have hse := hs.extend hd i (specificValue wc m.key)
          have hi : st n i = st' n i := hs _ hd i
          simp only [Def.name] at hse
          have hstep : s1.1 = r1.1 ∧ SameStore L r1.2 s1.2 := by
            cases shape with
            | item c lo hi states =>
              simp only [bind_ok, Except.ok.injEq] at h2 g2
              obtain ⟨e, q1, rfl⟩ := h2
              obtain ⟨e', q2, rfl⟩ := g2
              rw [q1] at q2
              cases q2
              exact ⟨rfl, hse⟩
            | inner d' =>
              simp only at h2 g2
              rw [← hi] at g2
              exact ih _ _ _ d' _ r1 s1 (hm d' (shapeOf_inner hbm h1).1 (shapeOf_inner hbm h1).2) hse h2 g2
          obtain ⟨q1, q2⟩ := ihl (i + 1) r1.2 s1.2 r2 s2 (fun k hk => hl k (List.Mem.tail _ hk)) hstep.2 h3 g3
          cases h4
          cases g4
          exact ⟨by rw [hstep.1, q1], q2⟩
      exact key ms 0 st st' r r' (fun _ h => h) hs h h'

theorem packets_local (p : Printer) (fuel fuel' : Nat) {bm bm' : BMod} (hbm : bm ∈ b.mods) (hbm' : bm' ∈ b'.mods)
    (target : Text) (ns : List String)
    (hns : ∀ d ∈ b.defs, d.name ∈ ns → d ∈ L) :
    ∀ st st' r r', SameStore L st st' → packets p b fuel bm target st ns = .ok r →
      packets p b' fuel' bm' target st' ns = .ok r' → r' = r := by
  induction ns with
  | nil => intro st st' r r' _ h h'; cases h; cases h'; rfl
  | cons n ns ih =>
    intro st st' r r' hs h h'
    unfold packets at h h'
    split at h
    · cases h
    rename_i d hd
    split at h'
    · cases h'
    rename_i d' hd'
    obtain ⟨d1, d2⟩ := lastDef_some hd
    obtain ⟨d3, d4⟩ := lastDef_some hd'
    have hdb := mods_defs hbm d d1
    cases mem_unique_of_nodup_map hnd' (hsub d (hns d hdb (by rw [d2]; exact List.Mem.head _))).2 (mods_defs hbm' d' d3) (d2.trans d4.symm)
    simp only [bind_ok] at h h'
    obtain ⟨r1, h1, rest, h2, h3⟩ := h
    obtain ⟨s1, g1, rest', g2, g3⟩ := h'
    obtain ⟨q1, q2⟩ := telemetry_local hnd' L hsub hcl p fuel fuel' hbm hbm' fuel fuel' st st' d .nil r1 s1 (hns d hdb (by rw [d2]; exact List.Mem.head _)) hs h1 g1
    cases ih (fun d hd hn => hns d hd (List.Mem.tail _ hn)) _ _ _ _ q2 h2 g2
    rw [q1, h3] at g3
    cases g3
    rfl

theorem cosmos_local (hnd : (b.defs.map Def.name).Nodup) (fuel fuel' : Nat) (p : Printer) (module module' : String)
    (messages : List String) (hns : ∀ d ∈ b.defs, d.name ∈ messages → d ∈ L) (target out : Text)
    (h : (generateCosmos fuel p b module messages target out).result = .ok ())
    (h' : (generateCosmos fuel' p b' module' messages target out).result = .ok ()) :
    generateCosmos fuel' p b' module' messages target out = generateCosmos fuel p b module messages target out := by
  have key : ∀ {b : Bundle} {fuel : Nat} {module : String}, (generateCosmos fuel p b module messages target out).result = .ok () →
      ∃ pkts, (messages = [] ∧ pkts = [] ∨ ∃ bm ∈ b.mods, packets p b fuel bm target (initialStore b.defs) messages = .ok pkts) ∧
        generateCosmos fuel p b module messages target out =
          ⟨[.mkdir (dirName (joinPath out (target ++ ".txt".toList))),
            .append (joinPath out (target ++ ".txt".toList)) (textContent (cosmosText pkts))], .ok ()⟩ := by
    intro b fuel module h
    unfold generateCosmos at h ⊢
    generalize ".txt".toList = a at h ⊢
    simp only at h ⊢
    by_cases hne : b.mods = []
    · rw [if_pos hne] at h; cases h
    rw [if_neg hne] at h ⊢
    cases hm : b.getModule module with
    | none =>
      rw [hm] at h
      simp only at h ⊢
      split at h
      · rename_i hms
        exact ⟨[], .inl ⟨hms, rfl⟩, by rw [if_pos hms]⟩
      · cases h
    | some bm =>
      rw [hm] at h
      simp only at h ⊢
      split at h
      · cases h
      rename_i hms
      rw [if_neg hms]
      cases hp : packets p b fuel bm target (initialStore b.defs) messages with
      | error e => rw [hp] at h; cases h
      | ok pkts => exact ⟨pkts, .inr ⟨bm, (getModule_some hm).1, hp⟩, rfl⟩
  obtain ⟨pk, h1, h2⟩ := key h
  obtain ⟨pk', g1, g2⟩ := key h'
  have : pk' = pk := by
    rcases h1 with ⟨rfl, rfl⟩ | ⟨bm, hbm, h1⟩
    · rcases g1 with ⟨_, rfl⟩ | ⟨bm', _, g1⟩
      · rfl
      · cases g1; rfl
    · rcases g1 with ⟨rfl, rfl⟩ | ⟨bm', hbm', g1⟩
      · cases h1; rfl
      · exact packets_local hnd' L hsub hcl p fuel fuel' hbm hbm' target messages hns _ _ _ _ (initialStore_local hnd' L hsub hnd) h1 g1
  rw [h2, g2, this]

end

end Apg
