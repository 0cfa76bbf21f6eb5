import Verif.Lemmas.Added

/-!
# Adding definitions to the input: back ends and runs
-/

namespace Apg
open Spec

theorem source_kept {p : Printer} {out : Text} {b : Bundle} {ds simple : List Def} {mod : Module}
    {inc inc' : List Text} {doc : Text} {names names' l l' : List String} {cd cd' : CData} (hl : l.Perm names)
    (hl' : l'.Perm names')
    (h : Mixed inc doc (namedPart (cBackend p out b) ds simple mod) l cd)
    (h' : Mixed inc' doc (namedPart (cBackend p out b) ds simple mod) l' cd') {n : String} (hn : isNameLower n = true)
    (hi : cd.initInclude = [] ∨ cd.initInclude = "#include \"".toList ++ cFilename n ++ ".h\"".toList)
    (hi' : cd'.initInclude = [] ∨ cd'.initInclude = "#include \"".toList ++ cFilename n ++ ".h\"".toList) :
    KeptSource n names names' (sourceText cd) (sourceText cd') := by
  have hinc : ∀ t : Text, (t = [] ∨ t = "#include \"".toList ++ cFilename n ++ ".h\"".toList) →
      IncludeLine n (if t = [] then [] else t ++ "\n\n".toList) := by
    intro t ht
    by_cases h0 : t = []
    · rw [if_pos h0]; exact .inl rfl
    · rw [if_neg h0]
      refine .inr ?_
      rw [ht.resolve_left h0, cFilename, cName_eq (Or.inl hn)]
      have : ".h\"\n\n".toList = ".h\"".toList ++ "\n\n".toList := by decide
      rw [this]
      generalize "#include \"".toList = x
      generalize ".h\"".toList = y
      generalize "\n\n".toList = z
      simp only [List.append_assoc]
  refine ⟨fileHeader doc ++ ['\n'], _, _, cd.inits.flatten, cd'.inits.flatten, hinc _ hi, hinc _ hi', ?_,
    by unfold sourceText; rw [h.headerComment], by unfold sourceText; rw [h'.headerComment]⟩
  refine ⟨[.each fun n => (namedPart (cBackend p out b) ds simple mod n).inits.flatten], _, l, l',
    .cons (.each _ fun k => ?_) .nil, hl, hl', ?_, ?_⟩
  · have : ∀ t ∈ (namedPart (cBackend p out b) ds simple mod k).inits, t.getLast? = some '\n' := by
      unfold namedPart
      cases hd : lastDef mod.defs k with
      | none => intro t ht; cases ht
      | some d =>
        simp only
        cases hp : defPart (cBackend p out b) ds simple mod d with
        | error => intro t ht; cases ht
        | ok q =>
          intro t ht
          simp only [defPart_inits hp] at ht
          obtain ⟨x, _, rfl⟩ := List.mem_map.1 ht
          unfold clauseText cInitStart
          rw [List.getLast?_append]
          rfl
    generalize (namedPart (cBackend p out b) ds simple mod k).inits = is at this ⊢
    induction is with
    | nil => exact .inl rfl
    | cons t is ih =>
      refine .inr ?_
      rw [List.flatten_cons, List.getLast?_append, this t (List.Mem.head _)]
      rcases ih fun t ht => this t (List.Mem.tail _ ht) with h | h <;> rw [h] <;> rfl
  · rw [h.inits, flatten_flatMap, layout_each, layout_nil, List.append_nil]
  · rw [h'.inits, flatten_flatMap, layout_each, layout_nil, List.append_nil]

/-! ### generate-binary -/

theorem binDefs_seq {ds : List Def} {fuel : Nat} {l : List Def} :
    ∀ {r}, binDefs ds fuel l = .ok r → ∀ {n s}, (n, s) ∈ r → ∃ c ms, Def.seq n c ms ∈ l ∧ binMembers ds fuel ms = .ok s := by
  induction l with
  | nil => intro r h; simp only [binDefs, Except.ok.injEq] at h; subst h; intro n s hx; cases hx
  | cons d l ih =>
    intro r h n s hx
    obtain ⟨a, h1, r1, h2, rfl⟩ := binDefs_cons.1 h
    rcases List.mem_append.1 hx with hx | hx
    · cases d with
      | seq n' c ms =>
        simp only [binOne, bind_ok, Except.ok.injEq] at h1
        obtain ⟨s', q1, rfl⟩ := h1
        rw [List.mem_singleton] at hx
        cases hx
        exact ⟨c, ms, List.Mem.head _, q1⟩
      | choice n c ms => simp only [binOne, Except.ok.injEq] at h1; subst h1; cases hx
      | enum n c ms => simp only [binOne, Except.ok.injEq] at h1; subst h1; cases hx
      | simple n c ms => simp only [binOne, Except.ok.injEq] at h1; subst h1; cases hx
    · obtain ⟨c, ms, q1, q2⟩ := ih h2 hx
      exact ⟨c, ms, List.Mem.tail _ q1, q2⟩

theorem compBytes_agree {defs defs' : List (String × List (String × BinSpec))}
    (h : ∀ n s s', lastVal defs n = some s → lastVal defs' n = some s' → s = s') (e : Option Endian) (c : Comps) :
    ∀ tn r r', compBytes defs e tn c = .ok r → compBytes defs' e tn c = .ok r' → r = r' := by
  have hb : ∀ tn k s s', binLookup defs tn k = .ok s → binLookup defs' tn k = .ok s' → s = s' := by
    intro tn k s s' h1 h2
    unfold binLookup at h1 h2
    split at h1
    · cases h1
    rename_i x hx
    split at h2
    · cases h2
    rename_i x' hx'
    cases h _ _ _ hx hx'
    split at h1
    · cases h1
    rename_i y hy
    rw [hy] at h2
    cases h1
    cases h2
    rfl
  induction c with
  | nil => intro tn r r' h1 h2; cases h1; cases h2; rfl
  | leaf k v rest ih =>
    intro tn r r' h1 h2
    simp only [compBytes, bind_ok] at h1 h2
    obtain ⟨s, p1, x, p2, y, p3, p4⟩ := h1
    obtain ⟨s', q1, x', q2, y', q3, q4⟩ := h2
    cases hb _ _ _ _ p1 q1
    rw [p2] at q2
    cases q2
    cases ih _ _ _ p3 q3
    rw [p4] at q4
    cases q4
    rfl
  | node k c rest ih1 ih2 =>
    intro tn r r' h1 h2
    simp only [compBytes, bind_ok] at h1 h2
    obtain ⟨s, p1, x, p2, y, p3, p4⟩ := h1
    obtain ⟨s', q1, x', q2, y', q3, q4⟩ := h2
    cases hb _ _ _ _ p1 q1
    cases ih1 _ _ _ p2 q2
    cases ih2 _ _ _ p3 q3
    rw [p4] at q4
    cases q4
    rfl

theorem binHandler_added {b b' : Bundle} (hgr : GrownDefs b b') {bm bm' : BMod} (hbm : bm ∈ b.mods) (hbm' : bm' ∈ b'.mods)
    {fuel fuel' : Nat} {e : Option Endian} {cn : Text} {m : Member} {v v' : CData}
    (h : binHandler b.defs fuel e cn m bm.mod = .ok v) (h' : binHandler b'.defs fuel' e cn m bm'.mod = .ok v') : v = v' := by
  simp only [binHandler] at h h'
  cases hc : m.comps with
  | none => rw [hc] at h h'; cases h; cases h'; rfl
  | some cs =>
    rw [hc] at h h'
    simp only [bind_ok] at h h'
    obtain ⟨defs, p1, bs, p2, p3⟩ := h
    obtain ⟨defs', q1, bs', q2, q3⟩ := h'
    have : bs = bs' := by
      refine compBytes_agree (fun n s s' hs hs' => ?_) e _ _ _ _ p2 q2
      obtain ⟨c, ms, r1, r2⟩ := binDefs_seq p1 (lastVal_mem hs)
      obtain ⟨c', ms', r3, r4⟩ := binDefs_seq q1 (lastVal_mem hs')
      have hd := mods_defs hbm _ r1
      have := mem_unique_of_nodup_map hgr.nodup' (hgr.defs _ hd) (mods_defs hbm' _ r3) rfl
      cases this
      have e1 := binMembers_extends (K := fun d => d ∈ b.defs) hgr.closed (fuel' := max fuel fuel') (by omega) hd ms
        (fun _ h => h) s r2
      have e2 := binMembers_extends (K := fun _ => True) (ds := b'.defs) (ds' := b'.defs) (fuel' := max fuel fuel')
        (fun _ _ _ _ => ⟨rfl, fun _ _ => trivial⟩) (by omega) (d := .seq n c ms) trivial ms (fun _ h => h) s' r4
      rw [e1] at e2
      cases e2
      rfl
    subst this
    rw [p3] at q3
    cases q3
    rfl

/-! ### Runs -/

/-- The contents are in relation for a module of each bundle. -/
def InModules (b b' : Bundle) (R : Module → Module → Text → Content → Content → Prop) (q : Text) (c c' : Content) : Prop :=
  ∃ bm ∈ b.mods, ∃ bm' ∈ b'.mods, Added bm.mod bm'.mod ∧ R bm.mod bm'.mod q c c'

theorem run_added {fuel fuel' : Nat} {mk mk' : Bundle → Backend} {raw raw' : List Module} {cfg cfg' : List String}
    {out : Text} {R : Module → Module → Text → Content → Content → Prop} (hg : ∀ m ∈ raw', GrammarModule m)
    (ha : ∀ m ∈ raw, ∃ m' ∈ raw', Added m m')
    (hmk : ∀ b b', buildFromConfig raw cfg = .ok b → buildFromConfig raw' cfg' = .ok b' → GrownDefs b b' →
      ∀ bm ∈ b.mods, ∀ bm' ∈ b'.mods, AddedB bm bm' → ∀ cd cd', moduleData fuel (mk b) b.defs bm = .ok cd →
        moduleData fuel' (mk' b') b'.defs bm' = .ok cd' →
          ∀ w ∈ printed ((mk b).print bm.mod cd), ∃ w' ∈ printed ((mk' b').print bm'.mod cd'), w'.1 = w.1 ∧
            R bm.mod bm'.mod w.1 w.2 w'.2)
    (h : (runCommand fuel mk raw cfg out).result = .ok ())
    (h' : (runCommand fuel' mk' raw' cfg' out).result = .ok ()) :
    ∃ b b', buildFromConfig raw cfg = .ok b ∧ buildFromConfig raw' cfg' = .ok b' ∧
    ∀ w ∈ (runCommand fuel mk raw cfg out).writes, ∃ w' ∈ (runCommand fuel' mk' raw' cfg' out).writes, w'.1 = w.1 ∧
      InModules b b' R w.1 w.2 w'.2 := by
  rcases run_writes fuel mk raw cfg out with ⟨_, hx⟩ | ⟨b, hb, done, cds, hi, hx, _⟩
  · exact absurd h hx
  rcases run_writes fuel' mk' raw' cfg' out with ⟨_, hx'⟩ | ⟨b', hb', _⟩
  · exact absurd h' hx'
  have hgr := grownDefs hg ha hb hb'
  refine ⟨b, b', hb, hb', fun w hw => ?_⟩
  rw [hx] at hw
  obtain ⟨⟨bm, cd⟩, hz, hw⟩ := List.mem_flatMap.1 hw
  have hbm := hi.sub bm (List.of_mem_zip hz).1
  have hcd : moduleData fuel (mk b) b.defs bm = .ok cd := hi.len.zip_mem hz
  obtain ⟨bm', hbm', hab⟩ := hgr.mods bm hbm
  obtain ⟨cd', hcd', hp⟩ := run_module h' hb' hbm'
  obtain ⟨w', hw', q1, q2⟩ := hmk b b' hb hb' hgr bm hbm bm' hbm' hab cd cd' hcd hcd' w hw
  exact ⟨w', hp w' hw', q1, bm, hbm, bm', hbm', hab.mod, q2⟩

theorem apply_added {r r' : Run} (hna : NoAppend r.ops) (hna' : NoAppend r'.ops) (hn : (r.writes.map (·.1)).Nodup)
    (hn' : (r'.writes.map (·.1)).Nodup) {R : Text → Content → Content → Prop}
    (h : ∀ w ∈ r.writes, ∃ w' ∈ r'.writes, w'.1 = w.1 ∧ R w.1 w.2 w'.2) (q : Text)
    (hq : ∃ fs, r.apply fs q ≠ fs q) (fs : Files) :
    ∃ c c', r.apply fs q = some c ∧ r'.apply fs q = some c' ∧ R q c c' := by
  obtain ⟨fs0, hp⟩ := hq
  by_cases hq : q ∈ r.writes.map (·.1)
  · obtain ⟨w, hw, rfl⟩ := List.mem_map.1 hq
    obtain ⟨w', hw', h1, h2⟩ := h w hw
    exact ⟨w.2, w'.2, apply_get hna hn fs hw, h1 ▸ apply_get hna' hn' fs hw', h2⟩
  · exact absurd (apply_other hna fs0 hq) hp

/-! ### generate-cosmos -/

section
variable {b b' : Bundle} (hnd' : (b'.defs.map Def.name).Nodup) (hsub : ∀ d ∈ b.defs, d ∈ b'.defs)
include hnd' hsub

theorem shapeOf_agree {fuel fuel' : Nat} {bm bm' : BMod} (hbm : bm ∈ b.mods) (hbm' : bm' ∈ b'.mods) {t : AType}
    {s s' : Shape} (h : shapeOf b fuel bm t = .ok s) (h' : shapeOf b' fuel' bm' t = .ok s') : s = s' := by
  have hd : ∀ d d', getDefinition b fuel t.name bm = .ok d → getDefinition b' fuel' t.name bm' = .ok d' → d = d' := by
    intro d d' h1 h2
    obtain ⟨p1, p2⟩ := getDefinition_sound hbm h1
    obtain ⟨q1, q2⟩ := getDefinition_sound hbm' h2
    exact mem_unique_of_nodup_map hnd' (hsub d p1) q1 (p2.trans q2.symm)
  unfold shapeOf at h h'
  simp only at h h'
  split at h
  · rename_i h1
    rw [if_pos h1] at h'
    rw [h] at h'; cases h'; rfl
  · rename_i h1
    rw [if_neg h1] at h'
    split at h
    · rename_i h2
      rw [if_pos h2] at h'
      rw [h] at h'; cases h'; rfl
    · rename_i h2
      rw [if_neg h2] at h'
      have step : ∀ {s s'}, (getDefinition b fuel t.name bm >>= fun d =>
          match d with
          | .simple _ _ st => .ok (.item st.cType st.lo st.hi [])
          | .enum _ _ its =>
            .ok (.item (some .uint) (some (.int 0)) (some (.int ((its.length : Int) - 1))) (its.map (·.key.toList)))
          | d => .ok (.inner d)) = Except.ok s → (getDefinition b' fuel' t.name bm' >>= fun d =>
          match d with
          | .simple _ _ st => .ok (.item st.cType st.lo st.hi [])
          | .enum _ _ its =>
            .ok (.item (some .uint) (some (.int 0)) (some (.int ((its.length : Int) - 1))) (its.map (·.key.toList)))
          | d => .ok (.inner d)) = Except.ok s' → (s : Shape) = s' := by
        intro s s' h h'
        simp only [bind_ok] at h h'
        obtain ⟨d, p1, p2⟩ := h
        obtain ⟨d', q1, q2⟩ := h'
        cases hd d d' p1 q1
        cases d <;> cases p2 <;> cases q2 <;> rfl
      cases t with
      | str n len => rw [h] at h'; cases h'; rfl
      | plain n lo hi => exact step h h'
      | arr e len => exact step h h'

theorem initialStore_agree (hnd : (b.defs.map Def.name).Nodup) :
    SameStore b.defs (initialStore b.defs) (initialStore b'.defs) := by
  intro d hd i
  unfold initialStore
  rw [(lastDef_eq_some_iff hnd d.name d).2 ⟨hd, rfl⟩, (lastDef_eq_some_iff hnd' d.name d).2 ⟨hsub d hd, rfl⟩]

theorem telemetry_agree (p : Printer) (fuel fuel' : Nat) {bm bm' : BMod} (hbm : bm ∈ b.mods) (hbm' : bm' ∈ b'.mods)
    (depth : Nat) :
    ∀ depth' st st' d wc r r', d ∈ b.defs → SameStore b.defs st st' → telemetry p b fuel bm depth st d wc = .ok r →
      telemetry p b' fuel' bm' depth' st' d wc = .ok r' → r'.1 = r.1 ∧ SameStore b.defs r.2 r'.2 := by
  induction depth with
  | zero => intro depth' st st' d wc r r' _ _ h; cases h
  | succ depth ih =>
    intro depth' st st' d wc r r' hd hs h h'
    cases depth' with
    | zero => cases h'
    | succ depth' =>
    cases d with
    | choice => cases h
    | enum => cases h
    | simple => cases h
    | seq n c ms =>
      rw [telemetry] at h h'
      have key : ∀ (l : List Member) (i : Nat) (st st' : Store) (r r' : List Entry × Store), SameStore b.defs st st' →
          entriesFrom p b fuel bm (telemetry p b fuel bm depth) n wc st i l = .ok r →
          entriesFrom p b' fuel' bm' (telemetry p b' fuel' bm' depth') n wc st' i l = .ok r' →
            r'.1 = r.1 ∧ SameStore b.defs r.2 r'.2 := by
        intro l
        induction l with
        | nil =>
          intro i st st' r r' hs h h'
          simp only [entriesFrom, Except.ok.injEq] at h h'
          subst h h'
          exact ⟨rfl, hs⟩
        | cons m l ihl =>
          intro i st st' r r' hs h h'
          simp only [entriesFrom, bind_ok] at h h'
          obtain ⟨shape, h1, r1, h2, r2, h3, h4⟩ := h
          obtain ⟨shape', g1, s1, g2, s2, g3, g4⟩ := h'
          cases shapeOf_agree hnd' hsub hbm hbm' h1 g1
          have hse := hs.extend hd i (specificValue wc m.key)
          have hi : st n i = st' n i := hs _ hd i
          simp only [Def.name] at hse
          have hstep : s1.1 = r1.1 ∧ SameStore b.defs r1.2 s1.2 := by
            cases shape with
            | item c lo hi states =>
              simp only [bind_ok, Except.ok.injEq] at h2 g2
              obtain ⟨e, q1, rfl⟩ := h2
              obtain ⟨e', q2, rfl⟩ := g2
              rw [q1] at q2
              cases q2
              exact ⟨rfl, hse⟩
            | inner d' =>
              simp only at h2 g2
              rw [← hi] at g2
              exact ih _ _ _ d' _ r1 s1 (shapeOf_inner hbm h1).1 hse h2 g2
          obtain ⟨q1, q2⟩ := ihl (i + 1) r1.2 s1.2 r2 s2 hstep.2 h3 g3
          cases h4
          cases g4
          exact ⟨by rw [hstep.1, q1], q2⟩
      exact key ms 0 st st' r r' hs h h'

theorem packets_agree (p : Printer) (fuel fuel' : Nat) {bm bm' : BMod} (hbm : bm ∈ b.mods) (hbm' : bm' ∈ b'.mods)
    (target : Text) (ns : List String) :
    ∀ st st' r r', SameStore b.defs st st' → packets p b fuel bm target st ns = .ok r →
      packets p b' fuel' bm' target st' ns = .ok r' → r' = r := by
  induction ns with
  | nil => intro st st' r r' _ h h'; cases h; cases h'; rfl
  | cons n ns ih =>
    intro st st' r r' hs h h'
    unfold packets at h h'
    split at h
    · cases h
    rename_i d hd
    split at h'
    · cases h'
    rename_i d' hd'
    obtain ⟨d1, d2⟩ := lastDef_some hd
    obtain ⟨d3, d4⟩ := lastDef_some hd'
    have hdb := mods_defs hbm d d1
    cases mem_unique_of_nodup_map hnd' (hsub d hdb) (mods_defs hbm' d' d3) (d2.trans d4.symm)
    simp only [bind_ok] at h h'
    obtain ⟨r1, h1, rest, h2, h3⟩ := h
    obtain ⟨s1, g1, rest', g2, g3⟩ := h'
    obtain ⟨q1, q2⟩ := telemetry_agree hnd' hsub p fuel fuel' hbm hbm' fuel fuel' st st' d .nil r1 s1 hdb hs h1 g1
    cases ih _ _ _ _ q2 h2 g2
    rw [q1, h3] at g3
    cases g3
    rfl

theorem cosmos_agree (hnd : (b.defs.map Def.name).Nodup) (fuel fuel' : Nat) (p : Printer) (module module' : String)
    (messages : List String) (target out : Text)
    (h : (generateCosmos fuel p b module messages target out).result = .ok ())
    (h' : (generateCosmos fuel' p b' module' messages target out).result = .ok ()) :
    generateCosmos fuel' p b' module' messages target out = generateCosmos fuel p b module messages target out := by
  have key : ∀ {b : Bundle} {fuel : Nat} {module : String}, (generateCosmos fuel p b module messages target out).result = .ok () →
      ∃ pkts, (messages = [] ∧ pkts = [] ∨ ∃ bm ∈ b.mods, packets p b fuel bm target (initialStore b.defs) messages = .ok pkts) ∧
        generateCosmos fuel p b module messages target out =
          ⟨[.mkdir (dirName (joinPath out (target ++ ".txt".toList))),
            .append (joinPath out (target ++ ".txt".toList)) (textContent (cosmosText pkts))], .ok ()⟩ := by
    intro b fuel module h
    unfold generateCosmos at h ⊢
    generalize ".txt".toList = a at h ⊢
    simp only at h ⊢
    by_cases hne : b.mods = []
    · rw [if_pos hne] at h; cases h
    rw [if_neg hne] at h ⊢
    cases hm : b.getModule module with
    | none =>
      rw [hm] at h
      simp only at h ⊢
      split at h
      · rename_i hms
        exact ⟨[], .inl ⟨hms, rfl⟩, by rw [if_pos hms]⟩
      · cases h
    | some bm =>
      rw [hm] at h
      simp only at h ⊢
      split at h
      · cases h
      rename_i hms
      rw [if_neg hms]
      cases hp : packets p b fuel bm target (initialStore b.defs) messages with
      | error e => rw [hp] at h; cases h
      | ok pkts => exact ⟨pkts, .inr ⟨bm, (getModule_some hm).1, hp⟩, rfl⟩
  obtain ⟨pk, h1, h2⟩ := key h
  obtain ⟨pk', g1, g2⟩ := key h'
  have : pk' = pk := by
    rcases h1 with ⟨rfl, rfl⟩ | ⟨bm, hbm, h1⟩
    · rcases g1 with ⟨_, rfl⟩ | ⟨bm', _, g1⟩
      · rfl
      · cases g1; rfl
    · rcases g1 with ⟨rfl, rfl⟩ | ⟨bm', hbm', g1⟩
      · cases h1; rfl
      · exact packets_agree hnd' hsub p fuel fuel' hbm hbm' target messages _ _ _ _ (initialStore_agree hnd' hsub hnd) h1 g1
  rw [h2, g2, this]

end

end Apg
