import Verif.Lemmas.Shuffle
import Verif.Lemmas.SuccessBinary
import Verif.Lemmas.CInit

/-!
# The order of the definitions in a module: back ends
-/

namespace Apg
open Spec

/-! ### What holds in accepted bundles -/

theorem module_defs_sub {b : Bundle} {m : Module} (hm : m ∈ b.modules) {d : Def} (hd : d ∈ m.defs) : d ∈ b.defs := by
  rw [← defsOf_eq]
  exact List.mem_flatMap.2 ⟨m, hm, hd⟩

theorem module_defs_nodup {b : Bundle} (hn : (b.defs.map Def.name).Nodup) {m : Module} (hm : m ∈ b.modules) :
    (m.defs.map Def.name).Nodup := by
  rw [← defsOf_eq] at hn
  refine hn.sublist (List.Sublist.map _ ?_)
  unfold defsOf
  generalize b.modules = l at hm
  induction l with
  | nil => cases hm
  | cons x l ih =>
    rw [List.flatMap_cons]
    rcases List.mem_cons.1 hm with rfl | hm
    · exact List.sublist_append_left _ _
    · exact (ih hm).trans (List.sublist_append_right _ _)

theorem simpleList_unique {raw : List Module} {cfg : List String} {b : Bundle} (hg : ∀ m ∈ raw, GrammarModule m)
    (h : buildFromConfig raw cfg = .ok b) {bm : BMod} (hbm : bm ∈ b.mods) :
    ∀ d ∈ simpleList bm, ∀ e ∈ simpleList bm, cName d.name = cName e.name → d = e := by
  have hbt := buildFromTexts_of_config h
  obtain ⟨ms, h1, h2, _⟩ := buildFromConfig_ok.1 h
  have hl := accepted_linked (by rw [← processModules_names h1]; exact h2) hbt
  have hmem : ∀ d ∈ simpleList bm, d ∈ b.defs := by
    intro d hd
    obtain ⟨_, hd | ⟨m, hm, hd⟩⟩ := mem_simpleList.1 hd
    · exact module_defs_sub (List.mem_map.2 ⟨bm, hbm, rfl⟩) hd
    · exact module_defs_sub ((hl.link bm hbm m).1 hm).1 hd
  intro d hd e he hn
  have hd := hmem d hd
  have he := hmem e he
  exact mem_unique_of_nodup_map (accepted_nodup hbt) hd he
    (cName_inj (Or.inr (def_capital (accepted_grammar hg hbt d hd).1)) (Or.inr (def_capital (accepted_grammar hg hbt e he).1)) hn)

/-! ### generate-cfs -/

theorem cfsNote_shuffled {ms ms' : List Module} {b b' : Bundle} (hs : All2 Shuffled ms ms') (h : build ms = .ok b)
    (h' : build ms' = .ok b') (n : String) (t : AType) : Extends (cfsNote b n t) (cfsNote b' n t) := by
  intro v hv
  simp only [cfsNote] at hv ⊢
  rcases uses_shuffled hs h h' n with ⟨h1, h2⟩ | ⟨s, s', h1, h2, h3⟩
  · rw [h1] at hv; rw [h2]; exact hv
  · rw [h1] at hv
    rw [h2]
    simp only at hv ⊢
    rw [← mergeSort_names h3]
    exact hv

/-! ### generate-binary -/

/-- What one definition contributes to `binDefs`. -/
def binOne (ds : List Def) (fuel : Nat) : Def → Except Err (List (String × List (String × BinSpec)))
  | .seq n _ ms => binMembers ds fuel ms >>= fun s => .ok [(n, s)]
  | _ => .ok []

theorem binDefs_cons {ds : List Def} {fuel : Nat} {d : Def} {l : List Def} {r : List (String × List (String × BinSpec))} :
    binDefs ds fuel (d :: l) = .ok r ↔
      ∃ a, binOne ds fuel d = .ok a ∧ ∃ r', binDefs ds fuel l = .ok r' ∧ r = a ++ r' := by
  cases d with
  | seq n c ms =>
    simp only [binDefs, binOne, bind_ok, Except.ok.injEq]
    constructor
    · rintro ⟨s, h1, r', h2, rfl⟩; exact ⟨_, ⟨s, h1, rfl⟩, r', h2, rfl⟩
    · rintro ⟨a, ⟨s, h1, rfl⟩, r', h2, rfl⟩; exact ⟨s, h1, r', h2, rfl⟩
  | choice n c ms =>
    simp only [binDefs, binOne, Except.ok.injEq]
    constructor
    · intro h; exact ⟨[], rfl, r, h, rfl⟩
    · rintro ⟨a, rfl, r', h, rfl⟩; exact h
  | enum n c ms =>
    simp only [binDefs, binOne, Except.ok.injEq]
    constructor
    · intro h; exact ⟨[], rfl, r, h, rfl⟩
    · rintro ⟨a, rfl, r', h, rfl⟩; exact h
  | simple n c ms =>
    simp only [binDefs, binOne, Except.ok.injEq]
    constructor
    · intro h; exact ⟨[], rfl, r, h, rfl⟩
    · rintro ⟨a, rfl, r', h, rfl⟩; exact h

theorem binDefs_perm {ds : List Def} {fuel : Nat} {l l' : List Def} (hp : l.Perm l') :
    ∀ {r}, binDefs ds fuel l = .ok r → ∃ r', binDefs ds fuel l' = .ok r' ∧ r.Perm r' := by
  induction hp with
  | nil => intro r h; exact ⟨r, h, .refl _⟩
  | cons x _ ih =>
    intro r h
    obtain ⟨a, h1, r1, h2, rfl⟩ := binDefs_cons.1 h
    obtain ⟨r2, h3, h4⟩ := ih h2
    exact ⟨a ++ r2, binDefs_cons.2 ⟨a, h1, r2, h3, rfl⟩, h4.append_left a⟩
  | swap x y l =>
    intro r h
    obtain ⟨a, h1, r1, h2, rfl⟩ := binDefs_cons.1 h
    obtain ⟨c, h3, r2, h4, rfl⟩ := binDefs_cons.1 h2
    refine ⟨c ++ (a ++ r2), binDefs_cons.2 ⟨c, h3, _, binDefs_cons.2 ⟨a, h1, r2, h4, rfl⟩, rfl⟩, ?_⟩
    rw [← List.append_assoc, ← List.append_assoc]
    exact (List.perm_append_comm (l₁ := a) (l₂ := c)).append_right r2
  | trans _ _ ih1 ih2 =>
    intro r h
    obtain ⟨r1, h1, h2⟩ := ih1 h
    obtain ⟨r2, h3, h4⟩ := ih2 h1
    exact ⟨r2, h3, h2.trans h4⟩

theorem binDefs_keys {ds : List Def} {fuel : Nat} {l : List Def} :
    ∀ {r}, binDefs ds fuel l = .ok r → (r.map (·.1)).Sublist (l.map Def.name) := by
  induction l with
  | nil => intro r h; simp only [binDefs, Except.ok.injEq] at h; subst h; exact .slnil
  | cons d l ih =>
    intro r h
    obtain ⟨a, h1, r1, h2, rfl⟩ := binDefs_cons.1 h
    have ih := ih h2
    cases d with
    | seq n c ms =>
      simp only [binOne, bind_ok, Except.ok.injEq] at h1
      obtain ⟨s, _, rfl⟩ := h1
      exact ih.cons_cons n
    | choice n c ms => simp only [binOne, Except.ok.injEq] at h1; subst h1; exact ih.cons _
    | enum n c ms => simp only [binOne, Except.ok.injEq] at h1; subst h1; exact ih.cons _
    | simple n c ms => simp only [binOne, Except.ok.injEq] at h1; subst h1; exact ih.cons _

theorem lastVal_perm {α : Type} {l l' : List (String × α)} (hp : l.Perm l') (hn : (l.map (·.1)).Nodup) (n : String) :
    lastVal l n = lastVal l' n := by
  have hn' := (hp.map (·.1)).nodup_iff.1 hn
  apply Option.ext
  intro v
  constructor
  · intro h; exact lastVal_unique hn' (hp.mem_iff.1 (lastVal_mem h))
  · intro h; exact lastVal_unique hn (hp.mem_iff.2 (lastVal_mem h))

theorem compBytes_congr {defs defs' : List (String × List (String × BinSpec))}
    (h : ∀ n, lastVal defs n = lastVal defs' n) (e : Option Endian) (c : Comps) :
    ∀ tn, compBytes defs e tn c = compBytes defs' e tn c := by
  have hb : ∀ tn k, binLookup defs tn k = binLookup defs' tn k := by
    intro tn k
    simp only [binLookup, h]
  induction c with
  | nil => intro tn; rfl
  | leaf k v r ih => intro tn; simp only [compBytes, hb, ih]
  | node k c r ih1 ih2 => intro tn; simp only [compBytes, hb, ih1, ih2]

theorem binHandler_shuffled {fuel fuel' : Nat} (hf : fuel ≤ fuel') {ds ds' : List Def}
    (hr : ∀ t, resolveType ds t = resolveType ds' t) {mod mod' : Module} (hs : Shuffled mod mod')
    (hn : (mod.defs.map Def.name).Nodup) (e : Option Endian) (cn : Text) (m : Member) :
    Extends (binHandler ds fuel e cn m mod) (binHandler ds' fuel' e cn m mod') := by
  intro v hv
  simp only [binHandler] at hv ⊢
  split at hv
  · exact hv
  · simp only [bind_ok] at hv ⊢
    obtain ⟨defs, h1, bs, h2, h3⟩ := hv
    have h4 := binDefs_extends (K := fun _ => True) (ds := ds) (ds' := ds')
      (fun d _ m _ => ⟨hr m.type, fun _ _ => trivial⟩) hf mod.defs (fun _ _ => trivial) defs h1
    obtain ⟨defs', h5, h6⟩ := binDefs_perm hs.defs h4
    refine ⟨defs', h5, bs, ?_, h3⟩
    rw [← compBytes_congr (lastVal_perm h6 (hn.sublist (binDefs_keys h4)))]
    exact h2

theorem namedPart_own {fuel : Nat} {e : Option Endian} {out : Text} {b : Bundle} {simple : List Def} {mod : Module}
    (hg : ∀ d ∈ mod.defs, isNameCapital d.name = true) :
    OwnBins (namedPart (binBackend fuel e out b) b.defs simple mod) (mod.defs.map Def.name) := by
  have key : ∀ n, (∃ v, (namedPart (binBackend fuel e out b) b.defs simple mod n).bins = v ∧ v.length ≤ 1) ∧
      ∀ k ∈ (namedPart (binBackend fuel e out b) b.defs simple mod n).bins.map (·.1),
        isNameCapital n = true ∧ k = lowerize (ident n) := by
    intro n
    unfold namedPart
    cases hd : lastDef mod.defs n with
    | none => exact ⟨⟨_, rfl, Nat.zero_le _⟩, fun k hk => by cases hk⟩
    | some d =>
      obtain ⟨h1, rfl⟩ := lastDef_some hd
      simp only
      cases hp : defPart (binBackend fuel e out b) b.defs simple mod d with
      | error => exact ⟨⟨_, rfl, Nat.zero_le _⟩, fun k hk => by cases hk⟩
      | ok p =>
        simp only
        refine ⟨⟨_, rfl, ?_⟩, fun k hk => ?_⟩
        · rcases defPart_bins hp with ⟨_, h⟩ | ⟨_, _, _, h, _⟩ <;> rw [h] <;> simp
        · exact ⟨hg d h1, by rw [(defPart_keys (binHandler_keys _ _ _) hp k hk).2, cName_eq (Or.inr (hg d h1))]⟩
  intro n _
  refine ⟨(key n).1, fun n' _ k hk hk' => ?_⟩
  obtain ⟨h1, h2⟩ := (key n).2 k hk
  obtain ⟨h3, h4⟩ := (key n').2 k hk'
  exact lowerize_ident_inj h1 h3 (h2.symm.trans h4)

/-! ### generate-c -/

theorem flatten_flatMap {α β} (l : List α) (f : α → List (List β)) :
    (l.flatMap f).flatten = l.flatMap fun a => (f a).flatten := by
  induction l with
  | nil => rfl
  | cons a l ih => rw [List.flatMap_cons, List.flatten_append, ih, List.flatMap_cons]

theorem source_rearranged {p : Printer} {out : Text} {b : Bundle} {ds simple : List Def} {mod : Module}
    {inc : List Text} {doc : Text} {names l l' : List String} {cd cd' : CData} (hl : l.Perm names) (hl' : l'.Perm names)
    (h : Mixed inc doc (namedPart (cBackend p out b) ds simple mod) l cd)
    (h' : Mixed inc doc (namedPart (cBackend p out b) ds simple mod) l' cd') {n : String} (hn : isNameLower n = true)
    (hi : cd.initInclude = [] ∨ cd.initInclude = "#include \"".toList ++ cFilename n ++ ".h\"".toList)
    (hi' : cd'.initInclude = [] ∨ cd'.initInclude = "#include \"".toList ++ cFilename n ++ ".h\"".toList) :
    RearrangedSource n names (sourceText cd) (sourceText cd') := by
  have hinc : ∀ t : Text, (t = [] ∨ t = "#include \"".toList ++ cFilename n ++ ".h\"".toList) →
      IncludeLine n (if t = [] then [] else t ++ "\n\n".toList) := by
    intro t ht
    by_cases h0 : t = []
    · rw [if_pos h0]; exact .inl rfl
    · rw [if_neg h0]
      refine .inr ?_
      rw [ht.resolve_left h0, cFilename, cName_eq (Or.inl hn)]
      have : ".h\"\n\n".toList = ".h\"".toList ++ "\n\n".toList := by decide
      rw [this]
      generalize "#include \"".toList = x
      generalize ".h\"".toList = y
      generalize "\n\n".toList = z
      simp only [List.append_assoc]
  refine ⟨fileHeader doc ++ ['\n'], _, _, cd.inits.flatten, cd'.inits.flatten, hinc _ hi, hinc _ hi', ?_,
    by unfold sourceText; rw [h.headerComment], by unfold sourceText; rw [h'.headerComment]⟩
  refine ⟨[.each fun n => (namedPart (cBackend p out b) ds simple mod n).inits.flatten], l, l', ?_, hl, hl', ?_, ?_⟩
  · intro f hf k
    rw [List.mem_singleton, Chunk.each.injEq] at hf
    subst hf
    have : ∀ t ∈ (namedPart (cBackend p out b) ds simple mod k).inits, t.getLast? = some '\n' := by
      unfold namedPart
      cases hd : lastDef mod.defs k with
      | none => intro t ht; cases ht
      | some d =>
        simp only
        cases hp : defPart (cBackend p out b) ds simple mod d with
        | error => intro t ht; cases ht
        | ok q =>
          intro t ht
          simp only [defPart_inits hp] at ht
          obtain ⟨x, _, rfl⟩ := List.mem_map.1 ht
          unfold clauseText cInitStart
          rw [List.getLast?_append]
          rfl
    dsimp only
    generalize (namedPart (cBackend p out b) ds simple mod k).inits = is at this ⊢
    induction is with
    | nil => exact .inl rfl
    | cons t is ih =>
      refine .inr ?_
      rw [List.flatten_cons, List.getLast?_append]
      rcases ih fun t ht => this t (List.Mem.tail _ ht) with h | h
      · rw [h, this t (List.Mem.head _)]; rfl
      · rw [h]; rfl
  · rw [layout_each, layout_nil, List.append_nil, h.inits, flatten_flatMap]
  · rw [layout_each, layout_nil, List.append_nil, h'.inits, flatten_flatMap]

theorem moduleData_include {fuel : Nat} {p : Printer} {out : Text} {b : Bundle} {ds : List Def} {bm : BMod} {cd : CData}
    (h : moduleData fuel (cBackend p out b) ds bm = .ok cd) :
    cd.initInclude = [] ∨ cd.initInclude = "#include \"".toList ++ cFilename bm.mod.name ++ ".h\"".toList := by
  obtain ⟨sorted, _, _, _, _, cd1, _, h1, rfl⟩ := moduleData_ok h
  have := convertDefs_include h1
  simp only [this]
  split
  · exact .inl rfl
  · split
    · exact .inl rfl
    · exact .inr rfl

/-! ### generate-cosmos -/

theorem lastBMod_shuffled {bs bs' : List BMod} (hs : All2 ShuffledB bs bs') (n : String) :
    (lastBMod bs n = none ∧ lastBMod bs' n = none) ∨
    ∃ m m', lastBMod bs n = some m ∧ lastBMod bs' n = some m' ∧ ShuffledB m m' := by
  induction hs with
  | nil => exact .inl ⟨rfl, rfl⟩
  | @cons a c l l' h _ ih =>
    rw [lastBMod, lastBMod, h.mod.name]
    rcases ih with ⟨h1, h2⟩ | ⟨m, m', h1, h2, h3⟩
    · rw [h1, h2]
      by_cases hn : a.mod.name = n
      · simp only [if_pos hn]; exact .inr ⟨_, _, rfl, rfl, h⟩
      · refine .inl ⟨?_, ?_⟩ <;> exact if_neg hn
    · rw [h1, h2]; exact .inr ⟨_, _, rfl, rfl, h3⟩

theorem getModule_shuffled {b b' : Bundle} (hs : All2 ShuffledB b.mods b'.mods) (n : String) :
    (b.getModule n = none ∧ b'.getModule n = none) ∨
    ∃ m m', b.getModule n = some m ∧ b'.getModule n = some m' ∧ ShuffledB m m' := by
  unfold Bundle.getModule
  generalize b.mods = l at hs
  generalize b'.mods = l' at hs
  induction hs with
  | nil => exact .inl ⟨rfl, rfl⟩
  | @cons a c l l' h _ ih =>
    rw [List.find?_cons, List.find?_cons, h.mod.name]
    by_cases hn : a.mod.name = n
    · rw [decide_eq_true hn]; exact .inr ⟨_, _, rfl, rfl, h⟩
    · rw [decide_eq_false hn]; exact ih

theorem filter_name_shuffled {m m' : Module} (hs : Shuffled m m') (hn : (m.defs.map Def.name).Nodup) (n : String) :
    m'.defs.filter (fun d => d.name = n) = m.defs.filter (fun d => d.name = n) := by
  have hp : (m.defs.filter fun d => d.name = n).Perm (m'.defs.filter fun d => d.name = n) := hs.defs.filter _
  have hlen : (m.defs.filter fun d => d.name = n).length ≤ 1 := by
    generalize m.defs = l at hn
    induction l with
    | nil => simp
    | cons d l ih =>
      rw [List.map_cons, List.nodup_cons] at hn
      by_cases hd : d.name = n
      · rw [List.filter_cons_of_pos (by simpa using hd)]
        have : l.filter (fun d => d.name = n) = [] := by
          rw [List.filter_eq_nil_iff]
          intro e he
          simp only [decide_eq_true_eq]
          rintro rfl
          exact hn.1 (hd ▸ List.mem_map_of_mem he)
        rw [this]
        simp
      · rw [List.filter_cons_of_neg (by simpa using hd)]
        exact ih hn.2
  generalize m.defs.filter (fun d => decide (d.name = n)) = a at hp hlen
  generalize m'.defs.filter (fun d => decide (d.name = n)) = c at hp
  match a, hlen with
  | [], _ => exact hp.nil_eq.symm
  | [x], _ => exact List.perm_singleton.1 hp.symm

section
variable {b b' : Bundle} (hs : All2 ShuffledB b.mods b'.mods) (hn : (b.defs.map Def.name).Nodup)
include hs hn

theorem defsRecurs_shuffled (n : String) (fuel : Nat) : ∀ bm ∈ b.mods, ∀ bm', ShuffledB bm bm' →
    defsRecurs b' n fuel bm' = defsRecurs b n fuel bm := by
  induction fuel with
  | zero => intros; rfl
  | succ fuel ih =>
    intro bm hbm bm' hsb
    have hc : ∀ {l l' : List Module}, All2 Shuffled l l' →
        collectDefs (defsRecurs b' n fuel) b' l' = collectDefs (defsRecurs b n fuel) b l := by
      intro l l' h
      induction h with
      | nil => rfl
      | cons h _ ihc =>
        rw [collectDefs, collectDefs, ihc, h.name]
        rename_i m _ _ _ _
        rcases lastBMod_shuffled hs m.name with ⟨h1, h2⟩ | ⟨x, x', h1, h2, h3⟩
        · rw [h1, h2]
        · rw [h1, h2]
          simp only [ih x (lastBMod_some h1).1 x' h3]
    rw [defsRecurs, defsRecurs, hc hsb.imported]
    simp only [List.filter_append,
      filter_name_shuffled hsb.mod (module_defs_nodup hn (List.mem_map.2 ⟨bm, hbm, rfl⟩)) n]

variable {bm bm' : BMod} (hbm : bm ∈ b.mods) (hsb : ShuffledB bm bm')
include hbm hsb

theorem shapeOf_shuffled (fuel : Nat) (t : AType) : shapeOf b' fuel bm' t = shapeOf b fuel bm t := by
  have : ∀ n, getDefinition b' fuel n bm' = getDefinition b fuel n bm := by
    intro n; simp only [getDefinition, defsRecurs_shuffled hs hn n fuel bm hbm bm' hsb]
  simp only [shapeOf, this]

theorem entriesFrom_shuffled (p : Printer) (fuel : Nat)
    (rec : Store → Def → Comps → Except Err (List Entry × Store)) (seq : String) (wc : Comps) (ms : List Member) :
    ∀ st i, entriesFrom p b' fuel bm' rec seq wc st i ms = entriesFrom p b fuel bm rec seq wc st i ms := by
  induction ms with
  | nil => intros; rfl
  | cons m ms ih => intro st i; simp only [entriesFrom, ih, shapeOf_shuffled hs hn hbm hsb]

theorem telemetry_shuffled (p : Printer) (fuel : Nat) (depth : Nat) :
    telemetry p b' fuel bm' depth = telemetry p b fuel bm depth := by
  induction depth with
  | zero => rfl
  | succ depth ih =>
    funext st d wc
    cases d with
    | seq n c ms => simp only [telemetry, ih, entriesFrom_shuffled hs hn hbm hsb]
    | _ => rfl

theorem packets_shuffled (p : Printer) (fuel : Nat) (target : Text) (ns : List String) :
    ∀ st, packets p b' fuel bm' target st ns = packets p b fuel bm target st ns := by
  induction ns with
  | nil => intro; rfl
  | cons n ns ih =>
    intro st
    simp only [packets, ih, telemetry_shuffled hs hn hbm hsb,
      ← lastDef_perm hsb.mod.defs (module_defs_nodup hn (List.mem_map.2 ⟨bm, hbm, rfl⟩))]

end

theorem generateCosmos_shuffled (fuel : Nat) (p : Printer) {b b' : Bundle} (hs : All2 ShuffledB b.mods b'.mods)
    (hn : (b.defs.map Def.name).Nodup) (module : String) (messages : List String) (target out : Text) :
    generateCosmos fuel p b' module messages target out = generateCosmos fuel p b module messages target out := by
  have he : b'.mods = [] ↔ b.mods = [] := by
    rw [← List.length_eq_zero_iff, ← List.length_eq_zero_iff, hs.length_eq]
  unfold generateCosmos
  simp only [he]
  rcases getModule_shuffled hs module with ⟨h1, h2⟩ | ⟨bm, bm', h1, h2, h3⟩
  · simp only [h1, h2]
  · have hbm := (getModule_some h1).1
    have hany : messages.any (fun n => !(bm'.mod.defs.map Def.name).contains n) =
        messages.any (fun n => !(bm.mod.defs.map Def.name).contains n) := by
      have : ∀ n, (bm'.mod.defs.map Def.name).contains n = (bm.mod.defs.map Def.name).contains n := by
        intro n
        rw [Bool.eq_iff_iff, List.contains_iff_mem, List.contains_iff_mem, h3.mod.names.mem_iff]
      simp only [this]
    simp only [h1, h2, hany, packets_shuffled hs hn hbm h3, initialStore_perm (defs_shuffled hs) hn]

theorem runCosmos_shuffled {raw raw' : List Module} (hs : All2 Shuffled raw raw') {b : Bundle}
    (hb : buildFromTexts raw = .ok b) (fuel : Nat) (p : Printer) (module : String) (messages : List String)
    (target out : Text) :
    runCosmos fuel p raw' module messages target out = runCosmos fuel p raw module messages target out := by
  obtain ⟨b', hb', hsb⟩ := buildFromTexts_shuffled hs hb
  unfold runCosmos
  rw [hb, hb']
  exact generateCosmos_shuffled fuel p hsb (accepted_nodup hb) module messages target out

end Apg
