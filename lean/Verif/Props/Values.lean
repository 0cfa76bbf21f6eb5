import Verif.Spec.Values
import Verif.Props.CInit
import Verif.Props.Apid

/-!
# C80: the outputs agree on the fixed values
-/

namespace Apg
open Spec

theorem cValueText_numText {p : Printer} {v : Leaf} {t : Text} (h : CValueText p v t) : NumText p t (leafNum v) := by
  cases v with
  | int i => exact .int h
  | bool b => exact .int h
  | flt x =>
    cases x with
    | int i => exact .int h
    | flt q => cases h; exact .float (by simp [isFloat])
    | inf n => cases h; exact .float (by simp [isFloat])

theorem idText_num {p : Printer} {ws : List Text} {v : Leaf} (h : IdText p ws v) : WordText p ws (leafNum v) := by
  cases h with
  | dec h => exact .num (.int h)
  | hex h => exact .hex h
  | true => exact .num (.int (by decide +kernel))
  | false => exact .num (.int (by decide +kernel))
  | @float x =>
    cases x with
    | int i => exact .num (.int (readInt_intText i))
    | flt q => exact .num (.float (by simp [isFloat]))
    | inf n => exact .num (.float (by simp [isFloat]))

theorem realBlock_num {eb fb : Nat} {en : Endian} {v : Leaf} {blk : List UInt8} (h : RealBlock eb fb en v blk) :
    RealBlock eb fb en (.flt (leafNum v)) blk := by
  refine ⟨fun q hq => h.1 q ?_, h.2⟩
  cases v with
  | flt x => exact hq
  | int i => simp [leafNum] at hq
  | bool b => simp [leafNum] at hq

theorem all2_map_left_of {α β γ : Type} {R : α → β → Prop} {S : γ → β → Prop} {g : α → γ}
    (h : ∀ a b, R a b → S (g a) b) {as : List α} {bs : List β} (h' : All2 R as bs) : All2 S (as.map g) bs := by
  induction h' with
  | nil => exact .nil
  | cons a _ ih => exact .cons (h _ _ a) ih

theorem says_fixes {p : Printer} {ds : List Def} {n : String} {c : Comps} {fixed : List (Member × Leaf)}
    (h : Fixes ds n c fixed) : ∀ {i : Init}, Says p c i →
    All2 (fun (e : List Text × Text) f => Leads ds n e.1 f.1 ∧ CValueText p f.2 e.2) (initLeaves i) fixed := by
  induction h with
  | nil => intro i hs; cases hs; exact .nil
  | leaf h1 h2 _ ih =>
    intro i hs
    cases hs with
    | leaf k1 k2 => exact .cons ⟨.here h1 h2, k1⟩ (ih k2)
  | node h1 h2 h3 _ _ ih1 ih2 =>
    intro i hs
    cases hs with
    | node k1 k2 =>
      refine All2.append ?_ (ih2 k2)
      exact all2_map_left_of (fun e f a => ⟨.into h1 h2 h3 a.1, a.2⟩) (ih1 k1)

theorem says_leaf {p : Printer} {c : Comps} {i : Init} (h : Says p c i) :
    ∀ e ∈ initLeaves i, ∃ ks v, CompFixes c ks v ∧ e.1 = ks.map ident ∧ CValueText p v e.2 ∧
      (GrammarComps c → ∀ k ∈ ks, isNameLower k = true) := by
  induction h with
  | nil => intro e he; cases he
  | @leaf k v r t i h1 _ ih =>
    intro e he
    rcases List.mem_cons.1 he with rfl | he
    · refine ⟨[k], v, .here, rfl, h1, fun hg k' hk => ?_⟩
      rw [List.mem_singleton.1 hk]; exact hg.1
    · obtain ⟨ks, v', k1, k2, k3, k4⟩ := ih e he
      exact ⟨ks, v', .afterLeaf k1, k2, k3, fun hg => k4 hg.2⟩
  | @node k c r i j _ _ ih1 ih2 =>
    intro e he
    rcases List.mem_append.1 he with he | he
    · obtain ⟨e', he', rfl⟩ := List.mem_map.1 he
      obtain ⟨ks, v', k1, k2, k3, k4⟩ := ih1 e' he'
      refine ⟨k :: ks, v', .inside k1, by rw [k2]; rfl, k3, fun hg k' hk => ?_⟩
      rcases List.mem_cons.1 hk with rfl | hk
      · exact hg.1
      · exact k4 hg.2.1.2 k' hk
    · obtain ⟨ks, v', k1, k2, k3, k4⟩ := ih2 e he
      exact ⟨ks, v', .afterNode k1, k2, k3, fun hg => k4 hg.2.2⟩

theorem map_ident_inj : ∀ {ks : List String} {post : List Member}, (∀ k ∈ ks, isNameLower k = true) →
    (∀ y ∈ post, isNameLower y.key = true) → ks.map ident = post.map (fun y => ident y.key) → ks = post.map (·.key)
  | [], [], _, _, _ => rfl
  | [], _ :: _, _, _, h => by cases h
  | _ :: _, [], _, _, h => by cases h
  | k :: ks, y :: post, h1, h2, h => by
    injection h with h3 h4
    rw [List.map_cons, ← map_ident_inj (fun k hk => h1 k (.tail _ hk)) (fun y hy => h2 y (.tail _ hy)) h4,
      ident_inj (.inl (h1 k (.head _))) (.inl (h2 y (.head _))) h3]

theorem leaves_path {ds : List Def} (hg : ∀ d ∈ ds, GrammarDef d) {ms : List Member} {ls : List (List Member)}
    (h : Leaves ds ms ls) : (∀ m ∈ ms, isNameLower m.key = true) → ∀ path ∈ ls,
    (∃ x post, path = x :: post ∧ x ∈ ms) ∧ ∀ y ∈ path, isNameLower y.key = true := by
  induction h with
  | nil => intro _ path hp; cases hp
  | @leaf m ms ps h1 h2 ih =>
    intro hl path hp
    rcases List.mem_cons.1 hp with rfl | hp
    · refine ⟨⟨m, [], rfl, .head _⟩, fun y hy => ?_⟩
      rw [List.mem_singleton.1 hy]; exact hl m (.head _)
    · obtain ⟨⟨x, post, k1, k2⟩, k3⟩ := ih (fun m hm => hl m (.tail _ hm)) path hp
      exact ⟨⟨x, post, k1, .tail _ k2⟩, k3⟩
  | @seq m ms n inner ps qs h1 h2 h3 h4 ih1 ih2 =>
    intro hl path hp
    rcases List.mem_append.1 hp with hp | hp
    · obtain ⟨p', hp', rfl⟩ := List.mem_map.1 hp
      obtain ⟨c, hc⟩ := h2
      have := ih1 (fun m hm => ((hg _ hc).2.2 m hm).1) p' hp'
      refine ⟨⟨m, p', rfl, .head _⟩, fun y hy => ?_⟩
      rcases List.mem_cons.1 hy with rfl | hy
      · exact hl y (.head _)
      · exact this.2 y hy
    · obtain ⟨⟨x, post, k1, k2⟩, k3⟩ := ih2 (fun m hm => hl m (.tail _ hm)) path hp
      exact ⟨⟨x, post, k1, .tail _ k2⟩, k3⟩

/-- The variable of a clause. -/
theorem var_of {p : Printer} {sorted : List Def} {vars : List Text} {n : String} {cm : Option Comment}
    {ms : List Member} (h : All2 (Initialiser p) (sorted.flatMap clausesOf) vars) (hd : Def.seq n cm ms ∈ sorted)
    {k : Member} (hk : k ∈ ms) {c : Comps} (hc : k.comps = some c) :
    ∃ i, InitialisedTo vars n k.key i ∧ Says p c i := by
  have hm : (n, k.key, c) ∈ sorted.flatMap clausesOf :=
    List.mem_flatMap.2 ⟨_, hd, List.mem_filterMap.2 ⟨k, hk, by rw [hc]; rfl⟩⟩
  obtain ⟨t, ht, body, i, h1, h2, h3⟩ := all2_mem_left h hm
  exact ⟨i, ⟨body, h1 ▸ ht, h2⟩, h3⟩

/-- **C80, C files and binary files.** The initialiser of the C variable of a sequence with one clause and the binary
file of the sequence give the same numbers to the same members in the same order. -/
theorem C80_c_binary (p : Printer) (hp : Faithful p) (fuel fuel' : Nat) (en : Endian) (raw : List Module)
    (cfg : List String) (out out' : Text) (b : Bundle) (fs fs' : Files) (hin : Input raw cfg b)
    (hr : (runC fuel p raw cfg out).result = .ok ())
    (hr' : (runBinary fuel' (some en) raw cfg out').result = .ok ()) (m : Module) (hm : m ∈ b.modules) :
    ∃ doc incl vars, HasText ((runC fuel p raw cfg out).apply fs)
        (inDir out (ident m.name ++ ".c".toList)) (sourceFile doc incl vars) ∧
      ∀ d ∈ m.defs, ∀ x, fixedMembers d = [x] →
        ∃ i blocks, InitialisedTo vars d.name x.1.key i ∧
          HasBytes ((runBinary fuel' (some en) raw cfg out').apply fs') (binPath out' d)
            (blocks.map Prod.snd).flatten ∧
          All2 (fun e (f : Member × List UInt8) => Leads b.defs x.1.type.name e.1 f.1 ∧
            ∃ num, NumText p e.2 num ∧ HoldsNumber b.defs en f.1 f.2 num) (initLeaves i) blocks := by
  obtain ⟨doc, incl, vars, h1, sorted, h2, h3⟩ := C46_initialisers p hp fuel raw cfg out b fs hin hr m hm
  refine ⟨doc, incl, vars, h1, fun d hd x hx => ?_⟩
  have hb := hin.accepted
  have hg := hin.grammar
  have hbt := buildFromTexts_of_config hb
  cases d with
  | seq n cm ms =>
    have hxm : x ∈ ms.filterMap fun m => m.comps.map fun c => (m, c) := by
      have : x ∈ fixedMembers (.seq n cm ms) := by rw [hx]; exact List.mem_singleton.2 rfl
      exact this
    obtain ⟨k, hk, hkx⟩ := List.mem_filterMap.1 hxm
    obtain ⟨c, hc, rfl⟩ := Option.map_eq_some_iff.1 hkx
    obtain ⟨i, q1, q2⟩ := var_of h3 (h2.mem_iff.2 hd) hk hc
    obtain ⟨x', blocks, r1, ⟨fixed, r2, r3⟩, r4⟩ := bin_exists hg hb hr' (mem_defs_of_module hm hd)
      (by rw [hx]; exact List.cons_ne_nil _ _) fs'
    rw [hx] at r1
    cases r1
    have hgm := fixes_grammar (fun d hd => (accepted_grammar hg hbt d hd).1) r2
    have hsf := says_fixes (p := p) r2 q2
    have hz : (fixed.zip blocks).map (fun z => (z.1.1, z.2)) = ((fixed.map (·.1)).zip blocks) := by
      rw [List.zip_map_left]; rfl
    refine ⟨i, (fixed.map (·.1)).zip blocks, q1, ?_, ?_⟩
    · rw [List.map_snd_zip (by rw [List.length_map, r3.length_eq]; exact Nat.le_refl _)]
      exact r4
    · clear q1 q2 r4 hz
      revert hsf hgm
      generalize initLeaves i = l
      intro hgm hsf
      clear r2
      induction r3 generalizing l with
      | nil => cases hsf; exact .nil
      | @cons f blk _ _ hp' _ ih =>
        cases hsf with
        | cons a hsf =>
          refine .cons ⟨a.1, leafNum f.2, cValueText_numText a.2, ?_, ?_⟩
            (ih _ (fun f hf => hgm f (.tail _ hf)) hsf)
          · intro lo hi ht
            obtain ⟨j, k1, k2, _⟩ := packed_int hg hbt (hgm f (.head _)).2.1 hp' ht
            rw [k1, k2]
          · intro lo hi hn ht
            exact (packed_real hg hbt (hgm f (.head _)).2.1 hp' hn ht).imp
              (fun h => ⟨h.1, realBlock_num h.2⟩) fun h => ⟨h.1, realBlock_num h.2⟩
  | _ => cases hx

/-- **C80, C files and COSMOS.** Where at most one clause reaches a member: each value in the initialiser of the C
variable of a message is the number by which the item of the same member identifies the packet, provided it is of
the kind of the member and the member is no array. -/
theorem C80_c_cosmos (p : Printer) (hp : Faithful p) (ho : OneLine p) (fuel fuel' : Nat) (raw : List Module)
    (cfg : List String) (out out' target : Text) (module : String) (messages : List String) (b : Bundle) (fs : Files)
    (hin : Input raw cfg b) (ht : IsTarget target)
    (hr : (runC fuel p raw cfg out).result = .ok ())
    (hr' : (runCosmos fuel' p raw module messages target out').result = .ok ()) :
    ∃ t, (∀ fs, Adds fs ((runCosmos fuel' p raw module messages target out').apply fs) (cosmosPath out' target) t) ∧
      Describes b module target (fun ms items => ∀ m ∈ b.modules, ∀ n cm, Def.seq n cm ms ∈ m.defs →
        ∃ doc incl vars, HasText ((runC fuel p raw cfg out).apply fs)
            (inDir out (ident m.name ++ ".c".toList)) (sourceFile doc incl vars) ∧
          LeafWise b.defs (fun path k it => Clear b.defs path → ∀ x post c, path = x :: post → x.comps = some c →
            ∃ i, InitialisedTo vars n x.key i ∧ ∀ e ∈ initLeaves i, e.1 = post.map (fun y => ident y.key) →
              ∃ num, NumText p e.2 num ∧
                ((∀ el len, k.type ≠ .arr el len) →
                  (∀ v, CompFixes c (post.map (·.key)) v → Suits b.defs k v) →
                  it.kind = "APPEND_ID_ITEM".toList ∧ WordText p it.value num)) ms items) messages t := by
  obtain ⟨t, h1, h2⟩ := C37_identifiers_partial fuel' p raw b module messages target out' (sources_of_input hin) hp ho ht
    hr'
  refine ⟨t, h1, h2.imp ?_⟩
  rintro nm pkt ⟨e1, e2, ms, hmsg, ls, hls, hall⟩
  refine ⟨e1, e2, ms, hmsg, fun m hm n cm hd => ?_⟩
  obtain ⟨doc, incl, vars, g1, sorted, g2, g3⟩ := C46_initialisers p hp fuel raw cfg out b fs hin hr m hm
  refine ⟨doc, incl, vars, g1, ls, hls, ?_⟩
  have hgr := (accepted_grammar hin.grammar (buildFromTexts_of_config hin.accepted) _ (mem_defs_of_module hm hd)).1
  refine hall.imp_mem ?_
  rintro path hpath it ⟨k, hk, hR⟩
  refine ⟨k, hk, fun hcl => ?_⟩
  rintro x post c rfl hc
  obtain ⟨⟨x', post', he', hx⟩, hlow⟩ := leaves_path
    (fun d hd => (accepted_grammar hin.grammar (buildFromTexts_of_config hin.accepted) d hd).1) hls
    (fun m hm => (hgr.2.2 m hm).1) _ hpath
  cases he'
  obtain ⟨i, q1, q2⟩ := var_of g3 (g2.mem_iff.2 hd) hx hc
  refine ⟨i, q1, fun e he hpe => ?_⟩
  obtain ⟨ks, v, k1, k2, k3, k4⟩ := says_leaf q2 e he
  refine ⟨leafNum v, cValueText_numText k3, fun ha hsu => ?_⟩
  have hks : ks = post.map (·.key) := map_ident_inj (k4 ((hgr.2.2 x hx).2.2 c hc).2)
    (fun y hy => hlow y (.tail _ hy)) (k2.symm.trans hpe)
  subst hks
  have := (hR hcl ha).2 v ⟨[], x, post, c, rfl, hc, k1⟩ (hsu v k1)
  exact ⟨this.1, idText_num this.2⟩

/-- A sequence with one clause, of which C and binary files are generated: 258, -0.5 and -2. -/
example : Input exBin ["m"] (okBundle (buildFromConfig exBin ["m"])) ∧
    (runC 20 exPrinter exBin ["m"] exOut).result = .ok () ∧
    (runBinary 20 (some .big) exBin ["m"] exOut).result = .ok () ∧
    (exBinModule.defs.map fun d => (fixedMembers d).length) = [0, 0, 0, 1] ∧
    initLeaves (.group "id".toList (.value "a".toList "258".toList (.value "r".toList "-0.5".toList .nil))
      (.value "s".toList "-2".toList .nil)) =
      [(["id".toList, "a".toList], "258".toList), (["id".toList, "r".toList], "-0.5".toList),
        (["s".toList], "-2".toList)] :=
  ⟨input_of (by decide +kernel) (by decide +kernel) (by decide +kernel), by decide +kernel, by decide +kernel,
    by decide +kernel, by decide +kernel⟩

/-- Messages with separate clauses, of which C files and COSMOS packets are generated. -/
example : Input (exCcsds 5 9) ["base"] (okBundle (buildFromConfig (exCcsds 5 9) ["base"])) ∧
    Separate (okBundle (buildFromConfig (exCcsds 5 9) ["base"])).defs ∧
    (runC 40 exPrinter (exCcsds 5 9) ["base"] exOut).result = .ok () ∧
    (runCosmos 40 exPrinter (exCcsds 5 9) "base" ["Ping", "Pong"] "SAT".toList exOut).result = .ok () :=
  ⟨exCcsds_input, exCcsds_separate, by decide +kernel, by decide +kernel⟩

end Apg
