import Verif.Props.Cosmos

/-!
# Property C51: COSMOS packets do not depend on the other messages of the run
-/

namespace Apg
open Spec

/-- The statement of C51 for messages with a property: whatever messages are asked for, the file
of a run is a first part followed by a block for each message, and messages with the property
always have the same block; the run fails if it does for one of these messages alone, and
succeeds if it does for each message alone and all have the property. -/
def Independent (H : List Def → List Member → Prop) : Prop :=
  ∀ (raw : List Module) (b : Bundle), Sources raw b →
    ∀ (fuel : Nat) (p : Printer) (module : String) (target out : Text), IsTarget target →
      ∃ (first : Text) (block : String → Text), ∀ (messages : List String), messages ≠ [] →
        ((runCosmos fuel p raw module messages target out).result = .ok () →
          (∀ n ∈ messages, (∀ ms, MessageOf b module n ms → H b.defs ms) →
            (runCosmos fuel p raw module [n] target out).result = .ok ()) ∧
          ∃ blocks, All2 (fun n t => (∀ ms, MessageOf b module n ms → H b.defs ms) → t = block n) messages blocks ∧
            ∀ fs, Adds fs ((runCosmos fuel p raw module messages target out).apply fs)
              (cosmosPath out target) (first ++ blocks.flatten)) ∧
        ((∀ n ∈ messages, (∀ ms, MessageOf b module n ms → H b.defs ms) ∧
            (runCosmos fuel p raw module [n] target out).result = .ok ()) →
          (runCosmos fuel p raw module messages target out).result = .ok ())

/-- Full statement of C51. -/
def C51_full : Prop := Independent fun _ _ => True

section
variable {p : Printer} {b : Bundle} {fuel : Nat} {bm : BMod} (hbm : bm ∈ b.mods)
  (hnd : (b.defs.map Def.name).Nodup) (hg : ∀ d ∈ b.defs, GrammarDef d)
include hbm hnd hg

/-- Where no member is contended, the entries do not depend on the lists. -/
theorem same_telemetry (depth : Nat) :
    ∀ st st' d wc r, d ∈ b.defs → Tidy b.defs st → Tidy b.defs st' → Sourced b.defs wc d.name →
      (∀ m, Reached b.defs d.members m → ¬ Contended b.defs m) → telemetry p b fuel bm depth st d wc = .ok r →
      ∃ s, telemetry p b fuel bm depth st' d wc = .ok (r.1, s) ∧ Tidy b.defs r.2 ∧ Tidy b.defs s := by
  induction depth with
  | zero => intro st st' d wc r _ _ _ _ _ h; cases h
  | succ depth ih =>
    intro st st' d wc r hd hst hst' hw hno h
    cases d with
    | choice => cases h
    | enum => cases h
    | simple => cases h
    | seq n c all =>
      rw [telemetry] at h ⊢
      have hall : IsSequence b.defs n all := ⟨c, hd⟩
      have key : ∀ (l : List Member) (i : Nat) (st st' : Store) (r : List Entry × Store), all.drop i = l →
          Tidy b.defs st → Tidy b.defs st' →
          entriesFrom p b fuel bm (telemetry p b fuel bm depth) n wc st i l = .ok r →
          ∃ s, entriesFrom p b fuel bm (telemetry p b fuel bm depth) n wc st' i l = .ok (r.1, s) ∧
            Tidy b.defs r.2 ∧ Tidy b.defs s := by
        intro l
        induction l with
        | nil =>
          intro i st st' r _ h1 h2 h
          simp only [entriesFrom, Except.ok.injEq] at h ⊢
          subst h
          exact ⟨st', rfl, h1, h2⟩
        | cons m l ihl =>
          intro i st st' r hdrop hst hst' h
          have hget : all[i]? = some m := by rw [← List.head?_drop, hdrop]; rfl
          have hm := List.mem_of_getElem? hget
          have hdrop' : all.drop (i + 1) = l := by rw [← List.tail_drop, hdrop]; rfl
          simp only [entriesFrom, bind_ok] at h ⊢
          obtain ⟨shape, h1, r1, h2, r2, h3, h4⟩ := h
          have he := hst.extend hnd hw hall hget
          have he' := hst'.extend hnd hw hall hget
          have hi : st n i = st' n i := by
            rw [(hst n all i m hall hget).2 (hno m (.here hm)), (hst' n all i m hall hget).2 (hno m (.here hm))]
          have hstep : ∃ s1, (match shape with
              | .item c lo hi states =>
                makeEntry p m (specificValue wc m.key) c lo hi states >>= fun e =>
                  .ok ([e], extendStore st' n i (specificValue wc m.key))
              | .inner d => telemetry p b fuel bm depth (extendStore st' n i (specificValue wc m.key)) d
                  (innerComps (st' n i) (specificValue wc m.key))) = .ok (r1.1, s1) ∧ Tidy b.defs r1.2 ∧ Tidy b.defs s1 := by
            cases shape with
            | item c lo hi states =>
              simp only [bind_ok, Except.ok.injEq] at h2 ⊢
              obtain ⟨e, q1, rfl⟩ := h2
              exact ⟨_, ⟨e, q1, rfl⟩, he, he'⟩
            | inner d' =>
              simp only at h2 ⊢
              obtain ⟨hd', hdn⟩ := shapeOf_inner hbm h1
              have ht : UsesName m.type d'.name := (usesName_iff _ _).2 hdn.symm
              rw [← hi]
              refine ih _ _ d' _ r1 hd' he he' (sourced_innerComps hst hw hall hget ht) (fun k hk => hno k ?_) h2
              obtain ⟨n', c', inner, rfl, _⟩ := telemetry_yieldsAt hbm hnd hg depth _ _ _ _ hd' he
                (sourced_innerComps hst hw hall hget ht) h2
              exact .inside hm ht ⟨c', hd'⟩ hk
          obtain ⟨s1, q1, q2, q2'⟩ := hstep
          obtain ⟨s2, q3, q4⟩ := ihl (i + 1) r1.2 s1 r2 hdrop' q2 q2' h3
          cases h4
          exact ⟨s2, ⟨shape, h1, (r1.1, s1), q1, (r2.1, s2), q3, rfl⟩, q4⟩
      exact key all 0 st st' r rfl hst hst' h

end

/-- The block of one message, made from the clauses as parsed. -/
def blockOf (p : Printer) (b : Bundle) (fuel : Nat) (bm : BMod) (target : Text) (n : String) : Text :=
  match packets p b fuel bm target (initialStore b.defs) [n] with
  | .ok ts => ts.flatMap fun t => '\n' :: t
  | .error _ => []

/-- No clause competes for a member of the message. -/
def Uncontended (ds : List Def) (ms : List Member) : Prop := ∀ m, Reached ds ms m → ¬ Contended ds m

theorem packets_single {p : Printer} {b : Bundle} {fuel : Nat} {bm : BMod} {target : Text} {st : Store} {n : String}
    {pkts : List Text} (h : packets p b fuel bm target st [n] = .ok pkts) : ∃ t, pkts = [t] := by
  rw [packets] at h
  split at h
  · cases h
  · simp only [bind_ok, packets, Except.ok.injEq] at h
    obtain ⟨r, _, x, rfl, rfl⟩ := h
    exact ⟨_, rfl⟩

theorem packets_each {p : Printer} {b : Bundle} {fuel : Nat} {bm : BMod} (hbm : bm ∈ b.mods)
    (hnd : (b.defs.map Def.name).Nodup) (hg : ∀ d ∈ b.defs, GrammarDef d) {target : Text} : ∀ (ns : List String)
      (st : Store), Tidy b.defs st →
      (∀ pkts, packets p b fuel bm target st ns = .ok pkts →
        (∀ n ∈ ns, (∀ ms, MessageOf b bm.mod.name n ms → Uncontended b.defs ms) →
          ∃ pkts, packets p b fuel bm target (initialStore b.defs) [n] = .ok pkts) ∧
        All2 (fun n t => (∀ ms, MessageOf b bm.mod.name n ms → Uncontended b.defs ms) →
          '\n' :: t = blockOf p b fuel bm target n) ns pkts) ∧
      ((∀ n ∈ ns, (∀ ms, MessageOf b bm.mod.name n ms → Uncontended b.defs ms) ∧
          ∃ pkts, packets p b fuel bm target (initialStore b.defs) [n] = .ok pkts) →
        ∃ pkts, packets p b fuel bm target st ns = .ok pkts) := by
  intro ns
  induction ns with
  | nil =>
    intro st _
    refine ⟨fun pkts h => ⟨fun n hn => absurd hn (by simp), ?_⟩, fun _ => ⟨[], rfl⟩⟩
    cases h
    exact .nil
  | cons n ns ih =>
    intro st hst
    have hone : ∀ st st' : Store, Tidy b.defs st → Tidy b.defs st' →
        (∀ ms, MessageOf b bm.mod.name n ms → Uncontended b.defs ms) → ∀ d r, lastDef bm.mod.defs n = some d →
        telemetry p b fuel bm fuel st d .nil = .ok r →
        ∃ s, telemetry p b fuel bm fuel st' d .nil = .ok (r.1, s) ∧ Tidy b.defs s := by
      intro st st' h1 h2 hU d r hd ht
      obtain ⟨hdm, hdn⟩ := lastDef_some hd
      have hdb := mem_defs_of_bmod hbm hdm
      obtain ⟨n', c, ms, rfl, _⟩ := telemetry_yieldsAt hbm hnd hg fuel st d .nil r hdb h1 sourced_nil ht
      have hn : n' = n := hdn
      subst hn
      obtain ⟨s, k1, _, k3⟩ := same_telemetry hbm hnd hg fuel st st' _ .nil r hdb h1 h2 sourced_nil
        (hU ms ⟨bm.mod, List.mem_map.2 ⟨bm, hbm, rfl⟩, rfl, c, hdm⟩) ht
      exact ⟨s, k1, k3⟩
    constructor
    · intro pkts h
      rw [packets] at h
      split at h
      · cases h
      · rename_i d hd
        have hdb := mem_defs_of_bmod hbm (lastDef_some hd).1
        simp only [bind_ok, Except.ok.injEq] at h
        obtain ⟨r, h1, rest, h2, rfl⟩ := h
        obtain ⟨n', c, ms, rfl, _, k3⟩ := telemetry_yieldsAt hbm hnd hg fuel st d .nil r hdb hst sourced_nil h1
        obtain ⟨g1, g2⟩ := (ih r.2 k3).1 rest h2
        have hsingle : (∀ ms, MessageOf b bm.mod.name n ms → Uncontended b.defs ms) →
            packets p b fuel bm target (initialStore b.defs) [n] = .ok [packetText p target
              (match (Def.seq n' c ms).comment with | none => [] | some c => c.text.toList)
              (Def.seq n' c ms).name.toList r.1] := by
          intro hU
          obtain ⟨s, q1, _⟩ := hone st _ hst (tidy_initial hnd) hU _ r hd h1
          rw [packets, hd]
          simp only [q1, packets, bind, Except.bind]
          cases c <;> rfl
        refine ⟨fun x hx hU => ?_, .cons (fun hU => ?_) g2⟩
        · rcases List.mem_cons.1 hx with rfl | hx
          · exact ⟨_, hsingle hU⟩
          · exact g1 x hx hU
        · unfold blockOf
          rw [hsingle hU]
          cases c <;> simp [Def.comment]
    · intro h
      obtain ⟨hU, pk, h1⟩ := h n (List.Mem.head _)
      rw [packets] at h1
      split at h1
      · cases h1
      · rename_i d hd
        have hdb := mem_defs_of_bmod hbm (lastDef_some hd).1
        simp only [bind_ok, Except.ok.injEq] at h1
        obtain ⟨r, h1, _⟩ := h1
        obtain ⟨s, q1, q2⟩ := hone _ st (tidy_initial hnd) hst hU d r hd h1
        obtain ⟨rest, h2⟩ := (ih s q2).2 fun x hx => h x (.tail _ hx)
        rw [packets, hd]
        simp only [q1, h2, bind, Except.bind]
        exact ⟨_, rfl⟩

theorem generate_iff {fuel : Nat} {p : Printer} {b : Bundle} {module : String} {bm : BMod}
    (hne : b.mods ≠ []) (hm : b.getModule module = some bm) {target out : Text} (messages : List String) :
    ((generateCosmos fuel p b module messages target out).result = .ok () ↔
      (∀ n ∈ messages, n ∈ bm.mod.defs.map Def.name) ∧
      ∃ pkts, packets p b fuel bm target (initialStore b.defs) messages = .ok pkts) ∧
    ∀ pkts, (generateCosmos fuel p b module messages target out).result = .ok () →
      packets p b fuel bm target (initialStore b.defs) messages = .ok pkts →
      ∀ fs, Adds fs ((generateCosmos fuel p b module messages target out).apply fs)
        (joinPath out (target ++ ".txt".toList)) (cosmosText pkts) := by
  have hany : messages.any (fun n => !(bm.mod.defs.map Def.name).contains n) = false ↔
      ∀ n ∈ messages, n ∈ bm.mod.defs.map Def.name := by
    simp only [List.any_eq_false, Bool.not_eq_true', Bool.not_eq_false, List.contains_iff_mem]
  simp only [generateCosmos, hne, if_false, hm]
  rw [← hany]
  cases messages.any (fun n => !(bm.mod.defs.map Def.name).contains n) with
  | true => simp
  | false =>
    simp only [Bool.false_eq_true, if_false]
    cases packets p b fuel bm target (initialStore b.defs) messages with
    | error e => simp
    | ok pkts =>
      refine ⟨by simp, fun pkts' _ h fs => ?_⟩
      cases h
      exact adds_run _ _ _

theorem all2_blocks {α : Type} {R : α → Text → Prop} {l : List α} {ts : List Text}
    (h : All2 (fun a t => R a ('\n' :: t)) l ts) : All2 R l (ts.map fun t => '\n' :: t) := h.map_right

/-- **C51, partial.** The packet of a message with no contended member does not depend on which
other messages are asked for, and neither does success; no matter what clauses the other
messages have. Missing: messages with members that have a clause and are reached by another. -/
theorem C51_independent_partial : Independent Uncontended := by
  intro raw b hi fuel p module target out ht
  have hs := accepted_sized hi
  have hpath : joinPath out (target ++ ".txt".toList) = cosmosPath out target := by
    refine joinPath_eq out ?_
    cases target with
    | nil => exact absurd rfl ht.1.1
    | cons c cs => exact ht.2
  unfold runCosmos
  rw [hi.accepted]
  by_cases hok : b.mods ≠ [] ∧ ∃ bm, b.getModule module = some bm
  · obtain ⟨hne, bm, hm⟩ := hok
    obtain ⟨hbm, rfl⟩ := getModule_some hm
    refine ⟨"# This file was autogenerated from ASN.1 model.\n".toList, blockOf p b fuel bm target,
      fun messages _ => ?_⟩
    obtain ⟨h1, h2⟩ := packets_each (p := p) (fuel := fuel) (target := target) hbm hs.nodup hs.grammar messages _
      (tidy_initial hs.nodup)
    obtain ⟨h3, h4⟩ := generate_iff (fuel := fuel) (p := p) (target := target) (out := out) hne hm messages
    constructor
    · intro hr
      obtain ⟨ha, pkts, hpk⟩ := h3.1 hr
      obtain ⟨g1, g2⟩ := h1 pkts hpk
      refine ⟨fun n hn hU => ((generate_iff hne hm [n]).1).2
          ⟨fun x hx => by rw [List.mem_singleton.1 hx]; exact ha n hn, g1 n hn hU⟩,
        pkts.map (fun t => '\n' :: t), all2_blocks g2, fun fs => ?_⟩
      have := h4 pkts hr hpk fs
      rw [hpath] at this
      unfold cosmosText at this
      rw [List.flatMap_def] at this
      exact this
    · intro h
      exact h3.2 ⟨fun n hn => (((generate_iff hne hm [n]).1).1 (h n hn).2).1 n (List.Mem.head _),
        h2 fun n hn => ⟨(h n hn).1, (((generate_iff hne hm [n]).1).1 (h n hn).2).2⟩⟩
  · have hno : ∀ messages : List String, messages ≠ [] →
        (generateCosmos fuel p b module messages target out).result ≠ .ok () := by
      intro messages hm
      unfold generateCosmos
      by_cases hne : b.mods = []
      · simp [hne]
      · cases hg : b.getModule module with
        | none => simp [hne, hm]
        | some bm => exact absurd ⟨hne, bm, hg⟩ hok
    refine ⟨[], fun _ => [], fun messages hm => ⟨fun h => absurd h (hno _ hm), fun h => ?_⟩⟩
    obtain ⟨n, hn⟩ := List.exists_mem_of_ne_nil _ hm
    exact absurd (h n hn).2 (hno _ (by simp))

/-- Separate clauses compete for no member. -/
theorem Spec.Separate.uncontended {ds : List Def} (hsep : Separate ds) (ms : List Member) : Uncontended ds ms :=
  fun m _ => hsep.not_contended m

/-- Two messages that fix a member of a header which has a default for another member. -/
def exShared : List Module :=
  [{ name := "base", defs := [
      .seq "Inner" none [⟨"j", intType 0 7, none, none⟩, ⟨"k", intType 0 7, none, none⟩],
      .seq "Header" none [⟨"inner", .plain "Inner" none none, none, some (.leaf "j" (.int 0) .nil)⟩],
      .seq "Ping" none [⟨"header", .plain "Header" none none, none,
        some (.node "inner" (.leaf "k" (.int 1) .nil) .nil)⟩],
      .seq "Pong" none [⟨"header", .plain "Header" none none, none,
        some (.node "inner" (.leaf "k" (.int 2) .nil) .nil)⟩]] }]

theorem all2_single {R : String → Text → Prop} {n : String} {l : List Text} (h : All2 R [n] l) : ∃ t, l = [t] ∧ R n t := by
  cases h with
  | cons h1 h2 => cases h2; exact ⟨_, rfl, h1⟩

/-- It fails: after `Ping`, the packet of `Pong` has no value for `k`. -/
theorem C51_full_false : ¬ C51_full := by
  intro hf
  obtain ⟨first, block, h⟩ := hf exShared _ (sources_of (by decide +kernel) (by decide +kernel) (by decide +kernel))
    20 exPrinter "base" "SAT".toList exOut exTlm_target
  obtain ⟨_, b1, q1, h1⟩ := (h ["Ping"] (by simp)).1 (by decide +kernel)
  obtain ⟨_, b2, q2, h2⟩ := (h ["Pong"] (by simp)).1 (by decide +kernel)
  obtain ⟨_, b3, q3, h3⟩ := (h ["Ping", "Pong"] (by simp)).1 (by decide +kernel)
  obtain ⟨t1, rfl, e1⟩ := all2_single q1
  obtain ⟨t2, rfl, e2⟩ := all2_single q2
  have e1 := e1 fun _ _ => trivial
  have e2 := e2 fun _ _ => trivial
  cases q3 with
  | cons a q3 =>
    obtain ⟨t4, rfl, e4⟩ := all2_single q3
    have e3 := a fun _ _ => trivial
    have e4 := e4 fun _ _ => trivial
    have h1 := newText_eq h1
    have h2 := newText_eq h2
    have h3 := newText_eq h3
    rw [e1] at h1
    rw [e2] at h2
    rw [e3, e4] at h3
    have hl : ∀ t t' t'' : Text, t = first ++ [block "Ping"].flatten → t' = first ++ [block "Pong"].flatten →
        t'' = first ++ [block "Ping", block "Pong"].flatten → (t''.drop t.length).isSuffixOf t' = true := by
      rintro _ _ _ rfl rfl rfl
      simp only [List.flatten_cons, List.flatten_nil, List.append_nil]
      rw [← List.append_assoc, List.drop_left, List.isSuffixOf_iff_suffix]
      exact List.suffix_append _ _
    exact absurd (hl _ _ _ h1 h2 h3) (by decide +kernel)

/-- The theorem applies to the example of the other COSMOS properties. -/
example : ∃ first block, ∀ messages : List String, messages ≠ [] →
    (∀ n ∈ messages, n = "Packet" ∨ n = "Switch" ∨ n = "Pair") →
    newText (runCosmos 20 exPrinter exTlm "tlm" messages "SAT".toList exOut) (cosmosPath exOut "SAT".toList) =
      first ++ (messages.map block).flatten := by
  obtain ⟨first, block, h⟩ := C51_independent_partial exTlm _ exTlm_sources 20 exPrinter "tlm"
    "SAT".toList exOut exTlm_target
  refine ⟨first, block, fun messages hm hn => ?_⟩
  obtain ⟨h0, blocks, h1, h2⟩ := (h messages hm).1 ((h messages hm).2 fun n hx =>
    ⟨fun ms _ => exTlm_separate.uncontended ms, by rcases hn n hx with rfl | rfl | rfl <;> decide +kernel⟩)
  rw [newText_eq h2]
  congr 2
  clear h2 hn hm h0
  induction h1 with
  | nil => rfl
  | cons h1 _ ih => rw [List.map_cons, ← ih, h1 fun ms _ => exTlm_separate.uncontended ms]

/-! ### A message without contended members beside messages with such -/

/-- The list has all clauses that are given for types. -/
def clausesB (ds : List Def) (L : List (Comps × String)) : Bool :=
  ds.all fun
    | .seq n _ ms => ms.all fun m =>
        (match m.comps with
          | none => true
          | some c => L.contains (c, m.type.name)) &&
        L.all fun x => x.2 != n || (x.1.values m.key).all fun
          | .node c => L.contains (c, m.type.name)
          | _ => true
    | _ => true

theorem clausesB_sound {ds : List Def} {L : List (Comps × String)} (h : clausesB ds L = true) {c : Comps} {n : String}
    (hc : ClauseOn ds c n) : (c, n) ∈ L := by
  induction hc with
  | own h1 h2 h3 h4 =>
    obtain ⟨_, h1⟩ := h1
    have := List.all_eq_true.1 h _ h1
    have := (Bool.and_eq_true _ _ |>.mp (List.all_eq_true.1 this _ h2)).1
    rw [h3] at this
    rw [usesName_iff] at h4
    rw [← h4]
    simpa using this
  | inner h1 h2 h3 h4 h5 ih =>
    obtain ⟨_, h2⟩ := h2
    have := List.all_eq_true.1 h _ h2
    have := (Bool.and_eq_true _ _ |>.mp (List.all_eq_true.1 this _ h3)).2
    have := List.all_eq_true.1 this _ ih
    simp only [bne_self_eq_false, Bool.false_or] at this
    have := List.all_eq_true.1 this _ (hasNode_iff.1 h4)
    rw [usesName_iff] at h5
    rw [← h5]
    simpa using this

/-- Members with a clause that another reaches. -/
def contendedB (ds : List Def) (L : List (Comps × String)) (m : Member) : Bool :=
  m.comps.isSome && ds.any fun
    | .seq n _ ms => ms.contains m && L.any fun x => x.2 == n && !(x.1.values m.key).isEmpty
    | _ => false

theorem contendedB_sound {ds : List Def} {L : List (Comps × String)} (hL : clausesB ds L = true) {m : Member}
    (h : contendedB ds L m = false) : ¬ Contended ds m := by
  rintro ⟨h1, n, ms, c, c', ⟨_, h2⟩, h3, h4, h5⟩
  have h4 := clausesB_sound hL h4
  have h5 := hasNode_iff.1 h5
  refine absurd h ?_
  rw [Bool.not_eq_false]
  unfold contendedB
  rw [Bool.and_eq_true, List.any_eq_true]
  refine ⟨Option.isSome_iff_ne_none.2 h1, _, h2, ?_⟩
  simp only [Bool.and_eq_true, List.any_eq_true]
  refine ⟨List.contains_iff_mem.2 h3, _, h4, beq_self_eq_true _, ?_⟩
  cases hv : c.values m.key with
  | nil => rw [hv] at h5; cases h5
  | cons => rfl

def exMixedInner : Member := ⟨"inner", .plain "Inner" none none, none, some (.leaf "j" (.int 0) .nil)⟩

def exMixedTag : Member := ⟨"tag", .plain "Inner" none none, none, some (.leaf "j" (.int 3) .nil)⟩

def exMixedHeader (v : Int) : Member :=
  ⟨"header", .plain "Header" none none, none, some (.node "inner" (.leaf "k" (.int v) .nil) .nil)⟩

/-- As `exShared`, with a second member of the header and a message of its own. -/
def exMixed : List Module :=
  [{ name := "base", defs := [
      .seq "Inner" none [⟨"j", intType 0 7, none, none⟩, ⟨"k", intType 0 7, none, none⟩],
      .seq "Header" none [exMixedInner, exMixedTag],
      .seq "Ping" none [exMixedHeader 1],
      .seq "Pong" none [exMixedHeader 2],
      .seq "Tick" none [⟨"own", .plain "Inner" none none, none, some (.leaf "k" (.int 4) .nil)⟩]] }]

def exMixedClauses : List (Comps × String) :=
  [(.leaf "j" (.int 0) .nil, "Inner"), (.leaf "j" (.int 3) .nil, "Inner"), (.leaf "k" (.int 4) .nil, "Inner"),
    (.node "inner" (.leaf "k" (.int 1) .nil) .nil, "Header"), (.leaf "k" (.int 1) .nil, "Inner"),
    (.node "inner" (.leaf "k" (.int 2) .nil) .nil, "Header"), (.leaf "k" (.int 2) .nil, "Inner")]

theorem exMixed_clauses : clausesB (okBundle (buildFromTexts exMixed)).defs exMixedClauses = true := by decide +kernel

/-- `Tick` has no contended member, and the leaf `tag.j` of `Ping` and `Pong` is clear, although `inner` is
contended: `tag.j` identifies both packets, and `Tick` always has the same block. -/
example : Contended (okBundle (buildFromTexts exMixed)).defs exMixedInner ∧
    (∀ ms, MessageOf (okBundle (buildFromTexts exMixed)) "base" "Tick" ms →
      Uncontended (okBundle (buildFromTexts exMixed)).defs ms) ∧
    (∀ v ∈ [1, 2], Clear (okBundle (buildFromTexts exMixed)).defs
      [exMixedHeader v, exMixedTag, ⟨"j", intType 0 7, none, none⟩]) ∧
    (readCosmos (newText (runCosmos 20 exPrinter exMixed "base" ["Ping", "Pong", "Tick"] "SAT".toList exOut)
        (cosmosPath exOut "SAT".toList))).map (fun x => x.items.map fun it => it.value.map String.ofList) =
      [[["0"], ["1"], ["3"], []], [["0"], [], ["3"], []], [[], ["4"]]] := by
  have hsrc : Sources exMixed (okBundle (buildFromTexts exMixed)) :=
    sources_of (by decide +kernel) (by decide +kernel) (by decide +kernel)
  have hno : ∀ m : Member, contendedB (okBundle (buildFromTexts exMixed)).defs exMixedClauses m = false →
      ¬ Contended (okBundle (buildFromTexts exMixed)).defs m := fun m => contendedB_sound exMixed_clauses
  refine ⟨⟨by simp [exMixedInner], "Header", [exMixedInner, exMixedTag], _, _,
    ⟨none, List.mem_of_getElem? (i := 1) (by decide +kernel)⟩, List.Mem.head _,
    .own (n := "Ping") (ms := [exMixedHeader 1]) ⟨none, List.mem_of_getElem? (i := 2) (by decide +kernel)⟩
      (List.Mem.head _) rfl .plain, .here⟩,
    fun ms hm m hr => ?_, fun v hv => ?_, by decide +kernel⟩
  · have := message_eq hsrc hm (c := none)
      (ms' := [⟨"own", .plain "Inner" none none, none, some (.leaf "k" (.int 4) .nil)⟩])
      (List.mem_of_getElem? (i := 4) (by decide +kernel))
    subst this
    cases hr with
    | here h =>
      cases List.mem_singleton.1 h
      exact hno _ (by decide +kernel)
    | inside h hu hs hr =>
      cases List.mem_singleton.1 h
      cases hu
      have := isSequence_unique (accepted_sized hsrc).nodup hs
        (ms' := [⟨"j", intType 0 7, none, none⟩, ⟨"k", intType 0 7, none, none⟩])
        ⟨none, List.mem_of_getElem? (i := 0) (by decide +kernel)⟩
      subst this
      have hnone : ∀ m, m.comps = none → ¬ Contended (okBundle (buildFromTexts exMixed)).defs m :=
        fun m h hc => hc.1 h
      cases hr with
      | here h =>
        refine hnone _ ?_
        simp only [List.mem_cons, List.not_mem_nil, or_false] at h
        rcases h with rfl | rfl <;> rfl
      | @inside _ _ n _ _ h hu hs hr =>
        exfalso
        have hu : n = "INTEGER" := by
          simp only [List.mem_cons, List.not_mem_nil, or_false] at h
          rcases h with rfl | rfl <;> cases hu <;> rfl
        subst hu
        obtain ⟨c, hs⟩ := hs
        exact builtin_not_def (accepted_sized hsrc).grammar (n := "INTEGER") (by decide) _ hs rfl
  · refine clear_cons.2 ⟨?_, fun c' hc => ?_, clear_cons.2 ⟨hno _ (by decide +kernel), fun c' hc => ?_,
      clear_cons.2 ⟨fun h => h.1 rfl, fun c' hc => (by cases hc), ⟨fun x hx => absurd hx (by simp), fun pre x post c he _ => absurd he (by simp)⟩⟩⟩⟩
    · simp only [List.mem_cons, List.not_mem_nil, or_false] at hv
      rcases hv with rfl | rfl <;> exact hno _ (by decide +kernel)
    · cases hc
      refine ⟨by simp [compKeys, exMixedTag], fun c' h => ?_⟩
      rw [hasNode_iff] at h
      simp [Comps.values, exMixedTag] at h
    · cases hc
      exact ⟨by decide, fun c' h => (by cases h with | afterLeaf h => cases h)⟩

end Apg
