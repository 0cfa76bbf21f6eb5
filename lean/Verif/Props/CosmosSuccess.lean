import Verif.Lemmas.CosmosSuccess
import Verif.Lemmas.CosmosRun
import Verif.Props.CosmosLookup
import Verif.Props.Independent
import Verif.Props.Success

/-!
# Property C65: which messages generate-cosmos can print
-/

namespace Apg
open Spec

theorem accepted_itemEnv {raw : List Module} {b : Bundle} (hi : Sources raw b) : ItemEnv b.defs :=
  have h := accepted_sizeEnv hi.grammar hi.accepted
  ⟨h.nodup, fun d hd => (accepted_grammar hi.grammar hi.accepted d hd).1, h.simples, h.seqs⟩

theorem reached_sound {ds : List Def} (he : ItemEnv ds) {l : List Member} {k : Member} (h : Reached ds l k)
    (hl : ∀ x ∈ l, SoundType x.type) : SoundType k.type := by
  induction h with
  | here h => exact hl _ h
  | inside _ _ h3 _ ih =>
    obtain ⟨c, h3⟩ := h3
    exact ih fun x hx => he.seqs _ _ _ h3 x hx

theorem telemetry_printable {p : Printer} {b : Bundle} (hlk : Linked b) (he : ItemEnv b.defs) {fuel : Nat}
    {bm : BMod} (hbm : bm ∈ b.mods) {st : Store} (hst : Tidy b.defs st) {d : Def} (hd : d ∈ b.defs)
    (hc : ∀ n c l, d = .seq n c l → ClearIds b.defs l)
    {r : List Entry × Store} (h : telemetry p b fuel bm fuel st d .nil = .ok r) :
    (∃ n c l, d = .seq n c l ∧ Printable b.modules bm.mod l) ∧ Tidy b.defs r.2 := by
  obtain ⟨n, c, l, rfl, ⟨ls, k1, k2⟩, k3⟩ :=
    telemetry_yieldsAt hbm he.nodup he.grammar fuel st d .nil r hd hst sourced_nil h
  refine ⟨⟨n, c, l, rfl, ?_⟩, k3⟩
  unfold Printable
  rw [defsOf_eq]
  refine ⟨⟨ls, k1, fun path hp => ?_⟩, ?_⟩
  · obtain ⟨e, _, k, s, c, lo, hi, states, g1, g2, g3, g4, g5⟩ := all2_mem_left k2 hp
    obtain ⟨c', rfl, g6⟩ := makeEntry_ok g4
    have hr := leaves_reached k1 path hp k g1
    have hs : SoundType k.type := reached_sound he hr (he.seqs _ _ _ hd)
    refine ⟨k, g1, g3.listed he hs (member_grammar he.grammar g2).2.1 ⟨c', _, _, rfl, g6.bits, g6.range⟩, ?_⟩
    intro hk ht
    obtain ⟨v, rfl, hv⟩ := specificText_apid g6.specific hk ht
    refine ⟨v, ?_, hv⟩
    rcases ((g5 (hc n _ l rfl ls k1 path hp k g1 hk ht) (once_nil _)).2 v).1 rfl with h | h
    · cases h
    · exact h
  · rintro ⟨k, n', hr, hu, d', hd', hn'⟩
    obtain ⟨s, hs⟩ := telemetry_shapes hbm he fuel st _ .nil r hd h k hr
    rw [usesName_iff] at hu
    have hgk := member_grammar he.grammar (reached_member hr fun x hx => ⟨_, hd, hx⟩)
    rw [shapeOf_named he hgk.2.1 hd' (hu.trans hn'.symm), bind_ok] at hs
    obtain ⟨x, hx, _⟩ := hs
    unfold getDefinition at hx
    rw [bind_ok] at hx
    obtain ⟨ds, hds, _⟩ := hx
    exact defsRecurs_ends hlk fuel bm hbm ds hds

theorem packets_printable {p : Printer} {b : Bundle} (hlk : Linked b) (he : ItemEnv b.defs) {fuel : Nat}
    {bm : BMod} (hbm : bm ∈ b.mods) {target : Text} :
    ∀ (ns : List String) (st : Store) (pkts : List Text),
      (∀ n ∈ ns, ∀ l, IsSequence bm.mod.defs n l → ClearIds b.defs l) →
      Tidy b.defs st → packets p b fuel bm target st ns = .ok pkts →
      ∀ n ∈ ns, ∃ l, IsSequence bm.mod.defs n l ∧ Printable b.modules bm.mod l := by
  intro ns
  induction ns with
  | nil => intro st pkts _ _ _ n hn; cases hn
  | cons n ns ih =>
    intro st pkts hc hst h
    rw [packets] at h
    split at h
    · cases h
    · rename_i d hd
      obtain ⟨h1, h2⟩ := lastDef_some hd
      simp only [bind_ok, Except.ok.injEq] at h
      obtain ⟨r, h3, rest, h4, rfl⟩ := h
      obtain ⟨⟨n', c, l, rfl, k1⟩, k2⟩ := telemetry_printable hlk he hbm hst (mem_defs_of_bmod hbm h1)
        (fun n' c l hdl => hc n (List.Mem.head _) l ⟨c, by
          subst hdl
          cases h2
          exact h1⟩) h3
      intro x hx
      rcases List.mem_cons.1 hx with rfl | hx
      · cases h2
        exact ⟨l, ⟨c, h1⟩, k1⟩
      · exact ih r.2 rest (fun y hy => hc y (List.Mem.tail _ hy)) k2 h4 x hx

theorem printable_telemetry (p : Printer) {b : Bundle} (hlk : Linked b) (he : ItemEnv b.defs)
    {bm : BMod} (hbm : bm ∈ b.mods)
    (hmod : ∀ m' ∈ b.modules, ∀ d ∈ m'.defs, ImportsFrom b.modules bm.mod m' → Findable b bm d.members)
    {n : String} {c : Option Comment} {l : List Member} (hd : Def.seq n c l ∈ bm.mod.defs)
    (hc : ClearIds b.defs l) (h : Printable b.modules bm.mod l) :
    ∃ N, ∀ fuel, N ≤ fuel → ∀ st, Tidy b.defs st →
      ∃ r, telemetry p b fuel bm fuel st (.seq n c l) .nil = .ok r := by
  unfold Printable at h
  rw [defsOf_eq] at h
  obtain ⟨⟨ls, h1, h2⟩, h3⟩ := h
  obtain ⟨N1, hN1⟩ := entriesFrom_succeeds (p := p) hbm he h1
  have hdb := mem_defs_of_bmod hbm hd
  have hfind : Findable b bm l := hmod bm.mod (List.mem_map.2 ⟨bm, hbm, rfl⟩) _ hd .refl
  have hlook : ∃ N2, ∀ fuel, N2 ≤ fuel → ∀ k, Reached b.defs l k → ∀ d ∈ b.defs, d.name = k.type.name →
      getDefinition b fuel k.type.name bm = .ok d := by
    by_cases hex : ∃ k n, Reached b.defs l k ∧ UsesName k.type n ∧ ∃ d ∈ b.defs, d.name = n
    · obtain ⟨N2, hN2⟩ := importsEnd_defsRecurs hlk (h3 hex) bm hbm rfl
      refine ⟨N2, fun fuel hf k hk d hd hn => ?_⟩
      rcases reached_findable he hmod hk hfind k.type.name ((usesName_iff _ _).2 rfl) with hb | ⟨m', g1, g2, d', g3, g4⟩
      · refine absurd hn (builtin_not_def he.grammar ?_ _ hd)
        rcases hb with hb | hb | hb | hb | hb <;> rw [hb] <;> decide
      · exact getDefinition_ok hlk he.nodup hbm g1 g2 g3 g4 (hN2 fuel hf _) d hd hn
    · exact ⟨0, fun fuel _ k hk d hd hn => absurd ⟨k, _, hk, (usesName_iff _ _).2 rfl, d, hd, hn⟩ hex⟩
  obtain ⟨N2, hN2⟩ := hlook
  refine ⟨max (N1 + 1) N2, fun fuel hf st hst => ?_⟩
  obtain ⟨f, rfl⟩ : ∃ f, fuel = f + 1 := ⟨fuel - 1, by omega⟩
  rw [telemetry]
  refine hN1 (f + 1) f n l 0 .nil st (by omega) ⟨c, hdb⟩ rfl hst sourced_nil
    (fun path hp => ?_) (hN2 (f + 1) (by omega))
  obtain ⟨k, g1, g2, g3⟩ := h2 path hp
  refine ⟨k, g1, g2, fun hk ht => ?_⟩
  obtain ⟨v, hv, hw⟩ := g3 hk ht
  exact ⟨hc ls h1 path hp k g1 hk ht, once_nil _, v, .inr hv, hw⟩

theorem printable_packets (p : Printer) {b : Bundle} (hlk : Linked b) (he : ItemEnv b.defs)
    {bm : BMod} (hbm : bm ∈ b.mods) (target : Text)
    (hmod : ∀ m' ∈ b.modules, ∀ d ∈ m'.defs, ImportsFrom b.modules bm.mod m' → Findable b bm d.members)
    (hnd : (bm.mod.defs.map Def.name).Nodup) :
    ∀ ns : List String, (∀ n ∈ ns, ∀ l, IsSequence bm.mod.defs n l → ClearIds b.defs l) →
      (∀ n ∈ ns, ∃ l, IsSequence bm.mod.defs n l ∧ Printable b.modules bm.mod l) →
      ∃ N, ∀ fuel, N ≤ fuel → ∀ st, Tidy b.defs st →
        ∃ pkts, packets p b fuel bm target st ns = .ok pkts := by
  intro ns
  induction ns with
  | nil => exact fun _ _ => ⟨0, fun _ _ _ _ => ⟨_, rfl⟩⟩
  | cons n ns ih =>
    intro hc h
    obtain ⟨N, hN⟩ := ih (fun x hx => hc x (List.Mem.tail _ hx)) fun x hx => h x (List.Mem.tail _ hx)
    obtain ⟨l, ⟨c, hd⟩, hp⟩ := h n (List.Mem.head _)
    have hcl := hc n (List.Mem.head _) l ⟨c, hd⟩
    obtain ⟨M, hM⟩ := printable_telemetry p hlk he hbm hmod hd hcl hp
    refine ⟨max N M, fun fuel hf st hst => ?_⟩
    obtain ⟨r, h1⟩ := hM fuel (by omega) st hst
    obtain ⟨rest, h2⟩ := hN fuel (by omega) r.2
      (telemetry_printable hlk he hbm hst (mem_defs_of_bmod hbm hd)
        (fun _ _ _ he => by cases he; exact hcl) h1).2
    rw [packets, (lastDef_eq_some_iff hnd n _).2 ⟨hd, rfl⟩]
    simp only [h1, h2, bind, Except.bind]
    exact ⟨_, rfl⟩

/-- **C65.** Modules with different names, and messages in which at most one clause reaches each
application id: with enough stack generate-cosmos succeeds exactly if there is a module and each
requested message is a sequence of the requested module that can be printed. -/
theorem C65_printable_messages (p : Printer) (raw : List Module) (b : Bundle) (module : String)
    (messages : List String) (target out : Text) (hi : Sources raw b) (hn : (raw.map (·.name)).Nodup)
    (hc : ∀ m ∈ b.modules, m.name = module → ∀ n ∈ messages, ∀ l, IsSequence m.defs n l → ClearIds b.defs l) :
    ((∃ fuel, (runCosmos fuel p raw module messages target out).result = .ok ()) ↔
      b.modules ≠ [] ∧ ∀ n ∈ messages, ∃ m ∈ b.modules, m.name = module ∧
        ∃ l, IsSequence m.defs n l ∧ Printable b.modules m l) ∧
    ((∃ fuel, (runCosmos fuel p raw module messages target out).result = .ok ()) →
      ∃ N, ∀ fuel, N ≤ fuel → (runCosmos fuel p raw module messages target out).result = .ok ()) := by
  have he := accepted_itemEnv hi
  have hlk := accepted_linked hn hi.accepted
  have hrun : ∀ fuel, runCosmos fuel p raw module messages target out =
      generateCosmos fuel p b module messages target out := by
    intro fuel
    unfold runCosmos
    rw [hi.accepted]
  simp only [hrun]
  have fwd : ∀ fuel, (generateCosmos fuel p b module messages target out).result = .ok () →
      b.modules ≠ [] ∧ ∀ n ∈ messages, ∃ m ∈ b.modules, m.name = module ∧
        ∃ l, IsSequence m.defs n l ∧ Printable b.modules m l := by
    intro fuel h
    unfold generateCosmos at h
    simp only at h
    split at h
    · cases h
    · rename_i h0
      refine ⟨by simpa [Bundle.modules] using h0, ?_⟩
      split at h
      · split at h
        · rename_i hm; subst hm; intro n hn; cases hn
        · cases h
      · rename_i bm hbm
        obtain ⟨k1, k2⟩ := getModule_some hbm
        split at h
        · cases h
        · split at h
          · cases h
          · rename_i pkts hpk
            intro n hn
            exact ⟨bm.mod, List.mem_map.2 ⟨bm, k1, rfl⟩, k2,
              packets_printable hlk he k1 messages _ pkts (hc bm.mod (List.mem_map.2 ⟨bm, k1, rfl⟩) k2)
                (tidy_initial he.nodup) hpk n hn⟩
  have bwd : (b.modules ≠ [] ∧ ∀ n ∈ messages, ∃ m ∈ b.modules, m.name = module ∧
        ∃ l, IsSequence m.defs n l ∧ Printable b.modules m l) →
      ∃ N, ∀ fuel, N ≤ fuel → (generateCosmos fuel p b module messages target out).result = .ok () := by
    rintro ⟨h0, h⟩
    have h0' : b.mods ≠ [] := by simpa [Bundle.modules] using h0
    unfold generateCosmos
    simp only [h0', if_false]
    cases hbm : b.getModule module with
    | none =>
      cases messages with
      | nil => exact ⟨0, fun _ _ => by simp⟩
      | cons n ns =>
        exfalso
        obtain ⟨m, hm, hmn, _⟩ := h n (List.Mem.head _)
        obtain ⟨bm, h1, rfl⟩ := List.mem_map.1 hm
        unfold Bundle.getModule at hbm
        have := List.find?_eq_none.1 hbm bm h1
        simp [hmn] at this
    | some bm =>
      obtain ⟨k1, k2⟩ := getModule_some hbm
      have hall : ∀ n ∈ messages, ∃ l, IsSequence bm.mod.defs n l ∧ Printable b.modules bm.mod l := by
        intro n hn
        obtain ⟨m, hm, hmn, hl⟩ := h n hn
        obtain rfl := mem_unique_of_nodup_map hlk.nodup hm (List.mem_map.2 ⟨bm, k1, rfl⟩ : bm.mod ∈ b.modules)
          (hmn.trans k2.symm)
        exact hl
      have hnd : (bm.mod.defs.map Def.name).Nodup := by
        have h1 : (b.modules.flatMap (·.defs) |>.map Def.name).Nodup := he.nodup
        have h2 := (List.pairwise_map.1 h1)
        rw [List.pairwise_flatMap] at h2
        exact List.pairwise_map.2 (h2.1 bm.mod (List.mem_map.2 ⟨bm, k1, rfl⟩))
      obtain ⟨N, hN⟩ := printable_packets p hlk he k1 target
        (fun m' hm' d hd him => accepted_findable hn hi.accepted m' hm' d hd him) hnd messages
        (hc bm.mod (List.mem_map.2 ⟨bm, k1, rfl⟩) k2) hall
      refine ⟨N, fun fuel hf => ?_⟩
      obtain ⟨pkts, hp⟩ := hN fuel hf _ (tidy_initial he.nodup)
      simp only [hp]
      rw [if_neg]
      simp only [List.any_eq_true, not_exists, not_and, Bool.not_eq_true]
      intro n hn
      obtain ⟨l, ⟨c, hl⟩, _⟩ := hall n hn
      simp only [Bool.not_eq_eq_eq_not, Bool.not_false, List.contains_iff_mem]
      exact List.mem_map.2 ⟨_, hl, rfl⟩
  refine ⟨⟨fun ⟨fuel, h⟩ => fwd fuel h, fun h => ?_⟩, fun ⟨fuel, h⟩ => bwd (fwd fuel h)⟩
  obtain ⟨N, hN⟩ := bwd h
  exact ⟨N, hN N (Nat.le_refl _)⟩

/-- Separate clauses are enough. -/
theorem Spec.Separate.clearIds {b : Bundle} (h : Separate b.defs) {m : Module} (hm : m ∈ b.modules) {n : String}
    {l : List Member} (hs : IsSequence m.defs n l) : ClearIds b.defs l := by
  intro ls hl path hp k _ _ _
  exact h.clear_message ⟨m, hm, rfl, hs⟩ hl path hp

/-- So is that there are no application ids. -/
theorem clearIds_of_none {b : Bundle} (h : ∀ d ∈ b.defs, ∀ k ∈ d.members, k.key ≠ apidKey) {m : Module}
    (hm : m ∈ b.modules) {n : String} {l : List Member} (hs : IsSequence m.defs n l) : ClearIds b.defs l := by
  intro ls hl path hp k hk ha _
  obtain ⟨c, hs⟩ := hs
  obtain ⟨d, hd, hkd⟩ := reached_member (leaves_reached hl path hp k hk)
    fun x hx => ⟨_, List.mem_flatMap.2 ⟨m, hm, hs⟩, hx⟩
  exact absurd ha (h d hd k hkd)

/-! ### Examples -/

/-- The telemetry with clauses and application ids can be printed with every stack that is large
enough. -/
example (p : Printer) : ∃ N, ∀ fuel, N ≤ fuel →
    (runCosmos fuel p exTlm "tlm" ["Packet", "Switch"] "SAT".toList exOut).result = .ok () := by
  have h := fun p => C65_printable_messages p exTlm _ "tlm" ["Packet", "Switch"] "SAT".toList exOut
    exTlm_sources (by decide) (fun _ hm _ _ _ _ hs => exTlm_separate.clearIds hm hs)
  exact (h p).2 ((h p).1.2 ((h exPrinter).1.1 ⟨20, by decide +kernel⟩))

/-- `Ping` and `Pong` fix the same member of their header, which has a clause of its own. -/
example (p : Printer) : ∃ N, ∀ fuel, N ≤ fuel →
    (runCosmos fuel p exMixed "base" ["Ping", "Pong"] "SAT".toList exOut).result = .ok () := by
  have h := fun p => C65_printable_messages p exMixed _ "base" ["Ping", "Pong"] "SAT".toList exOut
    (sources_of (raw := exMixed) (by decide +kernel) (by decide +kernel) (by decide +kernel))
    (by decide) (fun _ hm _ _ _ _ hs => clearIds_of_none (by decide +kernel) hm hs)
  exact (h p).2 ((h p).1.2 ((h exPrinter).1.1 ⟨20, by decide +kernel⟩))

def exSamples : List Module :=
  [{ name := "adc"
     defs := [.seq "Samples" none [⟨"count", intType 0 4, none, none⟩, ⟨"sample", .arr (intType 0 4095) 4, none, none⟩]] }]

theorem exSamples_sources : Sources exSamples (okBundle (buildFromTexts exSamples)) :=
  sources_of (by decide +kernel) (by decide +kernel) (by decide +kernel)

/-- An array of INTEGER with bounds is accepted, but no stack is enough to print it. -/
theorem C65_arrays_of_numbers_fail (p : Printer) (fuel : Nat) (target out : Text) :
    (runCosmos fuel p exSamples "adc" ["Samples"] target out).result ≠ .ok () := by
  intro h
  have hdefs : (okBundle (buildFromTexts exSamples)).defs = [.seq "Samples" none
      [⟨"count", intType 0 4, none, none⟩, ⟨"sample", .arr (intType 0 4095) 4, none, none⟩]] := by decide +kernel
  have h1 := ((C65_printable_messages p exSamples _ "adc" ["Samples"] target out exSamples_sources (by decide)
    (fun _ hm _ _ _ _ hs => clearIds_of_none (by rw [hdefs]; decide) hm hs)).1.1 ⟨fuel, h⟩).2 "Samples" (List.Mem.head _)
  obtain ⟨m, hm, _, l, ⟨c, hl⟩, ⟨ls, h2, h3⟩, _⟩ := h1
  have hl' : Def.seq "Samples" c l ∈ (okBundle (buildFromTexts exSamples)).defs :=
    List.mem_flatMap.2 ⟨m, hm, hl⟩
  rw [hdefs] at hl'
  simp only [List.mem_singleton, Def.seq.injEq, true_and] at hl'
  obtain ⟨-, rfl⟩ := hl'
  rw [defsOf_eq, hdefs] at h2 h3
  have hseq : ∀ n inner, IsSequence [Def.seq "Samples" none
      [⟨"count", intType 0 4, none, none⟩, ⟨"sample", .arr (intType 0 4095) 4, none, none⟩]] n inner → n = "Samples" := by
    rintro n inner ⟨c, hc⟩
    simp only [List.mem_singleton, Def.seq.injEq] at hc
    exact hc.1
  cases h2 with
  | seq hu hs =>
    rw [usesName_iff] at hu
    subst hu
    exact absurd (hseq _ _ hs) (by decide)
  | leaf _ h4 =>
    cases h4 with
    | seq hu hs =>
      rw [usesName_iff] at hu
      subst hu
      exact absurd (hseq _ _ hs) (by decide)
    | leaf _ h5 =>
      obtain ⟨k, hk, hlist, _⟩ := h3 _ (List.Mem.tail _ (List.Mem.head _))
      cases hk
      rcases hlist with h | h | ⟨n, len, h⟩ | ⟨n, hu, ⟨c, its, h⟩ | ⟨c, st, h, _⟩⟩
      · cases h
      · rw [usesName_iff] at h
        exact absurd h (by decide)
      · cases h
      · simp at h
      · simp at h

end Apg
