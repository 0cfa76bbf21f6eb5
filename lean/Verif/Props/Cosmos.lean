import Verif.Lemmas.CosmosItem
import Verif.Props.Header

/-!
# Properties C35, C36, C37, C39, C41: COSMOS telemetry files
-/

namespace Apg
open Spec

/-! ### C39 -/

/-- **C39 (failure).** A run of generate-cosmos that fails leaves all files as they were. -/
theorem C39_failure_leaves_no_trace (fuel : Nat) (p : Printer) (raw : List Module) (module : String)
    (messages : List String) (target out : Text) (fs : Files) (e : Err)
    (h : (runCosmos fuel p raw module messages target out).result = .error e) :
    (runCosmos fuel p raw module messages target out).apply fs = fs := by
  unfold runCosmos at h ⊢
  split at h
  · rfl
  · unfold generateCosmos at h ⊢
    simp only at h ⊢
    split at h
    · rename_i h0; simp only [h0, if_true]; rfl
    · rename_i h0
      simp only [h0, if_false]
      split at h
      · split at h
        · cases h
        · rename_i h1; simp only [h1, if_false]; rfl
      · split at h
        · rename_i h1; rw [if_pos h1]; rfl
        · rename_i h1
          rw [if_neg h1]
          split at h
          · rfl
          · cases h

/-- **C39 (success).** A run that succeeds adds a text to the file of the target and changes no
other file; the text has one packet for each requested message, in the requested order. -/
theorem C39_success_adds_packets (fuel : Nat) (p : Printer) (raw : List Module) (b : Bundle)
    (module : String) (messages : List String) (target out : Text) (hi : Sources raw b)
    (hp : Faithful p) (ho : OneLine p) (ht : IsTarget target)
    (hr : (runCosmos fuel p raw module messages target out).result = .ok ()) :
    ∃ t, (∀ fs, Adds fs ((runCosmos fuel p raw module messages target out).apply fs)
        (cosmosPath out target) t) ∧
      (readCosmos t).map (fun x => (x.target, x.name)) = messages.map (fun n => (target, n.toList)) := by
  obtain ⟨t, h1, h2⟩ := cosmos_describes (P := fun _ _ => True) hi hp ho ht hr (fun _ _ _ _ _ _ => trivial)
  refine ⟨t, h1, ?_⟩
  unfold Describes at h2
  clear h1 hr
  generalize readCosmos t = l at h2
  induction h2 with
  | nil => rfl
  | cons h _ ih => rw [List.map_cons, List.map_cons, ih, h.1, h.2.1]

/-! ### C35 -/

/-- **C35.** The items of a packet are the leaf members of the message, depth first in declaration
order, each with the name of its leaf member. -/
theorem C35_items_are_leaves (fuel : Nat) (p : Printer) (raw : List Module) (b : Bundle)
    (module : String) (messages : List String) (target out : Text) (hi : Sources raw b)
    (hp : Faithful p) (ho : OneLine p) (ht : IsTarget target)
    (hr : (runCosmos fuel p raw module messages target out).result = .ok ()) :
    ∃ t, (∀ fs, Adds fs ((runCosmos fuel p raw module messages target out).apply fs)
        (cosmosPath out target) t) ∧
      Describes b module target (LeafWise b.defs fun _ m it => it.name = m.key.toList) messages t :=
  cosmos_describes hi hp ho ht hr fun _ _ _ hl _ h => leafWise_of hl h
    fun _ _ _ _ _ _ _ _ _ _ _ _ hm _ => hm.name

/-! ### C36 -/

theorem accepted_sized {raw : List Module} {b : Bundle} (hi : Sources raw b) : Sized b.defs :=
  ⟨accepted_nodup hi.accepted, fun d hd => (accepted_grammar hi.grammar hi.accepted d hd).1,
    fun _ _ _ h => accepted_positions hi.accepted h⟩

theorem member_grammar {ds : List Def} (hg : ∀ d ∈ ds, GrammarDef d) {m : Member}
    (h : ∃ d ∈ ds, m ∈ d.members) : GrammarMember m := by
  obtain ⟨d, hd, hmd⟩ := h
  have := hg d hd
  cases d with
  | seq => exact this.2.2 m hmd
  | choice => exact this.2.2 m hmd
  | enum => cases hmd
  | simple => cases hmd

theorem reached_member {ds : List Def} {ms : List Member} {m : Member} (h : Reached ds ms m)
    (hms : ∀ m ∈ ms, ∃ d ∈ ds, m ∈ d.members) : ∃ d ∈ ds, m ∈ d.members := by
  induction h with
  | here h => exact hms _ h
  | inside h1 h2 h3 h4 ih =>
    obtain ⟨c, h3⟩ := h3
    exact ih fun m hm => ⟨_, h3, hm⟩

theorem leaves_reached {ds : List Def} {ms : List Member} {ls : List (List Member)}
    (h : Leaves ds ms ls) : ∀ path ∈ ls, ∀ m, path.getLast? = some m → Reached ds ms m := by
  induction h with
  | nil => intro path hp; cases hp
  | leaf h1 h2 ih =>
    intro path hp m hm
    rcases List.mem_cons.1 hp with rfl | hp
    · cases hm; exact .here (List.Mem.head _)
    · exact (ih path hp m hm).mono fun x hx => List.Mem.tail _ hx
  | seq h1 h2 h3 h4 ih1 ih2 =>
    intro path hp m hm
    rcases List.mem_append.1 hp with hp | hp
    · obtain ⟨q, hq, rfl⟩ := List.mem_map.1 hp
      refine .inside (List.Mem.head _) h1 h2 (ih1 q hq m ?_)
      cases q with
      | nil => exact absurd rfl (h3.ne_nil [] hq)
      | cons x q => rwa [List.getLast?_cons_cons] at hm
    · exact (ih2 path hp m hm).mono fun x hx => List.Mem.tail _ hx

/-- **C36.** For a message without arrays the lengths of the items add up to the number of bits the
tool computes for the sequence, and each item is as long as its member. -/
theorem C36_packet_length (fuel : Nat) (p : Printer) (raw : List Module) (b : Bundle)
    (module : String) (messages : List String) (target out : Text) (hi : Sources raw b)
    (hp : Faithful p) (ho : OneLine p) (ht : IsTarget target)
    (hr : (runCosmos fuel p raw module messages target out).result = .ok ()) :
    ∃ t, (∀ fs, Adds fs ((runCosmos fuel p raw module messages target out).apply fs)
        (cosmosPath out target) t) ∧
      Describes b module target (fun ms items => (∀ m, Reached b.defs ms m → Single b.defs m) →
        LeafWise b.defs (fun _ m it => ∃ v, itemLength it = some v ∧ Size b.defs (.members [m]) v) ms items ∧
        ∃ v, itemsLength items = some v ∧ ∀ n c, ∃ N, ∀ fuel, N ≤ fuel →
          sizeDef b.defs fuel (.seq n c ms) = .ok v) messages t := by
  have hs := accepted_sized hi
  refine cosmos_describes hi hp ho ht hr fun ms ls es hl hms h hsingle => ?_
  have hmem : ∀ m ∈ ms, ∃ d ∈ b.defs, m ∈ d.members := by
    obtain ⟨d, hd, rfl⟩ := hms
    exact fun m hm => ⟨d, hd, hm⟩
  have hlw := leafWise_of (R := fun _ m it => ∃ v, itemLength it = some v ∧ Size b.defs (.members [m]) v) hl h
    fun path m s c lo hi states e hpath hlast hd hsh hm _ =>
      leaf_length hs (hsingle m (leaves_reached hl path hpath m hlast)).flat hd hsh hm
  refine ⟨hlw, ?_⟩
  have hall : All2 (fun path it => ∃ m, path.getLast? = some m ∧
      ∃ v, itemLength it = some v ∧ Size b.defs (.members [m]) v) ls (es.map (readItem p)) := by
    refine (h.imp_mem fun path hpath e he => ?_).map_right
    obtain ⟨m, s, c, lo, hi, states, h1, h2, h3, h4, h5⟩ := he
    obtain ⟨c, rfl, h6⟩ := makeEntry_ok h4
    exact ⟨m, h1, leaf_length hs (hsingle m (leaves_reached hl path hpath m h1)).flat h2 h3 h6⟩
  obtain ⟨v, h1, h2⟩ := leaves_size hs hl (fun m hm => (hsingle m hm).flat) hmem hall
  refine ⟨v, h1, fun n c => sizeDef_eq hs h2 fun m hm => ⟨?_, hsingle m hm⟩⟩
  exact (member_grammar hs.grammar (reached_member hm hmem)).2.1

/-- **C36 (flat arrays).** The length of a packet is that of the sequence also with arrays, when their
elements are numbers or enumerations. -/
theorem C36_flat_arrays (fuel : Nat) (p : Printer) (raw : List Module) (b : Bundle)
    (module : String) (messages : List String) (target out : Text) (hi : Sources raw b)
    (hp : Faithful p) (ho : OneLine p) (ht : IsTarget target)
    (hr : (runCosmos fuel p raw module messages target out).result = .ok ()) :
    ∃ t, (∀ fs, Adds fs ((runCosmos fuel p raw module messages target out).apply fs)
        (cosmosPath out target) t) ∧
      Describes b module target (fun ms items => (∀ m, Reached b.defs ms m → FlatMember b.defs m) →
        ∃ v, itemsLength items = some v ∧ Size b.defs (.members ms) v) messages t := by
  have hs := accepted_sized hi
  refine cosmos_describes hi hp ho ht hr fun ms ls es hl hms h hflat => ?_
  have hmem : ∀ m ∈ ms, ∃ d ∈ b.defs, m ∈ d.members := by
    obtain ⟨d, hd, rfl⟩ := hms
    exact fun m hm => ⟨d, hd, hm⟩
  refine leaves_size hs hl hflat hmem ?_
  refine (h.imp_mem fun path hpath e he => ?_).map_right
  obtain ⟨m, s, c, lo, hi, states, h1, h2, h3, h4, h5⟩ := he
  obtain ⟨c, rfl, h6⟩ := makeEntry_ok h4
  exact ⟨m, h1, leaf_length hs (hflat m (leaves_reached hl path hpath m h1)) h2 h3 h6⟩

/-! ### C41 -/

/-- **C41.** An item has a line of limits exactly if its leaf is a REAL whose range is restricted,
and the limits are the bounds of the range. -/
theorem C41_limits (fuel : Nat) (p : Printer) (raw : List Module) (b : Bundle)
    (module : String) (messages : List String) (target out : Text) (hi : Sources raw b)
    (hp : Faithful p) (ho : OneLine p) (ht : IsTarget target)
    (hr : (runCosmos fuel p raw module messages target out).result = .ok ()) :
    ∃ t, (∀ fs, Adds fs ((runCosmos fuel p raw module messages target out).apply fs)
        (cosmosPath out target) t) ∧
      Describes b module target (LeafWise b.defs fun _ m it =>
        (∀ lo hi, Behind b.defs m.type (realType lo hi) → Restricted lo hi → it.limits = [limitsOf p lo hi]) ∧
        ((∀ lo hi, Behind b.defs m.type (realType lo hi) → ¬ Restricted lo hi) → it.limits = []))
        messages t := by
  have hs := accepted_sized hi
  refine cosmos_describes hi hp ho ht hr fun _ _ _ hl _ h => leafWise_of hl h
    fun _ m _ c lo hi states e _ _ hd hsh hm _ => ?_
  obtain ⟨h1, h2⟩ := entry_range hs.nodup hs.grammar (member_grammar hs.grammar hd).2.1 hsh hm.range
  refine ⟨fun lo hi hb hre => ?_, fun hn => ?_⟩
  · show e.range.toList.map _ = _
    rw [h1 lo hi hb hre]
    rfl
  · show e.range.toList.map _ = _
    rw [h2 hn]
    rfl

/-! ### C37 -/

/-- Full statement of C37: an item identifies the packet if and only if a clause fixes its value,
which then is the value of the item. -/
def C37_full : Prop :=
  ∀ (fuel : Nat) (p : Printer) (raw : List Module) (b : Bundle)
    (module : String) (messages : List String) (target out : Text), Sources raw b →
    Faithful p → OneLine p → IsTarget target →
    (runCosmos fuel p raw module messages target out).result = .ok () →
    ∃ t, (∀ fs, Adds fs ((runCosmos fuel p raw module messages target out).apply fs)
        (cosmosPath out target) t) ∧
      Describes b module target (LeafWise b.defs fun path _ it =>
        (it.kind = "APPEND_ID_ITEM".toList ↔ ∃ v, FixedTo path v) ∧
        ∀ v, FixedTo path v → IdText p it.value v) messages t

/-- **C37, partial.** Missing: BOOLEAN members that no clause fixes, arrays, members that several
clauses reach, and values not of the kind of the member. Whatever the clauses for other members, an item that is not BOOLEAN identifies the
packet exactly if a clause fixes its value; an item fixed to a value of its kind identifies the packet
and has this value. -/
theorem C37_identifiers_partial (fuel : Nat) (p : Printer) (raw : List Module) (b : Bundle)
    (module : String) (messages : List String) (target out : Text) (hi : Sources raw b)
    (hp : Faithful p) (ho : OneLine p) (ht : IsTarget target)
    (hr : (runCosmos fuel p raw module messages target out).result = .ok ()) :
    ∃ t, (∀ fs, Adds fs ((runCosmos fuel p raw module messages target out).apply fs)
        (cosmosPath out target) t) ∧
      Describes b module target (LeafWise b.defs fun path m it =>
        Clear b.defs path → (∀ e len, m.type ≠ .arr e len) →
          (¬ IsBoolean b.defs m.type → (it.kind = "APPEND_ID_ITEM".toList ↔ ∃ v, FixedTo path v)) ∧
          ∀ v, FixedTo path v → Suits b.defs m v →
            it.kind = "APPEND_ID_ITEM".toList ∧ IdText p it.value v) messages t := by
  have hs := accepted_sized hi
  refine cosmos_describes hi hp ho ht hr fun _ _ _ hl _ h => leafWise_of hl h
    fun path m s c lo hi states e _ _ hd hsh hm hfound hcl ha => ?_
  obtain ⟨f1, f2⟩ := hfound hcl
  have hfix : ∀ v, s = .leaf v ↔ FixedTo path v := by
    intro v
    rw [f2 v]
    constructor
    · rintro (h | h)
      · cases h
      · exact h
    · exact .inr
  obtain ⟨h1, h2⟩ := item_id hp ha hm
    (itemShape_bool_iff hs.nodup hs.grammar (member_grammar hs.grammar hd).2.1 hsh) f1
  refine ⟨fun hb => ?_, fun v hv => h2 v ((hfix v).2 hv)⟩
  rw [h1 hb]
  exact ⟨fun ⟨v, h⟩ => ⟨v, (hfix v).1 h⟩, fun ⟨v, h⟩ => ⟨v, (hfix v).2 h⟩⟩

/-- **C37, partial, the kinds exactly.** Where at most one clause reaches a member: arrays are
array items, fixed or not; of the other members exactly those that are BOOLEAN or have a fixed
value are identifiers; a BOOLEAN without fixed value identifies the packet by FALSE. -/
theorem C37_kinds_partial (fuel : Nat) (p : Printer) (raw : List Module) (b : Bundle)
    (module : String) (messages : List String) (target out : Text) (hi : Sources raw b)
    (hp : Faithful p) (ho : OneLine p) (ht : IsTarget target)
    (hr : (runCosmos fuel p raw module messages target out).result = .ok ()) :
    ∃ t, (∀ fs, Adds fs ((runCosmos fuel p raw module messages target out).apply fs)
        (cosmosPath out target) t) ∧
      Describes b module target (LeafWise b.defs fun path m it => Clear b.defs path →
        ((∃ e len, m.type = .arr e len) ∧ it.kind = "APPEND_ARRAY_ITEM".toList) ∨
        (¬ ∃ e len, m.type = .arr e len) ∧
          ((IsBoolean b.defs m.type ∨ (∃ v, FixedTo path v)) ∧ it.kind = "APPEND_ID_ITEM".toList ∨
            ¬ (IsBoolean b.defs m.type ∨ ∃ v, FixedTo path v) ∧ it.kind = "APPEND_ITEM".toList) ∧
          (IsBoolean b.defs m.type → (¬ ∃ v, FixedTo path v) → IdText p it.value (.bool false))) messages t := by
  have hs := accepted_sized hi
  refine cosmos_describes hi hp ho ht hr fun _ _ _ hl _ h => leafWise_of hl h
    fun path m s c lo hi states e _ _ hd hsh hm hfound hcl => ?_
  obtain ⟨f1, f2⟩ := hfound hcl
  have hfix : (∃ v, s = .leaf v) ↔ ∃ v, FixedTo path v := by
    constructor
    · rintro ⟨v, h⟩
      rcases (f2 v).1 h with h | h
      · cases h
      · exact ⟨v, h⟩
    · rintro ⟨v, h⟩
      exact ⟨v, (f2 v).2 (.inr h)⟩
  obtain ⟨h1, h2, h3, h4⟩ := item_kind hp hm
    (itemShape_bool_iff hs.nodup hs.grammar (member_grammar hs.grammar hd).2.1 hsh) f1
  by_cases ha : ∃ e len, m.type = .arr e len
  · exact .inl ⟨ha, h1 ha⟩
  · refine .inr ⟨ha, ?_, fun hb hn => ?_⟩
    · rw [← hfix]
      by_cases h : IsBoolean b.defs m.type ∨ ∃ v, s = .leaf v
      · exact .inl ⟨h, h2 ha h⟩
      · exact .inr ⟨h, h3 ha h⟩
    · rw [← hfix] at hn
      rw [h4 hb ha (by
        cases s with
        | leaf v => exact absurd ⟨v, rfl⟩ hn
        | node c => exact absurd rfl (f1 c)
        | empty => rfl)]
      exact .false

/-! ### Examples -/

/-- The text a run writes to a file, when no file was there. -/
def newText (r : Run) (path : Text) : Text :=
  ((r.apply fun _ => none) path).getD [] |>.filterMap fun
    | .inl c => some c
    | .inr _ => none

theorem newText_eq {r : Run} {path t : Text} (h : ∀ fs, Adds fs (r.apply fs) path t) : newText r path = t := by
  have := h (fun _ => none) path
  rw [if_pos rfl] at this
  unfold newText
  rw [this]
  simp only [Option.getD_none, Option.getD_some, List.nil_append]
  clear this h
  induction t with
  | nil => rfl
  | cons c t ih => rw [List.map_cons, List.filterMap_cons, ih]

theorem sources_of {raw : List Module} (h1 : grammarB raw = true)
    (h2 : raw.all (fun m => decide (GrammarComments m)) = true) (h3 : isOk (buildFromTexts raw) = true) :
    Sources raw (okBundle (buildFromTexts raw)) :=
  ⟨grammarB_sound h1, fun m hm => of_decide_eq_true (List.all_eq_true.1 h2 m hm), okBundle_eq h3⟩

def exTlmModule : Module :=
  { name := "tlm"
    defs := [
      .enum "Mode" none [⟨"off", 0, none⟩, ⟨"on", 0, none⟩, ⟨"safe", 0, none⟩],
      .simple "Temp" none (.plain "REAL" (some (.flt (-40))) (some (.flt 85))),
      .seq "Header" none [⟨"application-process-identifier", .plain "INTEGER" (some (.int 0)) (some (.int 2047)), none, none⟩,
        ⟨"live", .plain "BOOLEAN" none none, none, none⟩,
        ⟨"spare", .plain "INTEGER" (some (.int 0)) (some (.int 1)), none, none⟩],
      .seq "Packet" none [
        ⟨"header", .plain "Header" none none, none,
          some (.leaf "application-process-identifier" (.int 300) (.leaf "live" (.bool true) .nil))⟩,
        ⟨"mode", .plain "Mode" none none, none, none⟩,
        ⟨"temp", .plain "Temp" none none, some ⟨"Core temperature", "C", false⟩, none⟩,
        ⟨"raw", .arr (.plain "Mode" none none) 3, none, none⟩],
      .seq "Switch" none [⟨"on", .plain "BOOLEAN" none none, none, none⟩],
      .seq "Pair" none [⟨"both", .arr (.plain "Header" none none) 2, none, some (.leaf "application-process-identifier" (.int 1) .nil)⟩]] }

def exTlm : List Module := [exTlmModule]

theorem exTlm_sources : Sources exTlm (okBundle (buildFromTexts exTlm)) :=
  sources_of (by decide +kernel) (by decide +kernel) (by decide +kernel)

theorem exTlm_target : IsTarget "SAT".toList := ⟨⟨by decide, by decide⟩, by decide⟩

/-- A run that meets the hypotheses of the theorems above. -/
example : (runCosmos 20 exPrinter exTlm "tlm" ["Packet", "Switch"] "SAT".toList exOut).result = .ok () := by
  decide +kernel


theorem message_eq {raw : List Module} {b : Bundle} (hi : Sources raw b) {module n : String} {c : Option Comment}
    {ms ms' : List Member} (hm : MessageOf b module n ms) (hd : Def.seq n c ms' ∈ b.defs) : ms = ms' := by
  obtain ⟨m, hm, _, cm, h⟩ := hm
  have h1 : Def.seq n cm ms ∈ b.defs := by
    exact List.mem_flatMap.2 ⟨m, hm, h⟩
  have := mem_unique_of_nodup_map (accepted_nodup hi.accepted) h1 hd rfl
  cases this
  rfl

/-- It fails for a BOOLEAN without fixed value. -/
theorem C37_full_false : ¬ C37_full := by
  intro hf
  obtain ⟨t, h1, h2⟩ := hf 20 exPrinter exTlm _ "tlm" ["Switch"] "SAT".toList exOut exTlm_sources
    exPrinter_faithful exPrinter_oneLine exTlm_target (by decide +kernel)
  have hk : (readCosmos t).map (fun x => x.items.map (·.kind)) = [["APPEND_ID_ITEM".toList]] := by
    rw [← newText_eq h1]; decide +kernel
  unfold Describes at h2
  generalize readCosmos t = l at h2 hk
  cases h2 with
  | cons h h' =>
    cases h'
    obtain ⟨_, _, ms, hms, ls, hl, hall⟩ := h
    have := message_eq exTlm_sources hms (c := none) (ms' := [⟨"on", .plain "BOOLEAN" none none, none, none⟩])
      (List.mem_of_getElem? (i := 4) (by decide +kernel))
    subst this
    have hls : ls = [[⟨"on", .plain "BOOLEAN" none none, none, none⟩]] := by
      cases hl with
      | leaf _ hl => cases hl; rfl
      | seq hu hs _ _ =>
        obtain ⟨c, hs⟩ := hs
        cases hu
        exact absurd rfl (builtin_not_def (accepted_sized exTlm_sources).grammar (n := "BOOLEAN") (by decide) _ hs)
    subst hls
    simp only [List.map_cons, List.map_nil, List.cons.injEq, and_true] at hk
    generalize CosmosPacket.items _ = items at hall hk
    cases hall with
    | cons h h' =>
      cases h'
      obtain ⟨_, _, h, _⟩ := h
      simp only [List.map_cons, List.map_nil, List.cons.injEq, and_true] at hk
      obtain ⟨v, hv⟩ := h.1 hk
      rcases fixedTo_cons.1 hv with ⟨c, hc, _⟩ | hv
      · cases hc
      · exact fixedTo_nil hv

/-- Statement of C36 for messages of all kinds. -/
def C36_with_arrays : Prop :=
  ∀ (fuel : Nat) (p : Printer) (raw : List Module) (b : Bundle)
    (module : String) (messages : List String) (target out : Text), Sources raw b →
    Faithful p → OneLine p → IsTarget target →
    (runCosmos fuel p raw module messages target out).result = .ok () →
    ∃ t, (∀ fs, Adds fs ((runCosmos fuel p raw module messages target out).apply fs)
        (cosmosPath out target) t) ∧
      Describes b module target (fun ms items =>
        ∃ v, itemsLength items = some v ∧ Size b.defs (.members ms) v) messages t

/-- It fails for an array of a sequence, which has the items of one element. -/
theorem C36_with_arrays_false : ¬ C36_with_arrays := by
  intro hf
  obtain ⟨t, h1, h2⟩ := hf 20 exPrinter exTlm _ "tlm" ["Pair"] "SAT".toList exOut exTlm_sources
    exPrinter_faithful exPrinter_oneLine exTlm_target (by decide +kernel)
  have hk : (readCosmos t).map (fun x => itemsLength x.items) = [some 13] := by
    rw [← newText_eq h1]; decide +kernel
  unfold Describes at h2
  generalize readCosmos t = l at h2 hk
  cases h2 with
  | cons h h' =>
    cases h'
    obtain ⟨_, _, ms, hms, v, hv, hsz⟩ := h
    have := message_eq exTlm_sources hms (c := none) (ms' := [⟨"both", .arr (.plain "Header" none none) 2, none, some (.leaf "application-process-identifier" (.int 1) .nil)⟩])
      (List.mem_of_getElem? (i := 5) (by decide +kernel))
    subst this
    simp only [List.map_cons, List.map_nil, List.cons.injEq, and_true] at hk
    rw [hk] at hv
    cases hv
    generalize hv : (13 : Int) = v at hsz
    cases hsz with
    | named hmt => cases hmt
    | leaf _ hl => generalize hx : AType.arr (.plain "Header" none none) 2 = x at hl; cases hl <;> cases hx
    | array hmt h1 h2 =>
      cases hmt
      cases h2
      omega

/-- The clauses of the example are separate, and its message `Packet` has flat arrays. -/
theorem exTlm_separate : Separate (okBundle (buildFromTexts exTlm)).defs := by
  have hd : (okBundle (buildFromTexts exTlm)).defs.all (fun d => d.members.all fun m =>
      decide (m.comps = none ∨ m.comps = some (.leaf "application-process-identifier" (.int 300)
        (.leaf "live" (.bool true) .nil)) ∨ m.comps = some (.leaf "application-process-identifier" (.int 1) .nil))) = true := by
    decide +kernel
  rintro n ms ⟨c, h⟩ m hm cs hcs t _
  have := of_decide_eq_true (List.all_eq_true.1 (List.all_eq_true.1 hd _ h) m hm)
  rcases this with h | h | h
  · rw [h] at hcs; cases hcs
  · rw [h] at hcs; cases hcs; exact ⟨by decide, ⟨by decide, trivial⟩⟩
  · rw [h] at hcs; cases hcs; exact ⟨by decide, trivial⟩

/-- The theorems apply to the example. -/
example : (∀ n ms ls, MessageOf (okBundle (buildFromTexts exTlm)) "tlm" n ms →
      Leaves (okBundle (buildFromTexts exTlm)).defs ms ls →
      ∀ path ∈ ls, Clear (okBundle (buildFromTexts exTlm)).defs path) ∧ ∃ t, newText (runCosmos 20 exPrinter exTlm "tlm" ["Packet", "Switch"] "SAT".toList exOut)
      (cosmosPath exOut "SAT".toList) = t ∧
    ((readCosmos t).map fun x => x.items.map fun it => (String.ofList it.kind, it.bits, it.value.map String.ofList)) =
      [[("APPEND_ID_ITEM", some 11, ["0x12C"]), ("APPEND_ID_ITEM", some 1, ["1"]), ("APPEND_ITEM", some 1, []),
        ("APPEND_ITEM", some 2, []), ("APPEND_ITEM", some 32, []), ("APPEND_ARRAY_ITEM", some 2, ["6"])],
       [("APPEND_ID_ITEM", some 1, ["0"])]] := by
  obtain ⟨t, h1, _⟩ := C37_identifiers_partial 20 exPrinter exTlm _ "tlm" ["Packet", "Switch"] "SAT".toList exOut
    exTlm_sources exPrinter_faithful exPrinter_oneLine exTlm_target (by decide +kernel)
  refine ⟨fun n ms ls hm hl => exTlm_separate.clear_message hm hl, t, newText_eq h1, ?_⟩
  rw [← newText_eq h1]
  decide +kernel

/-- A failing run: the message is not a sequence. -/
example : (runCosmos 20 exPrinter exTlm "tlm" ["Packet", "Mode"] "SAT".toList exOut).result ≠ .ok () := by
  decide +kernel

end Apg
