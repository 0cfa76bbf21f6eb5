import Verif.Lemmas.Layout

/-!
# C66: layout of messages in C and in COSMOS
-/

namespace Apg
open Spec

/-- The structs of the headers of a run. -/
theorem headers_structs {cmd : Command} {fuel : Nat} {raw : List Module} {cfg : List String} {out : Text}
    {b : Bundle} (fs : Files) (hin : Input raw cfg b) (hr : (cmd.run fuel raw cfg out).result = .ok ())
    (hreg : Regular b.defs) (ht : ∀ m ∈ b.modules, Tame m) :
    ∃ dss, HeaderDecls cmd ((cmd.run fuel raw cfg out).apply fs) out b.modules dss ∧ StructEnv b.defs dss.flatten := by
  obtain ⟨dss, sorted, D, h1, h2, h3, h4⟩ := headers_together (ms := b.modules) fun m hm =>
    C60_reads_partial cmd fuel raw cfg out b fs hin hr hreg m hm (ht m hm)
  have hp : sorted.Perm b.defs := by
    rw [← defsOf_eq]
    exact h2
  refine ⟨dss, h1, ?_, ?_⟩
  · rintro n inner ⟨c, hq⟩
    obtain ⟨x, hx, std, f, rfl, _⟩ := all2_mem_left h3 (a := .seq n c inner)
      (List.mem_filter.2 ⟨hp.mem_iff.2 hq, rfl⟩)
    exact ⟨f, h4.mem_iff.2 (List.mem_append.2 (.inl hx))⟩
  · intro x f hx
    rcases List.mem_append.1 (h4.mem_iff.1 hx) with hx | hx
    · obtain ⟨d, hd, std, hx⟩ := all2_mem_right h3 hx
      have hd' := hp.mem_iff.1 (List.mem_filter.1 hd).1
      cases d with
      | seq n c ms =>
        obtain ⟨f', hf, hall⟩ := hx
        cases hf
        refine ⟨n, ms, ⟨c, hd'⟩, rfl, hall.imp ?_⟩
        rintro k f ⟨k1, k2, ct, sfx, k3, k4⟩
        exact ⟨k1, k2, ct, sfx, k3.1, k4⟩
      | enum => cases hx
      | choice => cases hx
      | simple => exact hx.elim
    · cases cmd with
      | c p =>
        simp only [objectsOf, List.mem_map] at hx
        obtain ⟨_, _, hx⟩ := hx
        cases hx
      | cfs p => cases hx
      | binary e => cases hx

/-- Statement of C66 for a condition on messages and a relation between the layouts of a message: the layout of the
struct and the items of the packet. -/
def Layouts (C : List Def → List Member → Prop) (P : List Def → List Member → List Slot → Int → List CosmosItem → Prop) :
    Prop :=
  ∀ (raw : List Module) (cfg : List String) (b : Bundle), Input raw cfg b → Regular b.defs → (∀ m ∈ b.modules, Tame m) →
    ∀ (cmd : Command) (fuel : Nat) (gen : Text) (fs : Files), (cmd.run fuel raw cfg gen).result = .ok () →
    ∀ (fuel' : Nat) (p : Printer) (module : String) (messages : List String) (target out : Text),
      Faithful p → OneLine p → IsTarget target →
      (runCosmos fuel' p raw module messages target out).result = .ok () →
    ∃ dss t, HeaderDecls cmd ((cmd.run fuel raw cfg gen).apply fs) gen b.modules dss ∧
      (∀ fs, Adds fs ((runCosmos fuel' p raw module messages target out).apply fs) (cosmosPath out target) t) ∧
      Describes b module target (fun ms items => C b.defs ms → ∀ n, IsSequence b.defs n ms →
        (∃ fields slots e, CDecl.struct (ident n) fields ∈ dss.flatten ∧ Placed dss.flatten fields 0 slots e) ∧
        ∀ fields slots e, CDecl.struct (ident n) fields ∈ dss.flatten → Placed dss.flatten fields 0 slots e →
          P b.defs ms slots e items) messages t

/-- Full statement of C66: the struct of a message and its packet have the same layout. -/
def C66_full : Prop := Layouts (fun _ _ => True) fun _ _ slots e items => SameLayout slots e items

/-- **C66, partial.** For a message of leaves that have the same width in both (C44) the struct in the header and the
COSMOS packet have the same layout exactly if in the message without gaps everything that C puts at a byte boundary is
at one. Missing: messages with other leaves or arrays, and headers that are not read as meant (C60). -/
theorem C66_same_layout_iff_partial :
    Layouts Agreed fun ds ms slots e items => SameLayout slots e items ↔ ∃ e, Gapless ds ms 0 e ∧ e % 8 = 0 := by
  intro raw cfg b hin hreg ht cmd fuel gen fs hr fuel' p module messages target out hp ho htg hc
  have hsrc := sources_of_input hin
  have hs : LayoutEnv b.defs := ⟨accepted_sized hsrc, hreg.posix, fun n c t h => (hreg.simple n c t h).1⟩
  obtain ⟨dss, h1, hd⟩ := headers_structs fs hin hr hreg ht
  suffices h : ∃ t, (∀ fs, Adds fs ((runCosmos fuel' p raw module messages target out).apply fs)
      (cosmosPath out target) t) ∧ Describes b module target (fun ms items => Agreed b.defs ms →
        ∀ n, IsSequence b.defs n ms →
        (∃ fields slots e, CDecl.struct (ident n) fields ∈ dss.flatten ∧ Placed dss.flatten fields 0 slots e) ∧
        ∀ fields slots e, CDecl.struct (ident n) fields ∈ dss.flatten → Placed dss.flatten fields 0 slots e →
          (SameLayout slots e items ↔ ∃ e, Gapless b.defs ms 0 e ∧ e % 8 = 0)) messages t by
    obtain ⟨t, k1, k2⟩ := h
    exact ⟨dss, t, h1, k1, k2⟩
  refine cosmos_describes hsrc hp ho htg hc fun ms ls es hl hms h ha n hq => ?_
  obtain ⟨ps, h2, h3⟩ := plan_of_leaves hs hl ha
  have hitems : All2 (fun x it => ∃ m, x.1.getLast? = some m ∧ it.name = m.key.toList ∧ itemLength it = some x.2) ps
      (es.map (readItem p)) := by
    rw [← h3] at h
    refine ((all2_unmap h).imp_mem fun x hx e he => ?_).map_right
    obtain ⟨m, s, c, lo, hi, states, k1, k2, k3, k4, k5⟩ := he
    obtain ⟨c, rfl, k6⟩ := makeEntry_ok k4
    have hw := plan_leaf h2 x hx m k1
    obtain ⟨v, r1, r2⟩ := leaf_length hs.toSized (leafBits_flat hs hw) k2 k3 k6
    rw [leafBits_eq hs (member_grammar hs.grammar k2).2.1 hw r2] at r1
    exact ⟨m, k1, k6.name, r1⟩
  obtain ⟨fields, hf⟩ := hd.declared n ms hq
  refine ⟨?_, ?_⟩
  · obtain ⟨slots, e, h4⟩ := placed_exists hs hd h2 (hd.of hs hq hf) 0
    exact ⟨fields, slots, e, hf, h4⟩
  · intro fields slots e hf h4
    exact sameLayout_iff hs hd h2 (hd.of hs hq hf) hitems h4

/-! ### Examples -/

/-- A module with a message whose bit-fields fill bytes, and one whose bit-field does not. -/
def exFrameModule : Module :=
  { name := "frame"
    defs := [
      .enum "Mode" none [⟨"off", 0, none⟩, ⟨"on", 1, none⟩, ⟨"safe", 2, none⟩],
      .seq "Head" none [⟨"version", intType 0 7, none, none⟩, ⟨"live", .plain "BOOLEAN" none none, none, none⟩,
        ⟨"kind", intType 0 15, none, none⟩],
      .seq "Good" none [⟨"head", .plain "Head" none none, none, none⟩, ⟨"mode", .plain "Mode" none none, none, none⟩,
        ⟨"count", intType 0 63, none, none⟩, ⟨"value", intType 0 65535, none, none⟩],
      .seq "Bad" none [⟨"small", intType 0 7, none, none⟩, ⟨"octet", intType 0 255, none, none⟩]] }

def exFrame : List Module := [exFrameModule]

theorem exFrame_input : Input exFrame ["frame"] (okBundle (buildFromConfig exFrame ["frame"])) :=
  input_of (by decide +kernel) (by decide +kernel) (by decide +kernel)

theorem exFrame_regular : Regular (okBundle (buildFromConfig exFrame ["frame"])).defs :=
  regular_of (by decide +kernel) (by decide +kernel) (by decide +kernel)

theorem exFrame_modules : (okBundle (buildFromConfig exFrame ["frame"])).modules = [exFrameModule] := by decide +kernel

theorem exFrame_tame : ∀ m ∈ (okBundle (buildFromConfig exFrame ["frame"])).modules, Tame m := by
  refine single_tame exFrame_modules ⟨(by intro c hc; cases hc), (by intro c hc; cases hc), ?_⟩
  intro d hd
  simp only [exFrameModule, List.mem_cons, List.not_mem_nil, or_false] at hd
  rcases hd with rfl | rfl | rfl | rfl <;> refine ⟨(by intro x hx; cases hx), ?_⟩ <;>
    unfold NoBackslash NotReserved <;> decide +kernel

theorem exFrame_defs : (okBundle (buildFromConfig exFrame ["frame"])).defs = exFrameModule.defs := by decide +kernel

theorem exFrame_env : LayoutEnv exFrameModule.defs := by
  have h := accepted_sized (sources_of_input exFrame_input)
  have hr := exFrame_regular
  rw [exFrame_defs] at h hr
  exact ⟨h, hr.posix, fun n c t h => (hr.simple n c t h).1⟩

/-- Bits of an unsigned range. -/
theorem range_bits {ds : List Def} {lo hi w : Int} (h0 : 0 ≤ lo) (h1 : hi < 2 ^ 64) (hw : 0 < w)
    (h : unresolvedSizeBits (intType lo hi) = .ok w) : LeafBits ds (intType lo hi) w :=
  .number (.scalar (.unsigned h0 h1 ((leafSize_int _ _ _).1 h))) hw

theorem range_odd {ds : List Def} {lo hi w : Int} (h0 : 0 ≤ lo) (h : unresolvedSizeBits (intType lo hi) = .ok w)
    (hw : w ∉ [8, 16, 32, 64]) : InBits ds (intType lo hi) :=
  .range ⟨lo, hi, w, rfl, h0, (leafSize_int _ _ _).1 h, hw⟩

theorem range_whole {ds : List Def} {lo hi w : Int} (h : unresolvedSizeBits (intType lo hi) = .ok w)
    (hw : w ∈ [8, 16, 32, 64]) : ¬ InBits ds (intType lo hi) := by
  intro hb
  generalize hx : intType lo hi = x at hb
  cases hb with
  | range hb =>
    obtain ⟨lo', hi', w', r1, _, r3, r4⟩ := hb
    rw [← hx] at r3
    rw [(leafSize_int _ _ _).2 r3] at h
    cases h
    exact r4 hw
  | _ => simp [intType] at hx

theorem exFrame_mode : LeafBits exFrameModule.defs (.plain "Mode" none none) 2 := by
  refine .number (.enum (c := none) (its := [⟨"off", 0, none⟩, ⟨"on", 1, none⟩, ⟨"safe", 2, none⟩]) (w := 2)
      (by decide +kernel) ?_ fun ct s h => ?_) (by decide)
  case refine_2 =>
    exfalso
    generalize hn : "Mode" = n at h
    cases h <;> revert hn <;> decide
  refine ⟨by unfold FitsUnsigned; decide, fun w' h => ?_⟩
  have h2 := (h ⟨"safe", 2, none⟩ (by decide)).2
  simp only at h2
  refine Nat.not_lt.1 fun hlt => ?_
  have : w' = 0 ∨ w' = 1 := by omega
  rcases this with rfl | rfl <;> revert h2 <;> decide

/-- The message `Good` has no gaps: one byte of the header, one of two bit-fields, two of a number. -/
theorem exFrame_good : Gapless exFrameModule.defs
    [⟨"head", .plain "Head" none none, none, none⟩, ⟨"mode", .plain "Mode" none none, none, none⟩,
      ⟨"count", intType 0 63, none, none⟩, ⟨"value", intType 0 65535, none, none⟩] 0 32 := by
  refine .seq (n := "Head") (inner := [⟨"version", intType 0 7, none, none⟩,
    ⟨"live", .plain "BOOLEAN" none none, none, none⟩, ⟨"kind", intType 0 15, none, none⟩]) (q := 8) rfl
    ⟨none, by decide +kernel⟩ (by decide) ?_ (by decide) ?_
  · refine .bits (range_odd (w := 3) (by decide) (by decide +kernel) (by decide))
      (range_bits (w := 3) (by decide) (by decide) (by decide) (by decide +kernel)) ?_
    refine .bits .bool (.number .bool (by decide)) ?_
    exact .bits (range_odd (w := 4) (by decide) (by decide +kernel) (by decide))
      (range_bits (w := 4) (by decide) (by decide) (by decide) (by decide +kernel)) .nil
  · refine .bits (w := 2) (.enum (c := none) (its := [⟨"off", 0, none⟩, ⟨"on", 1, none⟩, ⟨"safe", 2, none⟩])
      (by decide +kernel)) exFrame_mode ?_
    refine .bits (range_odd (w := 6) (by decide) (by decide +kernel) (by decide))
      (range_bits (w := 6) (by decide) (by decide) (by decide) (by decide +kernel)) ?_
    exact .whole (w := 16) (range_whole (w := 16) (by decide +kernel) (by decide))
      (range_bits (by decide) (by decide) (by decide) (by decide +kernel)) (by decide) .nil

/-- The message `Bad` has one before the number. -/
theorem exFrame_bad (p e : Int) (hp : p % 8 = 0) : ¬ Gapless exFrameModule.defs
    [⟨"small", intType 0 7, none, none⟩, ⟨"octet", intType 0 255, none, none⟩] p e := by
  intro h
  have h3 : LeafBits exFrameModule.defs (intType 0 7) 3 :=
    range_bits (by decide) (by decide) (by decide) (by decide +kernel)
  have ho : InBits exFrameModule.defs (intType 0 7) := range_odd (w := 3) (by decide) (by decide +kernel) (by decide)
  have hw : ¬ InBits exFrameModule.defs (intType 0 255) := range_whole (w := 8) (by decide +kernel) (by decide)
  cases h with
  | bits _ h1 h2 =>
    have := leafBits_unique exFrame_env (t := intType 0 7) .integerRange h3 h1
    subst this
    cases h2 with
    | bits h => exact hw h
    | whole _ _ h => omega
    | seq h => simp [intType] at h
  | whole h => exact h ho
  | seq h => simp [intType] at h

theorem exFrame_agreed {ms : List Member} (h : ms ∈ exFrameModule.defs.map Def.members) : Agreed exFrameModule.defs ms := by
  have hr : ∀ m, Reached exFrameModule.defs ms m → ∃ d ∈ exFrameModule.defs, m ∈ d.members := by
    intro m hm
    refine reached_member hm ?_
    obtain ⟨d, hd, rfl⟩ := List.mem_map.1 h
    exact fun m hm => ⟨d, hd, hm⟩
  intro m hm
  obtain ⟨d, hd, hm⟩ := hr m hm
  simp only [exFrameModule, List.mem_cons, List.not_mem_nil, or_false] at hd
  have num : ∀ {hi w : Int}, hi < 2 ^ 64 → 0 < w → unresolvedSizeBits (intType 0 hi) = .ok w →
      (∃ w, LeafBits exFrameModule.defs (intType 0 hi) w) := fun h1 h2 h3 => ⟨_, range_bits (by decide) h1 h2 h3⟩
  rcases hd with rfl | rfl | rfl | rfl <;> simp only [Def.members, List.mem_cons, List.not_mem_nil, or_false] at hm
  · rcases hm with rfl | rfl | rfl
    · exact .inl (num (w := 3) (by decide) (by decide) (by decide +kernel))
    · exact .inl ⟨1, .number .bool (by decide)⟩
    · exact .inl (num (w := 4) (by decide) (by decide) (by decide +kernel))
  · rcases hm with rfl | rfl | rfl | rfl
    · exact .inr ⟨"Head", [⟨"version", intType 0 7, none, none⟩, ⟨"live", .plain "BOOLEAN" none none, none, none⟩,
        ⟨"kind", intType 0 15, none, none⟩], rfl, none, by decide +kernel⟩
    · exact .inl ⟨2, exFrame_mode⟩
    · exact .inl (num (w := 6) (by decide) (by decide) (by decide +kernel))
    · exact .inl (num (w := 16) (by decide) (by decide) (by decide +kernel))
  · rcases hm with rfl | rfl
    · exact .inl (num (w := 3) (by decide) (by decide) (by decide +kernel))
    · exact .inl (num (w := 8) (by decide) (by decide) (by decide +kernel))

/-- The runs of the example. -/
theorem exFrame_runs : ((Command.cfs exPrinter).run 20 exFrame ["frame"] exOut).result = .ok () ∧
    (runCosmos 20 exPrinter exFrame "frame" ["Good", "Bad"] "SAT".toList exOut).result = .ok () := by
  constructor <;> decide +kernel

/-- Good and bad message are in reach of the theorem. -/
example : Agreed exFrameModule.defs
      [⟨"head", .plain "Head" none none, none, none⟩, ⟨"mode", .plain "Mode" none none, none, none⟩,
        ⟨"count", intType 0 63, none, none⟩, ⟨"value", intType 0 65535, none, none⟩] ∧
    Agreed exFrameModule.defs [⟨"small", intType 0 7, none, none⟩, ⟨"octet", intType 0 255, none, none⟩] :=
  ⟨exFrame_agreed (by decide +kernel), exFrame_agreed (by decide +kernel)⟩

/-- The property fails for `Bad`: C puts the second number into the second byte, COSMOS at the fourth bit. -/
theorem C66_full_false : ¬ C66_full := by
  intro hf
  obtain ⟨dss, t, h1, h2, h3⟩ := hf exFrame ["frame"] _ exFrame_input exFrame_regular exFrame_tame (.cfs exPrinter) 20 exOut
    (fun _ => none) exFrame_runs.1 20 exPrinter "frame" ["Good", "Bad"] "SAT".toList exOut exPrinter_faithful
    exPrinter_oneLine exTlm_target exFrame_runs.2
  obtain ⟨dss', t', k1, k2, k3⟩ := C66_same_layout_iff_partial exFrame ["frame"] _ exFrame_input exFrame_regular exFrame_tame
    (.cfs exPrinter) 20 exOut
    (fun _ => none) exFrame_runs.1 20 exPrinter "frame" ["Good", "Bad"] "SAT".toList exOut exPrinter_faithful
    exPrinter_oneLine exTlm_target exFrame_runs.2
  cases headerDecls_unique h1 k1
  have : t = t' := (newText_eq h2).symm.trans (newText_eq k2)
  subst this
  unfold Describes at h3 k3
  generalize readCosmos t = l at h3 k3
  cases h3 with
  | cons _ h3 =>
  cases h3 with
  | cons h3 _ =>
  cases k3 with
  | cons _ k3 =>
  cases k3 with
  | cons k3 _ =>
  obtain ⟨_, _, ms, hm, h3⟩ := h3
  obtain ⟨_, _, ms', hm', k3⟩ := k3
  have hd : Def.seq "Bad" none [⟨"small", intType 0 7, none, none⟩, ⟨"octet", intType 0 255, none, none⟩] ∈
      (okBundle (buildFromConfig exFrame ["frame"])).defs := by
    rw [exFrame_defs]; decide +kernel
  cases message_eq (sources_of_input exFrame_input) hm hd
  cases message_eq (sources_of_input exFrame_input) hm' hd
  obtain ⟨⟨fields, slots, e, q1, q2⟩, q3⟩ := h3 trivial "Bad" ⟨none, hd⟩
  obtain ⟨_, r3⟩ := k3 (by rw [exFrame_defs]; exact exFrame_agreed (by decide +kernel)) "Bad" ⟨none, hd⟩
  obtain ⟨e', g, _⟩ := (r3 fields slots e q1 q2).1 (q3 fields slots e q1 q2)
  rw [exFrame_defs] at g
  exact exFrame_bad _ _ (by decide) g

end Apg
