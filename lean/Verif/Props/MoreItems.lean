import Verif.Lemmas.MoreItems
import Verif.Props.Local

/-!
# Property C94: items that are appended to enumerations
-/

namespace Apg
open Spec

/-- **C94, enumerations.** When items are appended to an enumeration, the C enumeration keeps its enumerators with their
numbers, and gets further ones after them. -/
theorem C94_enumerations (cmd cmd' : Command) (fuel fuel' : Nat) (raw raw' : List Module) (cfg cfg' : List String)
    (out out' : Text) (b b' : Bundle) (fs fs' : Files) (hi : Input raw cfg b) (hi' : Input raw' cfg' b')
    (hr : (cmd.run fuel raw cfg out).result = .ok ()) (hr' : (cmd'.run fuel' raw' cfg' out').result = .ok ())
    (m m' : Module) (hm : m ∈ b.modules) (hm' : m' ∈ b'.modules) (n : String) (c c' : Option Comment)
    (its its' : List EnumItem) (hd : Def.enum n c its ∈ m.defs) (hd' : Def.enum n c' its' ∈ m'.defs)
    (hw : MoreItems (.enum n c its) (.enum n c' its')) :
    ∃ (lines more : List Text) (h h' : HeaderParts), All2 EnumLine its lines ∧ All2 EnumLine its' (lines ++ more) ∧
      its <+: its' ∧
      HasText ((cmd.run fuel raw cfg out).apply fs) (cmd.path out m.name) h.text ∧
      HasText ((cmd'.run fuel' raw' cfg' out').apply fs') (cmd'.path out' m'.name) h'.text ∧
      enumOf c n lines ∈ h.blocks ∧ enumOf c' n (lines ++ more) ∈ h'.blocks := by
  obtain ⟨bm, hbm, rfl⟩ := List.mem_map.1 hm
  obtain ⟨bm', hbm', rfl⟩ := List.mem_map.1 hm'
  obtain ⟨cd, k1, k2⟩ := header_parts hi.grammar hi.accepted hr hbm fs
  obtain ⟨cd', k1', k2'⟩ := header_parts hi'.grammar hi'.accepted hr' hbm' fs'
  obtain ⟨p, l, r, p1, p2⟩ := moduleData_at k1 hd
  obtain ⟨p', l', r', p1', p2'⟩ := moduleData_at k1' hd'
  have hs := accepted_sized (sources_of_input hi)
  have hs' := accepted_sized (sources_of_input hi')
  have hdb := mem_defs_of_module hm hd
  have hdb' := mem_defs_of_module hm' hd'
  have hpre : its <+: its' := by
    generalize hx : Def.enum n c its = x at hw
    generalize hx' : Def.enum n c' its' = x' at hw
    cases hw with
    | same =>
      rw [← hx] at hx'
      cases hx'
      exact List.prefix_rfl
    | items h =>
      cases hx
      cases hx'
      exact items_prefix (hs.pos _ _ _ hdb) (hs'.pos _ _ _ hdb') h
  have hbt' := buildFromTexts_of_config hi'.accepted
  have hg' := hs'.grammar _ hdb'
  have hc' := (accepted_comments hi'.comments hbt' bm'.mod hm').2 _ hd'
  have hlines : All2 EnumLine its' (its'.map enumLine) := by
    refine all2_map_self fun it hit => enumLine_text (hg'.2.2 it hit) fun x hx => hc' x ?_
    simp only [commentsOf, List.mem_append, List.mem_filterMap]
    exact Or.inr ⟨it, hit, hx⟩
  have ht : ∀ (n : String) (c : Option Comment) (its : List EnumItem), isNameCapital n = true →
      (convertEnum n c its).data = [enumOf c n (its.map enumLine)] := by
    intro n c its hn
    unfold convertEnum enumOf
    rw [defComment_eq, cName_eq (Or.inr hn), List.flatMap_def]
  obtain ⟨extra, rfl⟩ := hpre
  obtain ⟨r1, r2, e, q1, q2⟩ := all2_append_left hlines
  have hr1 : r1 = its.map enumLine := by
    rw [List.map_append] at e
    exact (List.append_inj e (by rw [List.length_map]; exact q1.length_eq)).1.symm
  refine ⟨its.map enumLine, extra.map enumLine, _, _, hr1 ▸ q1, ?_, List.prefix_append .., k2, k2', ?_, ?_⟩
  · rw [← List.map_append]; exact hlines
  · show _ ∈ cd.data
    simp only [defPart, Except.ok.injEq] at p1
    rw [p2, ← p1, ht _ _ _ (hs.grammar _ hdb).1]
    exact List.mem_append_left _ (List.mem_append_right _ (List.Mem.head _))
  · show _ ∈ cd'.data
    simp only [defPart, Except.ok.injEq] at p1'
    rw [p2', ← p1', ht _ _ _ hg'.1, List.map_append]
    exact List.mem_append_left _ (List.mem_append_right _ (List.Mem.head _))

/-- **C94, other definitions.** When items are appended to enumerations, a definition has the same text in the headers if the
enumerations among the types of its members need as many bits as before. -/
theorem C94_headers (cmd cmd' : Command) (fuel fuel' : Nat) (raw raw' : List Module) (cfg cfg' : List String)
    (out out' : Text) (b b' : Bundle) (fs fs' : Files) (hi : Input raw cfg b) (hi' : Input raw' cfg' b')
    (hr : (cmd.run fuel raw cfg out).result = .ok ()) (hr' : (cmd'.run fuel' raw' cfg' out').result = .ok ())
    (hw : MoreItemsDefs b.defs b'.defs) (m m' : Module) (hm : m ∈ b.modules) (hm' : m' ∈ b'.modules) (d : Def)
    (hd : d ∈ m.defs) (hd' : d ∈ m'.defs) (hb : ∀ k ∈ d.members, KeepsBits b.defs b'.defs k.type) :
    ∃ ts, Block (fun _ _ _ => True) (fun t => (dims t).take 1) d ts ∧ ∃ h h' : HeaderParts,
      HasText ((cmd.run fuel raw cfg out).apply fs) (cmd.path out m.name) h.text ∧
      HasText ((cmd'.run fuel' raw' cfg' out').apply fs') (cmd'.path out' m'.name) h'.text ∧
      (∃ l r, h.blocks = l ++ ts ++ r) ∧ ∃ l r, h'.blocks = l ++ ts ++ r := by
  refine C84_header cmd cmd' fuel fuel' raw raw' cfg cfg' out out' b b' fs fs' hi hi' hr hr' m m' hm hm' d hd hd' ?_
  intro n c ms he k hk
  subst he
  exact sameMeaning_items hw (fun _ _ _ h => sized_least (accepted_sized (sources_of_input hi)) h)
    (mem_defs_of_module hm hd) hk (hb k hk)

/-- **C94, COSMOS.** When items are appended to enumerations, the packet of a message keeps its items in order, with their
names, types, byte orders, limits, units and states with their numbers. States may be added at the end. An item has as many
bits as before exactly if its enumeration needs as many bits as before. -/
theorem C94_cosmos (fuel fuel' : Nat) (p : Printer) (raw raw' : List Module) (b b' : Bundle)
    (module module' : String) (messages : List String) (target target' out out' : Text) (hi : Sources raw b)
    (hi' : Sources raw' b') (hp : Faithful p) (ho : OneLine p) (ht : IsTarget target) (ht' : IsTarget target')
    (hr : (runCosmos fuel p raw module messages target out).result = .ok ())
    (hr' : (runCosmos fuel' p raw' module' messages target' out').result = .ok ()) (hw : MoreItemsDefs b.defs b'.defs) :
    ∃ t t' xs, (∀ fs, Adds fs ((runCosmos fuel p raw module messages target out).apply fs) (cosmosPath out target) t) ∧
      (∀ fs, Adds fs ((runCosmos fuel' p raw' module' messages target' out').apply fs) (cosmosPath out' target') t') ∧
      readCosmos t = xs.map (·.1) ∧ readCosmos t' = xs.map (·.2) ∧
      All2 (fun n (x : CosmosPacket × CosmosPacket) => x.1.name = x.2.name ∧
        ∃ c ms, Def.seq n c ms ∈ b.defs ∧ AddsStates b.defs b'.defs ms x.1.items x.2.items) messages xs := by
  have hs := accepted_sized hi
  have hs' := accepted_sized hi'
  obtain ⟨t, h1, h2⟩ := cosmos_describes hi hp ho ht hr
    (P := fun ms items => ∃ ls es, Leaves b.defs ms ls ∧ All2 (EntryFor p b.defs fun path s => Clear b.defs path →
      FoundValue .nil path s) ls es ∧ items = es.map (readItem p)) fun ms ls es k1 _ k3 => ⟨ls, es, k1, k3, rfl⟩
  obtain ⟨t', h1', h2'⟩ := cosmos_describes hi' hp ho ht' hr'
    (P := fun ms items => ∃ ls es, Leaves b'.defs ms ls ∧ All2 (EntryFor p b'.defs fun path s => Clear b'.defs path →
      FoundValue .nil path s) ls es ∧ items = es.map (readItem p)) fun ms ls es k1 _ k3 => ⟨ls, es, k1, k3, rfl⟩
  obtain ⟨ys, e1, e2, e3, hys⟩ := all2_triple h2 h2'
  refine ⟨t, t', ys.map (·.2), h1, h1', by rw [List.map_map]; exact e2.symm, by rw [List.map_map]; exact e3.symm, ?_⟩
  rw [← e1]
  refine all2_of_maps _ ?_
  intro y hy
  obtain ⟨⟨_, n1, ms, hms, ls, es, k1, k3, k4⟩, _, n1', ms', hms', ls', es', k1', k3', k4'⟩ := hys y hy
  obtain ⟨m, hm, _, c, hd⟩ := hms
  obtain ⟨m', hm', _, c', hd'⟩ := hms'
  have hdb := mem_defs_of_module hm hd
  refine ⟨n1.trans n1'.symm, c, ms, hdb, ?_⟩
  rw [k4, k4']
  cases hw.of_name hs'.nodup hdb (mem_defs_of_module hm' hd') rfl
  exact adds_states hs hs' hw (fun k hk => ⟨_, hdb, hk⟩) k1 k1' k3 k3'

/-- **C94, binary files.** When items are appended to enumerations, the binary file of a sequence stays the same. Only simple
types may have the names of standard types. -/
theorem C94_binary (fuel fuel' : Nat) (e : Option Endian) (raw raw' : List Module) (cfg cfg' : List String)
    (out out' : Text) (b b' : Bundle) (fs fs' : Files) (hi : Input raw cfg b) (hi' : Input raw' cfg' b')
    (hr : (runBinary fuel e raw cfg out).result = .ok ()) (hr' : (runBinary fuel' e raw' cfg' out').result = .ok ())
    (hw : MoreItemsDefs b.defs b'.defs)
    (hstd : ∀ d ∈ b.defs, (∃ c t, d = .simple d.name c t) ∨ d.name ∉ standardNames) (d : Def) (hd : d ∈ b.defs)
    (hf : fixedMembers d ≠ []) :
    ∃ bytes, HasBytes ((runBinary fuel e raw cfg out).apply fs) (binPath out d) bytes ∧
      HasBytes ((runBinary fuel' e raw' cfg' out').apply fs') (binPath out' d) bytes := by
  have hd' : d ∈ b'.defs := by
    obtain ⟨d', h1, h2⟩ := hw.there d hd
    cases h2 with
    | same => exact h1
    | items => exact absurd rfl hf
  obtain ⟨x, blocks, h1, ⟨bm, hbm, _, h2⟩, h3⟩ := bin_clause hi.grammar hi.accepted hr hd hf fs
  obtain ⟨x', blocks', h1', ⟨bm', hbm', _, h2'⟩, h3'⟩ := bin_clause hi'.grammar hi'.accepted hr' hd' hf fs'
  rw [h1] at h1'
  cases h1'
  have := clauseBytes_items (accepted_sized (sources_of_input hi)) (accepted_sized (sources_of_input hi')) hw hstd hbm hbm'
    h2 h2'
  subst this
  exact ⟨_, h3, h3'⟩

/-! ### Examples -/

/-- The modules of `exHere` with these modes. -/
def exModes (its : List EnumItem) : List Module := [{ name := "m", defs := [.enum "Mode" none its, exTagDef,
  .simple "Part" none (intType 0 255), .seq "Rest" none [⟨"x", intType 0 7, none, none⟩], exWholeDef] }]

def exItems4 : List EnumItem := [⟨"off", 0, none⟩, ⟨"on", 1, none⟩, ⟨"safe", 2, none⟩, ⟨"test", 3, none⟩]
def exItems5 : List EnumItem := exItems4 ++ [⟨"boot", 4, some ⟨"After a reset", "", false⟩⟩]

theorem exItems4_input : Input (exModes exItems4) ["m"] (okBundle (buildFromConfig (exModes exItems4) ["m"])) :=
  input_of (by decide +kernel) (by decide +kernel) (by decide +kernel)
theorem exItems4_defs : (okBundle (buildFromConfig (exModes exItems4) ["m"])).defs = defsOf (exModes exItems4) := by
  decide +kernel
theorem exItems5_input : Input (exModes exItems5) ["m"] (okBundle (buildFromConfig (exModes exItems5) ["m"])) :=
  input_of (by decide +kernel) (by decide +kernel) (by decide +kernel)
theorem exItems5_defs : (okBundle (buildFromConfig (exModes exItems5) ["m"])).defs = defsOf (exModes exItems5) := by
  decide +kernel

theorem exModes_more {its : List EnumItem} (h : MoreItems (.enum "Mode" none [⟨"off", 0, none⟩, ⟨"on", 1, none⟩, ⟨"safe", 2, none⟩])
    (.enum "Mode" none its)) : MoreItemsDefs (defsOf exHere) (defsOf (exModes its)) := by
  constructor
  · intro d hd
    rcases List.mem_cons.1 hd with rfl | hd
    · exact ⟨_, List.Mem.head _, h⟩
    · exact ⟨d, List.mem_cons_of_mem _ hd, .same⟩
  · intro d hd
    rcases List.mem_cons.1 hd with rfl | hd
    · exact .inl ⟨_, List.Mem.head _, h⟩
    · exact .inl ⟨d, List.mem_cons_of_mem _ hd, .same⟩

theorem exItems5_more : MoreItems (.enum "Mode" none [⟨"off", 0, none⟩, ⟨"on", 1, none⟩, ⟨"safe", 2, none⟩])
    (.enum "Mode" none exItems5) := .items (by decide)
theorem exItems4_more : MoreItems (.enum "Mode" none [⟨"off", 0, none⟩, ⟨"on", 1, none⟩, ⟨"safe", 2, none⟩])
    (.enum "Mode" none exItems4) := .items (by decide)

theorem exItems4_least : LeastForItems 2 exItems4 := by
  constructor
  · intro it hit
    simp only [exItems4, List.mem_cons, List.not_mem_nil, or_false] at hit
    rcases hit with rfl | rfl | rfl | rfl <;> exact ⟨by dsimp only; decide, by dsimp only; decide⟩
  · exact fun w' h => (three_items "off" "on" "safe" none none none).2 w' fun it hit =>
      h it (List.mem_append_left [(⟨"test", 3, none⟩ : EnumItem)] hit)

/-- Two enumerators more. -/
example : ∃ (lines more : List Text) (h h' : HeaderParts), lines.length = 3 ∧ more.length = 2 ∧
    HasText (((Command.c exPrinter).run 20 exHere ["m"] exOut).apply fun _ => none) "gen/m.h".toList h.text ∧
    HasText (((Command.c exPrinter).run 20 (exModes exItems5) ["m"] exOut).apply fun _ => none) "gen/m.h".toList h'.text ∧
    enumOf none "Mode" lines ∈ h.blocks ∧ enumOf none "Mode" (lines ++ more) ∈ h'.blocks := by
  obtain ⟨m, hm, hd⟩ : ∃ m ∈ (okBundle (buildFromConfig exHere ["m"])).modules, m.name = "m" ∧
      .enum "Mode" none [⟨"off", 0, none⟩, ⟨"on", 1, none⟩, ⟨"safe", 2, none⟩] ∈ m.defs :=
    ⟨_, List.mem_of_getElem? (i := 0) rfl, by decide +kernel, by decide +kernel⟩
  obtain ⟨m', hm', hd'⟩ : ∃ m ∈ (okBundle (buildFromConfig (exModes exItems5) ["m"])).modules, m.name = "m" ∧
      .enum "Mode" none exItems5 ∈ m.defs :=
    ⟨_, List.mem_of_getElem? (i := 0) rfl, by decide +kernel, by decide +kernel⟩
  obtain ⟨lines, more, h, h', q1, q2, _, q3⟩ := C94_enumerations (.c exPrinter) (.c exPrinter) 20 20 exHere (exModes exItems5)
    ["m"] ["m"] exOut exOut _ _ (fun _ => none) (fun _ => none) exHere_input exItems5_input (by decide +kernel)
    (by decide +kernel) m m' hm hm' "Mode" none none _ _ hd.2 hd'.2 exItems5_more
  rw [hd.1, hd'.1] at q3
  have e1 : 3 = lines.length := q1.length_eq
  have e2 : 5 = (lines ++ more).length := q2.length_eq
  rw [List.length_append] at e2
  exact ⟨lines, more, h, h', e1.symm, by omega, q3⟩

/-- Four modes need as many bits as three. -/
example : ∃ ts, Block (fun _ _ _ => True) (fun t => (dims t).take 1) exWholeDef ts ∧ ∃ h h' : HeaderParts,
    HasText (((Command.c exPrinter).run 20 exHere ["m"] exOut).apply fun _ => none) "gen/m.h".toList h.text ∧
    HasText (((Command.c exPrinter).run 20 (exModes exItems4) ["m"] exOut).apply fun _ => none) "gen/m.h".toList h'.text ∧
    (∃ l r, h.blocks = l ++ ts ++ r) ∧ ∃ l r, h'.blocks = l ++ ts ++ r := by
  obtain ⟨m, hm, hd⟩ : ∃ m ∈ (okBundle (buildFromConfig exHere ["m"])).modules, m.name = "m" ∧ exWholeDef ∈ m.defs :=
    ⟨_, List.mem_of_getElem? (i := 0) rfl, by decide +kernel, by decide +kernel⟩
  obtain ⟨m', hm', hd'⟩ : ∃ m ∈ (okBundle (buildFromConfig (exModes exItems4) ["m"])).modules, m.name = "m" ∧ exWholeDef ∈ m.defs :=
    ⟨_, List.mem_of_getElem? (i := 0) rfl, by decide +kernel, by decide +kernel⟩
  have := C94_headers (.c exPrinter) (.c exPrinter) 20 20 exHere (exModes exItems4) ["m"] ["m"] exOut exOut _ _ (fun _ => none)
    (fun _ => none) exHere_input exItems4_input (by decide +kernel) (by decide +kernel)
    (by rw [exHere_defs, exItems4_defs]; exact exModes_more exItems4_more) m m' hm hm' exWholeDef hd.2 hd'.2 ?_
  · rw [hd.1, hd'.1] at this
    exact this
  · intro k _ n c c' its its' _ h1 h2
    rw [exHere_defs] at h1
    rw [exItems4_defs] at h2
    have e1 : ∀ d ∈ (defsOf exHere).tail, ∀ n c its, d ≠ .enum n c its := by
      intro d hd n c its he
      subst he
      simp [defsOf, exHere, exTagDef, exWholeDef] at hd
    rcases List.mem_cons.1 h1 with h1 | h1
    · rcases List.mem_cons.1 h2 with h2 | h2
      · cases h1
        cases h2
        exact ⟨2, three_items _ _ _ _ _ _, exItems4_least⟩
      · exact absurd rfl (e1 _ h2 _ _ _)
    · exact absurd rfl (e1 _ h1 _ _ _)

/-- The fifth mode needs a further bit. -/
example : ∃ t t', newText (runCosmos 20 exPrinter exHere "m" ["Whole"] "SAT".toList exOut) (cosmosPath exOut "SAT".toList) = t ∧
    newText (runCosmos 20 exPrinter (exModes exItems5) "m" ["Whole"] "SAT".toList exOut) (cosmosPath exOut "SAT".toList) = t' ∧
    ((readCosmos t).map fun x => x.items.map fun i => (String.ofList i.name, i.bits, i.states.length)) =
      [[("application-process-identifier", some 8, 0), ("level", some 8, 0), ("mode", some 2, 3), ("part", some 8, 0)]] ∧
    ((readCosmos t').map fun x => x.items.map fun i => (String.ofList i.name, i.bits, i.states.length)) =
      [[("application-process-identifier", some 8, 0), ("level", some 8, 0), ("mode", some 3, 5), ("part", some 8, 0)]] := by
  obtain ⟨t, t', xs, h1, h2, _⟩ := C94_cosmos 20 20 exPrinter exHere (exModes exItems5) _ _ "m" "m" ["Whole"] "SAT".toList
    "SAT".toList exOut exOut (sources_of_input exHere_input) (sources_of_input exItems5_input) exPrinter_faithful
    exPrinter_oneLine exTlm_target exTlm_target (by decide +kernel) (by decide +kernel)
    (by rw [exHere_defs, exItems5_defs]; exact exModes_more exItems5_more)
  refine ⟨t, t', newText_eq h1, newText_eq h2, ?_, ?_⟩
  · rw [← newText_eq h1]; decide +kernel
  · rw [← newText_eq h2]; decide +kernel

/-- The binary file of the packet. -/
example : ∃ bytes, HasBytes ((runBinary 20 (some .big) exHere ["m"] exOut).apply fun _ => none) "gen/whole.bin".toList bytes ∧
    HasBytes ((runBinary 20 (some .big) (exModes exItems5) ["m"] exOut).apply fun _ => none) "gen/whole.bin".toList bytes := by
  refine C94_binary 20 20 (some .big) exHere (exModes exItems5) ["m"] ["m"] exOut exOut _ _ (fun _ => none) (fun _ => none)
    exHere_input exItems5_input (by decide +kernel) (by decide +kernel)
    (by rw [exHere_defs, exItems5_defs]; exact exModes_more exItems5_more) ?_
    exWholeDef (by rw [exHere_defs]; decide +kernel) (by simp [fixedMembers, exWholeDef])
  rw [exHere_defs]
  have : ∀ d ∈ defsOf exHere, d.name ∉ standardNames := by decide +kernel
  exact fun d h => .inr (this _ h)

end Apg
