import Verif.Lemmas.Append
import Verif.Props.Local

/-!
# Property C88: members that are appended
-/

namespace Apg
open Spec

/-- **C88, headers.** When members are appended to a sequence, the struct of the sequence keeps the texts of its fields and gets
further fields after them, if the types of its members still mean the same. -/
theorem C88_headers (cmd cmd' : Command) (fuel fuel' : Nat) (raw raw' : List Module) (cfg cfg' : List String)
    (out out' : Text) (b b' : Bundle) (fs fs' : Files) (hi : Input raw cfg b) (hi' : Input raw' cfg' b')
    (hr : (cmd.run fuel raw cfg out).result = .ok ()) (hr' : (cmd'.run fuel' raw' cfg' out').result = .ok ())
    (m m' : Module) (hm : m ∈ b.modules) (hm' : m' ∈ b'.modules) (n : String) (c c' : Option Comment)
    (ms extra : List Member) (hd : Def.seq n c ms ∈ m.defs) (hd' : Def.seq n c' (ms ++ extra) ∈ m'.defs)
    (hs : ∀ k ∈ ms, SameMeaning b.defs b'.defs k.type.name) :
    ∃ (fields more : List Text) (h h' : HeaderParts), All2 FieldFor ms fields ∧ All2 FieldFor extra more ∧
      HasText ((cmd.run fuel raw cfg out).apply fs) (cmd.path out m.name) h.text ∧
      HasText ((cmd'.run fuel' raw' cfg' out').apply fs') (cmd'.path out' m'.name) h'.text ∧
      structOf c n fields ∈ h.blocks ∧ structOf c' n (fields ++ more) ∈ h'.blocks := by
  obtain ⟨bm, hbm, rfl⟩ := List.mem_map.1 hm
  obtain ⟨bm', hbm', rfl⟩ := List.mem_map.1 hm'
  obtain ⟨cd, k1, k2⟩ := header_parts hi.grammar hi.accepted hr hbm fs
  obtain ⟨cd', k1', k2'⟩ := header_parts hi'.grammar hi'.accepted hr' hbm' fs'
  obtain ⟨p, l, r, p1, p2⟩ := moduleData_at k1 hd
  obtain ⟨p', l', r', p1', p2'⟩ := moduleData_at k1' hd'
  have hbt := buildFromTexts_of_config hi.accepted
  have hbt' := buildFromTexts_of_config hi'.accepted
  have hg := (accepted_grammar hi.grammar hbt _ (mem_defs_of_module hm hd)).1
  have hg' := (accepted_grammar hi'.grammar hbt' _ (mem_defs_of_module hm' hd')).1
  have hc' := (accepted_comments hi'.comments hbt' bm'.mod hm').2 _ hd'
  obtain ⟨rs, q1, q2⟩ := sequence_fields (command_quiet cmd fuel out b) hg.1 p1
  obtain ⟨rs', q1', q2'⟩ := sequence_fields (command_quiet cmd' fuel' out' b') hg'.1 p1'
  have hf : ∀ k ∈ ms ++ extra, GrammarMember k ∧ ∀ x, k.comment = some x → GrammarComment x :=
    fun k hk => ⟨hg'.2.2 k hk, fun x hx => hc' x (by
      simp only [commentsOf, List.mem_append (s := c'.toList), List.mem_filterMap]
      exact Or.inr ⟨k, hk, hx⟩)⟩
  obtain ⟨r1, r2, rfl, u1, u2⟩ := all2_append_left q1'
  rw [List.zip_append u1.length_eq, List.map_append] at q2'
  have hsame := fields_same (ms := ms)
    (fun k hk => field_local hi hi' hbm hbm' hd hd' hk (List.mem_append_left _ hk) (hs k hk)) q1 u1
  rw [← hsame] at q2'
  refine ⟨(ms.zip rs).map memberPrint, (extra.zip r2).map memberPrint, _, _, ?_, ?_, k2, k2', ?_, ?_⟩
  · rw [hsame]
    exact fields_of u1 fun k hk => hf k (List.mem_append_left _ hk)
  · exact fields_of u2 fun k hk => hf k (List.mem_append_right _ hk)
  · show _ ∈ cd.data
    rw [p2, q2]
    exact List.mem_append_left _ (List.mem_append_right _ (List.Mem.head _))
  · show _ ∈ cd'.data
    rw [p2', q2']
    exact List.mem_append_left _ (List.mem_append_right _ (List.Mem.head _))

/-- **C88, COSMOS.** When members are appended to sequences, anywhere, the packet of a message keeps its items in order. They
agree in name, size, type, byte order, states, limits and units. They are at the start of the packet if members were
appended to the message only. They have the same values where at most one clause reaches a leaf. -/
theorem C88_cosmos (fuel fuel' : Nat) (p : Printer) (raw raw' : List Module) (b b' : Bundle)
    (module module' : String) (messages : List String) (target target' out out' : Text) (hi : Sources raw b)
    (hi' : Sources raw' b') (hp : Faithful p) (ho : OneLine p) (ht : IsTarget target) (ht' : IsTarget target')
    (hr : (runCosmos fuel p raw module messages target out).result = .ok ())
    (hr' : (runCosmos fuel' p raw' module' messages target' out').result = .ok ()) (hw : LengthenedDefs b.defs b'.defs) :
    ∃ t t' xs, (∀ fs, Adds fs ((runCosmos fuel p raw module messages target out).apply fs) (cosmosPath out target) t) ∧
      (∀ fs, Adds fs ((runCosmos fuel' p raw' module' messages target' out').apply fs) (cosmosPath out' target') t') ∧
      readCosmos t = xs.map (·.1) ∧ readCosmos t' = xs.map (·.2) ∧
      All2 (fun n (x : CosmosPacket × CosmosPacket) => x.1.name = x.2.name ∧
        ∃ c ms, Def.seq n c ms ∈ b.defs ∧ KeepsItems b.defs b'.defs ms x.1.items x.2.items) messages xs := by
  have hs := accepted_sized hi
  have hs' := accepted_sized hi'
  obtain ⟨t, h1, h2⟩ := cosmos_describes hi hp ho ht hr
    (P := fun ms items => ∃ ls es, Leaves b.defs ms ls ∧ All2 (EntryFor p b.defs fun path s => Clear b.defs path →
      FoundValue .nil path s) ls es ∧ items = es.map (readItem p)) fun ms ls es k1 _ k3 => ⟨ls, es, k1, k3, rfl⟩
  obtain ⟨t', h1', h2'⟩ := cosmos_describes hi' hp ho ht' hr'
    (P := fun ms items => ∃ ls es, Leaves b'.defs ms ls ∧ All2 (EntryFor p b'.defs fun path s => Clear b'.defs path →
      FoundValue .nil path s) ls es ∧ items = es.map (readItem p)) fun ms ls es k1 _ k3 => ⟨ls, es, k1, k3, rfl⟩
  obtain ⟨ys, e1, e2, e3, hys⟩ := all2_triple h2 h2'
  refine ⟨t, t', ys.map (·.2), h1, h1', by rw [List.map_map]; exact e2.symm, by rw [List.map_map]; exact e3.symm, ?_⟩
  rw [← e1]
  refine all2_of_maps _ ?_
  intro y hy
  obtain ⟨⟨_, n1, ms, hms, ls, es, k1, k3, k4⟩, _, n1', ms', hms', ls', es', k1', k3', k4'⟩ := hys y hy
  obtain ⟨m, hm, _, c, hd⟩ := hms
  obtain ⟨m', hm', _, c', hd'⟩ := hms'
  have hdb := mem_defs_of_module hm hd
  refine ⟨n1.trans n1'.symm, c, ms, hdb, ?_⟩
  rw [k4, k4']
  have hl := hw.of_name hs'.nodup hdb (mem_defs_of_module hm' hd') rfl
  have hin : ∀ k ∈ ms, ∃ d ∈ b.defs, k ∈ d.members := fun k hk => ⟨_, hdb, hk⟩
  cases hl with
  | same => exact keeps_items hs hs' hw (extra := []) hin k1 (by rw [List.append_nil]; exact k1') k3 k3'
  | seq => exact keeps_items hs hs' hw hin k1 k1' k3 k3'

/-- **C88, binary files.** When members without clauses are appended to sequences, anywhere, with names of their own, the
binary file of a sequence stays the same. No sequence has one of the names of standard types. -/
theorem C88_binary (fuel fuel' : Nat) (e : Option Endian) (raw raw' : List Module) (cfg cfg' : List String)
    (out out' : Text) (b b' : Bundle) (fs fs' : Files) (hi : Input raw cfg b) (hi' : Input raw' cfg' b')
    (hr : (runBinary fuel e raw cfg out).result = .ok ()) (hr' : (runBinary fuel' e raw' cfg' out').result = .ok ())
    (hw : LengthenedDefs b.defs b'.defs) (hstd : ∀ n c ms, Def.seq n c ms ∈ b.defs → n ∉ standardNames)
    (hk : FreshKeys b.defs b'.defs) (d d' : Def) (hd : d ∈ b.defs) (hd' : d' ∈ b'.defs)
    (hf : fixedMembers d ≠ []) (hf' : fixedMembers d' = fixedMembers d) :
    ∃ bytes, HasBytes ((runBinary fuel e raw cfg out).apply fs) (binPath out d) bytes ∧
      HasBytes ((runBinary fuel' e raw' cfg' out').apply fs') (binPath out' d') bytes := by
  obtain ⟨x, blocks, h1, ⟨bm, hbm, _, h2⟩, h3⟩ := bin_clause hi.grammar hi.accepted hr hd hf fs
  obtain ⟨x', blocks', h1', ⟨bm', hbm', _, h2'⟩, h3'⟩ := bin_clause hi'.grammar hi'.accepted hr' hd' (hf' ▸ hf) fs'
  rw [hf', h1] at h1'
  cases h1'
  have := clauseBytes_grown (accepted_sized (sources_of_input hi)) (accepted_sized (sources_of_input hi')) hw hstd hk hbm hbm'
    h2 h2'
  subst this
  exact ⟨_, h3, h3'⟩

/-! ### Examples -/

/-- The packet of `exHere` with one more member. -/
def exLongDef : Def := .seq "Whole" none ([
  ⟨"tag", .plain "Tag" none none, none, some (.leaf "application-process-identifier" (.int 7) .nil)⟩,
  ⟨"mode", .plain "Mode" none none, none, none⟩, ⟨"part", .arr (.plain "Part" none none) 3, none, none⟩] ++
  [⟨"tail", .plain "Tail" none none, none, none⟩])

/-- The tag of `exHere` with one more member. -/
def exLongTag : Def := .seq "Tag" none ([⟨"application-process-identifier", intType 0 255, none, none⟩,
  ⟨"level", intType 0 255, none, none⟩] ++ [⟨"kind", intType 0 15, none, none⟩])

def exLong : List Module := [{ name := "m", defs := [
  .enum "Mode" none [⟨"off", 0, none⟩, ⟨"on", 1, none⟩, ⟨"safe", 2, none⟩], exLongTag, .simple "Tail" none (intType 0 3),
  .simple "Part" none (intType 0 255), .seq "Rest" none [⟨"x", intType 0 7, none, none⟩], exLongDef] }]

theorem exLong_input : Input exLong ["m"] (okBundle (buildFromConfig exLong ["m"])) :=
  input_of (by decide +kernel) (by decide +kernel) (by decide +kernel)
theorem exLong_defs : (okBundle (buildFromConfig exLong ["m"])).defs = defsOf exLong := by decide +kernel

theorem exLong_lengthened : LengthenedDefs (defsOf exHere) (defsOf exLong) := by
  have h1 : Lengthened exTagDef exLongTag := .seq
  have h2 : Lengthened exWholeDef exLongDef := .seq
  constructor
  · intro d hd
    rcases List.mem_cons.1 hd with rfl | hd
    · exact ⟨_, List.mem_of_getElem? (i := 0) rfl, .same⟩
    rcases List.mem_cons.1 hd with rfl | hd
    · exact ⟨_, List.mem_of_getElem? (i := 1) rfl, h1⟩
    rcases List.mem_cons.1 hd with rfl | hd
    · exact ⟨_, List.mem_of_getElem? (i := 3) rfl, .same⟩
    rcases List.mem_cons.1 hd with rfl | hd
    · exact ⟨_, List.mem_of_getElem? (i := 4) rfl, .same⟩
    rcases List.mem_cons.1 hd with rfl | hd
    · exact ⟨_, List.mem_of_getElem? (i := 5) rfl, h2⟩
    cases hd
  · intro d hd
    rcases List.mem_cons.1 hd with rfl | hd
    · exact .inl ⟨_, List.mem_of_getElem? (i := 0) rfl, .same⟩
    rcases List.mem_cons.1 hd with rfl | hd
    · exact .inl ⟨_, List.mem_of_getElem? (i := 1) rfl, h1⟩
    rcases List.mem_cons.1 hd with rfl | hd
    · right
      have : ∀ d ∈ defsOf exHere, ∀ m ∈ d.members, m.type.name ≠ "Tail" := by decide +kernel
      exact fun d hd m hm hu => this d hd m hm ((usesName_iff _ _).1 hu)
    rcases List.mem_cons.1 hd with rfl | hd
    · exact .inl ⟨_, List.mem_of_getElem? (i := 2) rfl, .same⟩
    rcases List.mem_cons.1 hd with rfl | hd
    · exact .inl ⟨_, List.mem_of_getElem? (i := 3) rfl, .same⟩
    rcases List.mem_cons.1 hd with rfl | hd
    · exact .inl ⟨_, List.mem_of_getElem? (i := 4) rfl, h2⟩
    cases hd

/-- The struct of the packet gets a further field. -/
example : ∃ (fields more : List Text) (h h' : HeaderParts), fields.length = 3 ∧ more.length = 1 ∧
    HasText (((Command.c exPrinter).run 20 exHere ["m"] exOut).apply fun _ => none) "gen/m.h".toList h.text ∧
    HasText (((Command.c exPrinter).run 20 exLong ["m"] exOut).apply fun _ => none) "gen/m.h".toList h'.text ∧
    structOf none "Whole" fields ∈ h.blocks ∧ structOf none "Whole" (fields ++ more) ∈ h'.blocks := by
  obtain ⟨m, hm, hd⟩ : ∃ m ∈ (okBundle (buildFromConfig exHere ["m"])).modules, m.name = "m" ∧ exWholeDef ∈ m.defs :=
    ⟨_, List.mem_of_getElem? (i := 0) rfl, by decide +kernel, by decide +kernel⟩
  obtain ⟨m', hm', hd'⟩ : ∃ m ∈ (okBundle (buildFromConfig exLong ["m"])).modules, m.name = "m" ∧ exLongDef ∈ m.defs :=
    ⟨_, List.mem_of_getElem? (i := 0) rfl, by decide +kernel, by decide +kernel⟩
  have := C88_headers (.c exPrinter) (.c exPrinter) 20 20 exHere exLong ["m"] ["m"] exOut exOut _ _ (fun _ => none)
    (fun _ => none) exHere_input exLong_input (by decide +kernel) (by decide +kernel) m m' hm hm' "Whole" none none _ _ hd.2 hd'.2 ?_
  · obtain ⟨fields, more, h, h', q1, q2, q3⟩ := this
    rw [hd.1, hd'.1] at q3
    exact ⟨fields, more, h, h', q1.length_eq.symm, q2.length_eq.symm, q3⟩
  · intro k hk
    rw [exHere_defs, exLong_defs]
    simp only [List.mem_cons, List.not_mem_nil, or_false] at hk
    rcases hk with rfl | rfl | rfl
    · exact .composite (d := exTagDef) (d' := exLongTag) (List.mem_of_getElem? (i := 1) rfl) (List.mem_of_getElem? (i := 1) rfl)
        rfl rfl trivial trivial
    · exact .enum (List.mem_of_getElem? (i := 0) rfl) (List.mem_of_getElem? (i := 0) rfl)
        (three_items _ _ _ _ _ _) (three_items _ _ _ _ _ _)
    · exact .simple (List.mem_of_getElem? (i := 2) rfl) (List.mem_of_getElem? (i := 3) rfl)

/-- The items of the packet before and after. -/
example : ∃ t t', newText (runCosmos 20 exPrinter exHere "m" ["Whole"] "SAT".toList exOut) (cosmosPath exOut "SAT".toList) = t ∧
    newText (runCosmos 20 exPrinter exLong "m" ["Whole"] "SAT".toList exOut) (cosmosPath exOut "SAT".toList) = t' ∧
    ((readCosmos t).map fun x => x.items.map fun i => String.ofList i.name) =
      [["application-process-identifier", "level", "mode", "part"]] ∧
    ((readCosmos t').map fun x => x.items.map fun i => String.ofList i.name) =
      [["application-process-identifier", "level", "kind", "mode", "part", "tail"]] := by
  obtain ⟨t, t', xs, h1, h2, _⟩ := C88_cosmos 20 20 exPrinter exHere exLong _ _ "m" "m" ["Whole"] "SAT".toList "SAT".toList
    exOut exOut (sources_of_input exHere_input) (sources_of_input exLong_input) exPrinter_faithful exPrinter_oneLine
    exTlm_target exTlm_target (by decide +kernel) (by decide +kernel) (by rw [exHere_defs, exLong_defs]; exact exLong_lengthened)
  refine ⟨t, t', newText_eq h1, newText_eq h2, ?_, ?_⟩
  · rw [← newText_eq h1]; decide +kernel
  · rw [← newText_eq h2]; decide +kernel

/-- The binary file of the packet. -/
example : ∃ bytes, HasBytes ((runBinary 20 (some .big) exHere ["m"] exOut).apply fun _ => none) "gen/whole.bin".toList bytes ∧
    HasBytes ((runBinary 20 (some .big) exLong ["m"] exOut).apply fun _ => none) "gen/whole.bin".toList bytes := by
  refine C88_binary 20 20 (some .big) exHere exLong ["m"] ["m"] exOut exOut _ _ (fun _ => none) (fun _ => none) exHere_input
    exLong_input (by decide +kernel) (by decide +kernel) (by rw [exHere_defs, exLong_defs]; exact exLong_lengthened) ?_ ?_
    exWholeDef exLongDef (by rw [exHere_defs]; decide +kernel) (by rw [exLong_defs]; decide +kernel)
    (by simp [fixedMembers, exWholeDef]) rfl
  · rw [exHere_defs]
    have : ∀ d ∈ defsOf exHere, d.name ∉ standardNames := by decide +kernel
    exact fun n c ms h => this _ h
  · rw [exHere_defs, exLong_defs]
    intro n c c' ms extra h h' k hk x hx
    have key : ∀ d ∈ defsOf exHere, ∀ d' ∈ defsOf exLong, d.name = d'.name → ∀ k ∈ d.members,
        ∀ x ∈ d'.members.drop d.members.length, x.key ≠ k.key := by decide +kernel
    refine key _ h _ h' rfl k hk x ?_
    show x ∈ (ms ++ extra).drop ms.length
    rw [List.drop_left]
    exact hx

end Apg
