import Verif.Lemmas.Widen

/-!
# Property C87: wider ranges
-/

namespace Apg
open Spec

/-- **C87, COSMOS.** When ranges, sizes and enumerations are made wider, anywhere, the packet of a message keeps its items in
order, with the same names, and none of them gets fewer bits. The packet does not get shorter. -/
theorem C87_cosmos (fuel fuel' : Nat) (p p' : Printer) (raw raw' : List Module) (b b' : Bundle)
    (module module' : String) (messages : List String) (target target' out out' : Text) (hi : Sources raw b)
    (hi' : Sources raw' b') (hp : Faithful p) (ho : OneLine p) (hp' : Faithful p') (ho' : OneLine p') (ht : IsTarget target)
    (ht' : IsTarget target') (hr : (runCosmos fuel p raw module messages target out).result = .ok ())
    (hr' : (runCosmos fuel' p' raw' module' messages target' out').result = .ok ()) (hw : WiderDefs b.defs b'.defs) :
    ∃ t t', (∀ fs, Adds fs ((runCosmos fuel p raw module messages target out).apply fs) (cosmosPath out target) t) ∧
      (∀ fs, Adds fs ((runCosmos fuel' p' raw' module' messages target' out').apply fs) (cosmosPath out' target') t') ∧
      All2 (fun pkt pkt' => pkt.name = pkt'.name ∧ All2 WiderItem pkt.items pkt'.items ∧
        ∃ v v', itemsLength pkt.items = some v ∧ itemsLength pkt'.items = some v' ∧ v ≤ v') (readCosmos t) (readCosmos t') := by
  have hs := accepted_sized hi
  have hs' := accepted_sized hi'
  obtain ⟨t, h1, h2⟩ := cosmos_describes hi hp ho ht hr
    (P := fun ms items => ∃ ls es, Leaves b.defs ms ls ∧ (∃ d ∈ b.defs, d.members = ms) ∧
      All2 (EntryFor p b.defs fun _ _ => True) ls es ∧ items = es.map (readItem p))
    fun ms ls es k1 k2 k3 => ⟨ls, es, k1, k2, k3.imp fun _ _ h => h.imp fun _ _ => trivial, rfl⟩
  obtain ⟨t', h1', h2'⟩ := cosmos_describes hi' hp' ho' ht' hr'
    (P := fun ms items => ∃ ls es, Leaves b'.defs ms ls ∧ (∃ d ∈ b'.defs, d.members = ms) ∧
      All2 (EntryFor p' b'.defs fun _ _ => True) ls es ∧ items = es.map (readItem p'))
    fun ms ls es k1 k2 k3 => ⟨ls, es, k1, k2, k3.imp fun _ _ h => h.imp fun _ _ => trivial, rfl⟩
  refine ⟨t, t', h1, h1', ?_⟩
  refine all2_both h2 h2' ?_
  rintro n pkt pkt' ⟨_, n1, ms, hms, ls, es, k1, k2, k3, k4⟩ ⟨_, n1', ms', hms', ls', es', k1', k2', k3', k4'⟩
  have hall : All2 WiderMember ms ms' := by
    obtain ⟨m, hm, _, c, hd⟩ := hms
    obtain ⟨m', hm', _, c', hd'⟩ := hms'
    have := hw.of_name hs'.nodup (mem_defs_of_module hm hd) (mem_defs_of_module hm' hd') rfl
    cases this with
    | seq h => exact h
  have hin : ∀ m ∈ ms, ∃ d ∈ b.defs, m ∈ d.members := by
    obtain ⟨d, hd, rfl⟩ := k2
    exact fun m hm => ⟨d, hd, hm⟩
  have hl := leaves_wider hs'.nodup hw k1 hall hin k1'
  have hitems : All2 WiderItem pkt.items pkt'.items := by
    rw [k4, k4']
    refine all2_maps (all2_chain k3 hl k3') ?_
    rintro e e' ⟨path, path', q1, ⟨m, m', q2, q3, q4⟩, q5⟩
    obtain ⟨x, s, c, lo, hi, states, r1, r2, r3, r4, _⟩ := q1
    obtain ⟨x', s', c', lo', hi', states', r1', r2', r3', r4', _⟩ := q5
    rw [q2] at r1
    cases r1
    rw [q3] at r1'
    cases r1'
    obtain ⟨c, rfl, r5⟩ := makeEntry_ok r4
    obtain ⟨c', rfl, r5'⟩ := makeEntry_ok r4'
    exact item_wider hs hs' hw q4 (member_grammar hs.grammar r2).2.1 (member_grammar hs'.grammar r2').2.1 r3 r3' r5 r5'
  exact ⟨n1.trans n1'.symm, hitems, itemsLength_wider hitems⟩

/-! ### Headers -/

/-- Statement of C87 for headers and members of which `Q` holds before and after: the field of a member that gets a wider type
does not get fewer bits. -/
def FieldsWiden (Q : List Def → AType → Prop) : Prop :=
  ∀ (cmd : Command) (fuel fuel' : Nat) (raw raw' : List Module) (cfg cfg' : List String) (out out' : Text) (b b' : Bundle)
    (fs fs' : Files), Input raw cfg b → Input raw' cfg' b' → (cmd.run fuel raw cfg out).result = .ok () →
    (cmd.run fuel' raw' cfg' out').result = .ok () → WiderDefs b.defs b'.defs →
    ∀ m ∈ b.modules, ∀ m' ∈ b'.modules, ∀ n c c' ms ms', Def.seq n c ms ∈ m.defs → Def.seq n c' ms' ∈ m'.defs →
    ∃ t t', HasText ((cmd.run fuel raw cfg out).apply fs) (cmd.path out m.name) t ∧
      HasText ((cmd.run fuel' raw' cfg' out').apply fs') (cmd.path out' m'.name) t' ∧
      All2 (fun k k' => Q b.defs k.type → Q b'.defs k'.type →
        ∃ ct sfx w ct' sfx' w', fieldLineText ct (ident k.key) sfx ∈ linesOf t ∧
          fieldLineText ct' (ident k'.key) sfx' ∈ linesOf t' ∧ FieldBits ct sfx w ∧ FieldBits ct' sfx' w' ∧ w ≤ w') ms ms'

/-- Full statement of C87 for headers: all numeric and enumerated members. -/
def C87_full : Prop := FieldsWiden Numeric

/-- **C87, headers, partial.** The fields of types whose width is that of the field do not get fewer bits. Missing: signed
ranges of another width than 32, unsigned ranges of more than 64 bits, and names of stdint.h that are defined as something
else. -/
theorem C87_headers_partial : FieldsWiden fun ds t => ∃ w, Width ds t w := by
  intro cmd fuel fuel' raw raw' cfg cfg' out out' b b' fs fs' hi hi' hr hr' hw m hm m' hm' n c c' ms ms' hd hd'
  have hs := accepted_sized (sources_of_input hi)
  have hs' := accepted_sized (sources_of_input hi')
  obtain ⟨h, h1, h2⟩ := (C44_widths_partial raw cfg b hi).1 cmd fuel out fs hr m hm
  obtain ⟨h', h1', h2'⟩ := (C44_widths_partial raw' cfg' b' hi').1 cmd fuel' out' fs' hr' m' hm'
  refine ⟨_, _, h1, h1', ?_⟩
  have hdb := mem_defs_of_module hm hd
  have hdb' := mem_defs_of_module hm' hd'
  have hall : All2 WiderMember ms ms' := by
    have := hw.of_name hs'.nodup hdb hdb' rfl
    cases this with
    | seq h => exact h
  refine all2_imp_both hall ?_
  rintro k hk k' hk' hkk ⟨w, hW⟩ ⟨w', hW'⟩
  obtain ⟨ct, sfx, br, q1, q2, q3⟩ := field_line h2 hd (fun k hk => ((hs.grammar _ hdb).2.2 k hk).1) hk
  obtain ⟨ct', sfx', br', q1', q2', q3'⟩ := field_line h2' hd' (fun k hk => ((hs'.grammar _ hdb').2.2 k hk).1) hk'
  have hb := brackets_width hW q2
  have hb' := brackets_width hW' q2'
  subst hb hb'
  rw [List.append_nil] at q3 q3'
  exact ⟨ct, sfx, w, ct', sfx', w', q3, q3', q1 w hW, q1' w' hW',
    width_wider hs hs' hw ((hs.grammar _ hdb).2.2 k hk).2.1 hkk.2 hW hW'⟩

/-- The bits of the field for a range that C can hold. -/
theorem span_bits {raw : List Module} {cfg : List String} {b : Bundle} (hin : Input raw cfg b) {bm : BMod} (hbm : bm ∈ b.mods)
    {d : Def} (hd : d ∈ bm.mod.defs) {k : Member} (hk : k ∈ d.members) {lo hi : Int} (hle : lo ≤ hi)
    (hb : 0 ≤ lo → hi < 2 ^ 64) (hrg : RangeMember b.defs k lo hi) {f : Mapped}
    (h : fieldType b.defs (simpleList bm) k.type = .ok f) :
    FieldBits f.ctype f.bits (if 0 ≤ lo then (bitLength hi : Int) else 32) := by
  split
  · rename_i h0
    refine fieldType_width hin hbm hd hk ?_ h
    have hs : ScalarWidth (intType lo hi) (bitLength hi) := .unsigned h0 (hb h0) ((leafSize_int _ _ _).1 (by
      rw [size_int, if_neg (by omega), if_pos h0]))
    rcases hrg with ht | ⟨n, c, ht, hsd, hnp⟩
    · rw [ht]; exact .scalar hs
    · rw [ht]; exact .alias hsd hnp hs
  · rename_i h0
    obtain ⟨m', hm', e1, e2⟩ := fieldType_range hin hbm hd hk hrg h
    cases mapNumeric_sint (by omega) hm'
    rw [e1, e2]
    exact .int

theorem bitLength_widen {a b : Int} (h0 : 0 ≤ a) (h : a ≤ b) : bitLength a ≤ bitLength b :=
  (uint_least a a h0 (Int.le_refl a)).2 _ fun v hv => (uint_least a b h0 h).1 v ⟨hv.1, Int.le_trans hv.2 h⟩

theorem bitLength_le32 {e : Int} (h0 : 0 ≤ e) : bitLength e ≤ 32 ↔ e < 2 ^ 32 := by
  constructor
  · intro h
    have := ((uint_least e e h0 (Int.le_refl e)).1 e ⟨Int.le_refl _, Int.le_refl _⟩).2
    have h2 : (2 : Int) ^ bitLength e ≤ 2 ^ 32 := by
      have := Nat.pow_le_pow_right (n := 2) (by decide) h
      exact_mod_cast this
    exact Int.lt_of_lt_of_le this h2
  · intro h
    exact (uint_least e e h0 (Int.le_refl e)).2 32 fun v hv => ⟨Int.le_trans h0 hv.1, Int.lt_of_le_of_lt hv.2 h⟩

/-- **C87, headers, which ranges.** When the range of a member is made wider, its field gets fewer bits exactly if the range was
unsigned with more than 32 bits and becomes signed. Missing: unsigned ranges of more than 64 bits, which no field of C
holds. -/
theorem C87_ranges_iff_partial (cmd cmd' : Command) (fuel fuel' : Nat) (raw raw' : List Module) (cfg cfg' : List String)
    (out out' : Text) (b b' : Bundle) (fs fs' : Files) (hin : Input raw cfg b) (hin' : Input raw' cfg' b')
    (hr : (cmd.run fuel raw cfg out).result = .ok ()) (hr' : (cmd'.run fuel' raw' cfg' out').result = .ok ())
    (m m' : Module) (hm : m ∈ b.modules) (hm' : m' ∈ b'.modules) (n n' : String) (c c' : Option Comment)
    (ms ms' : List Member) (hd : Def.seq n c ms ∈ m.defs) (hd' : Def.seq n' c' ms' ∈ m'.defs) (k k' : Member) (hk : k ∈ ms)
    (hk' : k' ∈ ms') (lo hi lo' hi' : Int) (hrg : RangeMember b.defs k lo hi) (hrg' : RangeMember b'.defs k' lo' hi')
    (hle : lo ≤ hi) (hlo : lo' ≤ lo) (hhi : hi ≤ hi') (hb : 0 ≤ lo → hi < 2 ^ 64) (hb' : 0 ≤ lo' → hi' < 2 ^ 64) :
    ∃ t t' ct sfx w ct' sfx' w', HasText ((cmd.run fuel raw cfg out).apply fs) (cmd.path out m.name) t ∧
      HasText ((cmd'.run fuel' raw' cfg' out').apply fs') (cmd'.path out' m'.name) t' ∧
      fieldLineText ct (ident k.key) sfx ∈ linesOf t ∧ fieldLineText ct' (ident k'.key) sfx' ∈ linesOf t' ∧
      FieldBits ct sfx w ∧ FieldBits ct' sfx' w' ∧ (w' < w ↔ 0 ≤ lo ∧ 2 ^ 32 ≤ hi ∧ lo' < 0) := by
  have key : ∀ {cmd : Command} {fuel raw cfg out b} {fs : Files} (_ : Input raw cfg b)
      (_ : (cmd.run fuel raw cfg out).result = .ok ()) {m : Module} (_ : m ∈ b.modules) {n c ms} (_ : Def.seq n c ms ∈ m.defs)
      {k : Member} (_ : k ∈ ms) {lo hi : Int} (_ : RangeMember b.defs k lo hi) (_ : lo ≤ hi) (_ : 0 ≤ lo → hi < 2 ^ 64),
      ∃ t ct sfx, HasText ((cmd.run fuel raw cfg out).apply fs) (cmd.path out m.name) t ∧
        fieldLineText ct (ident k.key) sfx ∈ linesOf t ∧ FieldBits ct sfx (if 0 ≤ lo then (bitLength hi : Int) else 32) := by
    intro cmd fuel raw cfg out b fs hin hr m hm n c ms hd k hk lo hi hrg hle hb
    have hs := accepted_sized (sources_of_input hin)
    have hdb := mem_defs_of_module hm hd
    obtain ⟨bm, hbm, rfl⟩ := List.mem_map.1 hm
    obtain ⟨h, sorted, tss, h1, _, h3, h4, h5, _⟩ := header_file hin.grammar hin.comments hin.accepted hr hbm fs
    have hblocks : HasBlocks (fun t ct sfx => ∀ lo hi, lo ≤ hi → (0 ≤ lo → hi < 2 ^ 64) →
        RangeMember b.defs ⟨"x", t, none, none⟩ lo hi → FieldBits ct sfx (if 0 ≤ lo then (bitLength hi : Int) else 32))
        (fun t => (dims t).take 1) bm.mod h := by
      refine ⟨sorted, tss, h3, h4.imp_mem (fun d hd ts hbl => block_mono ?_ hbl), h5⟩
      rintro k hk ct sfx ⟨f, k1, rfl, rfl, _⟩ lo hi hle hb hrg
      exact span_bits hin hbm (h3.mem_iff.1 hd) hk hle hb hrg k1
    obtain ⟨ct, sfx, br, q1, q2, q3⟩ := field_line hblocks hd (fun k hk => ((hs.grammar _ hdb).2.2 k hk).1) hk
    have hbr : br = [] := by
      have hdm : dims k.type = [] := by
        rcases hrg with ht | ⟨n, c, ht, _⟩ <;> rw [ht] <;> rfl
      rw [hdm] at q2
      cases q2
      rfl
    subst hbr
    rw [List.append_nil] at q3
    exact ⟨_, ct, sfx, h1, q3, q1 lo hi hle hb hrg⟩
  obtain ⟨t, ct, sfx, a1, a2, a3⟩ := key hin hr hm hd hk hrg hle hb (fs := fs)
  obtain ⟨t', ct', sfx', a1', a2', a3'⟩ := key hin' hr' hm' hd' hk' hrg' (by omega) hb' (fs := fs')
  refine ⟨t, t', ct, sfx, _, ct', sfx', _, a1, a1', a2, a2', a3, a3', ?_⟩
  by_cases h0 : 0 ≤ lo
  · have h32 := bitLength_le32 (Int.le_trans h0 hle)
    have hmono := bitLength_widen (Int.le_trans h0 hle) hhi
    rw [if_pos h0]
    split <;> omega
  · rw [if_neg h0, if_neg (by omega)]
    omega

/-- A module with a range. -/
def exSpanModule (lo hi : Int) : Module :=
  { name := "m", defs := [.seq "Rec" none [⟨"x", intType lo hi, none, none⟩]] }

def exSpan : List Module := [exSpanModule 0 4294967296]
def exSpanned : List Module := [exSpanModule (-1) 4294967296]

theorem exSpan_wider : WiderDefs (okBundle (buildFromConfig exSpan ["m"])).defs
    (okBundle (buildFromConfig exSpanned ["m"])).defs := by
  have e1 : (okBundle (buildFromConfig exSpan ["m"])).defs = (exSpanModule 0 4294967296).defs := by decide +kernel
  have e2 : (okBundle (buildFromConfig exSpanned ["m"])).defs = (exSpanModule (-1) 4294967296).defs := by decide +kernel
  rw [e1, e2]
  have hw : WiderDef (.seq "Rec" none [⟨"x", intType 0 4294967296, none, none⟩])
      (.seq "Rec" none [⟨"x", intType (-1) 4294967296, none, none⟩]) :=
    .seq (.cons ⟨rfl, .integer (by decide) (by decide)⟩ .nil)
  constructor
  · intro d hd
    rcases List.mem_cons.1 hd with rfl | h
    · exact ⟨_, List.Mem.head _, hw⟩
    · cases h
  · intro d hd
    rcases List.mem_cons.1 hd with rfl | h
    · exact .inl ⟨_, List.Mem.head _, hw⟩
    · cases h

theorem ident_x : ident "x" = ['x'] := by decide +kernel

theorem spanLine_plain (ct : List Char) : (fieldLineText ct (ident "x") []).reverse.take 3 = ";x ".toList := by
  rw [ident_x]
  simp [fieldLineText]

theorem spanLine_inj {ct : List Char} (h : fieldLineText ct (ident "x") [] = fieldLineText "int".toList (ident "x") []) :
    ct = "int".toList := by
  unfold fieldLineText at h
  simp only [List.append_assoc, List.cons_append] at h
  exact List.append_cancel_right (List.append_cancel_left h)

theorem spanLine_bits (ct ds : List Char) : ∃ k, k ≤ (fieldLineText ct (ident "x") (" : ".toList ++ ds)).length ∧
    ((fieldLineText ct (ident "x") (" : ".toList ++ ds)).drop k).take 5 = " x : ".toList ∧
    (fieldLineText ct (ident "x") (" : ".toList ++ ds)).drop (k + 5) = ds ++ [';'] := by
  have e : fieldLineText ct (ident "x") (" : ".toList ++ ds) = ("  ".toList ++ ct) ++ (" x : ".toList ++ (ds ++ [';'])) := by
    rw [ident_x]
    simp [fieldLineText]
  rw [e]
  refine ⟨("  ".toList ++ ct).length, by simp, ?_, ?_⟩
  · rw [List.drop_left]
    rfl
  · rw [← List.drop_drop, List.drop_left]
    rfl

/-- It fails: `INTEGER (0..4294967296)` is a bit-field of 33 bits, `INTEGER (-1..4294967296)` is `int`. -/
theorem C87_full_false : ¬ C87_full := by
  intro hf
  have hin : Input exSpan ["m"] (okBundle (buildFromConfig exSpan ["m"])) :=
    input_of (by decide +kernel) (by decide +kernel) (by decide +kernel)
  have hin' : Input exSpanned ["m"] (okBundle (buildFromConfig exSpanned ["m"])) :=
    input_of (by decide +kernel) (by decide +kernel) (by decide +kernel)
  obtain ⟨t, t', h1, h1', h2⟩ := hf (.c exPrinter) 20 20 exSpan exSpanned ["m"] ["m"] exOut exOut _ _ (fun _ => none) (fun _ => none)
    hin hin' (by decide +kernel) (by decide +kernel) exSpan_wider (exSpanModule 0 4294967296) (by decide +kernel)
    (exSpanModule (-1) 4294967296) (by decide +kernel) "Rec" none none _ _ (List.Mem.head _) (List.Mem.head _)
  cases h2 with
  | cons h3 _ =>
    obtain ⟨ct, sfx, w, ct', sfx', w', q1, q2, q3, q4, q5⟩ := h3 (.inl ⟨_, _, rfl⟩) (.inl ⟨_, _, rfl⟩)
    rw [← fileText_eq h1] at q1
    rw [← fileText_eq h1'] at q2
    have c1 : ∀ l ∈ linesOf (fileText (((Command.c exPrinter).run 20 exSpan ["m"] exOut).apply fun _ => none)
        ((Command.c exPrinter).path exOut (exSpanModule 0 4294967296).name)),
        l.reverse.take 3 ≠ ";x ".toList ∧ ∀ k ∈ List.range 60, (l.drop k).take 5 = " x : ".toList → l.drop (k + 5) = "33;".toList := by
      decide +kernel
    have c2 : ∀ l ∈ linesOf (fileText (((Command.c exPrinter).run 20 exSpanned ["m"] exOut).apply fun _ => none)
        ((Command.c exPrinter).path exOut (exSpanModule (-1) 4294967296).name)),
        l.reverse.take 3 = ";x ".toList → l = "  int x;".toList := by decide +kernel
    have c3 : ∀ l ∈ linesOf (fileText (((Command.c exPrinter).run 20 exSpanned ["m"] exOut).apply fun _ => none)
        ((Command.c exPrinter).path exOut (exSpanModule (-1) 4294967296).name)), ':' ∉ l := by decide +kernel
    have c4 : ∀ l ∈ linesOf (fileText (((Command.c exPrinter).run 20 exSpan ["m"] exOut).apply fun _ => none)
        ((Command.c exPrinter).path exOut (exSpanModule 0 4294967296).name)), l.length < 60 := by decide +kernel
    have hw : w = 33 := by
      cases q3 with
      | bitField hb _ =>
        obtain ⟨ds, rfl, hr⟩ := hb
        obtain ⟨k, k1, k2, k3⟩ := spanLine_bits ct ds
        have := (c1 _ q1).2 k (List.mem_range.2 (Nat.lt_of_le_of_lt k1 (c4 _ q1))) k2
        rw [k3] at this
        have e : ds = "33".toList := List.append_cancel_right (this.trans (by decide : "33;".toList = "33".toList ++ [';']))
        rw [e] at hr
        exact Option.some.inj (hr.symm.trans (by decide +kernel))
      | _ => exact absurd (spanLine_plain _) (c1 _ q1).1
    have hw' : w' = 32 := by
      cases q4 with
      | bitField hb _ =>
        obtain ⟨ds, rfl, hr⟩ := hb
        refine absurd ?_ (c3 _ q2)
        have : ':' ∈ " : ".toList := by decide
        simp only [fieldLineText, List.mem_append, List.mem_cons, this, true_or, or_true]
      | unsigned hs =>
        have := spanLine_inj ((c2 _ q2 (spanLine_plain _)).trans (by decide +kernel))
        cases hs <;> exact absurd this (by decide)
      | signed hs =>
        have := spanLine_inj ((c2 _ q2 (spanLine_plain _)).trans (by decide +kernel))
        cases hs <;> exact absurd this (by decide)
      | int => rfl
      | single =>
        have := spanLine_inj ((c2 _ q2 (spanLine_plain _)).trans (by decide +kernel))
        exact absurd this (by decide)
      | double =>
        have := spanLine_inj ((c2 _ q2 (spanLine_plain _)).trans (by decide +kernel))
        exact absurd this (by decide)
    omega

/-- A telemetry module and one with wider types and a further enumeration item. -/
def exGrowModule (top size : Int) (its : List EnumItem) : Module :=
  { name := "tlm"
    defs := [.enum "Mode" none its,
      .simple "Level" none (intType 0 top),
      .seq "Inner" none [⟨"mode", .plain "Mode" none none, none, none⟩, ⟨"level", .plain "Level" none none, none, none⟩],
      .seq "Packet" none [⟨"inner", .plain "Inner" none none, none, none⟩,
        ⟨"levels", .arr (.plain "Level" none none) size, none, none⟩,
        ⟨"count", intType 0 10, none, none⟩]] }

def exOff : List EnumItem := [⟨"off", 0, none⟩, ⟨"on", 0, none⟩]
def exOffPos : List EnumItem := [⟨"off", 0, none⟩, ⟨"on", 1, none⟩]
def exSafe : List EnumItem := [⟨"off", 0, none⟩, ⟨"on", 0, none⟩, ⟨"safe", 0, none⟩]
def exSafePos : List EnumItem := [⟨"off", 0, none⟩, ⟨"on", 1, none⟩, ⟨"safe", 2, none⟩]

theorem exGrow_wider : WiderDefs (okBundle (buildFromTexts [exGrowModule 100 2 exOff])).defs
    (okBundle (buildFromTexts [exGrowModule 300 4 exSafe])).defs := by
  have e1 : (okBundle (buildFromTexts [exGrowModule 100 2 exOff])).defs = (exGrowModule 100 2 exOffPos).defs := by decide +kernel
  have e2 : (okBundle (buildFromTexts [exGrowModule 300 4 exSafe])).defs = (exGrowModule 300 4 exSafePos).defs := by decide +kernel
  rw [e1, e2]
  have hn : ∀ n, Wider (.plain n none none) (.plain n none none) := fun n => .same (by rintro _ _ ⟨⟩)
  have key : All2 WiderDef (exGrowModule 100 2 exOffPos).defs (exGrowModule 300 4 exSafePos).defs :=
    .cons (.enum (by decide)) (.cons (.simple (.integer (by decide) (by decide)))
      (.cons (.seq (.cons ⟨rfl, hn _⟩ (.cons ⟨rfl, hn _⟩ .nil)))
        (.cons (.seq (.cons ⟨rfl, hn _⟩ (.cons ⟨rfl, .arr (hn _) (by decide) (by decide)⟩
          (.cons ⟨rfl, .same (by rintro _ _ ⟨⟩)⟩ .nil)))) .nil)))
  exact ⟨fun d hd => all2_mem_left key hd, fun d hd => .inl (all2_mem_right key hd)⟩

/-- The widths of the two packets. -/
example : ∃ t t', newText (runCosmos 20 exPrinter [exGrowModule 100 2 exOff] "tlm" ["Packet"] "SAT".toList exOut)
      (cosmosPath exOut "SAT".toList) = t ∧
    newText (runCosmos 20 exPrinter [exGrowModule 300 4 exSafe] "tlm" ["Packet"] "SAT".toList exOut)
      (cosmosPath exOut "SAT".toList) = t' ∧
    ((readCosmos t).map fun x => x.items.map itemLength) = [[some 1, some 7, some 14, some 4]] ∧
    ((readCosmos t').map fun x => x.items.map itemLength) = [[some 2, some 9, some 36, some 4]] := by
  obtain ⟨t, t', h1, h2, _⟩ := C87_cosmos 20 20 exPrinter exPrinter [exGrowModule 100 2 exOff] [exGrowModule 300 4 exSafe] _ _
    "tlm" "tlm" ["Packet"] "SAT".toList "SAT".toList exOut exOut
    (sources_of (by decide +kernel) (by decide +kernel) (by decide +kernel))
    (sources_of (by decide +kernel) (by decide +kernel) (by decide +kernel))
    exPrinter_faithful exPrinter_oneLine exPrinter_faithful exPrinter_oneLine exTlm_target exTlm_target
    (by decide +kernel) (by decide +kernel) exGrow_wider
  refine ⟨t, t', newText_eq h1, newText_eq h2, ?_, ?_⟩
  · rw [← newText_eq h1]; decide +kernel
  · rw [← newText_eq h2]; decide +kernel

/-- The fields for which the header theorem speaks of these modules: 7 bits become 9. -/
example : ((Command.c exPrinter).run 20 [exGrowModule 100 2 exOff] ["tlm"] exOut).result = .ok () ∧
    ((Command.c exPrinter).run 20 [exGrowModule 300 4 exSafe] ["tlm"] exOut).result = .ok () ∧
    Width (exGrowModule 100 2 exOff).defs (.plain "Level" none none) 7 ∧
    Width (exGrowModule 300 4 exSafe).defs (.plain "Level" none none) 9 := by
  have hl : ∀ ct, ¬ Posix "Level" ct := by
    intro ct h
    generalize hn : "Level" = n at h
    cases h <;> revert hn <;> decide
  refine ⟨by decide +kernel, by decide +kernel, ?_, ?_⟩
  · exact .alias (List.Mem.tail _ (List.Mem.head _)) hl
      (.unsigned (by decide) (by decide) ((leafSize_int _ _ _).1 (by decide +kernel)))
  · exact .alias (List.Mem.tail _ (List.Mem.head _)) hl
      (.unsigned (by decide) (by decide) ((leafSize_int _ _ _).1 (by decide +kernel)))

/-- The case that the theorem singles out: 33 bits become 32. -/
example : ∃ t t' ct sfx w ct' sfx' w',
    HasText (((Command.c exPrinter).run 20 exSpan ["m"] exOut).apply fun _ => none) "gen/m.h".toList t ∧
    HasText (((Command.c exPrinter).run 20 exSpanned ["m"] exOut).apply fun _ => none) "gen/m.h".toList t' ∧
    fieldLineText ct (ident "x") sfx ∈ linesOf t ∧ fieldLineText ct' (ident "x") sfx' ∈ linesOf t' ∧
    FieldBits ct sfx w ∧ FieldBits ct' sfx' w' ∧ w' < w := by
  have hin : Input exSpan ["m"] (okBundle (buildFromConfig exSpan ["m"])) :=
    input_of (by decide +kernel) (by decide +kernel) (by decide +kernel)
  have hin' : Input exSpanned ["m"] (okBundle (buildFromConfig exSpanned ["m"])) :=
    input_of (by decide +kernel) (by decide +kernel) (by decide +kernel)
  obtain ⟨t, t', ct, sfx, w, ct', sfx', w', h1, h2, h3, h4, h5, h6, h7⟩ := C87_ranges_iff_partial (.c exPrinter) (.c exPrinter) 20 20
    exSpan exSpanned ["m"] ["m"] exOut exOut _ _ (fun _ => none) (fun _ => none) hin hin' (by decide +kernel) (by decide +kernel)
    (exSpanModule 0 4294967296) (exSpanModule (-1) 4294967296) (by decide +kernel) (by decide +kernel) "Rec" "Rec" none none _ _
    (List.Mem.head _) (List.Mem.head _) _ _ (List.Mem.head _) (List.Mem.head _) 0 4294967296 (-1) 4294967296
    (.inl rfl) (.inl rfl) (by decide) (by decide) (by decide) (by decide) (by decide)
  exact ⟨t, t', ct, sfx, w, ct', sfx', w', h1, h2, h3, h4, h5, h6, h7.2 (by decide)⟩

end Apg
