import Verif.Lemmas.Clear

namespace Apg
open Spec

theorem exPrinter_oneLine : OneLine exPrinter := by
  intro c x hx
  cases hx

/-! ### Words -/

theorem isWord_chars {t : Text} {cs : List Char} (hne : t ≠ []) (h : ∀ c ∈ t, c ∈ cs)
    (hcs : ∀ c ∈ cs, c ≠ ' ' ∧ c ≠ '\n' ∧ c ≠ '"') : IsWord t := ⟨hne, fun c hc => hcs c (h c hc)⟩

theorem isWord_num {p : Printer} (hp : Faithful p) (x : Num) : IsWord (p.num x) := by
  cases x with
  | int i => exact isWord_intText i
  | flt q => exact isWord_chars (hp.nonempty _ rfl) (hp.chars (.flt q) rfl) (by decide)
  | inf b => exact isWord_chars (hp.nonempty _ rfl) (hp.chars (.inf b) rfl) (by decide)

theorem isWord_leaf {p : Printer} (hp : Faithful p) (v : Leaf) : IsWord (p.leaf v) := by
  cases v with
  | int i => exact isWord_intText i
  | flt x => exact isWord_num hp x
  | bool b =>
    cases b
    · show IsWord "False".toList
      exact ⟨by decide, by decide⟩
    · show IsWord "True".toList
      exact ⟨by decide, by decide⟩

theorem isWord_name {s : String} (h : GrammarName s) : IsWord s.toList := by
  refine ⟨?_, fun c hc => ?_⟩
  · obtain ⟨c, cs, hs, _⟩ := grammarName_cases h
    rw [hs]; simp
  · have := nameChar_of_mem h hc
    refine ⟨?_, ?_, ?_⟩ <;> rintro rfl <;> exact absurd this (by decide +kernel)

theorem plain_hex (i : Int) : Plain ("0x".toList ++ hexText 2 i) := by
  have hdig : ∀ n, ∀ c ∈ digits 16 n, c ≠ '\n' ∧ c ≠ '"' := by
    intro n c hc
    obtain ⟨d, rfl⟩ := digits_all_digit 16 n c hc
    unfold digitChar
    split <;> decide
  have hpad : ∀ w n, Plain (padZero w (digits 16 n)) := by
    intro w n c hc
    unfold padZero at hc
    rcases List.mem_append.1 hc with hc | hc
    · rw [List.eq_of_mem_replicate hc]; decide
    · exact hdig n c hc
  refine Plain.append (by unfold Plain; decide) ?_
  unfold hexText
  split
  · exact Plain.cons (by decide) (hpad _ _)
  · exact hpad _ _

theorem specificText_plain {p : Printer} (hp : Faithful p) (ho : OneLine p) {m : Member} {bits : Int}
    {s : Specific} {t : Text} (h : specificText p m bits s = .ok t) : Plain t := by
  unfold specificText at h
  split at h
  · cases h; exact (isWord_intText _).plain
  · split at h
    · split at h
      · cases h; exact plain_hex _
      · cases h; exact plain_hex _
      · cases h
      · cases h
    · split at h
      · cases h; intro c hc; cases hc
      · cases h; exact (isWord_leaf hp _).plain
      · cases h; exact ho _

theorem ItemShape.states_word {ds : List Def} (hg : ∀ d ∈ ds, GrammarDef d) {t : AType}
    {c : Option CType} {lo hi : Option Num} {states : List Text} (h : ItemShape ds t c lo hi states) :
    ∀ s ∈ states, IsWord s := by
  cases h with
  | number => intro s hs; cases hs
  | bool =>
    intro s hs
    rcases List.mem_cons.1 hs with rfl | hs
    · exact ⟨by decide, by decide⟩
    · rw [List.mem_singleton] at hs
      subst hs
      exact ⟨by decide, by decide⟩
  | str => intro s hs; cases hs
  | simple => intro s hs; cases hs
  | enum h1 h2 =>
    intro s hs
    obtain ⟨it, hit, rfl⟩ := List.mem_map.1 hs
    exact isWord_name (.inl ((hg _ h2).2.2 it hit))

theorem unit_chars {c : Comment} (h : GrammarComment c) :
    ∀ x ∈ c.unit.toList, x ≠ ' ' ∧ x ≠ '\n' ∧ x ≠ '"' := by
  intro x hx
  have := h.2 _ hx
  refine ⟨?_, ?_, ?_⟩ <;> rintro rfl <;> revert this <;> decide +kernel

/-! ### The parts of an entry -/

/-- The fields of a made entry. -/
structure MadeFrom (p : Printer) (m : Member) (s : Specific) (c : CType) (lo hi : Option Num)
    (states : List Text) (e : Entry) : Prop where
  bits : getBitSize c lo hi = .ok e.bits
  range : subrange c lo hi = .ok e.range
  specific : specificText p m e.bits s = .ok e.specific
  name : e.name = m.key.toList
  ctype : e.ctype = c
  states : e.states = states
  comment : e.comment = match m.comment with | none => [] | some c => c.text.toList
  unit : e.unit = match m.comment with | none => [] | some c => c.unit.toList
  isArray : e.isArray = match m.type with | .arr .. => true | _ => false
  little : e.little = match m.comment with | none => false | some c => c.little

theorem makeEntry_ok {p : Printer} {m : Member} {s : Specific} {c : Option CType} {lo hi : Option Num}
    {states : List Text} {e : Entry} (h : makeEntry p m s c lo hi states = .ok e) :
    ∃ c', c = some c' ∧ MadeFrom p m s c' lo hi states e := by
  unfold makeEntry at h
  cases c with
  | none => cases h
  | some c =>
    simp only [bind_ok, Except.ok.injEq] at h
    obtain ⟨bits, h1, range, h2, spec, h3, rfl⟩ := h
    exact ⟨c, rfl, h1, h2, h3, rfl, rfl, rfl, rfl, rfl, rfl, rfl⟩

theorem EntryFor.good {p : Printer} (hp : Faithful p) (ho : OneLine p) {ds : List Def}
    (hg : ∀ d ∈ ds, GrammarDef d) (hc : ∀ d ∈ ds, ∀ c ∈ commentsOf d, GrammarComment c)
    {Q : List Member → Specific → Prop} {path : List Member} {e : Entry}
    (h : EntryFor p ds Q path e) : GoodEntry p e := by
  obtain ⟨m, s, c, lo, hi, states, h1, ⟨d, hd, hm⟩, h3, h4, _⟩ := h
  obtain ⟨c, rfl, h5⟩ := makeEntry_ok h4
  have hcm : ∀ x, m.comment = some x → GrammarComment x :=
    fun x hx => hc d hd x (mem_commentsOf.2 (.inr (.inl ⟨m, hm, hx⟩)))
  have hkey : isNameLower m.key = true := by
    cases d with
    | seq n c ms => exact ((hg _ hd).2.2 m hm).1
    | choice n c ms => exact ((hg _ hd).2.2 m hm).1
    | enum n c its => cases hm
    | simple n c t => cases hm
  constructor
  · rw [h5.name]; exact isWord_name (.inl hkey)
  · exact specificText_plain hp ho h5.specific
  · rw [h5.comment]
    split
    · simp
    · rename_i c hc; exact comment_newline (hcm c hc)
  · rw [h5.states]; exact h3.states_word hg
  · rw [h5.unit]
    split
    · simp
    · rename_i c hc; exact unit_chars (hcm c hc)
  · intro r _
    exact ⟨isWord_num hp _, isWord_num hp _⟩

/-! ### Packets -/

/-- The description of a packet. -/
def descriptionOf : Option Comment → Text
  | none => []
  | some c => c.text.toList

/-- The packet made for the message `n`: entries for the leaves, with the values found where at
most one clause reaches the leaf. -/
def PacketFor (p : Printer) (b : Bundle) (module n : String) (x : PacketData) : Prop :=
  x.name = n.toList ∧ ∃ ms, MessageOf b module n ms ∧ ∃ ls, Leaves b.defs ms ls ∧
    All2 (EntryFor p b.defs fun path s => Clear b.defs path → FoundValue .nil path s) ls x.entries ∧
    ∃ c, (∃ m ∈ b.modules, m.name = module ∧ Def.seq n c ms ∈ m.defs) ∧ x.comment = descriptionOf c

/-- If all clauses are separate, each leaf of a message is reached by at most one. -/
theorem Spec.Separate.clear_message {b : Bundle} (hsep : Separate b.defs) {module n : String} {ms : List Member}
    (h : MessageOf b module n ms) {ls : List (List Member)} (hl : Leaves b.defs ms ls) :
    ∀ path ∈ ls, Clear b.defs path := by
  obtain ⟨m, hm, _, c, hs⟩ := h
  refine hsep.clear hl ms n ⟨c, ?_⟩ fun _ h => h
  rw [← defsOf_eq]
  exact List.mem_flatMap.2 ⟨m, hm, hs⟩

/-- The packets before they are printed. -/
def packetsData (p : Printer) (b : Bundle) (fuel : Nat) (bm : BMod) : Store → List String → Except Err (List PacketData)
  | _, [] => .ok []
  | st, n :: ns =>
    match lastDef bm.mod.defs n with
    | none => .error .keyError
    | some d =>
      telemetry p b fuel bm fuel st d .nil >>= fun r =>
      packetsData p b fuel bm r.2 ns >>= fun rest =>
      .ok (⟨d.name.toList, descriptionOf d.comment, r.1⟩ :: rest)

theorem packets_data (p : Printer) (b : Bundle) (fuel : Nat) (bm : BMod) (target : Text) (ns : List String) :
    ∀ st, packets p b fuel bm target st ns = (packetsData p b fuel bm st ns).map
      (List.map fun x => packetText p target x.comment x.name x.entries) := by
  induction ns with
  | nil => intro st; rfl
  | cons n ns ih =>
    intro st
    rw [packets, packetsData]
    cases lastDef bm.mod.defs n with
    | none => rfl
    | some d =>
      simp only
      cases telemetry p b fuel bm fuel st d .nil with
      | error e => rfl
      | ok r =>
        simp only [bind, Except.bind, ih]
        cases packetsData p b fuel bm r.2 ns with
        | error e => rfl
        | ok xs =>
          simp only [Except.map, List.map_cons]
          cases d.comment <;> rfl

theorem packets_ok {p : Printer} {b : Bundle} {fuel : Nat} {bm : BMod} (hbm : bm ∈ b.mods)
    (hnd : (b.defs.map Def.name).Nodup) (hg : ∀ d ∈ b.defs, GrammarDef d)
    (hc : ∀ d ∈ b.defs, ∀ c ∈ commentsOf d, GrammarComment c) {target : Text} :
    ∀ (ns : List String) (st : Store) (pkts : List Text),
      Tidy b.defs st → packets p b fuel bm target st ns = .ok pkts →
      ∃ xs : List PacketData,
        pkts = xs.map (fun x => packetText p target x.comment x.name x.entries) ∧
        All2 (PacketFor p b bm.mod.name) ns xs ∧ (∀ x ∈ xs, '\n' ∉ x.comment) ∧
        packetsData p b fuel bm st ns = .ok xs := by
  intro ns
  induction ns with
  | nil => intro st pkts _ h; cases h; exact ⟨[], rfl, .nil, by simp, rfl⟩
  | cons n ns ih =>
    intro st pkts hst h
    rw [packets] at h
    split at h
    · cases h
    · rename_i d hd
      obtain ⟨hdm, hdn⟩ := lastDef_some hd
      have hdb := mem_defs_of_bmod hbm hdm
      simp only [bind_ok, Except.ok.injEq] at h
      obtain ⟨r, h1, rest, h2, rfl⟩ := h
      obtain ⟨n', c, ms, rfl, ⟨ls, k1, k2⟩, k3⟩ := telemetry_yieldsAt hbm hnd hg fuel st d .nil r hdb hst sourced_nil h1
      obtain ⟨xs, j1, j2, j3, j4⟩ := ih r.2 rest k3 h2
      have hn : n' = n := hdn
      subst hn
      refine ⟨⟨n'.toList, descriptionOf c, r.1⟩ :: xs, ?_,
        .cons ⟨rfl, ms, ⟨bm.mod, List.mem_map.2 ⟨bm, hbm, rfl⟩, rfl, c, hdm⟩, ls, k1,
          k2.imp fun path e he => he.imp fun s hs hcl => hs hcl (once_nil _),
          c, ⟨bm.mod, List.mem_map.2 ⟨bm, hbm, rfl⟩, rfl, hdm⟩, rfl⟩ j2, ?_, ?_⟩
      · rw [List.map_cons, j1]
        cases c <;> rfl
      · intro x hx
        rcases List.mem_cons.1 hx with rfl | hx
        · cases c with
          | none => simp [descriptionOf]
          | some c => exact comment_newline (hc _ hdb c (mem_commentsOf.2 (.inl rfl)))
        · exact j3 x hx
      · rw [packetsData, hd]
        simp only [h1, j4, bind, Except.bind]
        rfl

theorem getModule_some {b : Bundle} {n : String} {bm : BMod} (h : b.getModule n = some bm) :
    bm ∈ b.mods ∧ bm.mod.name = n := by
  unfold Bundle.getModule at h
  exact ⟨List.mem_of_find?_eq_some h, by simpa using List.find?_some h⟩

theorem adds_run (fs : Files) (path t : Text) :
    Adds fs ((⟨[.mkdir (dirName path), .append path (textContent t)], .ok ()⟩ : Run).apply fs) path t := by
  intro q
  unfold Run.apply
  simp only [List.foldl_cons, List.foldl_nil, FileOp.apply]
  split
  · rename_i h; rw [h]; rfl
  · rfl

/-- The packets of a run. -/
def cosmosData (fuel : Nat) (p : Printer) (b : Bundle) (module : String) (messages : List String) :
    Except Err (List PacketData) :=
  match b.getModule module with
  | none => .ok []
  | some bm => packetsData p b fuel bm (initialStore b.defs) messages

/-- What a successful run of generate-cosmos adds to the file. -/
theorem cosmos_run_data {fuel : Nat} {p : Printer} {raw : List Module} {b : Bundle} {module : String}
    {messages : List String} {target out : Text} (hi : Sources raw b) (hp : Faithful p) (ho : OneLine p)
    (ht : IsTarget target)
    (hr : (runCosmos fuel p raw module messages target out).result = .ok ()) :
    ∃ (t : Text) (xs : List PacketData),
      (∀ fs, Adds fs ((runCosmos fuel p raw module messages target out).apply fs)
        (cosmosPath out target) t) ∧
      t = cosmosText (xs.map fun x => packetText p target x.comment x.name x.entries) ∧
      (∀ x ∈ xs, IsWord x.name ∧ '\n' ∉ x.comment ∧ ∀ e ∈ x.entries, GoodEntry p e) ∧
      All2 (PacketFor p b module) messages xs ∧ cosmosData fuel p b module messages = .ok xs := by
  have hg : ∀ d ∈ b.defs, GrammarDef d := fun d hd => (accepted_grammar hi.grammar hi.accepted d hd).1
  have hnd := accepted_nodup hi.accepted
  have hc : ∀ d ∈ b.defs, ∀ c ∈ commentsOf d, GrammarComment c := by
    intro d hd
    obtain ⟨m, hm, hdm⟩ := List.mem_flatMap.1 hd
    exact (accepted_comments hi.comments hi.accepted m hm).2 d hdm
  have hpath : joinPath out (target ++ ".txt".toList) = cosmosPath out target := by
    refine joinPath_eq out ?_
    cases target with
    | nil => exact absurd rfl ht.1.1
    | cons c cs => exact ht.2
  unfold runCosmos at hr ⊢
  rw [hi.accepted] at hr ⊢
  simp only [generateCosmos] at hr ⊢
  rw [hpath] at hr ⊢
  split at hr
  · cases hr
  · rename_i hne
    simp only [hne, if_false]
    split at hr
    · rename_i hm
      split at hr
      · rename_i he
        subst he
        refine ⟨cosmosText [], [], fun fs => ?_, rfl, by simp, .nil, by rw [cosmosData, hm]⟩
        simp only [if_true]
        exact adds_run _ _ _
      · cases hr
    · rename_i bm hm
      obtain ⟨hbm, hn⟩ := getModule_some hm
      split at hr
      · cases hr
      · rename_i hall
        split at hr
        · cases hr
        · rename_i pkts hp2
          obtain ⟨xs, h1, h2, h3, h4⟩ := packets_ok hbm hnd hg hc messages _ pkts (tidy_initial hnd) hp2
          rw [hn] at h2
          refine ⟨cosmosText pkts, xs, fun fs => ?_, by rw [h1], ?_, h2, by rw [cosmosData, hm]; exact h4⟩
          · rw [if_neg hall]
            exact adds_run _ _ _
          · intro x hx
            obtain ⟨n, _, hn1, ms, ⟨m, hmm, _, hms⟩, ls, hls, hes, _⟩ := all2_mem_right h2 hx
            refine ⟨?_, h3 x hx, fun e he => ?_⟩
            · rw [hn1]
              obtain ⟨c, hms⟩ := hms
              have : Def.seq n c ms ∈ b.defs := List.mem_flatMap.2 ⟨m, hmm, hms⟩
              exact isWord_name (.inr (hg _ this).1)
            · obtain ⟨path, _, hpe⟩ := all2_mem_right hes he
              exact hpe.good hp ho hg hc

theorem cosmos_run {fuel : Nat} {p : Printer} {raw : List Module} {b : Bundle} {module : String}
    {messages : List String} {target out : Text} (hi : Sources raw b) (hp : Faithful p) (ho : OneLine p)
    (ht : IsTarget target)
    (hr : (runCosmos fuel p raw module messages target out).result = .ok ()) :
    ∃ (t : Text) (xs : List PacketData),
      (∀ fs, Adds fs ((runCosmos fuel p raw module messages target out).apply fs)
        (cosmosPath out target) t) ∧
      t = cosmosText (xs.map fun x => packetText p target x.comment x.name x.entries) ∧
      (∀ x ∈ xs, IsWord x.name ∧ '\n' ∉ x.comment ∧ ∀ e ∈ x.entries, GoodEntry p e) ∧
      All2 (PacketFor p b module) messages xs := by
  obtain ⟨t, xs, h1, h2, h3, h4, _⟩ := cosmos_run_data hi hp ho ht hr
  exact ⟨t, xs, h1, h2, h3, h4⟩

end Apg
