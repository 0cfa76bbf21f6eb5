import Verif.Lemmas.CosmosRun
import Verif.Props.Enum

namespace Apg
open Spec

theorem All2.map_right {α β γ} {R : α → γ → Prop} {f : β → γ} {l : List α} {l' : List β}
    (h : All2 (fun a b => R a (f b)) l l') : All2 R l (l'.map f) := by
  induction h with
  | nil => exact .nil
  | cons h1 _ ih => exact .cons h1 ih

/-- From entries to what is read back. -/
theorem cosmos_describes {fuel : Nat} {p : Printer} {raw : List Module} {b : Bundle} {module : String}
    {messages : List String} {target out : Text} (hi : Sources raw b) (hp : Faithful p) (ho : OneLine p)
    (ht : IsTarget target) (hr : (runCosmos fuel p raw module messages target out).result = .ok ())
    {P : List Member → List CosmosItem → Prop}
    (hP : ∀ ms ls es, Leaves b.defs ms ls → (∃ d ∈ b.defs, d.members = ms) →
      All2 (EntryFor p b.defs fun path s => Clear b.defs path → FoundValue .nil path s) ls es →
      P ms (es.map (readItem p))) :
    ∃ t, (∀ fs, Adds fs ((runCosmos fuel p raw module messages target out).apply fs)
      (cosmosPath out target) t) ∧ Describes b module target P messages t := by
  obtain ⟨t, xs, h1, rfl, h2, h3⟩ := cosmos_run hi hp ho ht hr
  refine ⟨_, h1, ?_⟩
  unfold Describes
  rw [readCosmos_text ht.1 h2]
  refine (h3.imp fun n x hx => ?_).map_right
  obtain ⟨k1, ms, k2, ls, k3, k4, _⟩ := hx
  refine ⟨rfl, k1, ms, k2, hP ms ls x.entries k3 ?_ k4⟩
  obtain ⟨m, hm, _, c, hs⟩ := k2
  exact ⟨_, List.mem_flatMap.2 ⟨m, hm, hs⟩, rfl⟩

/-- Leaf by leaf. -/
theorem leafWise_of {p : Printer} {ds : List Def} {Q : List Member → Specific → Prop}
    {R : List Member → Member → CosmosItem → Prop} {ms : List Member} {ls : List (List Member)}
    {es : List Entry} (hl : Leaves ds ms ls) (h : All2 (EntryFor p ds Q) ls es)
    (hR : ∀ (path : List Member) (m : Member) (s : Specific) (c : CType) (lo hi : Option Num)
      (states : List Text) (e : Entry), path ∈ ls → path.getLast? = some m → (∃ d ∈ ds, m ∈ d.members) →
      ItemShape ds m.type (some c) lo hi states → MadeFrom p m s c lo hi states e → Q path s →
      R path m (readItem p e)) : LeafWise ds R ms (es.map (readItem p)) := by
  refine ⟨ls, hl, (h.imp_mem fun path hpath e he => ?_).map_right⟩
  obtain ⟨m, s, c, lo, hi, states, h1, h2, h3, h4, h5⟩ := he
  obtain ⟨c, rfl, h6⟩ := makeEntry_ok h4
  exact ⟨m, h1, hR path m s c lo hi states e hpath h1 h2 h3 h6 h5⟩

/-! ### Sizes -/

theorem Spec.Size.cons_of_single {ds : List Def} {m : Member} {ms : List Member} {a v : Int}
    (h1 : Size ds (.members [m]) a) (h2 : Size ds (.members ms) v) :
    Size ds (.members (m :: ms)) (a + v) := by
  generalize hx : Node.members [m] = x at h1
  cases h1 with
  | seq => cases hx
  | enum => cases hx
  | simple => cases hx
  | nil => cases hx
  | named k1 k2 k3 k4 =>
    cases hx; cases k4
    rw [Int.add_zero]
    exact .named k1 k2 k3 h2
  | leaf k1 k2 k3 =>
    cases hx; cases k3
    rw [Int.add_zero]
    exact .leaf k1 k2 h2
  | array k1 k2 k3 =>
    cases hx; cases k3
    rw [Int.add_zero]
    exact .array k1 k2 h2

/-- The positions of accepted enumerations. -/
theorem accepted_positions {raw : List Module} {b : Bundle} (h : buildFromTexts raw = .ok b)
    {n : String} {c : Option Comment} {its : List EnumItem} (hd : Def.enum n c its ∈ b.defs) :
    its.map (·.pos) = numbers its.length := by
  obtain ⟨ms, h1, h2, h3⟩ := buildFromTexts_ok.1 h
  rw [← defsOf_eq, build_modules h2] at hd
  obtain ⟨m, hm, hdm⟩ := List.mem_flatMap.1 hd
  obtain ⟨m0, hm0, d0, hd0, hp⟩ := processModules_def h1 hm hdm
  obtain ⟨_, _, _, _, p5, p6, p7, p8⟩ := processDef_ok hp
  cases d0 with
  | simple n' c' t' => have := (p5 n' c' t' rfl).1; cases this
  | seq n' c' ms' => have := p6 n' c' ms' rfl; cases this
  | choice n' c' ms' => have := p7 n' c' ms' rfl; cases this
  | enum n' c' its' =>
    obtain ⟨slots, hs, he⟩ := p8 n' c' its' rfl
    obtain ⟨items', rfl, k1, k2⟩ := C05_numbered its' slots hs
    cases he
    have e : (items'.map some).filterMap id = items' := by simp
    have hl : items'.length = its'.length := by simpa using k2.length_eq
    rw [e, k1, hl]

/-- The width of the item of an enumeration. -/
theorem enum_bits {its : List EnumItem} (hne : its ≠ []) (hpos : its.map (·.pos) = numbers its.length) :
    enumSizeBits its = .ok (bitLength ((its.length : Int) - 1)) := by
  unfold enumSizeBits
  have hl : 0 < its.length := List.length_pos_iff.2 hne
  have : (its.map (·.pos)).max? = some ((its.length : Int) - 1) := by
    rw [hpos, List.max?_eq_some_iff]
    unfold numbers
    constructor
    · rw [List.mem_map]
      exact ⟨its.length - 1, by rw [List.mem_range]; omega, by omega⟩
    · intro x hx
      obtain ⟨i, hi, rfl⟩ := List.mem_map.1 hx
      rw [List.mem_range] at hi
      omega
  rw [this]

theorem cType_string {n : String} {len : Int} (hg : GrammarType (.str n len)) :
    (AType.str n len).cType = some .string := by
  have h1 : classify "IA5String" none none true = .ok (some .string) := by decide +kernel
  have h2 : classify "NumericString" none none true = .ok (some .string) := by decide +kernel
  unfold AType.cType asn1Type
  cases hg
  · simp only [AType.lo, AType.hi, AType.name, h1]
  · simp only [AType.lo, AType.hi, AType.name, h2]

theorem cType_plain_size {t : AType} {c : CType} {bits : Int} (ha : ∀ e len, t ≠ .arr e len)
    (hs : ∀ n len, t ≠ .str n len) (hc : t.cType = some c) (hb : getBitSize c t.lo t.hi = .ok bits) :
    unresolvedSizeBits t = .ok bits := by
  cases t with
  | plain n lo hi =>
    unfold unresolvedSizeBits
    simp only [hc]
    exact hb
  | str n len => exact absurd rfl (hs n len)
  | arr e len => exact absurd rfl (ha e len)

/-- What the size of items needs: the definitions come from an accepted bundle, and no simple
definition is an array. -/
structure Sized (ds : List Def) : Prop where
  nodup : (ds.map Def.name).Nodup
  grammar : ∀ d ∈ ds, GrammarDef d
  pos : ∀ n c its, Def.enum n c its ∈ ds → its.map (·.pos) = numbers its.length

theorem item_size {ds : List Def} (hs : Sized ds) {m : Member} (hg : GrammarType m.type)
    (hsim : ∀ n c t, UsesName m.type n → Def.simple n c t ∈ ds → ∀ e len, t ≠ .arr e len)
    (ha : ∀ e len, m.type ≠ .arr e len) {c : CType} {lo hi : Option Num} {states : List Text}
    (h : ItemShape ds m.type (some c) lo hi states) {bits : Int} (hb : getBitSize c lo hi = .ok bits) :
    Size ds (.members [m]) bits := by
  have hleaf : ∀ v, LeafSize m.type v →
      (∀ n lo hi, m.type = .plain n lo hi → ∀ d ∈ ds, d.name ≠ n) → Size ds (.members [m]) v := by
    intro v hl hn
    have := Size.leaf (m := m) (ms := []) hn hl .nil
    rwa [Int.add_zero] at this
  have hdef : ∀ d v, d ∈ ds → d.name = m.type.name → (∀ n len, m.type ≠ .str n len) →
      Size ds (.def d) v → Size ds (.members [m]) v := by
    intro d v hd hn hns hv
    cases ht : m.type with
    | plain n lo hi =>
      rw [ht] at hn
      have := Size.named (m := m) (ms := []) (lo := lo) (hi := hi) (by rw [ht, hn]; rfl) hd hv .nil
      rwa [Int.add_zero] at this
    | str n len => exact absurd ht (hns n len)
    | arr e len => exact absurd ht (ha e len)
  have hstr : ∀ n len, m.type = .str n len → n ∈ ["INTEGER", "REAL", "BOOLEAN", "NULL", "IA5String", "NumericString"] := by
    intro n len ht
    rw [ht] at hg
    cases hg <;> decide
  have hbuilt : m.type.name ∈ ["INTEGER", "REAL", "BOOLEAN", "NULL", "IA5String", "NumericString"] →
      ∀ n lo hi, m.type = .plain n lo hi → ∀ d ∈ ds, d.name ≠ n := by
    intro hn n lo hi ht
    rw [ht] at hn
    exact builtin_not_def hs.grammar hn
  have hnum : ∀ n, m.type.name = n → n ∈ ["INTEGER", "REAL", "BOOLEAN"] → m.type.cType = some c →
      getBitSize c m.type.lo m.type.hi = .ok bits → Size ds (.members [m]) bits := by
    intro n hn hmem hc hb
    refine hleaf bits ?_ (hbuilt (by rw [hn]; revert hmem; simp; rintro (h | h | h) <;> simp [h]))
    rw [← leafSize_iff hg ha]
    refine cType_plain_size ha ?_ hc hb
    intro n' len ht
    rw [ht] at hg hn
    simp only [AType.name] at hn
    subst hn
    cases hg <;> revert hmem <;> decide
  generalize hc : some c = c' at h
  cases h with
  | number h =>
    rcases h with h | h
    · exact hnum _ h (by decide) hc.symm hb
    · exact hnum _ h (by decide) hc.symm hb
  | bool h => exact hnum _ h (by decide) hc.symm hb
  | str ht =>
    rename_i n len
    have hcs : c = .string := by
      rw [ht] at hc hg
      rw [cType_string hg] at hc; cases hc; rfl
    subst hcs
    cases hb
    refine hleaf _ ?_ ?_
    · rw [ht] at hg ⊢
      cases hg
      · exact .ia5
      · exact .numeric
    · intro n' lo hi h; rw [ht] at h; cases h
  | simple hn hd =>
    rename_i n cm st
    refine hdef _ _ hd hn.symm ?_ (.simple ?_)
    · intro n' len ht
      have := hstr n' len ht
      rw [ht] at hn
      simp only [AType.name] at hn
      exact builtin_not_def hs.grammar this _ hd hn.symm
    · rw [← leafSize_iff (hs.grammar _ hd).2 (hsim _ _ _ ((usesName_iff _ _).2 hn) hd)]
      refine cType_plain_size (hsim _ _ _ ((usesName_iff _ _).2 hn) hd) ?_ hc.symm hb
      intro n' len ht
      subst ht
      have hg := (hs.grammar _ hd).2
      have hcs : c = .string := by
        rw [cType_string hg] at hc; cases hc; rfl
      subst hcs
      cases hb
  | enum hn hd =>
    rename_i n cm its
    have hgd := hs.grammar _ hd
    have hp := hs.pos _ _ _ hd
    refine hdef _ _ hd hn.symm ?_ ?_
    · intro n' len ht
      have := hstr n' len ht
      rw [ht] at hn
      simp only [AType.name] at hn
      exact builtin_not_def hs.grammar this _ hd hn.symm
    · cases hc
      cases hb
      have hpos : ∀ it ∈ its, 0 ≤ it.pos := by
        intro it hit
        have : it.pos ∈ its.map (·.pos) := List.mem_map_of_mem hit
        rw [hp] at this
        obtain ⟨i, _, hi⟩ := List.mem_map.1 this
        omega
      obtain ⟨w, hw, k1, k2, k3⟩ := (enumSize_iff hpos _).1 (enum_bits hgd.2.1 hp)
      rw [hw]
      exact .enum w k1 k2 k3

theorem cType_arr_number {e : AType} {len : Int} (h : e.name = "INTEGER" ∨ e.name = "REAL") :
    (AType.arr e len).cType = none := by
  have h1 : classify "INTEGER" none none false = .ok none := by decide +kernel
  have h2 : classify "REAL" none none false = .ok none := by decide +kernel
  unfold AType.cType asn1Type
  rcases h with h | h
  · simp only [AType.lo, AType.hi, AType.name, h, h1]
  · simp only [AType.lo, AType.hi, AType.name, h, h2]

/-- The element of an array has the same shape. -/
theorem itemShape_elem {ds : List Def} {e : AType} {len : Int} (hb : ¬ UsesName e "BOOLEAN")
    {c : CType} {lo hi : Option Num} {states : List Text}
    (h : ItemShape ds (.arr e len) (some c) lo hi states) : ItemShape ds e (some c) lo hi states := by
  generalize hc : some c = c' at h
  cases h with
  | number h =>
    rw [cType_arr_number (e := e) h] at hc
    cases hc
  | bool h => exact absurd ((usesName_iff e _).2 h) hb
  | str h => cases h
  | simple h1 h2 => exact .simple h1 h2
  | enum h1 h2 => exact .enum h1 h2

theorem classify_not_bool {n : String} (hn : n ≠ "BOOLEAN") {lo hi : Option Num} {s : Bool}
    (h : classify n lo hi s = .ok (some .bool)) : False := by
  unfold classify at h
  split at h
  · split at h
    · cases h
    · split at h
      · cases h
      · split at h
        · cases h
        · split at h <;> cases h
  · split at h
    · split at h
      · split at h <;> cases h
      · split at h
        · split at h
          · cases h
          · split at h <;> cases h
        · split at h <;> cases h
    · split at h <;> cases h

theorem cType_bool {t : AType} (h : t.cType = some .bool) : t.name = "BOOLEAN" := by
  refine Decidable.byContradiction fun hn => ?_
  unfold AType.cType at h
  split at h
  · rename_i c hc
    subst h
    unfold asn1Type at hc
    simp only at hc
    split at hc
    · split at hc
      · cases hc
      · exact classify_not_bool hn hc
    · exact classify_not_bool hn hc
  · cases h

theorem itemShape_not_bool {ds : List Def} {t : AType} (h1 : ¬ UsesName t "BOOLEAN")
    (h2 : ∀ n c t', UsesName t n → Def.simple n c t' ∈ ds → ¬ UsesName t' "BOOLEAN")
    {c : CType} {lo hi : Option Num} {states : List Text}
    (h : ItemShape ds t (some c) lo hi states) : c ≠ .bool := by
  rintro rfl
  generalize hc : some CType.bool = c' at h
  cases h with
  | number h => exact h1 ((usesName_iff _ _).2 (cType_bool hc.symm))
  | bool h => exact h1 ((usesName_iff _ _).2 h)
  | str h => exact h1 ((usesName_iff _ _).2 (cType_bool hc.symm))
  | simple h3 h4 =>
    exact h2 _ _ _ ((usesName_iff _ _).2 h3) h4 ((usesName_iff _ _).2 (cType_bool hc.symm))
  | enum => cases hc

theorem itemLength_plain {p : Printer} {e : Entry} (h : e.isArray = false) :
    itemLength (readItem p e) = some e.bits := by
  unfold itemLength
  rw [if_neg]
  · rfl
  · show (itemFields e).2.2.text ≠ _
    unfold itemFields
    simp only [h, Bool.false_eq_true, if_false]
    generalize (if e.ctype = CType.bool then _ else e.specific) = s
    split <;> decide

theorem itemLength_array {p : Printer} {e : Entry} (h : e.isArray = true) (hb : e.ctype ≠ .bool) {i : Int}
    (hs : e.specific = intText i) : itemLength (readItem p e) = some i := by
  have hk : (readItem p e).kind = "APPEND_ARRAY_ITEM".toList := by
    show (itemFields e).2.2.text = _
    unfold itemFields
    simp only [h, if_true]
    rfl
  have hv : (readItem p e).value = [intText i] := by
    show words (itemFields e).2.1 = _
    unfold itemFields
    simp only [hb, if_false, hs]
    exact words_end (isWord_intText i).1 (isWord_intText i).blank
  unfold itemLength
  rw [if_pos hk, hv]
  exact readInt_intText i

/-- The size of a leaf as its item says. -/
theorem leaf_length {p : Printer} {ds : List Def} (hs : Sized ds) {m : Member}
    (hf : FlatMember ds m) (hd : ∃ d ∈ ds, m ∈ d.members) {s : Specific} {c : CType} {lo hi : Option Num} {states : List Text}
    {e : Entry} (hsh : ItemShape ds m.type (some c) lo hi states)
    (hm : MadeFrom p m s c lo hi states e) :
    ∃ v, itemLength (readItem p e) = some v ∧ Size ds (.members [m]) v := by
  obtain ⟨d, hd, hmd⟩ := hd
  have hgm : GrammarMember m := by
    have := hs.grammar d hd
    cases d with
    | seq => exact this.2.2 m hmd
    | choice => exact this.2.2 m hmd
    | enum => cases hmd
    | simple => cases hmd
  by_cases ha : ∃ el len, m.type = .arr el len
  · obtain ⟨el, len, ht⟩ := ha
    obtain ⟨b1, b2⟩ := hf.noBool el len ht
    rw [ht] at hsh
    have hsh' := itemShape_elem b1 hsh
    have hcb : c ≠ .bool := itemShape_not_bool b1 b2 hsh'
    refine ⟨len * e.bits, itemLength_array ?_ ?_ ?_, ?_⟩
    · rw [hm.isArray, ht]
    · rw [hm.ctype]; exact hcb
    · have := hm.specific
      unfold specificText at this
      rw [ht] at this
      exact (Except.ok.inj this).symm
    · have hge : GrammarType el := by
        have := hgm.2.1
        rw [ht] at this
        cases this; assumption
      have h1 := item_size hs (m := { m with type := el }) hge
        (fun n c t hu => hf.simple n c t ((usesName_iff _ _).2 (by rw [ht]; have h := (usesName_iff el n).1 hu; exact h)))
        (hf.elem el len ht) hsh' hm.bits
      have := Size.array (m := m) (ms := []) ht h1 .nil
      rwa [Int.add_zero] at this
  · have ha' : ∀ e len, m.type ≠ .arr e len := fun e len h => ha ⟨e, len, h⟩
    refine ⟨e.bits, itemLength_plain ?_, item_size hs hgm.2.1 hf.simple ha' hsh hm.bits⟩
    rw [hm.isArray]
    split
    · rename_i el len ht; exact absurd ht (ha' _ _)
    · rfl

theorem all2_append_left {α β} {R : α → β → Prop} {l m : List α} {r : List β} (h : All2 R (l ++ m) r) :
    ∃ r1 r2, r = r1 ++ r2 ∧ All2 R l r1 ∧ All2 R m r2 := by
  induction l generalizing r with
  | nil => exact ⟨[], r, rfl, .nil, h⟩
  | cons a l ih =>
    cases h with
    | cons h1 h2 =>
      obtain ⟨r1, r2, rfl, h3, h4⟩ := ih h2
      exact ⟨_ :: r1, r2, rfl, .cons h1 h3, h4⟩

theorem Spec.Reached.mono {ds : List Def} {ms ms' : List Member} {m : Member} (h : Reached ds ms m)
    (hs : ∀ x ∈ ms, x ∈ ms') : Reached ds ms' m := by
  cases h with
  | here h => exact .here (hs _ h)
  | inside h1 h2 h3 h4 => exact .inside (hs _ h1) h2 h3 h4

theorem leaves_size {ds : List Def} (hs : Sized ds) {ms : List Member} {ls : List (List Member)}
    (hl : Leaves ds ms ls) : (∀ m, Reached ds ms m → FlatMember ds m) → (∀ m ∈ ms, ∃ d ∈ ds, m ∈ d.members) → ∀ {items : List CosmosItem},
    All2 (fun path it => ∃ m, path.getLast? = some m ∧
      ∃ v, itemLength it = some v ∧ Size ds (.members [m]) v) ls items →
    ∃ v, itemsLength items = some v ∧ Size ds (.members ms) v := by
  have happ : ∀ (a b : List CosmosItem) (v w : Int), itemsLength a = some v → itemsLength b = some w →
      itemsLength (a ++ b) = some (v + w) := by
    intro a
    induction a with
    | nil =>
      intro b v w h1 h2
      cases h1
      rw [List.nil_append, h2, Int.zero_add]
    | cons x a ih =>
      intro b v w h1 h2
      rw [itemsLength] at h1
      cases hx : itemLength x with
      | none => rw [hx] at h1; cases h1
      | some i =>
        cases ha : itemsLength a with
        | none => rw [hx, ha] at h1; cases h1
        | some j =>
          rw [hx, ha] at h1
          cases h1
          rw [List.cons_append, itemsLength, hx, ih b j w ha h2]
          simp only [Option.some.injEq]
          omega
  induction hl with
  | nil => intro _ _ items h; cases h; exact ⟨0, rfl, .nil⟩
  | @leaf m ms ps hns hl ih =>
    intro hf hms items h
    cases h with
    | cons h1 h2 =>
      obtain ⟨m', e1, v, k1, k2⟩ := h1
      cases e1
      obtain ⟨w, k3, k4⟩ := ih (fun m hm => hf m (hm.mono fun x hx => List.Mem.tail _ hx))
        (fun m hm => hms m (List.Mem.tail _ hm)) h2
      refine ⟨v + w, ?_, k2.cons_of_single k4⟩
      rw [itemsLength, k1, k3]
  | @seq m ms n inner ps qs hu hsq hin hl ih1 ih2 =>
    intro hf hms items h
    obtain ⟨i1, i2, rfl, h1, h2⟩ := all2_append_left h
    obtain ⟨w, k3, k4⟩ := ih2 (fun m hm => hf m (hm.mono fun x hx => List.Mem.tail _ hx))
      (fun m hm => hms m (List.Mem.tail _ hm)) h2
    obtain ⟨cm, hsd⟩ := hsq
    have h1' : All2 (fun path it => ∃ m, path.getLast? = some m ∧
      ∃ v, itemLength it = some v ∧ Size ds (.members [m]) v) ps i1 := by
      have hne := hin.ne_nil
      clear ih1 ih2 hin hl h2 h k3 k4
      generalize hqs : ps.map (m :: ·) = qs' at h1
      induction h1 generalizing ps with
      | nil =>
        cases ps with
        | nil => exact .nil
        | cons => cases hqs
      | cons h h' ih =>
        cases ps with
        | nil => cases hqs
        | cons q ps =>
          cases hqs
          refine .cons ?_ (ih (fun path hp => hne path (List.Mem.tail _ hp)) rfl)
          obtain ⟨m', e1, h⟩ := h
          refine ⟨m', ?_, h⟩
          cases q with
          | nil => exact absurd rfl (hne [] (List.Mem.head _))
          | cons x q => rwa [List.getLast?_cons_cons] at e1
    obtain ⟨v, k1, k2⟩ := ih1
      (fun m' hm' => hf m' (.inside (List.Mem.head _) hu ⟨cm, hsd⟩ hm')) (fun m hm => ⟨_, hsd, hm⟩) h1'
    refine ⟨v + w, happ _ _ _ _ k1 k3, ?_⟩
    cases ht : m.type with
    | plain n' lo hi =>
      rw [ht] at hu
      cases hu
      exact .named (d := .seq n cm inner) ht hsd (.seq k2) k4
    | str n' len =>
      rw [ht] at hu
      cases hu
      obtain ⟨d, hd, hmd⟩ := hms m (List.Mem.head _)
      have hgm : GrammarType m.type := by
        have := hs.grammar d hd
        cases d with
        | seq => exact (this.2.2 m hmd).2.1
        | choice => exact (this.2.2 m hmd).2.1
        | enum => cases hmd
        | simple => cases hmd
      rw [ht] at hgm
      refine absurd rfl (builtin_not_def hs.grammar (n := n) ?_ _ hsd)
      cases hgm <;> decide
    | arr e len =>
      rw [ht] at hu
      cases hu with
      | arr hu => exact absurd ⟨cm, hsd⟩ ((hf m (.here (List.Mem.head _))).noSeq e len ht n inner hu)

/-! ### The size the tool computes -/

/-- The node has no arrays. -/
def NodeSingle (ds : List Def) : Node → Prop
  | .def (.seq _ _ ms) => ∀ m, Reached ds ms m → GrammarType m.type ∧ Single ds m
  | .def (.simple _ _ t) => GrammarType t ∧ ∀ e len, t ≠ .arr e len
  | .def (.enum _ _ its) => ∀ it ∈ its, 0 ≤ it.pos
  | .def (.choice ..) => True
  | .members ms => ∀ m, Reached ds ms m → GrammarType m.type ∧ Single ds m

theorem size_computed {ds : List Def} (hs : Sized ds) {x : Node} {v : Int} (h : Size ds x v) :
    NodeSingle ds x → ∃ N, ∀ fuel, N ≤ fuel → nodeSize ds fuel x = .ok v := by
  induction h with
  | seq h ih =>
    rename_i n c ms v
    intro hd
    obtain ⟨N, hN⟩ := ih hd
    refine ⟨N + 1, fun fuel hf => ?_⟩
    obtain ⟨f, rfl⟩ : ∃ f, fuel = f + 1 := ⟨fuel - 1, by omega⟩
    exact hN f (by omega)
  | enum w h1 h2 h3 =>
    intro hd
    refine ⟨1, fun fuel hf => ?_⟩
    obtain ⟨f, rfl⟩ : ∃ f, fuel = f + 1 := ⟨fuel - 1, by omega⟩
    exact (enumSize_iff hd _).2 ⟨w, rfl, h1, h2, h3⟩
  | simple h1 =>
    intro hd
    refine ⟨1, fun fuel hf => ?_⟩
    obtain ⟨f, rfl⟩ : ∃ f, fuel = f + 1 := ⟨fuel - 1, by omega⟩
    exact (leafSize_iff hd.1 hd.2 _).2 h1
  | nil => intro _; exact ⟨0, fun _ _ => rfl⟩
  | @named m ms d lo hi a v hmt hd h1 h2 ih1 ih2 =>
    intro hr
    have hu : UsesName m.type d.name := (usesName_iff _ _).2 (by rw [hmt]; rfl)
    have hd' : NodeSingle ds (.def d) := by
      cases d with
      | seq n c inner => exact fun m' hm' => hr m' (.inside (List.Mem.head _) hu ⟨c, hd⟩ hm')
      | choice => trivial
      | enum n c its =>
        intro it hit
        have : it.pos ∈ its.map (·.pos) := List.mem_map_of_mem hit
        rw [hs.pos _ _ _ hd] at this
        obtain ⟨i, _, hi⟩ := List.mem_map.1 this
        omega
      | simple n c t =>
        exact ⟨(hs.grammar _ hd).2, (hr m (.here (List.Mem.head _))).2.2 n c t hu hd⟩
    obtain ⟨N1, hN1⟩ := ih1 hd'
    obtain ⟨N2, hN2⟩ := ih2 (fun m hm => hr m (hm.mono fun x hx => List.Mem.tail _ hx))
    refine ⟨max N1 N2, fun fuel hf => ?_⟩
    simp only [nodeSize] at hN1 hN2 ⊢
    rw [sumSizes, hmt, resolveType, (lastDef_eq_some_iff hs.nodup _ _).2 ⟨hd, rfl⟩]
    simp only
    rw [hN1 fuel (by omega), hN2 fuel (by omega)]
    rfl
  | leaf hno hl h2 ih2 =>
    rename_i m ms a v
    intro hr
    obtain ⟨N2, hN2⟩ := ih2 (fun m hm => hr m (hm.mono fun x hx => List.Mem.tail _ hx))
    refine ⟨N2, fun fuel hf => ?_⟩
    simp only [nodeSize] at hN2 ⊢
    have hnone : resolveType ds m.type = none := by
      unfold resolveType
      split
      · rename_i n lo hi hmt
        cases hl : lastDef ds n with
        | none => rfl
        | some d =>
          obtain ⟨h3, h4⟩ := lastDef_some hl
          exact absurd h4 (hno n lo hi hmt d h3)
      · rfl
    obtain ⟨hg, hna, _⟩ := hr m (.here (List.Mem.head _))
    rw [sumSizes, hnone]
    simp only
    rw [(leafSize_iff hg hna _).2 hl, hN2 fuel (by omega)]
    rfl
  | array hmt h1 h2 ih1 ih2 =>
    intro hr
    exact absurd hmt ((hr _ (.here (List.Mem.head _))).2.1 _ _)

theorem Spec.Single.flat {ds : List Def} {m : Member} (h : Single ds m) : FlatMember ds m :=
  ⟨h.2, fun e len ht => absurd ht (h.1 e len), fun e len ht => absurd ht (h.1 e len),
    fun e len ht => absurd ht (h.1 e len)⟩

/-- The tool's size function gives the specified size for all large enough stacks, so no other
size. -/
theorem sizeDef_eq {ds : List Def} (hs : Sized ds) {n : String} {c : Option Comment} {ms : List Member}
    {v : Int} (h : Size ds (.members ms) v) (hms : ∀ m, Reached ds ms m → GrammarType m.type ∧ Single ds m) :
    (∃ N, ∀ fuel, N ≤ fuel → sizeDef ds fuel (.seq n c ms) = .ok v) :=
  size_computed hs (.seq (n := n) (c := c) h) hms

end Apg
