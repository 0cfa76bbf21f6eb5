import Verif.Props.SizeOf
import Verif.Spec.Arrays
import Verif.Lemmas.Examples
import Verif.Props.Binary

/-!
# C09 and C30: arrays

Specification: `Spec.Arrays`.
-/

namespace Apg
open Spec

theorem asText_name (d : Def) : (Def.asText d).name = d.name := by cases d <;> rfl

theorem lastDef_asText (ds : List Def) (n : String) :
    lastDef (ds.map Def.asText) n = (lastDef ds n).map Def.asText := by
  induction ds with
  | nil => rfl
  | cons d ds ih =>
    rw [List.map_cons, lastDef, lastDef, ih]
    cases lastDef ds n with
    | some r => rfl
    | none =>
      simp only [Option.map_none, asText_name]
      split <;> rfl

theorem resolve_asText (ds : List Def) (t : AType) :
    resolveType (ds.map Def.asText) (asText t) = (resolveType ds t).map Def.asText := by
  cases t with
  | plain n lo hi => exact lastDef_asText ds n
  | str n len => rfl
  | arr e len => rfl

theorem unresolved_asText (t : AType) : unresolvedSizeBits (asText t) = unresolvedSizeBits t := by
  cases t <;> rfl

theorem sumSizes_asText {ds : List Def} {f g : Def → Except Err Int} (h : ∀ d, g (Def.asText d) = f d)
    (ms : List Member) : sumSizes g (ds.map Def.asText) (ms.map Member.asText) = sumSizes f ds ms := by
  induction ms with
  | nil => rfl
  | cons m ms ih =>
    rw [List.map_cons, sumSizes, sumSizes, ih]
    show ((match resolveType (ds.map Def.asText) (asText m.type) with
      | some d => g d
      | none => unresolvedSizeBits (asText m.type)) >>= _) = _
    rw [resolve_asText, unresolved_asText]
    cases resolveType ds m.type with
    | none => rfl
    | some d =>
      simp only [Option.map_some]
      rw [h]

theorem sizeDef_asText (ds : List Def) (fuel : Nat) : ∀ d : Def,
    sizeDef (ds.map Def.asText) fuel (Def.asText d) = sizeDef ds fuel d := by
  induction fuel with
  | zero => intro d; rfl
  | succ fuel ih =>
    intro d
    cases d with
    | seq n c ms => exact sumSizes_asText ih ms
    | choice n c ms => rfl
    | enum n c its => rfl
    | simple n c t => exact unresolved_asText t

theorem grammar_asText {t : AType} (ht : GrammarType t) :
    GrammarType (asText t) ∧ ∀ e len, asText t ≠ .arr e len := by
  cases t with
  | plain n lo hi => exact ⟨ht, fun _ _ h => by cases h⟩
  | str n len => exact ⟨ht, fun _ _ h => by cases h⟩
  | arr e len => exact ⟨.ia5, fun _ _ h => by cases h⟩

theorem sizeReady_asText {d : Def} (h : GrammarDef d ∧ ∀ n c its, d = .enum n c its → ∀ it ∈ its, 0 ≤ it.pos) :
    SizeReady (Def.asText d) := by
  have key : ∀ t, GrammarType t → GrammarType (asText t) ∧ ∀ e len, asText t ≠ .arr e len := fun _ => grammar_asText
  cases d with
  | seq n c ms =>
    intro m hm
    obtain ⟨k, hk, rfl⟩ := List.mem_map.1 hm
    exact key _ (h.1.2.2 k hk).2.1
  | choice n c ms => trivial
  | enum n c its => exact h.2 n c its rfl
  | simple n c t => exact key t h.1.2

/-- **C09, exact, partial.** For every accepted bundle the size computed for a definition is exactly the specified
size of the definition if each array is taken for a string of as many characters: names are followed through the
whole bundle and members are added up. Missing: the size of arrays whose elements do not take eight bits. -/
theorem C09_arrays_partial (raw : List Module) (b : Bundle) (hg : ∀ m ∈ raw, GrammarModule m)
    (h : buildFromTexts raw = .ok b) (d : Def) (hd : d ∈ defsOf b.modules) (v : Int) :
    (∃ N, ∀ fuel, N ≤ fuel → sizeDef b.defs fuel d = .ok v) ↔
      Size ((defsOf b.modules).map Def.asText) (.def (Def.asText d)) v := by
  have hd' : d ∈ b.defs := by rw [← defsOf_eq]; exact hd
  have hready : ∀ d ∈ b.defs.map Def.asText, SizeReady d := by
    intro d hd
    obtain ⟨d0, hd0, rfl⟩ := List.mem_map.1 hd
    exact sizeReady_asText (accepted_grammar hg h d0 hd0)
  have hnd : ((b.defs.map Def.asText).map Def.name).Nodup := by
    rw [List.map_map]
    have : Def.name ∘ Def.asText = Def.name := funext asText_name
    rw [this]
    exact accepted_nodup h
  rw [defsOf_eq]
  constructor
  · rintro ⟨N, hN⟩
    refine sizeDef_sound hready N _ (List.mem_map.2 ⟨d, hd', rfl⟩) v ?_
    rw [sizeDef_asText]
    exact hN N (Nat.le_refl _)
  · intro hs
    obtain ⟨N, hN⟩ := size_complete hnd hready hs (show NodeReady _ _ from List.mem_map.2 ⟨d, hd', rfl⟩)
    refine ⟨N, fun fuel hf => ?_⟩
    have := hN fuel hf
    rwa [nodeSize, sizeDef_asText] at this

/-! ### Arrays of bytes -/

/-- A member list whose arrays are empty or have elements of eight bits. -/
def ByteMembers (ds : List Def) (ms : List Member) : Prop :=
  ∀ m ∈ ms, ∀ e len, m.type = .arr e len → (∃ a, Size ds (.members [{ m with type := e }]) a) ∧
    ∀ a, Size ds (.members [{ m with type := e }]) a → len = 0 ∨ a = 8

/-- Specified and counted size of a node. -/
def ByteNode (ds : List Def) : Node → Prop
  | .def d => d ∈ ds
  | .members ms => ByteMembers ds ms

/-- A node with its arrays taken for strings. -/
def nodeText : Node → Node
  | .def d => .def (Def.asText d)
  | .members ms => .members (ms.map Member.asText)

theorem leaf_not_arr {t : AType} {v : Int} (h : LeafSize t v) : ∀ e len, t ≠ .arr e len := by
  intro e len he
  subst he
  cases h

theorem size_of_bytes {ds : List Def} (hb : ByteArrays ds) {x : Node} {v : Int}
    (h : Size (ds.map Def.asText) x v) : ∀ y, x = nodeText y → ByteNode ds y → Size ds y v := by
  induction h with
  | seq h ih =>
    intro y hy hn
    cases y with
    | members ms => cases hy
    | «def» d =>
      cases d with
      | seq n' c' ms' =>
        rw [nodeText, Node.def.injEq, Def.asText, Def.seq.injEq] at hy
        obtain ⟨_, _, rfl⟩ := hy
        exact .seq (ih (.members ms') rfl (fun m hm => hb.1 _ hn rfl m hm))
      | choice => cases hy
      | enum => cases hy
      | simple => cases hy
  | enum w h1 h2 h3 =>
    intro y hy hn
    cases y with
    | members ms => cases hy
    | «def» d =>
      cases d with
      | enum n' c' its' =>
        rw [nodeText, Node.def.injEq, Def.asText, Def.enum.injEq] at hy
        obtain ⟨_, _, rfl⟩ := hy
        exact .enum w h1 h2 h3
      | choice => cases hy
      | seq => cases hy
      | simple => cases hy
  | simple hl =>
    intro y hy hn
    cases y with
    | members ms => cases hy
    | «def» d =>
      cases d with
      | simple n' c' t' =>
        rw [nodeText, Node.def.injEq, Def.asText, Def.simple.injEq] at hy
        obtain ⟨_, _, rfl⟩ := hy
        have hna := hb.2 _ hn n' c' t' rfl
        have : asText t' = t' := by
          cases t' with
          | arr e len => exact absurd rfl (hna e len)
          | _ => rfl
        rw [this] at hl
        exact .simple hl
      | choice => cases hy
      | seq => cases hy
      | enum => cases hy
  | nil =>
    intro y hy hn
    cases y with
    | «def» d => cases hy
    | members ms =>
      cases ms with
      | nil => exact .nil
      | cons => cases hy
  | @named m ms d lo hi a v hmt hd h1 h2 ih1 ih2 =>
    intro y hy hn
    cases y with
    | «def» d => cases hy
    | members ms' =>
      cases ms' with
      | nil => cases hy
      | cons k ks =>
        rw [nodeText, Node.members.injEq, List.map_cons, List.cons.injEq] at hy
        obtain ⟨rfl, rfl⟩ := hy
        obtain ⟨d0, hd0, rfl⟩ := List.mem_map.1 hd
        have hk : k.type = .plain d0.name lo hi := by
          have : asText k.type = .plain (Def.asText d0).name lo hi := hmt
          rw [asText_name] at this
          cases ht : k.type with
          | plain => rw [ht] at this; exact this
          | str => rw [ht] at this; cases this
          | arr => rw [ht] at this; cases this
        exact .named hk hd0 (ih1 (.def d0) rfl hd0) (ih2 (.members ks) rfl fun m hm => hn m (by simp [hm]))
  | @leaf m ms a v hno hl h2 ih2 =>
    intro y hy hn
    cases y with
    | «def» d => cases hy
    | members ms' =>
      cases ms' with
      | nil => cases hy
      | cons k ks =>
        rw [nodeText, Node.members.injEq, List.map_cons, List.cons.injEq] at hy
        obtain ⟨rfl, rfl⟩ := hy
        have hrest := ih2 (.members ks) rfl fun m hm => hn m (by simp [hm])
        cases ht : k.type with
        | arr e len =>
          obtain ⟨⟨a', ha'⟩, hor⟩ := hn k (by simp) e len ht
          have hl' : LeafSize (.str "IA5String" len) a := by
            have : LeafSize (asText k.type) a := hl
            rwa [ht] at this
          have hav : a = len * 8 := by
            have := (leafSize_iff .ia5 (fun _ _ h => by cases h) a).2 hl'
            exact (Except.ok.inj this).symm
          have : a + v = len * a' + v := by
            rw [hav]
            rcases hor a' ha' with rfl | rfl
            · simp
            · rfl
          rw [this]
          exact .array ht ha' hrest
        | plain n lo hi =>
          have hl' : LeafSize k.type a := by
            have : LeafSize (asText k.type) a := hl
            rw [ht] at this ⊢
            exact this
          refine .leaf ?_ hl' hrest
          intro n' lo' hi' he d hd
          have := hno n' lo' hi' (by show asText k.type = _; rw [ht] at he ⊢; exact he) (Def.asText d)
            (List.mem_map.2 ⟨d, hd, rfl⟩)
          rwa [asText_name] at this
        | str n len =>
          have hl' : LeafSize k.type a := by
            have : LeafSize (asText k.type) a := hl
            rw [ht] at this ⊢
            exact this
          refine .leaf ?_ hl' hrest
          intro n' lo' hi' he
          rw [ht] at he
          cases he
  | @array m ms e len a v hmt h1 h2 ih1 ih2 =>
    intro y hy hn
    cases y with
    | «def» d => cases hy
    | members ms' =>
      cases ms' with
      | nil => cases hy
      | cons k ks =>
        rw [nodeText, Node.members.injEq, List.map_cons, List.cons.injEq] at hy
        obtain ⟨rfl, rfl⟩ := hy
        have : asText k.type = .arr e len := hmt
        cases ht : k.type <;> rw [ht] at this <;> cases this

theorem bytes_of_size {ds : List Def} (hb : ByteArrays ds) {x : Node} {v : Int}
    (h : Size ds x v) : ByteNode ds x → Size (ds.map Def.asText) (nodeText x) v := by
  induction h with
  | seq h ih => exact fun hn => .seq (ih fun m hm => hb.1 _ hn rfl m hm)
  | enum w h1 h2 h3 => exact fun _ => .enum w h1 h2 h3
  | @simple n c t v hl =>
    intro hn
    have : asText t = t := by
      cases t with
      | arr e len => exact absurd rfl (hb.2 _ hn n c _ rfl e len)
      | _ => rfl
    show Size _ (.def (.simple n c (asText t))) v
    rw [this]
    exact .simple hl
  | nil => exact fun _ => .nil
  | @named m ms d lo hi a v hmt hd h1 h2 ih1 ih2 =>
    intro hn
    refine .named (d := Def.asText d) (lo := lo) (hi := hi) ?_ (List.mem_map.2 ⟨d, hd, rfl⟩) (ih1 hd)
      (ih2 fun k hk => hn k (by simp [hk]))
    show asText m.type = _
    rw [hmt, asText_name]
    rfl
  | @leaf m ms a v hno hl h2 ih2 =>
    intro hn
    have ht : asText m.type = m.type := by
      cases h : m.type with
      | arr e len => exact absurd h (leaf_not_arr hl e len)
      | _ => rfl
    refine .leaf ?_ (show LeafSize (asText m.type) a by rw [ht]; exact hl) (ih2 fun k hk => hn k (by simp [hk]))
    intro n lo hi he d hd
    have he' : asText m.type = .plain n lo hi := he
    obtain ⟨d0, hd0, rfl⟩ := List.mem_map.1 hd
    rw [asText_name]
    exact hno n lo hi (by rw [← ht]; exact he') d0 hd0
  | @array m ms e len a v hmt h1 h2 ih1 ih2 =>
    intro hn
    have hor := (hn m (by simp) e len hmt).2 a h1
    have hv : len * a + v = len * 8 + v := by
      rcases hor with rfl | rfl
      · simp
      · rfl
    rw [hv]
    have ht : asText m.type = .str "IA5String" len := by rw [hmt]; rfl
    refine .leaf ?_ (show LeafSize (asText m.type) _ by rw [ht]; exact .ia5) (ih2 fun k hk => hn k (by simp [hk]))
    intro n lo hi he
    have he' : asText m.type = .plain n lo hi := he
    rw [ht] at he'
    cases he'

/-- **C09, arrays of bytes, partial.** For every accepted bundle whose arrays are empty or have elements of eight
bits, the size computed is exactly the specified size. Missing: other arrays. -/
theorem C09_byte_arrays_partial (raw : List Module) (b : Bundle) (hg : ∀ m ∈ raw, GrammarModule m)
    (h : buildFromTexts raw = .ok b) (hb : ByteArrays (defsOf b.modules)) (d : Def) (hd : d ∈ defsOf b.modules)
    (v : Int) :
    (∃ N, ∀ fuel, N ≤ fuel → sizeDef b.defs fuel d = .ok v) ↔ Size (defsOf b.modules) (.def d) v := by
  rw [C09_arrays_partial raw b hg h d hd v]
  exact ⟨fun hs => size_of_bytes hb hs (.def d) rfl hd, fun hs => bytes_of_size hb hs hd⟩

/-- A sequence with an array of four bytes and an empty array. -/
def exBytesDef : Def :=
  .seq "S" none [⟨"x", .arr (.plain "INTEGER" (some (.int 0)) (some (.int 255))) 4, none, none⟩,
    ⟨"y", .arr (.plain "BOOLEAN" none none) 0, none, none⟩]

def exBytes : Module := { name := "a", defs := [exBytesDef] }

theorem exBytes_size {m : Member} {t : AType} {v w : Int} (hm : m.type = t) (ht : GrammarType t)
    (hn : ∀ e len, t ≠ .arr e len) (hd : ∀ n lo hi, t = .plain n lo hi → n ≠ "S")
    (hw : unresolvedSizeBits t = .ok w) : Size exBytes.defs (.members [m]) v ↔ v = w := by
  have hl : LeafSize m.type w := by rw [hm]; exact (leafSize_iff ht hn w).1 hw
  have hno : ∀ n lo hi, m.type = .plain n lo hi → ∀ d ∈ exBytes.defs, d.name ≠ n := by
    intro n lo hi he d hm'
    have := List.mem_singleton.1 hm'
    subst this
    exact fun h => hd n lo hi (by rw [← hm, he]) h.symm
  constructor
  · intro h
    cases h with
    | named hmt hm' _ _ => exact absurd rfl (hno _ _ _ hmt _ hm')
    | leaf _ hl' hr =>
      cases hr
      rw [hm] at hl'
      have := (leafSize_iff ht hn _).2 hl'
      rw [hw] at this
      rw [Except.ok.inj this, Int.add_zero]
    | array hmt => exact absurd (hm.symm.trans hmt) (hn _ _)
  · rintro rfl
    have := Size.leaf hno hl (Size.nil (ds := exBytes.defs))
    rwa [Int.add_zero] at this

example : GrammarModule exBytes ∧ buildFromTexts [exBytes] = .ok ⟨[⟨exBytes, []⟩], []⟩ ∧
    ByteArrays exBytes.defs ∧ sizeDef exBytes.defs 2 exBytesDef = .ok 32 := by
  have hmem : ∀ {P : Member → Prop}, P ⟨"x", .arr (.plain "INTEGER" (some (.int 0)) (some (.int 255))) 4, none, none⟩ →
      P ⟨"y", .arr (.plain "BOOLEAN" none none) 0, none, none⟩ →
      ∀ m ∈ exBytesDef.members, P m := by
    intro P h1 h2 m hm
    rcases List.mem_cons.1 hm with rfl | hm
    · exact h1
    · rcases List.mem_cons.1 hm with rfl | hm
      · exact h2
      · cases hm
  refine ⟨grammarB_sound (by decide +kernel) _ (List.mem_singleton.2 rfl), by decide +kernel, ⟨?_, ?_⟩, by decide +kernel⟩
  · intro d hd _
    have := List.mem_singleton.1 hd
    subst this
    refine hmem (fun e len he => ?_) (fun e len he => ?_)
    · cases he
      have := fun v => exBytes_size (v := v) (w := 8)
        (m := ⟨"x", .plain "INTEGER" (some (.int 0)) (some (.int 255)), none, none⟩) rfl .integerRange
        (fun _ _ h => by cases h) (fun n lo hi h => by rw [← (AType.plain.inj h).1]; decide) (by decide +kernel)
      exact ⟨⟨8, (this 8).2 rfl⟩, fun a ha => Or.inr ((this a).1 ha)⟩
    · cases he
      have := fun v => exBytes_size (v := v) (w := 1) (m := ⟨"y", .plain "BOOLEAN" none none, none, none⟩) rfl .boolean
        (fun _ _ h => by cases h) (fun n lo hi h => by rw [← (AType.plain.inj h).1]; decide) (by decide +kernel)
      exact ⟨⟨1, (this 1).2 rfl⟩, fun a ha => Or.inl rfl⟩
  · intro d hd n c t he
    have := List.mem_singleton.1 hd
    subst this
    cases he

/-! ### Binary blocks -/

/-- **C30, exact, partial.** In every binary file, also of a run that fails later, the block of
each fixed value has the specified size of its member if each array is taken for a string of as
many characters. Missing: the size of arrays whose elements do not take eight bits. -/
theorem C30_arrays_partial (fuel : Nat) (e : Option Endian) (raw : List Module) (cfg : List String)
    (out : Text) (hg : ∀ m ∈ raw, GrammarModule m) :
    BinFiles fuel e raw cfg out fun ds f blk =>
      ∀ w, Size (ds.map Def.asText) (.members [Member.asText f.1]) w ↔ w = 8 * blk.length := by
  apply binFiles_of hg
  rintro b hbt f blk hm ⟨_, ct, bits, _, _, k3, k4, k5⟩
  have hready : ∀ d ∈ b.defs.map Def.asText, SizeReady d := by
    intro d hd
    obtain ⟨d0, hd0, rfl⟩ := List.mem_map.1 hd
    exact sizeReady_asText (accepted_grammar hg hbt d0 hd0)
  have hnd : ((b.defs.map Def.asText).map Def.name).Nodup := by
    rw [List.map_map]
    have : Def.name ∘ Def.asText = Def.name := funext asText_name
    rw [this]
    exact accepted_nodup hbt
  have hmem : ∀ m ∈ [Member.asText f.1], GrammarType m.type ∧ ∀ e len, m.type ≠ .arr e len := by
    intro m h
    have := List.mem_singleton.1 h
    subst this
    exact grammar_asText hm
  have hbits : bits = 8 * (blk.length : Int) := by
    cases e with
    | none => cases k5
    | some en =>
      have hl := pack_length k5
      omega
  have hsum : sumSizes (sizeDef (b.defs.map Def.asText) fuel) (b.defs.map Def.asText) [Member.asText f.1]
      = .ok bits := by
    rw [show [Member.asText f.1] = [f.1].map Member.asText from rfl, sumSizes_asText (sizeDef_asText b.defs fuel)]
    rw [sumSizes, sumSizes]
    unfold sizeMember at k3
    rw [k3]
    show Except.ok (bits + 0) = _
    rw [Int.add_zero]
  have hs := sumSizes_sound _ (sizeDef_sound hready fuel) _ hmem _ hsum
  intro w
  constructor
  · intro hw
    obtain ⟨N, hN⟩ := size_complete hnd hready hw hmem
    obtain ⟨M, hM⟩ := size_complete hnd hready hs hmem
    have h1 := hN (N + M) (Nat.le_add_right _ _)
    rw [hM (N + M) (Nat.le_add_left _ _)] at h1
    rw [← Except.ok.inj h1, hbits]
  · rintro rfl
    rw [← hbits]
    exact hs

/-- A run that writes a block for an array: four bytes for four numbers of 16 bits. -/
example : (runBinary 20 (some .big) exArray ["m"] exOut).result = .ok () := by decide +kernel

end Apg
