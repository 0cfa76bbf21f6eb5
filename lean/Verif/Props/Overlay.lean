import Verif.Lemmas.Overlay
import Verif.Props.Layout
import Verif.Props.CosmosData

/-!
# C78: binary files read through the generated structs

Specification: `Spec.Overlay`.
-/

namespace Apg
open Spec

theorem all2_join {α β γ} {R : α → β → Prop} {S : β → γ → Prop} {l : List α} {l' : List β} {l'' : List γ}
    (h : All2 R l l') (h' : All2 S l' l'') : All2 (fun a c => ∃ b ∈ l', R a b ∧ S b c) l l'' := by
  induction h generalizing l'' with
  | nil => cases h'; exact .nil
  | cons h1 _ ih =>
    cases h' with
    | cons h2 h3 =>
      exact .cons ⟨_, by simp, h1, h2⟩ ((ih h3).imp fun a c ⟨b, hb, h⟩ => ⟨b, List.mem_cons_of_mem _ hb, h⟩)

theorem all2_and {α β} {R S : α → β → Prop} {l : List α} {l' : List β} (h : All2 R l l') (h' : All2 S l l') :
    All2 (fun a b => R a b ∧ S a b) l l' := by
  induction h with
  | nil => exact .nil
  | cons h1 _ ih =>
    cases h' with
    | cons h2 h3 => exact .cons ⟨h1, h2⟩ (ih h3)

/-- Statement of C78 for sequences that meet a condition: a C program that lays the struct of the sequence over the
binary file of the sequence finds each fixed value in its member. Header and binary file are those of one run. -/
def Overlays (C : List Def → List Member → Prop) : Prop :=
  ∀ (fuel : Nat) (en : Endian) (raw : List Module) (cfg : List String) (out : Text) (b : Bundle) (fs : Files),
    Input raw cfg b → Regular b.defs → (∀ m ∈ b.modules, Tame m) →
    (runBinary fuel (some en) raw cfg out).result = .ok () →
    ∃ dss, HeaderDecls (.binary (some en)) ((runBinary fuel (some en) raw cfg out).apply fs) out b.modules dss ∧
      ∀ n c ms, Def.seq n c ms ∈ b.defs → fixedMembers (.seq n c ms) ≠ [] → C b.defs ms →
        ∃ bytes fields slots e,
          HasBytes ((runBinary fuel (some en) raw cfg out).apply fs) (binPath out (.seq n c ms)) bytes ∧
          CDecl.struct (ident n) fields ∈ dss.flatten ∧ Placed dss.flatten fields 0 slots e ∧
          ∀ ls, Leaves b.defs ms ls → ∀ path ∈ ls, ∀ v, FixedTo path v →
            ∃ s ∈ slots, s.path = path.map (ident ·.key) ∧ Finds en bytes s v

/-- Full statement of C78, for sequences whose members have the same widths in all formats (C66). -/
def C78_full : Prop := Overlays Agreed

/-- The leaves that the clauses fix are the first ones of the sequence, each fixed once, in the order of the only
clause, and numbers. -/
def FixedFirst (ds : List Def) (ms : List Member) : Prop :=
  ∃ x pre post, ms.filterMap (fun m => m.comps.map fun c => (m, c)) = [x] ∧ Leaves ds ms (pre ++ post) ∧
    (∀ fixed, Fixes ds x.1.type.name x.2 fixed → All2 (fun path f => path.getLast? = some f.1 ∧
      (∀ v, FixedTo path v → v = f.2) ∧ NumberLeaf ds f.1) pre fixed) ∧
    ∀ path ∈ post, ∀ v, ¬ FixedTo path v

/-- **C78, partial.** A C program that lays the generated struct of a sequence over the binary file of the sequence
finds all fixed values, if the only clause fixes the first leaves of the sequence in their order and they are numbers.
This is for both byte orders. Missing: clauses that leave out or change the order of members, and fixed values that are
no numbers. -/
theorem C78_overlay_partial : Overlays fun ds ms => Agreed ds ms ∧ FixedFirst ds ms := by
  intro fuel en raw cfg out b fs hin hreg ht hr
  have hsrc := sources_of_input hin
  have hbt := buildFromTexts_of_config hin.accepted
  have hs : LayoutEnv b.defs := ⟨accepted_sized hsrc, hreg.posix, fun n c t h => (hreg.simple n c t h).1⟩
  obtain ⟨dss, h1, hd⟩ := headers_structs (cmd := .binary (some en)) fs hin hr hreg ht
  refine ⟨dss, h1, ?_⟩
  rintro n c ms hdm hne ⟨ha, x, pre, post, hx, hl, hpre, hpost⟩
  obtain ⟨x', blocks, h2, ⟨fixed, h3, h4⟩, h5⟩ := bin_exists hin.grammar hin.accepted hr hdm hne fs
  have hx' : fixedMembers (.seq n c ms) = [x] := hx
  rw [hx'] at h2
  cases h2
  obtain ⟨fields, hf⟩ := hd.declared n ms ⟨c, hdm⟩
  obtain ⟨ps, hplan, hps⟩ := plan_of_leaves hs hl ha
  have hfields := hd.of hs ⟨c, hdm⟩ hf
  obtain ⟨slots, e, hpl⟩ := placed_exists hs hd hplan hfields 0
  refine ⟨blocks.flatten, fields, slots, e, h5, hf, hpl, ?_⟩
  intro ls hl' path hpath v hv
  cases leaves_unique hs.nodup hl hl'
  have hpath : path ∈ pre := (List.mem_append.1 hpath).resolve_right fun h => hpost path h v hv
  have hgm := fixes_grammar (fun d hd => (accepted_grammar hin.grammar hbt d hd).1) h3
  obtain ⟨qs, rs, rfl, hq, hr'⟩ := List.map_eq_append_iff.1 hps
  have hal := (placed_aligned hs hd hplan hfields (by decide) hpl).1
  have hfix := hpre fixed h3
  rw [← hq] at hfix hpath
  have hfix := all2_unmap hfix
  have hnum : ∀ {y : List Member × Int} {f : Member × Leaf} {blk : List UInt8}, y ∈ qs → f ∈ fixed →
      y.1.getLast? = some f.1 → NumberLeaf b.defs f.1 → Packed b.defs fuel (some en) f blk →
      y.2 = 8 * (blk.length : Int) := by
    intro y f blk hy hf hlast hnl hp
    have hw := plan_leaf hplan y (List.mem_append_left _ hy) f.1 hlast
    have hsz := leafBits_size hs hw
    have key : ∀ {t : AType}, IsRange t → Elementary b.defs f.1.type t → y.2 = 8 * (blk.length : Int) := by
      intro t ht hel
      have k1 := packed_width hin.grammar hbt (hgm f hf).2.1 hp hel
      have k2 := size_elementary hs.nodup hel hsz
      have hgt : GrammarType t := by
        obtain ⟨_, ct, bits, r1, _, r3, _⟩ := hp
        exact (elementary_size hs.nodup (accepted_simple_grammar hin.grammar hbt) (hgm f hf).2.1 hel r3).1
      refine (leafSize_unique hgt ?_ k1 k2).symm
      rintro e len rfl
      rcases ht with ⟨_, _, h⟩ | ⟨_, _, h⟩ <;> simp [intType, realType] at h
    rcases hnl with ⟨lo, hi, h⟩ | ⟨_, lo, hi, h⟩
    · exact key (.inl ⟨_, _, rfl⟩) h
    · exact key (.inr ⟨_, _, rfl⟩) h
  have hblk : All2 (fun y blk => ∃ f ∈ fixed, y.1.getLast? = some f.1 ∧ (∀ v, FixedTo y.1 v → v = f.2) ∧
      NumberLeaf b.defs f.1 ∧ Packed b.defs fuel (some en) f blk ∧ y.2 = 8 * (blk.length : Int)) qs blocks := by
    refine (all2_join hfix h4).imp_mem ?_
    rintro y hy blk ⟨f, hf, ⟨k1, k2, k3⟩, k4⟩
    exact ⟨f, hf, k1, k2, k3, k4, hnum hy hf k1 k3 k4⟩
  have hfound := aligned_blocks (qs := rs) (hblk.imp fun y blk ⟨f, _, h⟩ => h.2.2.2.2) [] hal
  obtain ⟨y, hy, rfl⟩ := List.mem_map.1 hpath
  obtain ⟨blk, _, ⟨f, hfm, k1, k2, k3, k4, k5⟩, s, hss, j1, j2, j3, j4, m, fld, j5, j6, j7, j8⟩ :=
    all2_mem_left (all2_and hblk hfound) hy
  rw [k1] at j5
  cases j5
  cases k2 v hv
  refine ⟨s, hss, j1, ?_⟩
  rw [List.nil_append] at j3 j4
  have hmg := (hgm f hfm).2.1
  obtain ⟨ct, sfx, j9, j10⟩ : ∃ ct sfx, FieldType b.defs f.1.type ct sfx ∧ s.type = [ct] := by
    obtain ⟨_, _, ct, sfx, q1, q2, _⟩ := j7
    exact ⟨ct, sfx, q1, j8 ▸ q2⟩
  have hblen : (y.2 : Int) = ((8 * blk.length : Nat) : Int) := by omega
  rcases k3 with ⟨lo, hi, hel⟩ | ⟨hn, lo, hi, hel⟩
  · have hstd : ∃ ct, StdUInt (8 * blk.length) ct := by
      obtain ⟨_, ct, bits, r1, _, r3, r4, r5⟩ := k4
      have h6 := (elementary_size hs.nodup (accepted_simple_grammar hin.grammar hbt) hmg hel r3).2.1
      have hct := elementary_int hin.grammar hbt hmg hel r1 h6
      refine pack_std ?_ r5
      rw [hct]
      split
      · exact .inl rfl
      · exact .inr rfl
    obtain ⟨i, r1, r2, _⟩ := packed_int hin.grammar hbt hmg k4 hel
    obtain ⟨_, u1, u2⟩ := int_field hin.grammar hbt hs hel (hblen ▸ j6) hstd j9
    rcases Int.lt_or_le lo 0 with hlo | hlo
    · rw [if_pos hlo] at r2
      exact .signed j3 j10 (u2 hlo) (by omega) (by rw [r1, r2, j4])
    · rw [if_neg (by omega)] at r2
      exact .unsigned j3 j10 (u1 hlo) (by omega) (by rw [r1, r2, j4])
  · have r := packed_real hin.grammar hbt hmg k4 hn hel
    rcases real_field hs hn hel j6 j9 with ⟨u1, rfl⟩ | ⟨u1, rfl⟩
    · rcases r with ⟨r1, r2⟩ | ⟨r1, r2⟩
      · exact .single j3 j10 (by omega) (j4 ▸ r2)
      · omega
    · rcases r with ⟨r1, r2⟩ | ⟨r1, r2⟩
      · omega
      · exact .double j3 j10 (by omega) (j4 ▸ r2)

/-! ### Examples -/

/-- A module with a message whose clause fixes the first leaves, and one whose clause leaves out the first leaf. -/
def exWireModule : Module :=
  { name := "wire", defs := [
      .seq "Tag" none [⟨"kind", intType 0 255, none, none⟩, ⟨"level", intType (-2147483648) 2147483647, none, none⟩],
      .seq "Whole" none [⟨"tag", .plain "Tag" none none, none, some (.leaf "kind" (.int 7) (.leaf "level" (.int (-2)) .nil))⟩,
        ⟨"count", intType 0 65535, none, none⟩],
      .seq "Part" none [⟨"tag", .plain "Tag" none none, none, some (.leaf "level" (.int (-2)) .nil)⟩,
        ⟨"count", intType 0 65535, none, none⟩]] }

def exWire : List Module := [exWireModule]

theorem exWire_input : Input exWire ["wire"] (okBundle (buildFromConfig exWire ["wire"])) :=
  input_of (by decide +kernel) (by decide +kernel) (by decide +kernel)

theorem exWire_regular : Regular (okBundle (buildFromConfig exWire ["wire"])).defs :=
  regular_of (by decide +kernel) (by decide +kernel) (by decide +kernel)

theorem exWire_modules : (okBundle (buildFromConfig exWire ["wire"])).modules = [exWireModule] := by decide +kernel

theorem exWire_tame : ∀ m ∈ (okBundle (buildFromConfig exWire ["wire"])).modules, Tame m := by
  refine single_tame exWire_modules ⟨(by intro c hc; cases hc), (by intro c hc; cases hc), ?_⟩
  intro d hd
  simp only [exWireModule, List.mem_cons, List.not_mem_nil, or_false] at hd
  rcases hd with rfl | rfl | rfl <;> refine ⟨(by intro x hx; cases hx), ?_⟩ <;>
    unfold NoBackslash NotReserved <;> decide +kernel

theorem exWire_defs : (okBundle (buildFromConfig exWire ["wire"])).defs = exWireModule.defs := by decide +kernel

theorem exWire_runs (en : Endian) : (runBinary 20 (some en) exWire ["wire"] exOut).result = .ok () := by
  cases en <;> decide +kernel

def exTag : Member := ⟨"tag", .plain "Tag" none none, none, some (.leaf "kind" (.int 7) (.leaf "level" (.int (-2)) .nil))⟩
def exPartTag : Member := ⟨"tag", .plain "Tag" none none, none, some (.leaf "level" (.int (-2)) .nil)⟩
def exDeep : Member := ⟨"level", intType (-2147483648) 2147483647, none, none⟩

theorem exWire_agreed {ms : List Member} (h : ms ∈ exWireModule.defs.map Def.members) : Agreed exWireModule.defs ms := by
  intro m hm
  obtain ⟨d, hd, hm⟩ : ∃ d ∈ exWireModule.defs, m ∈ d.members := by
    refine reached_member hm ?_
    obtain ⟨d, hd, rfl⟩ := List.mem_map.1 h
    exact fun m hm => ⟨d, hd, hm⟩
  simp only [exWireModule, List.mem_cons, List.not_mem_nil, or_false] at hd
  have num : ∀ {hi w : Int}, hi < 2 ^ 64 → 0 < w → unresolvedSizeBits (intType 0 hi) = .ok w →
      (∃ w, LeafBits exWireModule.defs (intType 0 hi) w) := fun h1 h2 h3 => ⟨_, range_bits (by decide) h1 h2 h3⟩
  have hs : IsSequence exWireModule.defs "Tag" [exKind, exDeep] := ⟨none, List.mem_of_getElem? (i := 0) rfl⟩
  rcases hd with rfl | rfl | rfl <;> simp only [Def.members, List.mem_cons, List.not_mem_nil, or_false] at hm <;>
    rcases hm with rfl | rfl
  · exact .inl (num (w := 8) (by decide) (by decide) (by decide +kernel))
  · exact .inl ⟨32, .number (.scalar (.signed (by decide) ((leafSize_int _ _ _).1 (by decide +kernel)))) (by decide)⟩
  · exact .inr ⟨_, _, rfl, hs⟩
  · exact .inl (num (w := 16) (by decide) (by decide) (by decide +kernel))
  · exact .inr ⟨_, _, rfl, hs⟩
  · exact .inl (num (w := 16) (by decide) (by decide) (by decide +kernel))

theorem exWire_not_seq {n : String} {inner : List Member} (h : n ≠ "Tag" ∧ n ≠ "Whole" ∧ n ≠ "Part") :
    ¬ IsSequence exWireModule.defs n inner := by
  rintro ⟨c, hs⟩
  simp only [exWireModule, List.mem_cons, Def.seq.injEq, List.not_mem_nil, or_false] at hs
  rcases hs with hs | hs | hs
  · exact h.1 hs.1
  · exact h.2.1 hs.1
  · exact h.2.2 hs.1

theorem exWire_leaf {lo hi : Int} (n : String) (inner : List Member) (hu : UsesName (intType lo hi) n) :
    ¬ IsSequence exWireModule.defs n inner := by
  generalize hx : intType lo hi = x at hu
  cases hu with
  | plain =>
    simp only [intType, AType.plain.injEq] at hx
    obtain ⟨rfl, _⟩ := hx
    exact exWire_not_seq (by decide)
  | str => simp [intType] at hx
  | arr => simp [intType] at hx

theorem exWire_leaves {tag : Member} (ht : tag.type = .plain "Tag" none none) :
    Leaves exWireModule.defs [tag, exCount] ([[tag, exKind], [tag, exDeep]] ++ [[exCount]]) := by
  have hin : Leaves exWireModule.defs [exKind, exDeep] [[exKind], [exDeep]] :=
    .leaf exWire_leaf (.leaf exWire_leaf .nil)
  exact Leaves.seq (m := tag) (n := "Tag") (ht ▸ .plain) ⟨none, List.mem_of_getElem? (i := 0) rfl⟩ hin
    (.leaf exWire_leaf .nil)

theorem exWire_tag {ms : List Member} : IsSequence exWireModule.defs "Tag" ms → ms = [exKind, exDeep] := by
  rintro ⟨c, h⟩
  simp only [exWireModule, List.mem_cons, Def.seq.injEq, List.not_mem_nil, or_false] at h
  rcases h with h | h | h
  · exact h.2.2
  · exact absurd h.1 (by decide)
  · exact absurd h.1 (by decide)

theorem exWire_fixes : ∀ fixed, Fixes exWireModule.defs "Tag" (.leaf "kind" (.int 7) (.leaf "level" (.int (-2)) .nil)) fixed →
    fixed = [(exKind, .int 7), (exDeep, .int (-2))] := by
  have hkey : ∀ m ∈ [exKind, exDeep], (m.key = "kind" → m = exKind) ∧ (m.key = "level" → m = exDeep) := by
    intro m hm
    simp only [List.mem_cons, List.not_mem_nil, or_false] at hm
    rcases hm with rfl | rfl
    · exact ⟨fun _ => rfl, fun h => absurd h (by decide)⟩
    · exact ⟨fun h => absurd h (by decide), fun _ => rfl⟩
  intro fixed h
  generalize hc : Comps.leaf "kind" (.int 7) (.leaf "level" (.int (-2)) .nil) = c at h
  cases h with
  | nil => cases hc
  | node => cases hc
  | @leaf _ ms m v rest l k1 k2 k3 =>
    rw [Comps.leaf.injEq] at hc
    obtain ⟨e1, rfl, rfl⟩ := hc
    rw [exWire_tag k1] at k2
    rw [(hkey m k2).1 e1.symm]
    generalize hc : Comps.leaf "level" (.int (-2)) .nil = c at k3
    cases k3 with
    | nil => cases hc
    | node => cases hc
    | @leaf _ ms m v rest l k1 k2 k3 =>
      rw [Comps.leaf.injEq] at hc
      obtain ⟨e1, rfl, rfl⟩ := hc
      rw [exWire_tag k1] at k2
      rw [(hkey m k2).2 e1.symm]
      cases k3
      rfl

theorem exWire_fixed {k : Member} {v : Leaf} (hk : k.comps = none) (h : FixedTo [exTag, k] v) :
    (k.key = "kind" ∧ v = .int 7) ∨ (k.key = "level" ∧ v = .int (-2)) := by
  rcases fixedTo_cons.1 h with ⟨c, hc, hf⟩ | h
  · cases hc
    simp only [List.map_cons, List.map_nil] at hf
    generalize hks : [k.key] = ks at hf
    cases hf with
    | here => simp only [List.cons.injEq, and_true] at hks; exact .inl ⟨hks, rfl⟩
    | afterLeaf hf =>
      cases hf with
      | here => simp only [List.cons.injEq, and_true] at hks; exact .inr ⟨hks, rfl⟩
      | afterLeaf hf => cases hf
  · rcases fixedTo_cons.1 h with ⟨c, hc, _⟩ | h
    · rw [hk] at hc; cases hc
    · exact (fixedTo_nil h).elim

theorem exWire_first : FixedFirst exWireModule.defs [exTag, exCount] := by
  refine ⟨(exTag, .leaf "kind" (.int 7) (.leaf "level" (.int (-2)) .nil)), [[exTag, exKind], [exTag, exDeep]],
    [[exCount]], rfl, exWire_leaves rfl, ?_, ?_⟩
  · intro fixed hf
    rw [exWire_fixes fixed hf]
    refine .cons ⟨rfl, fun v hv => ?_, .inl ⟨_, _, .direct (by decide)⟩⟩
      (.cons ⟨rfl, fun v hv => ?_, .inl ⟨_, _, .direct (by decide)⟩⟩ .nil)
    · rcases exWire_fixed rfl hv with h | h
      · exact h.2
      · exact absurd h.1 (by decide)
    · rcases exWire_fixed rfl hv with h | h
      · exact absurd h.1 (by decide)
      · exact h.2
  · intro path hp v hv
    rcases List.mem_singleton.1 hp with rfl
    rcases fixedTo_cons.1 hv with ⟨c, hc, _⟩ | h
    · cases hc
    · exact (fixedTo_nil h).elim

/-- A C program on a little-endian target finds -2 in the member `level` of the struct `Whole`. -/
example : ∃ dss bytes fields slots e,
    HeaderDecls (.binary (some .little)) ((runBinary 20 (some .little) exWire ["wire"] exOut).apply fun _ => none) exOut
      [exWireModule] dss ∧
    HasBytes ((runBinary 20 (some .little) exWire ["wire"] exOut).apply fun _ => none)
      (binPath exOut (.seq "Whole" none [exTag, exCount])) bytes ∧
    CDecl.struct (ident "Whole") fields ∈ dss.flatten ∧ Placed dss.flatten fields 0 slots e ∧
    ∃ s ∈ slots, s.path = [ident "tag", ident "level"] ∧ Finds .little bytes s (.int (-2)) := by
  obtain ⟨dss, h1, h2⟩ := C78_overlay_partial 20 .little exWire ["wire"] exOut _ (fun _ => none) exWire_input
    exWire_regular exWire_tame (exWire_runs _)
  rw [exWire_defs] at h2
  rw [exWire_modules] at h1
  obtain ⟨bytes, fields, slots, e, k1, k2, k3, k4⟩ := h2 "Whole" none [exTag, exCount]
    (List.mem_of_getElem? (i := 1) rfl) (by decide +kernel)
    ⟨exWire_agreed (List.mem_map.2 ⟨_, List.mem_of_getElem? (i := 1) rfl, rfl⟩), exWire_first⟩
  exact ⟨dss, bytes, fields, slots, e, h1, k1, k2, k3, k4 _ (exWire_leaves rfl) [exTag, exDeep] (by simp) (.int (-2))
    ⟨[], exTag, [exDeep], _, rfl, rfl, .afterLeaf .here⟩⟩

/-- The code disagrees with the full statement: if the clause fixes only the second member, then its value is at
the start of the file. -/
theorem C78_full_false : ¬ C78_full := by
  intro hf
  obtain ⟨dss, h1, h2⟩ := hf 20 .big exWire ["wire"] exOut _ (fun _ => none) exWire_input
    exWire_regular exWire_tame (exWire_runs _)
  rw [exWire_defs] at h2
  have ha : Agreed exWireModule.defs [exPartTag, exCount] :=
    exWire_agreed (List.mem_map.2 ⟨_, List.mem_of_getElem? (i := 2) rfl, rfl⟩)
  obtain ⟨bytes, fields, slots, e, k1, k2, k3, k4⟩ := h2 "Part" none [exPartTag, exCount]
    (List.mem_of_getElem? (i := 2) rfl) (by decide +kernel) ha
  obtain ⟨s, hs, hp, hfind⟩ := k4 _ (exWire_leaves rfl) [exPartTag, exDeep] (by simp) (.int (-2))
    ⟨[], exPartTag, [exDeep], _, rfl, rfl, .here⟩
  have hb := fileBytes_eq k1
  have hlen : bytes.length = 4 := by rw [← hb]; decide +kernel
  have hin : InData bytes s := by cases hfind <;> assumption
  obtain ⟨dss', h1', hd⟩ := headers_structs (cmd := .binary (some .big)) (fun _ => none) exWire_input (exWire_runs _)
    exWire_regular exWire_tame
  cases headerDecls_unique h1 h1'
  rw [exWire_defs] at hd
  have henv : LayoutEnv exWireModule.defs := by
    have h := accepted_sized (sources_of_input exWire_input)
    have hr := exWire_regular
    rw [exWire_defs] at h hr
    exact ⟨h, hr.posix, fun n c t h => (hr.simple n c t h).1⟩
  obtain ⟨ps, hplan, hps⟩ := plan_of_leaves henv (exWire_leaves (tag := exPartTag) rfl) ha
  have hal := (placed_aligned henv hd hplan (hd.of henv ⟨none, List.mem_of_getElem? (i := 2) rfl⟩ k2) (by decide) k3).1
  have w8 : LeafBits exWireModule.defs (intType 0 255) 8 := range_bits (by decide) (by decide) (by decide) (by decide +kernel)
  have w16 : LeafBits exWireModule.defs (intType 0 65535) 16 :=
    range_bits (by decide) (by decide) (by decide) (by decide +kernel)
  have w32 : LeafBits exWireModule.defs (intType (-2147483648) 2147483647) 32 :=
    .number (.scalar (.signed (by decide) ((leafSize_int _ _ _).1 (by decide +kernel)))) (by decide)
  obtain ⟨x, ps, rfl, ex, hps⟩ := List.map_eq_cons_iff.1 hps
  obtain ⟨y, ps, rfl, ey, hps⟩ := List.map_eq_cons_iff.1 hps
  obtain ⟨z, ps, rfl, ez, hps⟩ := List.map_eq_cons_iff.1 hps
  cases List.map_eq_nil_iff.1 hps
  rcases slots with _ | ⟨s1, slots⟩
  · exact hal.elim
  obtain ⟨a1, a2, a3, ⟨m, f, a4, a5, _⟩, hal⟩ := hal
  rw [ex] at a3 a4
  cases a4
  have hx := leafBits_unique henv .integerRange w8 a5
  rcases slots with _ | ⟨s2, slots⟩
  · exact (hal (by omega)).elim
  obtain ⟨b1, b2, b3, ⟨m, f, b4, b5, _⟩, hal⟩ := hal (by omega)
  rw [ey] at b3 b4
  cases b4
  have hy := leafBits_unique henv .integerRange w32 b5
  rcases slots with _ | ⟨s3, slots⟩
  · exact (hal (by omega)).elim
  obtain ⟨c1, c2, c3, ⟨m, f, c4, c5, _⟩, hal⟩ := hal (by omega)
  rw [ez] at c3 c4
  cases c4
  have hz := leafBits_unique henv .integerRange w16 c5
  rcases slots with _ | ⟨s4, slots⟩
  · have hin := hin.2.2.2
    simp only [List.mem_cons, List.not_mem_nil, or_false] at hs
    rcases hs with rfl | rfl | rfl
    · rw [hp] at a3
      exact absurd a3 (by decide +kernel)
    · omega
    · rw [hp] at c3
      exact absurd c3 (by decide +kernel)
  · exact (hal (by omega)).elim

end Apg
