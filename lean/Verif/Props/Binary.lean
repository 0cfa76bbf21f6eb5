import Verif.Lemmas.Binary
import Verif.Props.Header

/-!
# Properties C30 to C34: the binary files of generate-binary
-/

namespace Apg
open Spec

/-- Each binary file a run writes, also a run that fails later, is the file of a sequence and
consists of the blocks of one of its clauses. -/
def BinFiles (fuel : Nat) (e : Option Endian) (raw : List Module) (cfg : List String) (out : Text)
    (P : List Def → Member × Leaf → List UInt8 → Prop) : Prop :=
  ∀ w ∈ (runBinary fuel e raw cfg out).writes, IsBin w.1 →
    ∃ b, buildFromConfig raw cfg = .ok b ∧ ∃ d ∈ b.defs, ∃ x ∈ fixedMembers d, ∃ bytes,
      w.1 = binPath out d ∧ w.2 = bytes.map .inr ∧ Blocks b.defs x (P b.defs) bytes

theorem binFiles_of {fuel : Nat} {e : Option Endian} {raw : List Module} {cfg : List String} {out : Text}
    (hg : ∀ m ∈ raw, GrammarModule m) {P : List Def → Member × Leaf → List UInt8 → Prop}
    (h : ∀ b, buildFromTexts raw = .ok b → ∀ f blk, GrammarType f.1.type →
      Packed b.defs fuel e f blk → P b.defs f blk) : BinFiles fuel e raw cfg out P := by
  intro w hw hbin
  obtain ⟨b, hb, d, hd, x, blocks, h1, h2, ⟨fixed, h3, h4⟩, h5⟩ := bin_written hg hw hbin
  have hbt := buildFromTexts_of_config hb
  refine ⟨b, hb, d, hd, x, List.mem_of_getLast? h1, blocks.flatten, h2, h5, fixed, blocks, h3, ?_, rfl⟩
  have hgm := fixes_grammar (fun d hd => (accepted_grammar hg hbt d hd).1) h3
  exact h4.imp_mem fun f hf blk hp => h b hbt f blk (hgm f hf).2.1 hp

/-! ### C30 -/

/-- Full statement of C30. -/
def C30_full : Prop :=
  ∀ fuel e raw cfg out, (∀ m ∈ raw, GrammarModule m) → BinFiles fuel e raw cfg out HasWidth

/-- **C30, partial.** Each binary file is the concatenation of one block per fixed value, in the
order of the clause; the block of a member of an elementary type, named or not, has the width
of that type. Missing: members that are arrays, and members whose type is a sequence or
enumeration with one of the standard names. -/
theorem C30_blocks_partial (fuel : Nat) (e : Option Endian) (raw : List Module) (cfg : List String)
    (out : Text) (hg : ∀ m ∈ raw, GrammarModule m) :
    BinFiles fuel e raw cfg out fun ds f blk => (∃ t, Elementary ds f.1.type t) → HasWidth ds f blk := by
  apply binFiles_of hg
  rintro b hbt f blk hm hp ⟨t, ht⟩ w hw
  have h1 := packed_width hg hbt hm hp ht
  have h2 := size_elementary (accepted_nodup hbt) ht hw
  obtain ⟨_, ct, bits, k1, _, k3, _⟩ := hp
  have hgt := (elementary_size (accepted_nodup hbt) (accepted_simple_grammar hg hbt) hm ht k3).1
  have hna : ∀ e len, t ≠ .arr e len := by
    intro e len he
    subst he
    generalize f.1.type = mt at ht
    cases ht
  exact leafSize_unique hgt hna h1 h2

/-- A module with an array of numbers that is fixed to one value. -/
def exArrayModule : Module :=
  { name := "m", defs := [
      .simple "Uint16-t" none (.plain "INTEGER" (some (.int 0)) (some (.int 65535))),
      .seq "Body" none [⟨"a", .arr (.plain "Uint16-t" none none) 4, none, none⟩],
      .seq "Pkt" none [⟨"body", .plain "Body" none none, none, some (.leaf "a" (.int 5) .nil)⟩]] }

def exArray : List Module := [exArrayModule]

/-- It fails: an array of four 16 bit numbers fixed to a value becomes four bytes. -/
theorem C30_full_false : ¬ C30_full := by
  intro hf
  have hg : ∀ m ∈ exArray, GrammarModule m := grammarB_sound (by decide +kernel)
  obtain ⟨b, hb, d, hd, x, hx, bytes, h1, h2, fixed, blocks, h3, h4, h5⟩ :=
    hf 20 (some .big) exArray ["m"] exOut hg ("gen/pkt.bin".toList, byteContent [[0, 0, 0, 5]])
      (List.mem_of_getElem? (i := 1) (by decide +kernel)) ⟨"gen/pkt".toList, by decide +kernel⟩
  have hbe : b = okBundle (buildFromConfig exArray ["m"]) := by rw [hb]; rfl
  have hds : b.defs = exArrayModule.defs := by rw [hbe]; decide +kernel
  rw [hds] at hd h3 h4
  have hlen : bytes.length = 4 := by
    have := congrArg List.length h2
    simp [byteContent] at this
    omega
  have hxx : x = (⟨"body", .plain "Body" none none, none, some (.leaf "a" (.int 5) .nil)⟩,
      .leaf "a" (.int 5) .nil) := by
    simp only [exArrayModule, List.mem_cons, List.not_mem_nil, or_false] at hd
    rcases hd with rfl | rfl | rfl
    · cases hx
    · cases hx
    · simpa [fixedMembers] using hx
  subst hxx
  generalize hc : (Comps.leaf "a" (.int 5) .nil) = c at h3
  cases h3 with
  | nil => cases hc
  | node _ _ _ _ _ => cases hc
  | leaf k1 k2 k3 =>
    rename_i ms m v rest l
    simp only [Comps.leaf.injEq] at hc
    obtain ⟨_, _, rfl⟩ := hc
    cases k3
    cases h4 with
    | cons h6 h7 =>
      cases h7
      rename_i blk
      simp only [List.flatten_cons, List.flatten_nil, List.append_nil] at h5
      subst h5
      obtain ⟨c, hcm⟩ := k1
      have hms : ms = [⟨"a", .arr (.plain "Uint16-t" none none) 4, none, none⟩] := by
        simp only [exArrayModule, List.mem_cons, List.not_mem_nil, or_false, Def.seq.injEq,
          reduceCtorEq, false_or] at hcm
        rcases hcm with ⟨_, _, h⟩ | ⟨h, _⟩
        · exact h
        · exact absurd h (by decide)
      subst hms
      simp only [List.mem_singleton] at k2
      subst k2
      have hsz : Size exArrayModule.defs
          (.members [⟨"a", .arr (.plain "Uint16-t" none none) 4, none, none⟩]) (4 * (16 + 0) + 0) := by
        refine .array rfl (.named (d := .simple "Uint16-t" none (.plain "INTEGER" (some (.int 0)) (some (.int 65535))))
          rfl (List.Mem.head _) (.simple ?_) .nil) .nil
        exact (leafSize_int 0 65535 16).1 (by decide +kernel)
      have := h6 _ hsz
      omega

/-! ### C31 -/

/-- **C31.** Read with the INTEGER type of its member, signed or not, and the byte order of the
run, each block gives back the fixed value. -/
theorem C31_integers (fuel : Nat) (en : Endian) (raw : List Module) (cfg : List String) (out : Text)
    (hg : ∀ m ∈ raw, GrammarModule m) :
    BinFiles fuel (some en) raw cfg out fun ds f blk => ReadsAs ds en f blk := by
  apply binFiles_of hg
  intro b hbt f blk hm hp lo hi ht
  obtain ⟨i, h1, h2, _⟩ := packed_int hg hbt hm hp ht
  rw [h1, h2]

theorem readInts_blocks {ds : List Def} {en : Endian} {fixed : List (Member × Leaf)}
    {blocks : List (List UInt8)}
    (h : All2 (fun f blk => ReadsAs ds en f blk ∧
      ∀ t, Elementary ds f.1.type t → LeafSize t (8 * blk.length) ∧ GrammarType t) fixed blocks)
    {sig : List (Bool × Nat)} (hs : All2 (fun f s => IntField ds f.1 s.1 s.2) fixed sig) :
    ∃ vals, readInts en sig blocks.flatten = some vals ∧
      All2 (fun f i => leafNum f.2 = .int i) fixed vals := by
  induction h generalizing sig with
  | nil => cases hs; exact ⟨[], rfl, .nil⟩
  | cons h1 h2 ih =>
    rename_i f blk fixed blocks
    cases hs with
    | cons h3 h4 =>
      rename_i s sig
      obtain ⟨vals, h5, h6⟩ := ih h4
      obtain ⟨lo, hi, k1, k2, k3⟩ := h3
      obtain ⟨signed, len⟩ := s
      obtain ⟨k4, k5⟩ := h1.2 _ k1
      have hlen : len = blk.length := by
        have := leafSize_unique k5 (by simp) k2 k4
        omega
      have hv := h1.1 lo hi k1
      refine ⟨_ :: vals, ?_, .cons hv h6⟩
      simp only [readInts, List.flatten_cons, hlen, List.length_append, List.drop_left, List.take_left]
      rw [if_neg (by omega), h5]
      simp only [Option.map_some, Option.some.injEq, List.cons.injEq, and_true]
      by_cases hneg : lo < 0
      · rw [if_pos (k3.2 hneg), if_pos hneg]
      · rw [if_neg (fun h => hneg (k3.1 h)), if_neg hneg]

/-- **C31.** If all fixed members are INTEGERs, reading the file field by field gives back all
fixed values in order and uses up the file. -/
theorem C31_read_back (fuel : Nat) (en : Endian) (raw : List Module) (cfg : List String) (out : Text)
    (hg : ∀ m ∈ raw, GrammarModule m) (w : Text × Content)
    (hw : w ∈ (runBinary fuel (some en) raw cfg out).writes) (hbin : IsBin w.1) :
    ∃ b, buildFromConfig raw cfg = .ok b ∧ ∃ d ∈ b.defs, ∃ x ∈ fixedMembers d, ∃ bytes fixed,
      w.1 = binPath out d ∧ w.2 = bytes.map .inr ∧ Fixes b.defs x.1.type.name x.2 fixed ∧
      ∀ sig, All2 (fun f s => IntField b.defs f.1 s.1 s.2) fixed sig →
        ∃ vals, readInts en sig bytes = some vals ∧ All2 (fun f i => leafNum f.2 = .int i) fixed vals := by
  have h : BinFiles fuel (some en) raw cfg out fun ds f blk => ReadsAs ds en f blk ∧
      ∀ t, Elementary ds f.1.type t → LeafSize t (8 * blk.length) ∧ GrammarType t := by
    apply binFiles_of hg
    intro b hbt f blk hm hp
    constructor
    · intro lo hi ht
      obtain ⟨i, h1, h2, _⟩ := packed_int hg hbt hm hp ht
      rw [h1, h2]
    · intro t ht
      refine ⟨packed_width hg hbt hm hp ht, ?_⟩
      obtain ⟨_, ct, bits, k1, _, k3, _⟩ := hp
      exact (elementary_size (accepted_nodup hbt) (accepted_simple_grammar hg hbt) hm ht k3).1
  obtain ⟨b, hb, d, hd, x, hx, bytes, h1, h2, fixed, blocks, h3, h4, rfl⟩ := h w hw hbin
  exact ⟨b, hb, d, hd, x, hx, _, fixed, h1, h2, h3, fun sig hs => readInts_blocks h4 hs⟩

/-- **C31 (reals).** The block of a REAL, Float or Double member is the IEEE 754 number nearest
to the fixed value, single or double by its length; integers of up to 24 or 53 bits are exact. -/
theorem C31_reals (fuel : Nat) (en : Endian) (raw : List Module) (cfg : List String) (out : Text)
    (hg : ∀ m ∈ raw, GrammarModule m) :
    BinFiles fuel (some en) raw cfg out fun ds f blk =>
      ∀ x y, (f.1.type.name = "REAL" ∨ f.1.type.name = "Float" ∨ f.1.type.name = "Double") →
        Elementary ds f.1.type (.plain "REAL" (some x) (some y)) →
        (blk.length = 4 ∧ RealBlock 8 23 en f.2 blk) ∨ (blk.length = 8 ∧ RealBlock 11 52 en f.2 blk) := by
  apply binFiles_of hg
  intro b hbt f blk hm hp x y hn ht
  exact packed_real hg hbt hm hp hn ht

/-- A module with signed, unsigned and real members and a nested clause. -/
def exBinModule : Module :=
  { name := "m", defs := [
      .simple "Uint16-t" none (.plain "INTEGER" (some (.int 0)) (some (.int 65535))),
      .seq "Id" none [⟨"a", .plain "Uint16-t" none none, none, none⟩,
        ⟨"r", .plain "REAL" (some (.flt (-1))) (some (.flt 1)), none, none⟩],
      .seq "Head" none [⟨"id", .plain "Id" none none, none, none⟩,
        ⟨"s", .plain "INTEGER" (some (.int (-5))) (some (.int 5)), none, none⟩],
      .seq "Pkt" none [⟨"head", .plain "Head" none none, none,
        some (.node "id" (.leaf "a" (.int 258) (.leaf "r" (.flt (.flt (-1/2))) .nil))
          (.leaf "s" (.int (-2)) .nil))⟩]] }

def exBin : List Module := [exBinModule]

/-- Bytes of a file, empty if there is none. -/
def fileBytes (fs : Files) (path : Text) : List UInt8 :=
  match fs path with
  | none => []
  | some c => c.filterMap fun x => x.getRight?

theorem fileBytes_eq {fs : Files} {path : Text} {bs : List UInt8} (h : HasBytes fs path bs) :
    fileBytes fs path = bs := by
  unfold fileBytes
  unfold HasBytes at h
  rw [h]
  simp only [List.filterMap_map]
  clear h
  induction bs with
  | nil => rfl
  | cons c t ih =>
    rw [List.filterMap_cons_some (f := (fun x : Char ⊕ UInt8 => x.getRight?) ∘ Sum.inr) (b := c) rfl, ih]

example : (∀ m ∈ exBin, GrammarModule m) ∧
    (runBinary 20 (some .big) exBin ["m"] exOut).result = .ok () ∧
    fileBytes ((runBinary 20 (some .big) exBin ["m"] exOut).apply fun _ => none) "gen/pkt.bin".toList =
      [1, 2, 0xbf, 0, 0, 0, 0xfe] ∧
    fileBytes ((runBinary 20 (some .little) exBin ["m"] exOut).apply fun _ => none) "gen/pkt.bin".toList =
      [2, 1, 0, 0, 0, 0xbf, 0xfe] :=
  ⟨grammarB_sound (by decide +kernel), by decide +kernel, by decide +kernel, by decide +kernel⟩

example : readInts .big [(false, 2), (true, 1)] [1, 2, 0xfe] = some [258, -2] := by decide +kernel
example : ieee 8 23 0xbf000000 = some (-1/2) := by decide +kernel

/-! ### C32 -/

/-- **C32.** The runs for the two byte orders end alike and write the same files; text files are
equal, a binary file has the same blocks, each with its bytes reversed. The blocks are those
of C30, one per fixed value and of the width of its type. -/
theorem C32_byte_order (fuel : Nat) (raw : List Module) (cfg : List String) (out : Text)
    (hg : ∀ m ∈ raw, GrammarModule m) :
    (runBinary fuel (some .big) raw cfg out).result = (runBinary fuel (some .little) raw cfg out).result ∧
    All2 (fun w w' => w.1 = w'.1 ∧ ((¬ IsBin w.1 ∧ w.2 = w'.2) ∨
      ∃ b, buildFromConfig raw cfg = .ok b ∧ ∃ d ∈ b.defs, ∃ x ∈ fixedMembers d, ∃ fixed blocks,
        w.1 = binPath out d ∧ Fixes b.defs x.1.type.name x.2 fixed ∧
        All2 (fun f blk => ∀ t, Elementary b.defs f.1.type t → LeafSize t (8 * blk.length)) fixed blocks ∧
        w.2 = blocks.flatten.map .inr ∧ w'.2 = (blocks.map List.reverse).flatten.map .inr))
      (runBinary fuel (some .big) raw cfg out).writes (runBinary fuel (some .little) raw cfg out).writes := by
  obtain ⟨h1, h2⟩ := run_flip fuel hg cfg out
  refine ⟨h1, ?_⟩
  rcases h2 with ⟨_, _, h2, h3⟩ | ⟨b, hb, h2⟩
  · rw [h2, h3]; exact .nil
  · have hbt := buildFromTexts_of_config hb
    refine h2.imp ?_
    rintro w w' ⟨h3, h4⟩
    refine ⟨h3, ?_⟩
    rcases h4 with h4 | ⟨d, hd, x, blocks, k1, k2, ⟨fixed, k3, k4⟩, k5, k6⟩
    · exact Or.inl h4
    · refine Or.inr ⟨b, hb, d, hd, x, List.mem_of_getLast? k1, fixed, blocks, k2, k3, ?_, k5, k6⟩
      have hgm := fixes_grammar (fun d hd => (accepted_grammar hg hbt d hd).1) k3
      exact k4.imp_mem fun f hf blk hp t ht => packed_width hg hbt (hgm f hf).2.1 hp ht

/-! ### C33 -/

/-- Full statement of C33. -/
def C33_full : Prop :=
  ∀ fuel e raw cfg out b, (∀ m ∈ raw, GrammarModule m) → buildFromConfig raw cfg = .ok b →
    (runBinary fuel e raw cfg out).result = .ok () → ∀ d ∈ b.defs, ∀ x ∈ fixedMembers d,
      ∃ fixed, Fixes b.defs x.1.type.name x.2 fixed ∧ ∀ f ∈ fixed, ∀ lo hi,
        Elementary b.defs f.1.type (.plain "INTEGER" (some (.int lo)) (some (.int hi))) →
        ∃ i, leafNum f.2 = .int i ∧ InRange lo hi i

/-- **C33, partial.** After a successful run each value fixed for an INTEGER member is an
integer that fits the width of the type, and lies in the range if the range is the whole range
of that width, as for the standard names. Missing: ranges smaller than their width. -/
theorem C33_fits_partial (fuel : Nat) (e : Option Endian) (raw : List Module) (cfg : List String)
    (out : Text) (b : Bundle) (hg : ∀ m ∈ raw, GrammarModule m) (hb : buildFromConfig raw cfg = .ok b)
    (hr : (runBinary fuel e raw cfg out).result = .ok ()) (d : Def) (hd : d ∈ b.defs)
    (x : Member × Comps) (hx : x ∈ fixedMembers d) :
    ∃ fixed, Fixes b.defs x.1.type.name x.2 fixed ∧ ∀ f ∈ fixed, ∀ lo hi,
      Elementary b.defs f.1.type (.plain "INTEGER" (some (.int lo)) (some (.int hi))) →
      ∃ i, leafNum f.2 = .int i ∧
        (∃ w : Nat, LeafSize (.plain "INTEGER" (some (.int lo)) (some (.int hi))) w ∧
          if lo < 0 then FitsSigned w i else FitsUnsigned w i) ∧
        ∀ n w, StandardInt n lo hi w → InRange lo hi i := by
  have hbt := buildFromTexts_of_config hb
  obtain ⟨blocks, fixed, h1, h2⟩ := clause_packed hb hr hd hx
  refine ⟨fixed, h1, ?_⟩
  intro f hf lo hi ht
  have hm := (fixes_grammar (fun d hd => (accepted_grammar hg hbt d hd).1) h1 f hf).2.1
  obtain ⟨blk, _, hp⟩ := all2_mem_left h2 hf
  cases e with
  | none =>
    obtain ⟨_, _, _, _, _, _, _, h⟩ := hp
    cases h
  | some en =>
    obtain ⟨i, h3, _, h4⟩ := packed_int hg hbt hm hp ht
    have h5 := packed_width hg hbt hm hp ht
    refine ⟨i, h3, ⟨8 * blk.length, by exact_mod_cast h5, h4⟩, ?_⟩
    intro n w hs
    have h6 : LeafSize (.plain "INTEGER" (some (.int lo)) (some (.int hi))) w :=
      (leafSize_int lo hi w).1 (size_standard hs)
    have h7 := leafSize_unique (.integerRange) (by simp) h5 h6
    have h8 : 8 * blk.length = w := by omega
    rw [h8] at h4
    cases hs <;> simp [FitsSigned, FitsUnsigned] at h4 <;> unfold InRange <;> omega

/-- A module with a value outside its range. -/
def exRangeModule : Module :=
  { name := "m", defs := [
      .seq "Body" none [⟨"a", .plain "INTEGER" (some (.int 0)) (some (.int 200)), none, none⟩],
      .seq "Pkt" none [⟨"body", .plain "Body" none none, none, some (.leaf "a" (.int 255) .nil)⟩]] }

def exRange : List Module := [exRangeModule]

/-- It fails: 255 is written for an INTEGER (0..200). -/
theorem C33_full_false : ¬ C33_full := by
  intro hf
  have hb := okBundle_eq (x := buildFromConfig exRange ["m"]) (by decide +kernel)
  have hds : (okBundle (buildFromConfig exRange ["m"])).defs = exRangeModule.defs := by decide +kernel
  obtain ⟨fixed, h1, h2⟩ := hf 20 (some .big) exRange ["m"] exOut _ (grammarB_sound (by decide +kernel))
    hb (by decide +kernel)
    (.seq "Pkt" none [⟨"body", .plain "Body" none none, none, some (.leaf "a" (.int 255) .nil)⟩])
    (by rw [hds]; exact List.Mem.tail _ (List.Mem.head _)) _ (List.Mem.head _)
  rw [hds] at h1 h2
  generalize hc : (Comps.leaf "a" (.int 255) .nil) = c at h1
  cases h1 with
  | nil => cases hc
  | node _ _ _ _ _ => cases hc
  | leaf k1 k2 k3 =>
    rename_i ms m v rest l
    simp only [Comps.leaf.injEq] at hc
    obtain ⟨_, rfl, rfl⟩ := hc
    cases k3
    obtain ⟨c, hcm⟩ := k1
    have hms : ms = [⟨"a", .plain "INTEGER" (some (.int 0)) (some (.int 200)), none, none⟩] := by
      simp only [exRangeModule, List.mem_cons, List.not_mem_nil, or_false, Def.seq.injEq] at hcm
      rcases hcm with ⟨_, _, h⟩ | ⟨h, _⟩
      · exact h
      · exact absurd h (by decide)
    subst hms
    simp only [List.mem_singleton] at k2
    subst k2
    obtain ⟨i, h3, h4⟩ := h2 _ (List.Mem.head _) 0 200 (.direct (by decide))
    simp only [leafNum, Num.int.injEq] at h3
    subst h3
    have := h4.2
    omega

example : buildFromConfig exPackets ["geo", "base"] = .ok (okBundle (buildFromConfig exPackets ["geo", "base"])) ∧
    (runBinary 20 (some .little) exPackets ["geo", "base"] exOut).result = .ok () ∧
    (okBundle (buildFromConfig exPackets ["geo", "base"])).defs.flatMap fixedMembers ≠ [] :=
  ⟨okBundle_eq (by decide +kernel), by decide +kernel, by decide +kernel⟩

/-! ### C34 -/

/-- Full statement of C34. -/
def C34_full : Prop :=
  ∀ fuel en raw cfg out b fs, (∀ m ∈ raw, GrammarModule m) → buildFromConfig raw cfg = .ok b →
    (runBinary fuel (some en) raw cfg out).result = .ok () → ∀ d ∈ b.defs, fixedMembers d ≠ [] →
      ∃ bytes, HasBytes ((runBinary fuel (some en) raw cfg out).apply fs) (binPath out d) bytes ∧
        ∀ x ∈ fixedMembers d, ∃ before part after, bytes = before ++ part ++ after ∧
          Blocks b.defs x (ReadsAs b.defs en) part

/-- What the file of a sequence with clauses holds after a successful run: the values of its
last clause. -/
theorem C34_last_clause (fuel : Nat) (en : Endian) (raw : List Module) (cfg : List String)
    (out : Text) (b : Bundle) (fs : Files) (hg : ∀ m ∈ raw, GrammarModule m)
    (hb : buildFromConfig raw cfg = .ok b) (hr : (runBinary fuel (some en) raw cfg out).result = .ok ())
    (d : Def) (hd : d ∈ b.defs) (x : Member × Comps) (hx : (fixedMembers d).getLast? = some x) :
    ∃ bytes, HasBytes ((runBinary fuel (some en) raw cfg out).apply fs) (binPath out d) bytes ∧
      Blocks b.defs x (fun f blk => ReadsAs b.defs en f blk ∧
        ∀ t, Elementary b.defs f.1.type t → LeafSize t (8 * blk.length)) bytes := by
  have hbt := buildFromTexts_of_config hb
  obtain ⟨x', blocks, h1, ⟨fixed, h2, h3⟩, h4⟩ := bin_exists hg hb hr hd
    (by intro h; rw [h] at hx; cases hx) fs
  rw [hx] at h1
  cases h1
  refine ⟨_, h4, fixed, blocks, h2, ?_, rfl⟩
  have hgm := fixes_grammar (fun d hd => (accepted_grammar hg hbt d hd).1) h2
  refine h3.imp_mem fun f hf blk hp => ⟨?_, fun t ht => packed_width hg hbt (hgm f hf).2.1 hp ht⟩
  intro lo hi ht
  obtain ⟨i, k1, k2, _⟩ := packed_int hg hbt (hgm f hf).2.1 hp ht
  rw [k1, k2]

/-- **C34, partial.** After a successful run each sequence with exactly one clause has a binary
file with all its fixed values. Missing: sequences with several clauses, of which only the
last is kept. -/
theorem C34_own_file_partial (fuel : Nat) (en : Endian) (raw : List Module) (cfg : List String)
    (out : Text) (b : Bundle) (fs : Files) (hg : ∀ m ∈ raw, GrammarModule m)
    (hb : buildFromConfig raw cfg = .ok b) (hr : (runBinary fuel (some en) raw cfg out).result = .ok ())
    (d : Def) (hd : d ∈ b.defs) (x : Member × Comps) (hx : fixedMembers d = [x]) :
    ∃ bytes, HasBytes ((runBinary fuel (some en) raw cfg out).apply fs) (binPath out d) bytes ∧
      Blocks b.defs x (fun f blk => ReadsAs b.defs en f blk ∧
        ∀ t, Elementary b.defs f.1.type t → LeafSize t (8 * blk.length)) bytes :=
  C34_last_clause fuel en raw cfg out b fs hg hb hr d hd x (by rw [hx]; rfl)

/-- **C34 (own).** Different sequences have different binary files. -/
theorem C34_own_path (raw : List Module) (cfg : List String) (out : Text) (b : Bundle)
    (hg : ∀ m ∈ raw, GrammarModule m) (hb : buildFromConfig raw cfg = .ok b) (d d' : Def)
    (hd : d ∈ b.defs) (hd' : d' ∈ b.defs) (h : binPath out d = binPath out d') : d = d' := by
  have hbt := buildFromTexts_of_config hb
  have hc := def_capital (accepted_grammar hg hbt d hd).1
  have hc' := def_capital (accepted_grammar hg hbt d' hd').1
  unfold binPath at h
  have h1 := List.append_cancel_right (inDir_inj h)
  rw [← lowerize_eq, ← lowerize_eq] at h1
  exact mem_unique_of_nodup_map (accepted_nodup hbt) hd hd' (lowerize_ident_inj hc hc' h1)

/-- A module with two clauses in one sequence. -/
def exTwoModule : Module :=
  { name := "m", defs := [
      .seq "Body" none [⟨"a", .plain "INTEGER" (some (.int 0)) (some (.int 255)), none, none⟩],
      .seq "Pkt" none [⟨"x", .plain "Body" none none, none, some (.leaf "a" (.int 1) .nil)⟩,
        ⟨"y", .plain "Body" none none, none, some (.leaf "a" (.int 2) .nil)⟩]] }

def exTwo : List Module := [exTwoModule]

/-- It fails: the second clause of a sequence replaces the file of the first. -/
theorem C34_full_false : ¬ C34_full := by
  intro hf
  have hb := okBundle_eq (x := buildFromConfig exTwo ["m"]) (by decide +kernel)
  have hds : (okBundle (buildFromConfig exTwo ["m"])).defs = exTwoModule.defs := by decide +kernel
  obtain ⟨bytes, h0, h1⟩ := hf 20 .big exTwo ["m"] exOut _ (fun _ => none)
    (grammarB_sound (by decide +kernel)) hb (by decide +kernel)
    (.seq "Pkt" none [⟨"x", .plain "Body" none none, none, some (.leaf "a" (.int 1) .nil)⟩,
        ⟨"y", .plain "Body" none none, none, some (.leaf "a" (.int 2) .nil)⟩])
    (by rw [hds]; exact List.Mem.tail _ (List.Mem.head _)) (by simp [fixedMembers])
  have hbytes := fileBytes_eq h0
  obtain ⟨pre, part, post, h2, fixed, blocks, h3, h4, h5⟩ := h1 _ (List.Mem.head _)
  have : bytes = [2] := by rw [← hbytes]; decide +kernel
  subst this
  clear hbytes h0 h1
  rw [hds] at h3 h4
  generalize hc : (Comps.leaf "a" (.int 1) .nil) = c at h3
  cases h3 with
  | nil => cases hc
  | node _ _ _ _ _ => cases hc
  | leaf k1 k2 k3 =>
    rename_i ms m v rest l
    simp only [Comps.leaf.injEq] at hc
    obtain ⟨_, rfl, rfl⟩ := hc
    cases k3
    cases h4 with
    | cons h6 h7 =>
      cases h7
      rename_i blk
      simp only [List.flatten_cons, List.flatten_nil, List.append_nil] at h5
      subst h5
      obtain ⟨c, hcm⟩ := k1
      have hms : ms = [⟨"a", .plain "INTEGER" (some (.int 0)) (some (.int 255)), none, none⟩] := by
        simp only [exTwoModule, List.mem_cons, List.not_mem_nil, or_false, Def.seq.injEq] at hcm
        rcases hcm with ⟨_, _, h⟩ | ⟨h, _⟩
        · exact h
        · exact absurd h (by decide)
      subst hms
      simp only [List.mem_singleton] at k2
      subst k2
      have h8 := h6 0 255 (.direct (by decide))
      simp only [leafNum, Num.int.injEq] at h8
      cases part with
      | nil => revert h8; decide
      | cons z zs =>
        cases pre with
        | nil =>
          simp only [List.nil_append, List.cons_append, List.cons.injEq] at h2
          obtain ⟨rfl, h2⟩ := h2
          have : zs = [] := by
            have := congrArg List.length h2
            simp at this
            exact List.length_eq_zero_iff.1 (by omega)
          subst this
          revert h8; decide
        | cons q qs =>
          have := congrArg List.length h2
          simp at this

end Apg
