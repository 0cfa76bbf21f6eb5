import Verif.Props.Success
import Verif.Props.Agreement

/-!
# Property C33: for which ranges fixed values are kept in range
-/

namespace Apg

open Spec

/-- In every successful run of generate-binary, the values fixed for members with the range
`lo .. hi` lie in the range. -/
def KeptInRange (lo hi : Int) : Prop :=
  ∀ fuel e raw cfg out b, (∀ m ∈ raw, GrammarModule m) → buildFromConfig raw cfg = .ok b →
    (runBinary fuel e raw cfg out).result = .ok () → ∀ d ∈ b.defs, ∀ x ∈ fixedMembers d,
      ∃ fixed, Fixes b.defs x.1.type.name x.2 fixed ∧ ∀ f ∈ fixed,
        Elementary b.defs f.1.type (intType lo hi) → ∃ i, leafNum f.2 = .int i ∧ InRange lo hi i

/-- One sequence with a member of the range, and one that fixes it. -/
def rangeModule (lo hi v : Int) : Module :=
  { name := "m", defs := [
      .seq "Body" none [⟨"a", intType lo hi, none, none⟩],
      .seq "Pkt" none [⟨"body", .plain "Body" none none, none, some (.leaf "a" (.int v) .nil)⟩]] }

theorem rangeModule_defs (lo hi v : Int) : defsOf [rangeModule lo hi v] = [
    .seq "Body" none [⟨"a", intType lo hi, none, none⟩],
    .seq "Pkt" none [⟨"body", .plain "Body" none none, none, some (.leaf "a" (.int v) .nil)⟩]] := rfl

theorem rangeModule_body (lo hi v : Int) :
    IsSequence (defsOf [rangeModule lo hi v]) "Body" [⟨"a", intType lo hi, none, none⟩] :=
  ⟨none, List.Mem.head _⟩

theorem rangeModule_grammar (lo hi v : Int) : ∀ m ∈ [rangeModule lo hi v], GrammarModule m := by
  intro m hm
  simp only [List.mem_cons, List.not_mem_nil, or_false] at hm
  subst hm
  refine ⟨by dsimp only [rangeModule]; decide +kernel, by simp [rangeModule], ?_, fun i hi => nomatch hi⟩
  intro d hd
  simp only [rangeModule, List.mem_cons, List.not_mem_nil, or_false] at hd
  rcases hd with rfl | rfl
  · refine ⟨by decide +kernel, by simp, fun k hk => ?_⟩
    simp only [List.mem_cons, List.not_mem_nil, or_false] at hk
    subst hk
    exact ⟨by dsimp only; decide +kernel, .integerRange, fun cs h => nomatch h⟩
  · refine ⟨by decide +kernel, by simp, fun k hk => ?_⟩
    simp only [List.mem_cons, List.not_mem_nil, or_false] at hk
    subst hk
    refine ⟨by dsimp only; decide +kernel, .named (by decide +kernel), fun cs h => ?_⟩
    cases h
    exact ⟨by simp, ⟨by decide +kernel, trivial⟩⟩

theorem rangeModule_valid {lo hi : Int} (h : lo ≤ hi) (v : Int) : Valid [rangeModule lo hi v] where
  moduleNames := by simp
  typeNames := by rw [rangeModule_defs]; simp [Def.name]
  comments := by
    intro m hm
    simp only [List.mem_cons, List.not_mem_nil, or_false] at hm
    subst hm
    constructor <;> simp [rangeModule, commentsOf]
  defs := by
    intro d hd
    simp only [rangeModule_defs, List.mem_cons, List.not_mem_nil, or_false] at hd
    rcases hd with rfl | rfl
    · refine ⟨?_, by simp [DistinctKeys, Def.members], fun b e h => absurd h (no_standard (by dsimp only [Def.name]; decide +kernel) _ _),
        fun b e h => absurd h (no_standard (by dsimp only [Def.name]; decide +kernel) _ _)⟩
      intro m hm
      simp only [List.mem_cons, List.not_mem_nil, or_false] at hm
      subst hm
      exact .integerRange h
    · refine ⟨?_, by simp [DistinctKeys, Def.members], fun b e h => absurd h (no_standard (by dsimp only [Def.name]; decide +kernel) _ _),
        fun b e h => absurd h (no_standard (by dsimp only [Def.name]; decide +kernel) _ _)⟩
      intro m hm
      simp only [List.mem_cons, List.not_mem_nil, or_false] at hm
      subst hm
      exact .named (by decide +kernel)
  used := by
    intro m hm d hd k hk n hu
    rw [usesName_iff] at hu
    subst hu
    simp only [List.mem_cons, List.not_mem_nil, or_false] at hm
    subst hm
    simp only [rangeModule, List.mem_cons, List.not_mem_nil, or_false] at hd
    rcases hd with rfl | rfl <;> simp only [Def.members, List.mem_cons, List.not_mem_nil, or_false] at hk <;> subst hk
    · exact .inl (by simp [BuiltIn, intType, AType.name])
    · exact .inr (.inl ⟨_, List.mem_cons_self .., by simp [AType.name, Def.name]⟩)
  imports := by
    intro m hm i hi
    simp only [List.mem_cons, List.not_mem_nil, or_false] at hm
    subst hm
    cases hi
  components := by
    intro d hd k hk cs hcs t ht
    rw [usesName_iff] at ht
    simp only [rangeModule_defs, List.mem_cons, List.not_mem_nil, or_false] at hd
    rcases hd with rfl | rfl <;> simp only [Def.members, List.mem_cons, List.not_mem_nil, or_false] at hk <;> subst hk
    · cases hcs
    · cases hcs
      subst ht
      exact .leaf (rangeModule_body lo hi v) (List.mem_cons_self ..) (.nil (rangeModule_body lo hi v))

theorem pow_mono {a b : Nat} (h : a ≤ b) : (2 : Int) ^ a ≤ 2 ^ b := by
  exact_mod_cast Nat.pow_le_pow_right (by decide : 0 < 2) h

theorem pack_sizes {en : Endian} {c : CType} {size : Int} {v : Leaf} {bs : List UInt8} (hc : c = .uint ∨ c = .int)
    (h : structPack (some en) c size v = .ok bs) : size = 1 ∨ size = 2 ∨ size = 4 ∨ size = 8 := by
  obtain ⟨be, h1, _⟩ := readBytes_pack h
  refine Classical.byContradiction fun hn => ?_
  rcases hc with rfl | rfl <;> simp only [packBE, if_neg hn, reduceCtorEq] at h1

theorem packed_bytes {raw : List Module} {b : Bundle} {fuel : Nat} {f : Member × Leaf} {blk : List UInt8}
    (hg : ∀ m ∈ raw, GrammarModule m) (hb : buildFromTexts raw = .ok b) (hm : GrammarType f.1.type) {en : Endian}
    (h : Packed b.defs fuel (some en) f blk) {lo hi : Int} (ht : Elementary b.defs f.1.type (intType lo hi)) :
    8 * blk.length ∈ [8, 16, 32, 64] := by
  obtain ⟨_, ct, bits, h1, _, h3, h4, h5⟩ := h
  have h6 := (elementary_size (accepted_nodup hb) (accepted_simple_grammar hg hb) hm ht h3).2.1
  have hct := elementary_int hg hb hm ht h1 h6
  have h7 := pack_sizes (by rw [hct]; split <;> simp) h5
  have h8 := pack_length h5
  simp only [List.mem_cons, List.not_mem_nil, or_false]
  omega

/-- The number fits the width of the type, as signed or unsigned number. -/
def FitsWidth (lo : Int) (w : Nat) (v : Int) : Prop := if lo < 0 then FitsSigned w v else FitsUnsigned w v

theorem leafSize_cases {lo hi x : Int} (h : LeafSize (intType lo hi) x) : ∃ w : Nat, x = w ∧ lo ≤ hi ∧
    (0 ≤ lo ∧ (∀ v, InRange lo hi v → FitsUnsigned w v) ∧
        (∀ w' : Nat, (∀ v, InRange lo hi v → FitsUnsigned w' v) → w ≤ w') ∨
      lo < 0 ∧ w ∈ [8, 16, 32, 64] ∧ (∀ v, InRange lo hi v → FitsSigned w v) ∧
        (∀ w' ∈ [8, 16, 32, 64], (∀ v, InRange lo hi v → FitsSigned w' v) → w ≤ w')) := by
  generalize ht : intType lo hi = t at h
  cases h <;> simp only [intType, AType.plain.injEq, Option.some.injEq, Num.int.injEq, reduceCtorEq,
    and_false] at ht
  · rename_i w h0 h1 h2 h3
    obtain ⟨-, rfl, rfl⟩ := ht
    exact ⟨w, rfl, h1, .inl ⟨h0, h2, h3⟩⟩
  · rename_i w h0 h1 h2 h3 h4
    obtain ⟨-, rfl, rfl⟩ := ht
    exact ⟨w, rfl, h1, .inr ⟨h0, h2, h3, h4⟩⟩
  all_goals exact absurd ht.1 (by decide)

theorem leafSize_le {lo hi w : Int} (h : LeafSize (intType lo hi) w) : lo ≤ hi := by
  obtain ⟨_, _, h, _⟩ := leafSize_cases h
  exact h

theorem leafSize_bounded {lo hi : Int} {w : Nat} (h : LeafSize (intType lo hi) w) (hw : w ∈ [8, 16, 32, 64]) :
    Bounded (intType lo hi) := by
  obtain ⟨w', he, hle, h⟩ := leafSize_cases h
  obtain rfl : w = w' := by omega
  rcases h with ⟨h0, h2, h3⟩ | ⟨h0, h1, h2, -⟩
  · refine .unsigned h0 hle (Int.not_lt.1 fun hlt => ?_)
    have h4 := h3 0 fun v hv => by unfold InRange at hv; unfold FitsUnsigned; omega
    simp only [List.mem_cons, List.not_mem_nil, or_false] at hw
    omega
  · have h4 := h2 lo ⟨Int.le_refl _, hle⟩
    have h5 := h2 hi ⟨hle, Int.le_refl _⟩
    unfold FitsSigned at h4 h5
    simp only [List.mem_cons, List.not_mem_nil, or_false] at h1
    rcases h1 with rfl | rfl | rfl | rfl <;> exact .signed (by omega) h0 hle (by omega)

theorem rangeModule_generatable {lo hi v : Int} {w : Nat} (h : LeafSize (intType lo hi) w)
    (hw : w ∈ [8, 16, 32, 64]) (hv : FitsWidth lo w v) : GeneratableBinary [rangeModule lo hi v] where
  imports := by
    refine ⟨fun _ => 0, fun a ha b hb hi => ?_⟩
    simp only [List.mem_cons, List.not_mem_nil, or_false] at ha
    subst ha
    obtain ⟨i, hi, _⟩ := hi
    cases hi
  types := by
    intro m hm
    simp only [List.mem_cons, List.not_mem_nil, or_false] at hm
    subst hm
    refine ⟨fun d => if d.name = "Pkt" then 1 else 0, fun d hd n hu => ?_⟩
    obtain ⟨-, k, hk, hu⟩ := hu
    rw [usesName_iff] at hu
    subst hu
    simp only [rangeModule, List.mem_cons, List.not_mem_nil, or_false] at hd
    rcases hd with rfl | rfl <;> simp only [Def.members, List.mem_cons, List.not_mem_nil, or_false] at hk <;> subst hk
    · exact .inl (.inl (by simp [BuiltIn, intType, AType.name]))
    · exact .inr ⟨_, List.mem_cons_self .., rfl, by simp [Def.name]⟩
  fields := by
    intro n c l hl k hk
    refine ⟨fun n' hu hn => ?_, fun n' _ _ c' st h' => ?_⟩
    · rw [usesName_iff] at hu
      subst hu
      simp only [rangeModule_defs, List.mem_cons, List.not_mem_nil, or_false, Def.seq.injEq] at hl
      rcases hl with ⟨-, -, rfl⟩ | ⟨-, -, rfl⟩ <;> simp only [List.mem_cons, List.not_mem_nil, or_false] at hk <;>
        subst hk
      · exact leafSize_bounded h hw
      · simp [AType.name] at hn
    · simp [rangeModule_defs] at h'
  sizes := by
    intro m hm _ n c l hl k hk hc
    simp only [List.mem_cons, List.not_mem_nil, or_false] at hm
    subst hm
    simp only [rangeModule, List.mem_cons, List.not_mem_nil, or_false, Def.seq.injEq] at hl
    rcases hl with ⟨-, -, rfl⟩ | ⟨-, -, rfl⟩ <;> simp only [List.mem_cons, List.not_mem_nil, or_false] at hk <;>
      subst hk
    · refine ⟨w + 0, .own ?_ (.leaf h) .nil⟩
      intro n' _ _ he d hd
      simp only [intType, AType.plain.injEq] at he
      rw [← he.1]
      simp only [rangeModule_defs, List.mem_cons, List.not_mem_nil, or_false] at hd
      rcases hd with rfl | rfl <;> simp [Def.name]
    · cases hc
  clauses := by
    intro m hm n c l hl k hk cs hcs t ht
    rw [usesName_iff] at ht
    simp only [List.mem_cons, List.not_mem_nil, or_false] at hm
    subst hm
    simp only [rangeModule, List.mem_cons, List.not_mem_nil, or_false, Def.seq.injEq] at hl
    rcases hl with ⟨-, -, rfl⟩ | ⟨-, -, rfl⟩ <;> simp only [List.mem_cons, List.not_mem_nil, or_false] at hk <;>
      subst hk
    · cases hcs
    · cases hcs
      subst ht
      refine .leaf (m := ⟨"a", intType lo hi, none, none⟩) ⟨none, List.Mem.head _⟩ ⟨rfl, [], [], rfl, by simp⟩ ?_ .nil
      have hb : Bits (defsOf [rangeModule lo hi v]) [intType lo hi] (w + 0) := by
        refine .own ?_ (.leaf h) .nil
        intro n' _ _ he d hd
        simp only [intType, AType.plain.injEq] at he
        rw [← he.1]
        simp only [rangeModule_defs, List.mem_cons, List.not_mem_nil, or_false] at hd
        rcases hd with rfl | rfl <;> simp [Def.name]
      have hle := leafSize_le h
      unfold FitsWidth at hv
      by_cases h0 : lo < 0
      · rw [if_pos h0] at hv
        exact ⟨.signed, _, .signed h0 hle, hb, .signed (w := w) hw rfl hv⟩
      · rw [if_neg h0] at hv
        exact ⟨.unsigned, _, .unsigned (Int.not_lt.1 h0) hle, hb, .unsigned (w := w) hw rfl hv⟩

/-- The value is written whatever the range says, if it fits the width. -/
theorem rangeModule_written {lo hi v : Int} {w : Nat} (h : LeafSize (intType lo hi) w)
    (hw : w ∈ [8, 16, 32, 64]) (hv : FitsWidth lo w v) (en : Endian) (out : Text) :
    ∃ fuel, (runBinary fuel (some en) [rangeModule lo hi v] ["m"] out).result = .ok () := by
  have hval := rangeModule_valid (leafSize_le h) v
  exact (C57_generate_binary (some en) _ ["m"] out (rangeModule_grammar lo hi v)).1.2
    ⟨valid_acceptable hval, .refl _, rangeModule_generatable h hw hv, fun h => nomatch h⟩

/-- The range is that of all numbers of its width: that of a type of stdint.h. -/
def WholeWidth (lo hi : Int) : Prop :=
  ∃ w : Nat, w ∈ [8, 16, 32, 64] ∧
    (lo = 0 ∧ hi = 2 ^ w - 1 ∨ lo = -(2 ^ (w - 1)) ∧ hi = 2 ^ (w - 1) - 1)

/-- Values with the range are never written: its width is not one, two, four or eight bytes. -/
def NeverWritten (lo hi : Int) : Prop := ∀ w : Nat, w ∈ [8, 16, 32, 64] → ¬ LeafSize (intType lo hi) w

/-- **C33, exact.** The values fixed for a range are kept in range exactly if every number of its
width is in the range, or the width is such that no value can be fixed at all. -/
theorem C33_ranges_iff_partial (lo hi : Int) : KeptInRange lo hi ↔ WholeWidth lo hi ∨ NeverWritten lo hi := by
  constructor
  · intro hk
    refine Classical.byContradiction fun hno => ?_
    simp only [not_or] at hno
    obtain ⟨hno, hw⟩ := hno
    simp only [NeverWritten, Classical.not_forall, Classical.not_not] at hw
    obtain ⟨w, hw, hs⟩ := hw
    obtain ⟨v, hv, hout⟩ : ∃ v, FitsWidth lo w v ∧ ¬ InRange lo hi v := by
      obtain ⟨w', he, hle, h⟩ := leafSize_cases hs
      obtain rfl : w = w' := by omega
      unfold FitsWidth InRange
      rcases h with ⟨h0, h2, -⟩ | ⟨h0, -, h2, -⟩
      · simp only [if_neg (Int.not_lt.2 h0)]
        have h3 := h2 hi ⟨hle, Int.le_refl _⟩
        unfold FitsUnsigned at h3 ⊢
        by_cases h4 : lo = 0
        · refine ⟨2 ^ w - 1, by omega, fun h5 => hno ⟨w, hw, .inl ⟨h4, by omega⟩⟩⟩
        · exact ⟨0, by omega, by omega⟩
      · simp only [if_pos h0]
        have h3 := h2 hi ⟨hle, Int.le_refl _⟩
        have h4 := h2 lo ⟨Int.le_refl _, hle⟩
        unfold FitsSigned at h3 h4 ⊢
        by_cases h5 : lo = -(2 ^ (w - 1))
        · refine ⟨2 ^ (w - 1) - 1, by omega, fun h6 => hno ⟨w, hw, .inr ⟨h5, by omega⟩⟩⟩
        · exact ⟨-(2 ^ (w - 1)), by omega, by omega⟩
    obtain ⟨fuel, hr⟩ := rangeModule_written hs hw hv .big []
    cases hb : buildFromConfig [rangeModule lo hi v] ["m"] with
    | error e => simp [runBinary, runCommand, hb] at hr
    | ok b =>
      have hsub := (accepted_agree (buildFromTexts_of_config hb)).1
      have hsub' := (accepted_agree (buildFromTexts_of_config hb)).2
      have hp := hsub.seqs "Pkt" none _ (List.Mem.tail _ (List.Mem.head _))
      rw [defsOf_eq] at hp
      obtain ⟨fixed, h1, h2⟩ := hk fuel (some .big) _ ["m"] [] b (rangeModule_grammar lo hi v) hb hr _ hp _
        (List.Mem.head _)
      generalize hc : (Comps.leaf "a" (.int v) .nil) = c at h1
      cases h1 with
      | nil => cases hc
      | node _ _ _ _ _ => cases hc
      | leaf k1 k2 k3 =>
        rename_i ms m v' rest l
        simp only [Comps.leaf.injEq] at hc
        obtain ⟨_, rfl, rfl⟩ := hc
        cases k3
        obtain ⟨c, hcm⟩ := k1
        rw [← defsOf_eq] at hcm
        have hcm := hsub'.seqs _ _ _ hcm
        have hms : ms = [⟨"a", intType lo hi, none, none⟩] := by
          simp only [rangeModule_defs, List.mem_cons, List.not_mem_nil, or_false, Def.seq.injEq] at hcm
          rcases hcm with ⟨_, _, h⟩ | ⟨h, _⟩
          · exact h
          · exact absurd h (by decide)
        subst hms
        simp only [List.mem_singleton] at k2
        subst k2
        have hint : ∀ d ∈ b.defs, d.name ≠ "INTEGER" := fun d hd he =>
          capital_notBuiltIn (accepted_capital (rangeModule_grammar lo hi v) (buildFromTexts_of_config hb) d hd)
            (by rw [he]; simp [BuiltIn])
        obtain ⟨i, h3, h4⟩ := h2 _ (List.Mem.head _) (.direct hint)
        simp only [leafNum, Num.int.injEq] at h3
        subst h3
        exact hout h4
  · intro h fuel e raw cfg out b hg hb hr d hd x hx
    have hbt := buildFromTexts_of_config hb
    obtain ⟨blocks, fixed, h1, h2⟩ := clause_packed hb hr hd hx
    refine ⟨fixed, h1, fun f hf ht => ?_⟩
    have hm := (fixes_grammar (fun d hd => (accepted_grammar hg hbt d hd).1) h1 f hf).2.1
    obtain ⟨blk, _, hp⟩ := all2_mem_left h2 hf
    cases e with
    | none =>
      obtain ⟨_, _, _, _, _, _, _, h⟩ := hp
      cases h
    | some en =>
      obtain ⟨i, h3, _, h4⟩ := packed_int hg hbt hm hp ht
      have h5 := packed_width hg hbt hm hp ht
      have h6 := packed_bytes hg hbt hm hp ht
      rcases h with ⟨w, hw, h⟩ | h
      · refine ⟨i, h3, ?_⟩
        obtain ⟨w', he, hle, h7⟩ := leafSize_cases h5
        obtain rfl : 8 * blk.length = w' := by omega
        unfold InRange
        rcases h7 with ⟨h0, -, h8⟩ | ⟨h0, -, -, h8⟩
        · rw [if_neg (Int.not_lt.2 h0)] at h4
          rcases h with ⟨rfl, rfl⟩ | ⟨rfl, rfl⟩
          · have h9 := h8 w fun v hv => by unfold InRange at hv; unfold FitsUnsigned; omega
            unfold FitsUnsigned at h4
            have := pow_mono h9
            omega
          · have : (0 : Int) < 2 ^ (w - 1) := Int.pow_pos (by decide)
            omega
        · rw [if_pos h0] at h4
          rcases h with ⟨rfl, rfl⟩ | ⟨rfl, rfl⟩
          · omega
          · have h9 := h8 w hw fun v hv => by unfold InRange at hv; unfold FitsSigned; omega
            unfold FitsSigned at h4
            have := pow_mono (Nat.sub_le_sub_right h9 1)
            omega
      · exact absurd (by exact_mod_cast h5) (h _ h6)

/-- The range of a byte is kept, that of a percentage cannot be fixed, 0 .. 200 is not kept. -/
example : KeptInRange 0 255 ∧ KeptInRange (-32768) 32767 ∧ KeptInRange 0 100 ∧ ¬ KeptInRange 0 200 ∧ ¬ KeptInRange (-1) 1 := by
  have hn : ∀ lo hi : Int, ∀ w : Nat, w ∈ [8, 16, 32, 64] → LeafSize (intType lo hi) w → ¬ WholeWidth lo hi →
      ¬ KeptInRange lo hi := fun lo hi w hw h hn hk =>
    ((C33_ranges_iff_partial lo hi).1 hk).elim hn fun h' => h' w hw h
  refine ⟨(C33_ranges_iff_partial _ _).2 (.inl ⟨8, by decide, .inl (by decide)⟩),
    (C33_ranges_iff_partial _ _).2 (.inl ⟨16, by decide, .inr (by decide)⟩),
    (C33_ranges_iff_partial _ _).2 (.inr fun w hw h => ?_),
    hn _ _ 8 (by decide) ((leafSize_int 0 200 8).1 (by decide +kernel)) ?_,
    hn _ _ 8 (by decide) ((leafSize_int (-1) 1 8).1 (by decide +kernel)) ?_⟩
  · have := leafSize_unique (.integerRange) (by simp) h ((leafSize_int 0 100 7).1 (by decide +kernel))
    simp only [List.mem_cons, List.not_mem_nil, or_false] at hw
    omega
  all_goals
    rintro ⟨w, hw, h⟩
    simp only [List.mem_cons, List.not_mem_nil, or_false] at hw
    rcases hw with rfl | rfl | rfl | rfl <;> revert h <;> decide

end Apg
