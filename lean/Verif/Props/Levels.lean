import Verif.Spec.Levels
import Verif.Props.Accept
import Verif.Props.Agreement
import Verif.Props.Exact

/-!
# C01, C02, C03, C05 and C06 for whole runs
-/

namespace Apg
open Spec

/-! ### C01 and C02 -/

theorem item_range {p : Printer} {ds : List Def} (hs : Sized ds) {m : Member} {s : Specific} {c : CType}
    {l h : Option Num} {states : List Text} {e : Entry} (hg : GrammarType m.type)
    (hsh : ItemShape ds m.type (some c) l h states) (hm : MadeFrom p m s c l h states e)
    {lo hi : Int} (hr : IntegerRange ds m.type lo hi) : LeafSize (intType lo hi) e.bits := by
  have hgi : GrammarType (intType lo hi) := .integerRange
  have key : (intType lo hi).cType = some c → l = (intType lo hi).lo → h = (intType lo hi).hi →
      LeafSize (intType lo hi) e.bits := by
    rintro h1 rfl rfl
    rw [← leafSize_iff hgi (by rintro e len ⟨⟩)]
    exact cType_plain_size (by rintro e len ⟨⟩) (by rintro e len ⟨⟩) h1 hm.bits
  have hn := builtin_not_def hs.grammar (n := "INTEGER") (by decide)
  generalize hc : some c = c' at hsh
  rcases hr with ht | ⟨n, cm, hu, hd⟩
  · have hname : m.type.name = "INTEGER" := by rw [ht]; rfl
    cases hsh with
    | number => rw [ht] at hc; exact key hc.symm (by rw [ht]) (by rw [ht])
    | bool h => rw [hname] at h; exact absurd h (by decide)
    | str h => rw [ht] at h; cases h
    | simple h1 h2 => exact absurd (h1.symm.trans hname) (hn _ h2)
    | enum h1 h2 => exact absurd (h1.symm.trans hname) (hn _ h2)
  · rw [usesName_iff] at hu
    have hb : ∀ k ∈ ["INTEGER", "REAL", "BOOLEAN", "NULL", "IA5String", "NumericString"], m.type.name ≠ k := by
      intro k hk he
      exact builtin_not_def hs.grammar hk _ hd (hu ▸ he)
    cases hsh with
    | number h =>
      rcases h with h | h
      · exact absurd h (hb _ (by decide))
      · exact absurd h (hb _ (by decide))
    | bool h => exact absurd h (hb _ (by decide))
    | str h =>
      exfalso
      rw [h] at hg hb
      cases hg with
      | ia5 => exact hb "IA5String" (by decide) rfl
      | numeric => exact hb "NumericString" (by decide) rfl
    | simple h1 h2 =>
      have := mem_unique_of_nodup_map hs.nodup h2 hd (by show _ = n; rw [← hu, h1]; rfl)
      cases this
      exact key hc.symm rfl rfl
    | enum h1 h2 =>
      have := mem_unique_of_nodup_map hs.nodup h2 hd (by show _ = n; rw [← hu, h1]; rfl)
      cases this

theorem range_width {lo hi : Int} {bits : Int} (h : LeafSize (intType lo hi) bits) :
    ∃ w : Nat, bits = (w : Int) ∧ (0 ≤ lo → LeastUnsigned w lo hi) ∧ (lo < 0 → LeastSigned w lo hi) := by
  generalize hx : intType lo hi = x at h
  cases h with
  | uint n _ _ h1 h2 =>
    simp only [intType, AType.plain.injEq, Option.some.injEq, Num.int.injEq, true_and] at hx
    obtain ⟨rfl, rfl⟩ := hx
    exact ⟨n, rfl, fun _ => ⟨h1, h2⟩, by omega⟩
  | int n h1 h2 h3 h4 =>
    simp only [intType, AType.plain.injEq, Option.some.injEq, Num.int.injEq, true_and] at hx
    obtain ⟨rfl, rfl⟩ := hx
    exact ⟨n, rfl, by omega, fun _ => ⟨by assumption, by assumption, by assumption⟩⟩
  | _ => simp [intType] at hx

/-- **C01 (COSMOS).** The items of a packet for leaves with a range `lo .. hi` without negative numbers have
the least width that holds the range. -/
theorem C01_cosmos (fuel : Nat) (p : Printer) (raw : List Module) (b : Bundle)
    (module : String) (messages : List String) (target out : Text) (hi : Sources raw b)
    (hp : Faithful p) (ho : OneLine p) (ht : IsTarget target)
    (hr : (runCosmos fuel p raw module messages target out).result = .ok ()) :
    ∃ t, (∀ fs, Adds fs ((runCosmos fuel p raw module messages target out).apply fs)
        (cosmosPath out target) t) ∧
      Describes b module target (LeafWise b.defs fun _ m it => ∀ lo hi, IntegerRange b.defs m.type lo hi → 0 ≤ lo →
        ∃ w : Nat, it.bits = some (w : Int) ∧ LeastUnsigned w lo hi) messages t := by
  have hs := accepted_sized hi
  refine cosmos_describes hi hp ho ht hr fun _ _ _ hl _ h => leafWise_of hl h
    fun path m s c l h states e _ _ hd hsh hm _ lo hi hrg h0 => ?_
  obtain ⟨w, h1, h2, _⟩ := range_width (item_range hs (member_grammar hs.grammar hd).2.1 hsh hm hrg)
  exact ⟨w, congrArg some h1, h2 h0⟩

/-- **C02 (COSMOS).** The items of a packet for leaves with a range `lo .. hi` with negative numbers have the
least standard width that holds the range. -/
theorem C02_cosmos (fuel : Nat) (p : Printer) (raw : List Module) (b : Bundle)
    (module : String) (messages : List String) (target out : Text) (hi : Sources raw b)
    (hp : Faithful p) (ho : OneLine p) (ht : IsTarget target)
    (hr : (runCosmos fuel p raw module messages target out).result = .ok ()) :
    ∃ t, (∀ fs, Adds fs ((runCosmos fuel p raw module messages target out).apply fs)
        (cosmosPath out target) t) ∧
      Describes b module target (LeafWise b.defs fun _ m it => ∀ lo hi, IntegerRange b.defs m.type lo hi → lo < 0 →
        ∃ w : Nat, it.bits = some (w : Int) ∧ LeastSigned w lo hi) messages t := by
  have hs := accepted_sized hi
  refine cosmos_describes hi hp ho ht hr fun _ _ _ hl _ h => leafWise_of hl h
    fun path m s c l h states e _ _ hd hsh hm _ lo hi hrg h0 => ?_
  obtain ⟨w, h1, _, h2⟩ := range_width (item_range hs (member_grammar hs.grammar hd).2.1 hsh hm hrg)
  exact ⟨w, congrArg some h1, h2 h0⟩

/-- The widths of an example, whose ranges are 0..2047 and 0..1. -/
example : ∃ t, newText (runCosmos 20 exPrinter exTlm "tlm" ["Packet"] "SAT".toList exOut)
      (cosmosPath exOut "SAT".toList) = t ∧
    ((readCosmos t).map fun x => x.items.map (·.bits)) = [[some 11, some 1, some 1, some 2, some 32, some 2]] ∧
    LeastUnsigned 11 0 2047 := by
  obtain ⟨t, h1, _⟩ := C01_cosmos 20 exPrinter exTlm _ "tlm" ["Packet"] "SAT".toList exOut
    exTlm_sources exPrinter_faithful exPrinter_oneLine exTlm_target (by decide +kernel)
  refine ⟨t, newText_eq h1, ?_, ?_⟩
  · rw [← newText_eq h1]
    decide +kernel
  · obtain ⟨w, _, h2, h3, h4⟩ := C01_uint_width 0 2047 (by decide) (by decide)
    have : unresolvedSizeBits (intType 0 2047) = .ok 11 := by decide +kernel
    rw [this] at h2
    cases h2
    exact ⟨h3, h4⟩

/-! ### C03 -/

theorem sound_range {t : AType} (h : SoundType t) {b e : Num} (hr : HasRange t b e) : NumLE b e := by
  induction hr with
  | plain =>
    generalize hx : AType.plain _ _ _ = x at h
    cases h with
    | realRange _ h _ =>
      simp only [realType, AType.plain.injEq, Option.some.injEq] at hx
      obtain ⟨_, rfl, rfl⟩ := hx
      exact h
    | integerRange h =>
      simp only [intType, AType.plain.injEq, Option.some.injEq] at hx
      obtain ⟨_, rfl, rfl⟩ := hx
      exact (numLE_int _ _).2 h
    | _ => simp at hx
  | arr _ ih => cases h; exact ih (by assumption)

theorem acceptable_types {d : Def} (h : AcceptableDef d) : ∀ t ∈ typesOf d, SoundType t := by
  cases d with
  | seq => intro t ht; obtain ⟨m, hm, rfl⟩ := List.mem_map.1 ht; exact h m hm
  | choice => intro t ht; obtain ⟨m, hm, rfl⟩ := List.mem_map.1 ht; exact h m hm
  | enum => intro t ht; cases ht
  | simple => intro t ht; cases List.mem_singleton.1 ht; exact h.1

/-- **C03 (whole runs).** If a range from a number to a smaller one is written anywhere, also for the elements of
an array, each command refuses the modules and writes nothing. -/
theorem C03_run_refused (raw : List Module) (hg : ∀ m ∈ raw, GrammarModule m) (d : Def) (hd : d ∈ defsOf raw)
    (t : AType) (ht : t ∈ typesOf d) (b e : Num) (hr : HasRange t b e) (h : ¬ NumLE b e)
    (fuel : Nat) (p : Printer) (args : Args) : ∃ err, runMain fuel p raw args = ⟨[], .error err⟩ := by
  have h1 : ∃ e, buildFromTexts raw = .error e := by
    cases hb : buildFromTexts raw with
    | error e => exact ⟨e, rfl⟩
    | ok b =>
      obtain ⟨ms, h1, _⟩ := buildFromTexts_ok.1 hb
      obtain ⟨m, hm, hdm⟩ := List.mem_flatMap.1 hd
      exact absurd (sound_range (acceptable_types (((processModules_iff hg).1 ⟨ms, h1⟩ m hm).2.1 d hdm) t ht) hr) h
  have h2 : ∀ cfg, ∃ e, buildFromConfig raw cfg = .error e := by
    intro cfg
    cases hb : buildFromConfig raw cfg with
    | error e => exact ⟨e, rfl⟩
    | ok b =>
      rw [buildFromTexts_of_config hb] at h1
      obtain ⟨_, h1⟩ := h1
      cases h1
  cases args with
  | cosmos m ms target out =>
    obtain ⟨e, he⟩ := h1
    exact ⟨e, by simp only [runMain, runCosmos, he]⟩
  | cfs ms out =>
    obtain ⟨e, he⟩ := h2 (nameList ms)
    exact ⟨e, by simp only [runMain, runCfs, runCommand, he]⟩
  | c ms out =>
    obtain ⟨e, he⟩ := h2 (nameList ms)
    exact ⟨e, by simp only [runMain, runC, runCommand, he]⟩
  | binary ms out e' =>
    obtain ⟨e, he⟩ := h2 (nameList ms)
    exact ⟨e, by simp only [runMain, runBinary, runCommand, he]⟩

/-- A module with an inverted range in the elements of an array. -/
def exInverted : List Module :=
  [{ name := "m", defs := [.choice "Pick" none [⟨"a", .arr (.plain "INTEGER" (some (.int 5)) (some (.int 4))) 3, none, none⟩]] }]

example : (∀ m ∈ exInverted, GrammarModule m) ∧ ∃ d ∈ defsOf exInverted, ∃ t ∈ typesOf d,
    HasRange t (.int 5) (.int 4) ∧ ¬ NumLE (.int 5) (.int 4) :=
  ⟨grammarB_sound (by decide +kernel), _, List.Mem.head _, _, List.Mem.head _, .arr .plain, by
    rw [numLE_int]; decide⟩

/-! ### C05 and C06 -/

theorem enumerations_bundle (raw : List Module) (b : Bundle) (h : buildFromTexts raw = .ok b) :
    All2 (fun m m' => m'.name = m.name ∧ All2 (fun d d' => d'.name = d.name ∧
        ∀ n c its, d = .enum n c its → ∃ its', d' = .enum n c its' ∧ its'.map (·.pos) = numbers its.length ∧
          (its'.map label).Perm (its.map label) ∧ (its'.Perm its ↔ ValidPositions its) ∧
          (ValidPositions its ∨ (its.map (·.pos)).sum = 0)) m.defs m'.defs)
      raw b.modules := by
  obtain ⟨ms, h1, h2, h3⟩ := buildFromTexts_ok.1 h
  rw [build_modules h2]
  refine (processModules_ok.1 h1).imp fun m m' hm => ⟨(processModule_name hm).1, ?_⟩
  obtain ⟨_, _, ds, hds, rfl, _⟩ := processModule_ok.1 hm
  refine (processDefs_ok.1 hds).imp fun d d' hp => ⟨(processDef_ok hp).1, ?_⟩
  rintro n c its rfl
  obtain ⟨slots, hs, he⟩ := (processDef_ok hp).2.2.2.2.2.2.2 n c its rfl
  obtain ⟨items', rfl, k1, k2⟩ := C05_numbered its slots hs
  have e : (items'.map some).filterMap id = items' := by simp
  rw [e] at he
  refine ⟨items', he, k1, k2, ⟨fun hp => ?_, fun hv => ?_⟩, (C06_accepted_iff_partial its).1.1 ⟨_, hs⟩⟩
  · exact (C06_accepted_iff_partial its).2.1 ⟨items', hs, hp⟩
  · obtain ⟨i2, q1, q2⟩ := (C06_accepted_iff_partial its).2.2 hv
    rw [hs] at q1
    have : items' = i2 := by
      have := congrArg (List.filterMap id) (Except.ok.inj q1)
      simpa using this
    rw [this]
    exact q2

/-- **C05 (bundles).** The enumerations of an accepted bundle are the enumerations written: each one has
its own items, numbered `0, 1, …`. -/
theorem C05_bundle (raw : List Module) (b : Bundle) (h : buildFromTexts raw = .ok b) :
    All2 (fun m m' => m'.name = m.name ∧ All2 (fun d d' => d'.name = d.name ∧
        ∀ n c its, d = .enum n c its → ∃ its', d' = .enum n c its' ∧ its'.map (·.pos) = numbers its.length ∧
          (its'.map label).Perm (its.map label)) m.defs m'.defs) raw b.modules :=
  (enumerations_bundle raw b h).imp fun _ _ h => ⟨h.1, h.2.imp fun _ _ h => ⟨h.1, fun n c its hd => by
    obtain ⟨its', h1, h2, h3, _⟩ := h.2 n c its hd
    exact ⟨its', h1, h2, h3⟩⟩⟩

/-- **C06 (bundles), partial.** The items of an enumeration of an accepted bundle have the numbers that are written
exactly if those are `0 .. n-1` in some order. Otherwise the numbers written sum to zero. -/
theorem C06_bundle_partial (raw : List Module) (b : Bundle) (h : buildFromTexts raw = .ok b) :
    All2 (fun m m' => m'.name = m.name ∧ All2 (fun d d' => d'.name = d.name ∧
        ∀ n c its, d = .enum n c its → ∃ its', d' = .enum n c its' ∧ (its'.Perm its ↔ ValidPositions its) ∧
          (ValidPositions its ∨ (its.map (·.pos)).sum = 0)) m.defs m'.defs) raw b.modules :=
  (enumerations_bundle raw b h).imp fun _ _ h => ⟨h.1, h.2.imp fun _ _ h => ⟨h.1, fun n c its hd => by
    obtain ⟨its', h1, _, _, h3, h4⟩ := h.2 n c its hd
    exact ⟨its', h1, h3, h4⟩⟩⟩

/-- An enumeration whose items come out in the order of their numbers. -/
example : (buildFromTexts [{ name := "m", defs := [.enum "E" none [⟨"a", 1, none⟩, ⟨"b", 0, none⟩]] }]).toOption.map
    (fun b => b.modules.map (·.defs)) = some [[.enum "E" none [⟨"b", 0, none⟩, ⟨"a", 1, none⟩]]] := by
  decide +kernel

end Apg
