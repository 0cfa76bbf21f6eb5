import Verif.Lemmas.CosmosPossible

/-!
# Property C100: every packet can be recognised
-/

namespace Apg
open Spec

/-! ### Fields for all leaves -/

theorem hasValue_zero {ds : List Def} {t : AType} {w : Nat}
    (h : ItemType ds t "UINT".toList ∨ ItemType ds t "INT".toList) {data : List UInt8} {pos : Nat}
    (hb : bitsAt data pos w = some 0) : HasValue ds data pos w t 0 := by
  have h0 : signedValue w 0 = 0 := by
    unfold signedValue
    rw [if_pos (by have := Nat.two_pow_pos w; omega)]
    rfl
  rcases h with h | h
  · exact ⟨0, hb, .inl ⟨h, rfl⟩⟩
  · exact ⟨0, hb, .inr ⟨h, h0.symm⟩⟩

theorem fieldFor_of {p : Printer} {ds : List Def} {path : List Member} {m : Member} {it : CosmosItem}
    (hlast : path.getLast? = some m) (hinfo : LeafInfo p ds path m it)
    (hmat : (∃ v, FixedTo path v) ∨ IsBoolean ds m.type → Matchable ds path m)
    (hcan : ∀ w : Nat, Size ds (.members [m]) w → ∀ v, FixedTo path v → CanHold ds w m.type (leafNum v)) :
    ∃ f, FieldFor ds path f := by
  obtain ⟨w, _, hsz, huni, hf⟩ := hinfo
  have hw : ∀ {m' : Member} {a : Nat}, path.getLast? = some m' → Size ds (.members [m']) a → m' = m ∧ a = w := by
    intro m' a g1 g2
    rw [hlast] at g1
    cases g1
    have := huni _ g2
    exact ⟨rfl, by omega⟩
  have hfixed : ∀ v, FixedTo path v → (∀ v', FixedTo path v' → v' = v) → ∃ f, FieldFor ds path f := by
    intro v hv hu
    obtain ⟨n, hn, hdata⟩ := canHold_field (hcan w hsz v hv)
    refine ⟨(w, n), hn, fun m' a g1 g2 => ?_⟩
    obtain ⟨rfl, rfl⟩ := hw g1 g2
    refine ⟨rfl, fun data pos hb => ⟨fun v' hv' => ?_, fun _ hno => absurd hv (hno v)⟩⟩
    rw [hu v' hv']
    exact hdata data pos hb
  rcases hf with ⟨_, hno, hnb⟩ | ⟨_, _, _, hnf, i, _, _, ⟨v, hv, hu, _⟩ | ⟨hno, hbool, _⟩⟩ |
    ⟨_, _, _, _, _, v, q, hv, hu, _⟩
  · refine ⟨(w, 0), Nat.two_pow_pos _, fun m' a g1 g2 => ?_⟩
    obtain ⟨rfl, rfl⟩ := hw g1 g2
    exact ⟨rfl, fun data pos _ => ⟨fun v hv => absurd hv (hno v), fun hb => absurd hb hnb⟩⟩
  · exact hfixed v hv hu
  · refine ⟨(w, 0), Nat.two_pow_pos _, fun m' a g1 g2 => ?_⟩
    obtain ⟨rfl, rfl⟩ := hw g1 g2
    refine ⟨rfl, fun data pos hb => ⟨fun v hv => absurd hv (hno v), fun _ _ => ?_⟩⟩
    rcases (hmat (.inr hbool)).number with ⟨ht, _⟩ | ⟨ht, _⟩
    · exact hasValue_zero ht hb
    · exact absurd ht hnf
  · exact hfixed v hv hu

/-- Each leaf with a width has a place. -/
theorem leafAt_exists {ds : List Def} {ls : List (List Member)}
    (h : ∀ path ∈ ls, ∃ m, path.getLast? = some m ∧ ∃ w : Nat, Size ds (.members [m]) w) {path : List Member}
    (hp : path ∈ ls) {m : Member} (hm : path.getLast? = some m) {w : Nat} (hw : Size ds (.members [m]) w) :
    ∃ pos, LeafAt ds ls path m pos w := by
  induction ls with
  | nil => cases hp
  | cons first ls ih =>
    rcases List.mem_cons.1 hp with rfl | hp
    · exact ⟨0, .here hm hw⟩
    · obtain ⟨pos, hat⟩ := ih (fun q hq => h q (.tail _ hq)) hp
      obtain ⟨m', h1, a, h2⟩ := h first (.head _)
      exact ⟨a + pos, .later h1 h2 hat⟩

theorem leafAt_size {ds : List Def} {ls : List (List Member)} {path : List Member} {m : Member} {pos w : Nat}
    (h : LeafAt ds ls path m pos w) : Size ds (.members [m]) w := by
  induction h with
  | here _ h => exact h
  | later _ _ _ ih => exact ih

theorem all2_exists {α β} {R : α → β → Prop} {l : List α} (h : ∀ a ∈ l, ∃ b, R a b) : ∃ l', All2 R l l' := by
  induction l with
  | nil => exact ⟨[], .nil⟩
  | cons a l ih =>
    obtain ⟨b, h1⟩ := h a (.head _)
    obtain ⟨l', h2⟩ := ih fun x hx => h x (.tail _ hx)
    exact ⟨b :: l', .cons h1 h2⟩

/-! ### The property -/

/-- COSMOS takes some data for the packet of a message exactly under `P`. -/
def SomeData (P : List Def → List (List Member) → Prop) : Prop :=
  ∀ (fuel : Nat) (p : Printer) (raw : List Module) (b : Bundle)
    (module : String) (messages : List String) (target out : Text), Sources raw b →
    Faithful p → OneLine p → IsTarget target → NaturalSizes b.defs →
    (runCosmos fuel p raw module messages target out).result = .ok () →
    ∃ t, (∀ fs, Adds fs ((runCosmos fuel p raw module messages target out).apply fs) (cosmosPath out target) t) ∧
      Describes b module target (fun ms items =>
        (∀ m, Reached b.defs ms m → FlatMember b.defs m) →
        ∃ ls, Leaves b.defs ms ls ∧
          ((∀ path ∈ ls, Clear b.defs path) → (∀ path ∈ ls, ∀ m, path.getLast? = some m →
              (∃ v, FixedTo path v) ∨ IsBoolean b.defs m.type → Matchable b.defs path m) →
            ((∃ data, Recognised p data 0 items) ↔ P b.defs ls))) messages t

/-- Full statement of C100: for each generated packet there are data that COSMOS takes for it. -/
def C100_full : Prop := SomeData fun _ _ => True

/-- **C100, partial.** There are data that COSMOS takes for the packet of a message exactly if each fixed value is one
that its member can have with its number of bits: integers that fit, and reals that need no rounding. Missing: messages
with values that do not fit, which are accepted; as for C98, messages with nested arrays, arrays of sequences or of
BOOLEAN; members that several clauses reach; fixed or BOOLEAN leaves that are little endian or arrays; fixed strings. -/
theorem C100_recognisable_iff_partial : SomeData Possible := by
  intro fuel p raw b module messages target out hi hp ho ht hnat hr
  obtain ⟨t, h1, h2⟩ := cosmos_leafInfos fuel p raw b module messages target out hi hp ho ht hnat hr
  refine ⟨t, h1, h2.imp fun n pkt ⟨k1, k2, ms, k3, k4⟩ => ⟨k1, k2, ms, k3, fun hflat => ?_⟩⟩
  obtain ⟨ls, hl, h⟩ := k4 hflat
  refine ⟨ls, hl, fun hcl hcmp => ?_⟩
  have hall := h hcl hcmp
  have hnd := (accepted_sized hi).nodup
  constructor
  · rintro ⟨data, hrec⟩ path m pos w hat v hv
    exact canHold_of (((recognised_iff hp hnd hall data 0).1 hrec path m pos w hat).1 v hv)
  · intro hpos
    have hinfo : ∀ path ∈ ls, ∃ m, path.getLast? = some m ∧ ∃ it, LeafInfo p b.defs path m it := by
      intro path hpath
      obtain ⟨it, _, m, hm, hf⟩ := all2_mem_left hall hpath
      exact ⟨m, hm, it, hf⟩
    have hsz : ∀ path ∈ ls, ∃ m, path.getLast? = some m ∧ ∃ w : Nat, Size b.defs (.members [m]) w := by
      intro path hpath
      obtain ⟨m, hm, it, w, _, hw, _⟩ := hinfo path hpath
      exact ⟨m, hm, w, hw⟩
    obtain ⟨fs, hfs⟩ : ∃ fs, All2 (FieldFor b.defs) ls fs := all2_exists fun path hpath => by
      obtain ⟨m, hm, it, hf⟩ := hinfo path hpath
      refine fieldFor_of hm hf (hcmp path hpath m hm) fun w hw v hv => ?_
      obtain ⟨pos, hat⟩ := leafAt_exists hsz hpath hm hw
      exact hpos path m pos w hat v hv
    refine ⟨dataOf fs, (recognised_iff hp hnd hall _ 0).2 fun path m pos w hat => ?_⟩
    exact fields_data hfs [] (by intro f hf; cases hf) path m pos w hat

theorem canHold_integer {ds : List Def} (hnd : (ds.map Def.name).Nodup) {m : Member} {lo hi i : Int} {w : Nat}
    (ht : Elementary ds m.type (intType lo hi)) (hsz : Size ds (.members [m]) w) (hr : InRange lo hi i) :
    CanHold ds w m.type (.int i) := by
  have hty := elementary_itemType ht
  have hl := size_elementary hnd ht hsz
  generalize hx : intType lo hi = x at hl
  generalize hy : (w : Int) = y at hl
  cases hl with
  | uint w' hb _ hfit _ =>
    cases hx
    obtain rfl : w = w' := by omega
    rw [if_neg (by omega)] at hty
    exact .inl ⟨hty, i, rfl, hfit i hr⟩
  | int w' hb _ hmem hfit _ =>
    cases hx
    obtain rfl : w = w' := by omega
    rw [if_pos hb] at hty
    have hf := hfit i hr
    refine .inr (.inl ⟨hty, i, rfl, ?_⟩)
    unfold FitsSigned at hf
    simp only [List.mem_cons, List.not_mem_nil, or_false] at hmem
    rcases hmem with rfl | rfl | rfl | rfl <;> omega
  | _ => simp [intType] at hx

theorem possible_of_inRanges {ds : List Def} (hnd : (ds.map Def.name).Nodup) {ls : List (List Member)}
    (h : InRanges ds ls) : Possible ds ls := by
  intro path m pos w hat v hv
  obtain ⟨lo, hi, i, g1, g2, g3⟩ := h path (leafAt_mem hat) m (leafAt_last hat) v hv
  rw [g2]
  exact canHold_integer hnd g1 (leafAt_size hat) g3

/-- **C100 (integers in range), partial.** COSMOS takes some data for the packet of each message whose fixed values are
integers in the ranges of the INTEGERs they are for. Missing: as for `C100_recognisable_iff_partial`. -/
theorem C100_in_range_partial (fuel : Nat) (p : Printer) (raw : List Module) (b : Bundle)
    (module : String) (messages : List String) (target out : Text) (hi : Sources raw b)
    (hp : Faithful p) (ho : OneLine p) (ht : IsTarget target)
    (hnat : NaturalSizes b.defs) (hr : (runCosmos fuel p raw module messages target out).result = .ok ()) :
    ∃ t, (∀ fs, Adds fs ((runCosmos fuel p raw module messages target out).apply fs) (cosmosPath out target) t) ∧
      Describes b module target (fun ms items =>
        (∀ m, Reached b.defs ms m → FlatMember b.defs m) →
        ∃ ls, Leaves b.defs ms ls ∧
          ((∀ path ∈ ls, Clear b.defs path) → (∀ path ∈ ls, ∀ m, path.getLast? = some m →
              (∃ v, FixedTo path v) ∨ IsBoolean b.defs m.type → Matchable b.defs path m) →
            InRanges b.defs ls → ∃ data, Recognised p data 0 items)) messages t := by
  obtain ⟨t, h1, h2⟩ := C100_recognisable_iff_partial fuel p raw b module messages target out hi hp ho ht hnat hr
  refine ⟨t, h1, h2.imp fun n pkt ⟨k1, k2, ms, k3, k4⟩ => ⟨k1, k2, ms, k3, fun hflat => ?_⟩⟩
  obtain ⟨ls, hl, h⟩ := k4 hflat
  exact ⟨ls, hl, fun hcl hcmp hrg => (h hcl hcmp).2 (possible_of_inRanges (accepted_sized hi).nodup hrg)⟩

/-! ### Examples -/

theorem exGains_matchable {n : String} {q : Rat} (hd : Def.seq n none [exGain q, exCount] ∈ exGainsModule.defs) :
    ∀ path ∈ [[exGain q, exScale], [exGain q, exKind]] ++ [[exCount]], ∀ m, path.getLast? = some m →
      (∃ v, FixedTo path v) ∨ IsBoolean exGainsModule.defs m.type → Matchable exGainsModule.defs path m := by
  have hff := exGains_first _ hd
  intro path hp m hm hor
  rcases List.mem_append.1 hp with hp' | hp'
  · exact hff.matchable path hp' m hm
  · rcases hor with ⟨v, hv⟩ | hb
    · exact absurd hv (hff.rest path hp' v)
    · exact absurd hb (hff.noBoolean path hp m hm)

theorem exScale_size : Size exGainsModule.defs (.members [exScale]) ((32 : Nat) : Int) :=
  Size.leaf (ds := exGainsModule.defs) (m := exScale) (ms := []) (a := 32) (v := 0)
    (by
      intro n lo hi h d hd hn
      simp only [exScale, realType, AType.plain.injEq] at h
      obtain ⟨rfl, _⟩ := h
      revert hn
      revert hd
      revert d
      decide) ((leafSize_iff (.realRange rfl rfl) (by intro e len h; cases h) 32).1 (by decide +kernel)) .nil

/-- 0.1 is not a value that 32 bits can have. -/
theorem exGains_impossible : ¬ Possible exGainsModule.defs
    ([[exGain exTenth, exScale], [exGain exTenth, exKind]] ++ [[exCount]]) := by
  intro h
  have hnd : (exGainsModule.defs.map Def.name).Nodup := by decide
  rcases h [exGain exTenth, exScale] exScale 0 32 (.here rfl exScale_size) (.flt (.flt exTenth))
    ⟨[], exGain exTenth, [exScale], _, rfl, rfl, .here⟩ with ⟨h, _⟩ | ⟨h, _⟩ | ⟨_, q, hq, hex⟩
  · exact absurd (itemType_unique hnd h (elementary_float exGains_scale)) (by decide)
  · exact absurd (itemType_unique hnd h (elementary_float exGains_scale)) (by decide)
  · cases hq
    exact exTenth_rounded hex

/-- It fails: COSMOS takes no data for `Tenth`. -/
theorem C100_full_false : ¬ C100_full := by
  intro hf
  have hds := exGains_defs
  have hd : Def.seq "Tenth" none [exGain exTenth, exCount] ∈ exGainsModule.defs := List.mem_of_getElem? (i := 2) rfl
  have hff := exGains_first _ hd
  have hrun : (runCosmos 20 exPrinter exGains "gains" ["Tenth"] "SAT".toList exOut).result = .ok () := by decide +kernel
  obtain ⟨t, h1, h2⟩ := hf 20 exPrinter exGains _ "gains" ["Tenth"] "SAT".toList exOut
    (sources_of_input exGains_input) exPrinter_faithful exPrinter_oneLine exTlm_target
    (by rw [hds]; exact exGains_natural) hrun
  obtain ⟨t', h1', h2'⟩ := C100_recognisable_iff_partial 20 exPrinter exGains _ "gains" ["Tenth"] "SAT".toList exOut
    (sources_of_input exGains_input) exPrinter_faithful exPrinter_oneLine exTlm_target
    (by rw [hds]; exact exGains_natural) hrun
  have : t' = t := by rw [← newText_eq h1, ← newText_eq h1']
  subst this
  unfold Describes at h2 h2'
  generalize readCosmos t' = l at h2 h2'
  cases h2 with
  | cons h h' =>
    cases h'
    cases h2' with
    | cons g g' =>
      obtain ⟨_, _, ms, hms, h⟩ := h
      obtain ⟨_, _, ms', hms', g⟩ := g
      cases message_eq (sources_of_input exGains_input) hms (by rw [hds]; exact hd)
      cases message_eq (sources_of_input exGains_input) hms' (by rw [hds]; exact hd)
      rw [hds] at h g
      obtain ⟨ls, hl, h⟩ := h hff.flat
      obtain ⟨ls', hl', g⟩ := g hff.flat
      cases leaves_unique (by decide) hff.leaves hl
      cases leaves_unique (by decide) hff.leaves hl'
      exact exGains_impossible ((g hff.clear (exGains_matchable hd)).1
        ((h hff.clear (exGains_matchable hd)).2 trivial))

/-- 0.5 and 7 can be had. -/
theorem exGains_possible : Possible exGainsModule.defs
    ([[exGain (1 / 2), exScale], [exGain (1 / 2), exKind]] ++ [[exCount]]) := by
  intro path m pos w hat v hv
  have hex := exGains_exact path m pos w hat
  rw [List.cons_append] at hat
  cases hat with
  | here h1 h2 =>
    cases h1
    rcases exGains_fixed rfl hv with ⟨_, rfl⟩ | ⟨h, _⟩
    · exact .inr (.inr ⟨elementary_float exGains_scale, _, rfl, hex (elementary_float exGains_scale) _ _ hv rfl⟩)
    · exact absurd h (by decide)
  | later _ _ hat =>
    rw [List.cons_append] at hat
    cases hat with
    | here h1 h2 =>
      cases h1
      have hw : (w : Int) = 8 := by
        have hg : GrammarType (intType 0 255) := .integerRange
        exact leafSize_unique hg (by intro e len h; simp [intType] at h)
          (size_elementary (by decide) exGains_kind h2)
          ((leafSize_iff hg (by intro e len h; simp [intType] at h) 8).1 (by decide +kernel))
      obtain rfl : w = 8 := by omega
      rcases exGains_fixed rfl hv with ⟨h, _⟩ | ⟨_, rfl⟩
      · exact absurd h (by decide)
      · exact .inl ⟨elementary_itemType exGains_kind, 7, rfl, by decide, by decide⟩
    | later _ _ hat =>
      cases hat with
      | here h1 _ =>
        cases h1
        rcases fixedTo_cons.1 hv with ⟨c, hc, _⟩ | h
        · cases hc
        · exact (fixedTo_nil h).elim
      | later _ _ hat => cases hat

/-- COSMOS takes some data for `Half`, and none for `Tenth`. -/
example : ∃ t, Describes (okBundle (buildFromConfig exGains ["gains"])) "gains" "SAT".toList
    (fun ms items => (ms = [exGain (1 / 2), exCount] → ∃ data, Recognised exPrinter data 0 items) ∧
      (ms = [exGain exTenth, exCount] → ∀ data, ¬ Recognised exPrinter data 0 items)) ["Half", "Tenth"] t := by
  have hds := exGains_defs
  have hd : Def.seq "Half" none [exGain (1 / 2), exCount] ∈ exGainsModule.defs := List.mem_of_getElem? (i := 1) rfl
  have hd' : Def.seq "Tenth" none [exGain exTenth, exCount] ∈ exGainsModule.defs := List.mem_of_getElem? (i := 2) rfl
  obtain ⟨t, _, h⟩ := C100_recognisable_iff_partial 20 exPrinter exGains _ "gains" ["Half", "Tenth"] "SAT".toList exOut
    (sources_of_input exGains_input) exPrinter_faithful exPrinter_oneLine exTlm_target
    (by rw [hds]; exact exGains_natural) (by decide +kernel)
  refine ⟨t, h.imp fun n pkt ⟨k1, k2, ms, k3, k4⟩ => ⟨k1, k2, ms, k3, ?_, ?_⟩⟩
  · rintro rfl
    rw [hds] at k4
    have hff := exGains_first _ hd
    obtain ⟨ls, hl, k5⟩ := k4 hff.flat
    cases leaves_unique (by decide) hff.leaves hl
    exact (k5 hff.clear (exGains_matchable hd)).2 exGains_possible
  · rintro rfl data hrec
    rw [hds] at k4
    have hff := exGains_first _ hd'
    obtain ⟨ls, hl, k5⟩ := k4 hff.flat
    cases leaves_unique (by decide) hff.leaves hl
    exact exGains_impossible ((k5 hff.clear (exGains_matchable hd')).1 ⟨data, hrec⟩)

theorem exFrames_unfixed {m : Member} (hm : m.comps = none) : ∀ v, ¬ FixedTo [m] v := by
  intro v hv
  rcases fixedTo_cons.1 hv with ⟨c, hc, _⟩ | h
  · rw [hm] at hc; cases hc
  · exact fixedTo_nil h

theorem exFrames_matchable : ∀ path ∈ [[exId, exKind], [exId, exLevel]] ++ [[exCount]], ∀ m, path.getLast? = some m →
    (∃ v, FixedTo path v) ∨ IsBoolean exFramesModule.defs m.type → Matchable exFramesModule.defs path m := by
  intro path hp m hm hor
  simp only [List.cons_append, List.nil_append, List.mem_cons, List.not_mem_nil, or_false] at hp
  rcases hp with rfl | rfl | rfl <;> cases hm
  · refine ⟨fun e len h => (by simp [exKind, intType] at h), fun c h => (by cases h), fun v hv => ?_,
      .inl ⟨.inl (elementary_itemType (exFrames_elementary 0 255)), fun v hv x hx => ?_⟩⟩
    · rcases exFrames_fixed rfl hv with ⟨_, rfl⟩ | ⟨_, rfl⟩ <;> exact exFrames_suits (by decide)
    · rcases exFrames_fixed rfl hv with ⟨_, rfl⟩ | ⟨_, rfl⟩ <;> cases hx
  · refine ⟨fun e len h => (by simp [exLevel, intType] at h), fun c h => (by cases h), fun v hv => ?_,
      .inl ⟨.inr (elementary_itemType (exFrames_elementary (-128) 127)), fun v hv x hx => ?_⟩⟩
    · rcases exFrames_fixed rfl hv with ⟨_, rfl⟩ | ⟨_, rfl⟩ <;> exact exFrames_suits (by decide)
    · rcases exFrames_fixed rfl hv with ⟨_, rfl⟩ | ⟨_, rfl⟩ <;> cases hx
  · rcases hor with ⟨v, hv⟩ | hb
    · exact absurd hv (exFrames_unfixed rfl v)
    · exact absurd hb exFrames_boolean

theorem exFrames_inRanges : InRanges exFramesModule.defs ([[exId, exKind], [exId, exLevel]] ++ [[exCount]]) := by
  intro path hp m hm v hv
  simp only [List.cons_append, List.nil_append, List.mem_cons, List.not_mem_nil, or_false] at hp
  rcases hp with rfl | rfl | rfl <;> cases hm
  · refine ⟨_, _, 7, exFrames_elementary 0 255, ?_, by decide, by decide⟩
    rcases exFrames_fixed rfl hv with ⟨_, rfl⟩ | ⟨h, _⟩
    · rfl
    · exact absurd h (by decide)
  · refine ⟨_, _, -2, exFrames_elementary (-128) 127, ?_, by decide, by decide⟩
    rcases exFrames_fixed rfl hv with ⟨h, _⟩ | ⟨_, rfl⟩
    · exact absurd h (by decide)
    · rfl
  · exact absurd hv (exFrames_unfixed rfl v)

theorem exFrames_reached {n : String} {ms : List Member} (hd : Def.seq n none ms ∈ exFramesModule.defs) (m : Member)
    (hm : Reached exFramesModule.defs ms m) : FlatMember exFramesModule.defs m := by
  obtain ⟨d, hd, hmd⟩ := reached_member hm fun m hm => ⟨_, hd, hm⟩
  exact exFrames_flat hd hmd

/-- COSMOS takes some data for `Slow`, whose values 7 and -2 are in range. -/
example : ∃ t, Describes (okBundle (buildFromConfig exFrames ["frames"])) "frames" "SAT".toList
    (fun ms items => ms = [exId, exCount] → ∃ data, Recognised exPrinter data 0 items) ["Slow", "Fast"] t := by
  have hds := exFrames_defs
  obtain ⟨t, _, h⟩ := C100_in_range_partial 20 exPrinter exFrames _ "frames" ["Slow", "Fast"] "SAT".toList exOut
    (sources_of_input exFrames_input) exPrinter_faithful exPrinter_oneLine exTlm_target
    (by rw [hds]; exact exFrames_natural) (by decide +kernel)
  refine ⟨t, h.imp fun n pkt ⟨k1, k2, ms, k3, k4⟩ => ⟨k1, k2, ms, k3, ?_⟩⟩
  rintro rfl
  rw [hds] at k4
  have hd : Def.seq "Slow" none [exId, exCount] ∈ exFramesModule.defs := List.mem_of_getElem? (i := 1) rfl
  obtain ⟨ls, hl, k5⟩ := k4 (exFrames_reached hd)
  cases leaves_unique (by decide) exFrames_slow hl
  exact k5 (exFrames_separate.clear exFrames_slow [exId, exCount] "Slow" ⟨none, hd⟩ fun _ h => h) exFrames_matchable
    exFrames_inRanges

/-- 300 is accepted for an INTEGER of 8 bits, which cannot have it. -/
def exBigModule : Module :=
  { name := "big", defs := [
      .seq "Id" none [exKind],
      .seq "Large" none [⟨"id", .plain "Id" none none, none, some (.leaf "kind" (.int 300) .nil)⟩, exCount]] }

example : (runCosmos 20 exPrinter [exBigModule] "big" ["Large"] "SAT".toList exOut).result = .ok () := by decide +kernel

example : ¬ CanHold exBigModule.defs 8 exKind.type (.int 300) := by
  have hnd : (exBigModule.defs.map Def.name).Nodup := by decide
  have hty : ItemType exBigModule.defs exKind.type "UINT".toList :=
    elementary_itemType (lo := 0) (hi := 255) (.direct (by decide))
  rintro (⟨_, i, h1, _, h2⟩ | ⟨h, _⟩ | ⟨h, _⟩)
  · cases h1
    exact absurd h2 (by decide)
  · exact absurd (itemType_unique hnd h hty) (by decide)
  · exact absurd (itemType_unique hnd h hty) (by decide)

end Apg
