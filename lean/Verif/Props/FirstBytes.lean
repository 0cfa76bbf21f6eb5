import Verif.Lemmas.FirstBytes
import Verif.Props.ApartEither

/-!
# Property C104: packets begin with their message ids
-/

namespace Apg
open Spec

/-- generate-cfs defines the message id of the sequence `n` as a number with `P`. -/
def HasId (raw : List Module) (cfg : List String) (b : Bundle) (n : String) (P : Nat → Prop) : Prop :=
  ∀ (fuel : Nat) (p : Printer) (out : Text) (fs : Files), Faithful p → (runCfs fuel p raw cfg out).result = .ok () →
    ∃ d id, (raise (ident n) ++ "_MID".toList, "(0x".toList ++ d ++ [')']) ∈ cfsMacros fuel p raw cfg out b fs ∧
      readNat 16 d = some id ∧ P id

/-- The sequence `n` has a primary header, which the member `k` reaches by the keys `ks`, with fixed fields. -/
def FixedHeader (ds : List Def) (n : String) (ms : List Member) (k : Member) (ks : List String) : Prop :=
  ∃ c cl parts ver ty fl ap, Def.seq n c ms ∈ ds ∧ k ∈ ms ∧ k.comps = some cl ∧ HeaderIn cl ks (headerComps parts) ∧
    FixesHeader parts ver ty fl ap

/-- The message id of a packet with a fixed primary header and the data taken for it are related by `P`, if `Q`. -/
def IdAndData (Q : List Def → List Member → Member → List String → List (List Member) → Prop)
    (P : (List UInt8 → Prop) → Nat → Prop) : Prop :=
  ∀ (raw : List Module) (cfg : List String) (b : Bundle), Input raw cfg b → NaturalSizes b.defs →
    ∀ (n : String) (ms : List Member) (k : Member) (ks : List String), FixedHeader b.defs n ms k ks →
    ∀ (fuel : Nat) (p : Printer) (module : String) (messages : List String) (target out : Text),
      Faithful p → OneLine p → IsTarget target →
      (runCosmos fuel p raw module messages target out).result = .ok () →
      ∃ t, (∀ fs, Adds fs ((runCosmos fuel p raw module messages target out).apply fs) (cosmosPath out target) t) ∧
        Describes b module target (fun ms' items => ms' = ms → ∀ ls, Q b.defs ms k ks ls →
          (∃ data, Accepts p data 0 items) → HasId raw cfg b n (P fun data => Accepts p data 0 items)) messages t

/-- Full statement of C104: all data that COSMOS takes for a packet begin with its message id. -/
def C104_full : Prop := IdAndData (fun _ _ _ _ _ => True) fun taken id => ∀ data, taken data → BeginsWith data id

theorem hasId_of {raw : List Module} {cfg : List String} {b : Bundle} (hin : Input raw cfg b) {n : String}
    {c : Option Comment} {ms : List Member} {k : Member} {cl : Comps} {ks : List String}
    {parts : List (List (String × Leaf))} {ver ty fl ap : Nat} (hd : Def.seq n c ms ∈ b.defs) (hk : k ∈ ms)
    (hcl : k.comps = some cl) (hh : HeaderIn cl ks (headerComps parts)) (hf : FixesHeader parts ver ty fl ap)
    (hr : ty < 2 ∧ fl < 2 ∧ ap < 2048) {P : Nat → Prop} (hP : P (ver * 2 ^ 13 + ty * 2 ^ 12 + fl * 2 ^ 11 + ap)) :
    HasId raw cfg b n P := by
  intro fuel p out fs hp hrun
  have hmem : (n, Fixed.header (headerComps parts)) ∈ b.defs.flatMap fixedOfDef := by
    refine List.mem_flatMap.2 ⟨_, hd, ?_⟩
    refine List.mem_flatMap.2 ⟨k, hk, List.mem_map.2 ⟨_, ?_, rfl⟩⟩
    unfold fixedOfMember
    rw [hcl]
    exact headerIn_fixed hh
  obtain ⟨d, _, h1, _, h2, _⟩ := C25_packet_numbers_partial fuel p hp raw hin.grammar cfg out hrun b
    hin.accepted fs n n parts parts ver ver ty ty fl fl ap ap hmem hmem hf hf hr hr
  exact ⟨d, _, h1, h2, hP⟩

/-- **C104, partial.** All data that COSMOS takes for a packet that begins with its fixed primary header begin with the
message id that generate-cfs defines for it. Missing: packets with the header elsewhere or with other widths or another
order of its fields; messages other than those of `EitherMessage`. -/
theorem C104_begins_partial : IdAndData (fun ds ms k ks ls => EitherMessage ds ms ls ∧ IdFirst ds k ks ls)
    fun taken id => ∀ data, taken data → BeginsWith data id := by
  intro raw cfg b hin hnat n ms k ks ⟨c, cl, parts, ver, ty, fl, ap, hd, hk, hcl, hh, hf⟩ fuel p module messages target
    out hp ho ht hr
  have hsrc := sources_of_input hin
  obtain ⟨t, h1, h2⟩ := cosmos_matchInfos fuel p raw b module messages target out hsrc hp ho ht hnat hr
  refine ⟨t, h1, h2.imp fun n' pkt ⟨k1, k2, ms', k3, k4⟩ => ⟨k1, k2, ms', k3, ?_⟩⟩
  rintro rfl ls ⟨hm, hid⟩ ⟨data0, hdata0⟩
  have hs := eitherSide_of (accepted_sized hsrc).nodup hm k4
  exact hasId_of hin hd hk hcl hh hf (accepted_begins hs hcl hh hid hf hdata0).2.2
    fun data hdata => (accepted_begins hs hcl hh hid hf hdata).1

/-- **C104 (exact), partial.** If nothing else is fixed, the data that COSMOS takes for the packet are those that begin
with the message id. Missing: as in `C104_begins_partial`. -/
theorem C104_begins_iff_partial :
    IdAndData (fun ds ms k ks ls => EitherMessage ds ms ls ∧ IdFirst ds k ks ls ∧ FixesOnlyFirst ds ls)
      fun taken id => ∀ data, taken data ↔ BeginsWith data id := by
  intro raw cfg b hin hnat n ms k ks ⟨c, cl, parts, ver, ty, fl, ap, hd, hk, hcl, hh, hf⟩ fuel p module messages target
    out hp ho ht hr
  have hsrc := sources_of_input hin
  obtain ⟨t, h1, h2⟩ := cosmos_matchInfos fuel p raw b module messages target out hsrc hp ho ht hnat hr
  refine ⟨t, h1, h2.imp fun n' pkt ⟨k1, k2, ms', k3, k4⟩ => ⟨k1, k2, ms', k3, ?_⟩⟩
  rintro rfl ls ⟨hm, hid, honly⟩ ⟨data0, hdata0⟩
  have hs := eitherSide_of (accepted_sized hsrc).nodup hm k4
  have hbeg := accepted_begins hs hcl hh hid hf hdata0
  refine hasId_of hin hd hk hcl hh hf hbeg.2.2 fun data =>
    ⟨fun hdata => (accepted_begins hs hcl hh hid hf hdata).1, fun hdata => ?_⟩
  exact accepts_first hs honly hbeg.1 hdata hdata0

/-- **C104 (apart), partial.** If COSMOS takes some data for the packets of two messages that begin with their fixed
primary headers, generate-cfs defines the same message id for both. Missing: as in `C104_begins_partial`. -/
theorem C104_apart_partial : ∀ (raw : List Module) (cfg : List String) (b : Bundle), Input raw cfg b →
    NaturalSizes b.defs → ∀ (n n' : String) (ms ms' : List Member) (k k' : Member) (ks ks' : List String),
    FixedHeader b.defs n ms k ks → FixedHeader b.defs n' ms' k' ks' →
    ∀ (fuel : Nat) (p : Printer) (module : String) (messages : List String) (target out : Text),
      Faithful p → OneLine p → IsTarget target →
      (runCosmos fuel p raw module messages target out).result = .ok () →
      ∃ t, (∀ fs, Adds fs ((runCosmos fuel p raw module messages target out).apply fs) (cosmosPath out target) t) ∧
        Describes b module target (fun l items => l = ms → Describes b module target (fun l' items' => l' = ms' →
          ∀ ls ls', EitherMessage b.defs ms ls ∧ IdFirst b.defs k ks ls →
            EitherMessage b.defs ms' ls' ∧ IdFirst b.defs k' ks' ls' →
            (∃ data, Accepts p data 0 items ∧ Accepts p data 0 items') →
            ∃ id, HasId raw cfg b n (· = id) ∧ HasId raw cfg b n' (· = id)) messages t) messages t := by
  intro raw cfg b hin hnat n n' ms ms' k k' ks ks' ⟨c, cl, parts, ver, ty, fl, ap, hd, hk, hcl, hh, hf⟩
    ⟨c', cl', parts', ver', ty', fl', ap', hd', hk', hcl', hh', hf'⟩ fuel p module messages target out hp ho ht hr
  have hsrc := sources_of_input hin
  have hnd := (accepted_sized hsrc).nodup
  obtain ⟨t, h1, h2⟩ := cosmos_matchInfos fuel p raw b module messages target out hsrc hp ho ht hnat hr
  refine ⟨t, h1, h2.imp fun _ pkt ⟨k1, k2, l, k3, k4⟩ => ⟨k1, k2, l, k3, ?_⟩⟩
  rintro rfl
  refine h2.imp fun _ pkt' ⟨g1, g2, l', g3, g4⟩ => ⟨g1, g2, l', g3, ?_⟩
  rintro rfl ls ls' ⟨hm, hid⟩ ⟨hm', hid'⟩ ⟨data, e1, e2⟩
  obtain ⟨⟨a, b, rest, rfl, q1⟩, q2⟩ := accepted_begins (eitherSide_of hnd hm k4) hcl hh hid hf e1
  obtain ⟨⟨a', b', rest', he, r1⟩, r2⟩ := accepted_begins (eitherSide_of hnd hm' g4) hcl' hh' hid' hf' e2
  cases he
  exact ⟨_, hasId_of hin hd hk hcl hh hf q2.2 q1, hasId_of hin hd' hk' hcl' hh' hf' r2.2 r1⟩

/-! ### Examples -/

def exLinkClause (apid : Nat) : Comps :=
  .node "primary" (.node "packet-identification" (.leaf "packet-version-number" (.int 0)
    (.leaf "packet-type-is-cmd" (.int 1) (.leaf "sec-hdr-flag-is-present" (.int 1)
      (.leaf "application-process-identifier" (.int apid) .nil)))) .nil) .nil

/-- The header of a packet with this application id. -/
def exLinkHeader (apid : Nat) : Member := ⟨"header", .plain "Ccsds-header" none none, none, some (exLinkClause apid)⟩
def exLinkId : Member := ⟨"packet-identification", .plain "Packet-id" none none, none, none⟩
def exLinkPrimary : Member := ⟨"primary", .plain "Ccsds-primary" none none, none, none⟩

/-- A module with two packets that begin with their headers and one that does not. -/
def exLinkModule : Module := { name := "link", defs := [
  .seq "Packet-id" none exIdent, .seq "Ccsds-primary" none [exLinkId], .seq "Ccsds-header" none [exLinkPrimary],
  .seq "Ping" none [exLinkHeader 5, exCount], .seq "Pong" none [exLinkHeader 9, exFew],
  .seq "Late" none [exCount, exLinkHeader 7]] }

def exLink : List Module := [exLinkModule]

theorem exLink_input : Input exLink ["link"] (okBundle (buildFromConfig exLink ["link"])) :=
  input_of (by decide +kernel) (by decide +kernel) (by decide +kernel)

theorem exLink_defs : (okBundle (buildFromConfig exLink ["link"])).defs = exLinkModule.defs := by decide +kernel

theorem exLink_simple {n : String} {c : Option Comment} {t : AType} (h : Def.simple n c t ∈ exLinkModule.defs) : False := by
  simp [exLinkModule] at h

theorem exLink_members {d : Def} (hd : d ∈ exLinkModule.defs) {m : Member} (hm : m ∈ d.members) :
    (∃ lo hi, m.type = intType lo hi) ∨ ∃ n, m.type = .plain n none none := by
  have : ∀ d ∈ exLinkModule.defs, ∀ m ∈ d.members,
      m.type ∈ [intType 0 7, intType 0 1, intType 0 2047, intType 0 65535, intType 0 15] ∨
      m.type ∈ ["Packet-id", "Ccsds-primary", "Ccsds-header"].map fun n => AType.plain n none none := by decide +kernel
  rcases this d hd m hm with h | h
  · simp only [List.mem_cons, List.not_mem_nil, or_false] at h
    rcases h with h | h | h | h | h <;> exact .inl ⟨_, _, h⟩
  · obtain ⟨n, _, h⟩ := List.mem_map.1 h
    exact .inr ⟨n, h.symm⟩

theorem exLink_natural : NaturalSizes exLinkModule.defs := by
  intro d hd
  refine ⟨fun m hm h => ?_, fun n c t h => (exLink_simple (h ▸ hd)).elim⟩
  rcases exLink_members hd hm with ⟨lo, hi, h'⟩ | ⟨n, h'⟩ <;> rw [h'] at h
  · generalize hx : intType lo hi = x at h
    cases h <;> simp [intType] at hx
  · cases h

theorem exLink_leaf {lo hi : Int} (n : String) (inner : List Member) (hu : UsesName (intType lo hi) n) :
    ¬ IsSequence exLinkModule.defs n inner := by
  rw [usesName_iff] at hu
  rintro ⟨c, hs⟩
  have : ∀ d ∈ exLinkModule.defs, d.name ≠ "INTEGER" := by decide
  exact this _ hs hu.symm

theorem exLink_boolean {lo hi : Int} : ¬ IsBoolean exLinkModule.defs (intType lo hi) := by
  rintro (h | ⟨n, c, t, _, h, _⟩)
  · rw [usesName_iff] at h
    exact absurd h (by show "INTEGER" ≠ _; decide)
  · exact exLink_simple h

theorem exLink_separate : Separate exLinkModule.defs := by
  have hnd : (exLinkModule.defs.map Def.name).Nodup := by decide
  have hd1 : Def.seq "Packet-id" none exIdent ∈ exLinkModule.defs := List.mem_of_getElem? (i := 0) rfl
  have hd2 : Def.seq "Ccsds-primary" none [exLinkId] ∈ exLinkModule.defs := List.mem_of_getElem? (i := 1) rfl
  have hd3 : Def.seq "Ccsds-header" none [exLinkPrimary] ∈ exLinkModule.defs := List.mem_of_getElem? (i := 2) rfl
  have hd : ∀ d ∈ exLinkModule.defs, ∀ m ∈ d.members, m.comps = none ∨ m = exLinkHeader 5 ∨ m = exLinkHeader 9 ∨
      m = exLinkHeader 7 := by decide +kernel
  rintro n ms ⟨c, h⟩ m hm cs hcs t ht
  have key : ∃ a, m = exLinkHeader a := by
    rcases hd _ h m hm with h | h | h | h
    · rw [h] at hcs; cases hcs
    all_goals exact ⟨_, h⟩
  obtain ⟨a, rfl⟩ := key
  cases hcs
  cases ht
  refine ⟨by decide, trivial, ?_⟩
  rintro ms' ⟨c', h'⟩ m' hm' -
  cases mem_unique_of_nodup_map hnd h' hd3 rfl
  cases List.mem_singleton.1 hm'
  refine ⟨rfl, _, _, .plain, ⟨_, hd2⟩, by decide, trivial, ?_⟩
  rintro ms' ⟨c', h'⟩ m' hm' -
  cases mem_unique_of_nodup_map hnd h' hd2 rfl
  cases List.mem_singleton.1 hm'
  exact ⟨rfl, _, _, .plain, ⟨_, hd1⟩, by simp [compKeys], by simp [compKeys], by simp [compKeys],
    by simp [compKeys], trivial⟩

/-- The leaves of a packet. -/
def exLinkLeaves (a : Nat) (m : Member) : List (List Member) :=
  exIdent.map (fun x => [exLinkHeader a, exLinkPrimary, exLinkId, x]) ++ [[m]]

theorem exLink_leaves (a : Nat) {k : String} {lo hi : Int} :
    Leaves exLinkModule.defs [exLinkHeader a, ⟨k, intType lo hi, none, none⟩]
      (exLinkLeaves a ⟨k, intType lo hi, none, none⟩) := by
  have hid : Leaves exLinkModule.defs exIdent (exIdent.map ([·])) :=
    .leaf exLink_leaf (.leaf exLink_leaf (.leaf exLink_leaf (.leaf exLink_leaf .nil)))
  exact Leaves.seq (m := exLinkHeader a) (n := "Ccsds-header") .plain ⟨none, List.mem_of_getElem? (i := 2) rfl⟩
    (Leaves.seq (m := exLinkPrimary) (n := "Ccsds-primary") .plain ⟨none, List.mem_of_getElem? (i := 1) rfl⟩
      (Leaves.seq (m := exLinkId) (n := "Packet-id") .plain ⟨none, List.mem_of_getElem? (i := 0) rfl⟩ hid .nil) .nil)
    (.leaf exLink_leaf .nil)

theorem exLink_clause {a : Nat} {ks : List String} {v : Leaf} (h : CompFixes (exLinkClause a) ks v) :
    ∃ n : Nat, v = .int n := by
  unfold exLinkClause at h
  cases h with
  | inside h =>
    cases h with
    | inside h =>
      cases h with
      | here => exact ⟨0, rfl⟩
      | afterLeaf h =>
        cases h with
        | here => exact ⟨1, rfl⟩
        | afterLeaf h =>
          cases h with
          | here => exact ⟨1, rfl⟩
          | afterLeaf h =>
            cases h with
            | here => exact ⟨a, rfl⟩
            | afterLeaf h => cases h
    | afterNode h => cases h
  | afterNode h => cases h

theorem exLink_types {a : Nat} {k : String} {lo hi : Int} {path : List Member}
    (hp : path ∈ exLinkLeaves a ⟨k, intType lo hi, none, none⟩) {m : Member} (hm : path.getLast? = some m) :
    (∃ lo hi : Int, m.type = intType lo hi) ∧ m.comment = none := by
  rcases List.mem_append.1 hp with hp | hp
  · obtain ⟨x, hx, rfl⟩ := List.mem_map.1 hp
    cases hm
    simp only [exIdent, List.mem_cons, List.not_mem_nil, or_false] at hx
    rcases hx with rfl | rfl | rfl | rfl
    · exact ⟨⟨_, _, rfl⟩, rfl⟩
    · exact ⟨⟨_, _, rfl⟩, rfl⟩
    · exact ⟨⟨_, _, rfl⟩, rfl⟩
    · exact ⟨⟨_, _, rfl⟩, rfl⟩
  · cases List.mem_singleton.1 hp
    cases hm
    exact ⟨⟨_, _, rfl⟩, rfl⟩

theorem exLink_fixed {a : Nat} {k : String} {lo hi : Int} {path : List Member}
    (hp : path ∈ exLinkLeaves a ⟨k, intType lo hi, none, none⟩) {v : Leaf} (hv : FixedTo path v) :
    ∃ n : Nat, v = .int n := by
  obtain ⟨pre, x, rest, cl, rfl, h1, h2⟩ := hv
  have hx : x.comps = none ∨ x = exLinkHeader a := by
    rcases List.mem_append.1 hp with hp | hp
    · obtain ⟨y, hy, he⟩ := List.mem_map.1 hp
      have hmem : x ∈ [exLinkHeader a, exLinkPrimary, exLinkId, y] := by
        rw [he]; exact List.mem_append.2 (.inr (List.mem_cons_self ..))
      simp only [List.mem_cons, List.not_mem_nil, or_false] at hmem
      rcases hmem with rfl | rfl | rfl | rfl
      · exact .inr rfl
      · exact .inl rfl
      · exact .inl rfl
      · have : ∀ y ∈ exIdent, y.comps = none := by decide
        exact .inl (this _ hy)
    · have hmem : x ∈ [(⟨k, intType lo hi, none, none⟩ : Member)] := by
        rw [← List.mem_singleton.1 hp]; exact List.mem_append.2 (.inr (List.mem_cons_self ..))
      cases List.mem_singleton.1 hmem
      exact .inl rfl
  rcases hx with hx | rfl
  · rw [hx] at h1; cases h1
  · cases h1
    exact exLink_clause h2

theorem exLink_either {a : Nat} {n k : String} {lo hi : Int}
    (hd : Def.seq n none [exLinkHeader a, ⟨k, intType lo hi, none, none⟩] ∈ exLinkModule.defs) :
    EitherMessage exLinkModule.defs [exLinkHeader a, ⟨k, intType lo hi, none, none⟩]
      (exLinkLeaves a ⟨k, intType lo hi, none, none⟩) := by
  have hnb : ∀ path ∈ exLinkLeaves a ⟨k, intType lo hi, none, none⟩, ∀ m, path.getLast? = some m →
      ¬ IsBoolean exLinkModule.defs m.type := by
    intro path hp m hm
    obtain ⟨⟨lo, hi, h⟩, _⟩ := exLink_types hp hm
    rw [h]
    exact exLink_boolean
  refine ⟨fun path hp m hm => ?_, exLink_leaves a,
    exLink_separate.clear (exLink_leaves a) _ n ⟨none, hd⟩ fun _ h => h, fun path hp m hm hor => ?_,
    fun path m pos w hat hl _ => ?_⟩
  · obtain ⟨⟨lo, hi, h⟩, _⟩ := exLink_types hp hm
    have hna : ∀ e len, m.type ≠ .arr e len := by
      intro e len h'
      rw [h] at h'
      cases h'
    exact ⟨fun _ _ _ _ h => (exLink_simple h).elim, fun e len h => absurd h (hna e len),
      fun e len h => absurd h (hna e len), fun e len h => absurd h (hna e len)⟩
  · obtain ⟨⟨lo, hi, h⟩, _⟩ := exLink_types hp hm
    have hty := elementary_itemType (ds := exLinkModule.defs) (t := intType lo hi) (.direct (by decide))
    rw [← h] at hty
    refine ⟨fun e len h' => (by rw [h] at h'; cases h'), fun v hv => ?_, .inl ⟨?_, fun v hv x hx => ?_⟩⟩
    · obtain ⟨n, rfl⟩ := exLink_fixed hp hv
      exact ⟨⟨fun h => absurd h (hnb path hp m hm), fun ⟨b, h⟩ => (by cases h)⟩, fun _ => ⟨n, rfl⟩⟩
    · split at hty
      · exact .inr hty
      · exact .inl hty
    · obtain ⟨n, rfl⟩ := exLink_fixed hp hv
      cases hx
  · unfold isLittle at hl
    rw [(exLink_types (leafAt_mem hat) (leafAt_last hat)).2] at hl
    cases hl

theorem exLink_size {m : Member} {lo hi : Int} (hm : m.type = intType lo hi) {w : Nat}
    (hw : unresolvedSizeBits (intType lo hi) = .ok (w : Int)) : Size exLinkModule.defs (.members [m]) w := by
  refine size_of_elementary (t := intType lo hi) (by rw [hm]; exact .direct (by decide)) ?_
  exact (leafSize_iff .integerRange (by intro e len h; cases h) _).1 hw

theorem exLink_width {m : Member} {lo hi : Int} (hm : m.type = intType lo hi) {w w' : Nat}
    (hw : unresolvedSizeBits (intType lo hi) = .ok (w : Int)) (h : Size exLinkModule.defs (.members [m]) w') : w' = w := by
  have h1 := size_elementary (by decide) (t := intType lo hi) (by rw [hm]; exact .direct (by decide)) h
  have h2 := (leafSize_iff .integerRange (by intro e len h; cases h) _).1 hw
  have := leafSize_unique .integerRange (by intro e len h; cases h) h1 h2
  omega

theorem exLink_first (a : Nat) (m : Member) :
    IdFirst exLinkModule.defs (exLinkHeader a) ["primary"] (exLinkLeaves a m) := by
  have s1 := exLink_size (m := ⟨"packet-version-number", intType 0 7, none, none⟩) rfl (w := 3) (by decide +kernel)
  have s2 := exLink_size (m := ⟨"packet-type-is-cmd", intType 0 1, none, none⟩) rfl (w := 1) (by decide +kernel)
  have s3 := exLink_size (m := ⟨"sec-hdr-flag-is-present", intType 0 1, none, none⟩) rfl (w := 1) (by decide +kernel)
  have s4 := exLink_size (m := exApid) rfl (w := 11) (by decide +kernel)
  intro x hx
  simp only [idPlaces, List.mem_cons, List.not_mem_nil, or_false] at hx
  rcases hx with rfl | rfl | rfl | rfl
  · exact ⟨_, _, .here rfl s1, rfl⟩
  · exact ⟨_, _, .later rfl s1 (.here rfl s2), rfl⟩
  · exact ⟨_, _, .later rfl s1 (.later rfl s2 (.here rfl s3)), rfl⟩
  · exact ⟨_, _, .later rfl s1 (.later rfl s2 (.later rfl s3 (.here rfl s4))), rfl⟩

theorem exLink_only (a : Nat) {k : String} {lo hi : Int} :
    FixesOnlyFirst exLinkModule.defs (exLinkLeaves a ⟨k, intType lo hi, none, none⟩) := by
  intro path m pos w hat
  constructor
  · rintro ⟨v, hv⟩
    have e1 : unresolvedSizeBits (intType 0 7) = .ok ((3 : Nat) : Int) := by decide +kernel
    have e2 : unresolvedSizeBits (intType 0 1) = .ok ((1 : Nat) : Int) := by decide +kernel
    have e4 : unresolvedSizeBits (intType 0 2047) = .ok ((11 : Nat) : Int) := by decide +kernel
    cases hat with
    | here q r => cases q; have := exLink_width rfl e1 r; omega
    | later q r hat =>
    cases q
    have w1 := exLink_width rfl e1 r
    cases hat with
    | here q r => cases q; have := exLink_width rfl e2 r; omega
    | later q r hat =>
    cases q
    have w2 := exLink_width rfl e2 r
    cases hat with
    | here q r => cases q; have := exLink_width rfl e2 r; omega
    | later q r hat =>
    cases q
    have w3 := exLink_width rfl e2 r
    cases hat with
    | here q r => cases q; have := exLink_width rfl e4 r; omega
    | later q r hat =>
    cases hat with
    | here q r =>
      obtain ⟨pre, x, rest, cl, he, h1, _⟩ := hv
      have : x ∈ [(⟨k, intType lo hi, none, none⟩ : Member)] := by
        rw [he]; exact List.mem_append.2 (.inr (List.mem_cons_self ..))
      cases List.mem_singleton.1 this
      cases h1
    | later q r hat => cases hat
  · intro hb
    obtain ⟨⟨lo, hi, h⟩, _⟩ := exLink_types (leafAt_mem hat) (leafAt_last hat)
    rw [h] at hb
    exact absurd hb exLink_boolean

theorem exLink_header {n : String} {ms : List Member} {a : Nat} (hd : Def.seq n none ms ∈ exLinkModule.defs)
    (hk : exLinkHeader a ∈ ms) : FixedHeader exLinkModule.defs n ms (exLinkHeader a) ["primary"] :=
  ⟨none, exLinkClause a, [[("packet-version-number", .int 0), ("packet-type-is-cmd", .int 1),
    ("sec-hdr-flag-is-present", .int 1), ("application-process-identifier", .int a)]], 0, 1, 1, a, hd, hk, rfl, .here,
    ⟨_, _, _, _, .int 0, .int 1, .int 1, .int a, List.Perm.refl _⟩⟩

/-- A test of whether data are taken. -/
def takes (data : List UInt8) : Nat → List CosmosItem → Bool
  | _, [] => true
  | pos, it :: rest =>
    match itemLength it with
    | some (.ofNat w) => (decide (it.kind ≠ "APPEND_ID_ITEM".toList) ||
        ((idNumber it.value).isSome && decide (idNumber it.value = itemValue data pos w it.little it.type))) &&
          takes data (pos + w) rest
    | _ => false

theorem takes_accepts {p : Printer} {data : List UInt8} : ∀ {items : List CosmosItem} {pos : Nat},
    takes data pos items = true → Accepts p data pos items
  | [], _, _ => .nil
  | it :: rest, pos, h => by
    unfold takes at h
    split at h
    · rename_i w hw
      simp only [Bool.and_eq_true, Bool.or_eq_true, decide_eq_true_eq] at h
      have hrest := takes_accepts (p := p) h.2
      by_cases hk : it.kind = "APPEND_ID_ITEM".toList
      · rcases h.1 with h1 | ⟨h1, h2⟩
        · exact absurd hk h1
        · obtain ⟨v, hv⟩ := Option.isSome_iff_exists.1 h1
          exact .id hk hw (.inl ⟨v, hv, by rw [← h2, hv]⟩) hrest
      · exact .other hk hw hrest
    · cases h

/-- It fails: data for a packet that has its header after another member begin with this member. -/
theorem C104_full_false : ¬ C104_full := by
  intro hf
  have hds := exLink_defs
  have hd : Def.seq "Late" none [exCount, exLinkHeader 7] ∈ exLinkModule.defs := List.mem_of_getElem? (i := 5) rfl
  obtain ⟨t, h1, h2⟩ := hf exLink ["link"] _ exLink_input (by rw [hds]; exact exLink_natural) "Late"
    [exCount, exLinkHeader 7] (exLinkHeader 7) ["primary"]
    (by rw [hds]; exact exLink_header hd (by decide)) 20 exPrinter "link" ["Late"] "SAT".toList exOut
    exPrinter_faithful exPrinter_oneLine exTlm_target (by decide +kernel)
  have ht : (readCosmos t).all (fun x => takes [0, 0, 24, 7] 0 x.items && takes [1, 0, 24, 7] 0 x.items) = true := by
    rw [← newText_eq h1]; decide +kernel
  unfold Describes at h2
  generalize readCosmos t = l at h2 ht
  cases h2 with
  | cons h _ =>
    obtain ⟨_, _, ms, hms, h⟩ := h
    simp only [List.all_cons, Bool.and_eq_true] at ht
    have e1 := takes_accepts (p := exPrinter) ht.1.1
    have e2 := takes_accepts (p := exPrinter) ht.1.2
    obtain ⟨d, id, _, _, hid⟩ := h (message_eq (sources_of_input exLink_input) hms (by rw [hds]; exact hd)) [] trivial
      ⟨_, e1⟩ 20 exPrinter exOut (fun _ => none) exPrinter_faithful (by decide +kernel)
    obtain ⟨_, _, _, q1, q2⟩ := hid _ e1
    obtain ⟨_, _, _, r1, r2⟩ := hid _ e2
    cases q1
    cases r1
    exact absurd (q2.symm.trans r2) (by decide)

/-- The data that are taken for `Ping` are those that begin with its message id, 0x1805. -/
example : ∃ t, (∀ fs, Adds fs ((runCosmos 20 exPrinter exLink "link" ["Ping"] "SAT".toList exOut).apply fs)
      (cosmosPath exOut "SAT".toList) t) ∧
    Describes (okBundle (buildFromConfig exLink ["link"])) "link" "SAT".toList
      (fun _ items => HasId exLink ["link"] (okBundle (buildFromConfig exLink ["link"])) "Ping" fun id =>
        id = 0x1805 ∧ ∀ data, Accepts exPrinter data 0 items ↔ BeginsWith data id) ["Ping"] t := by
  have hds := exLink_defs
  have hd : Def.seq "Ping" none [exLinkHeader 5, exCount] ∈ exLinkModule.defs := List.mem_of_getElem? (i := 3) rfl
  obtain ⟨t, h1, h2⟩ := C104_begins_iff_partial exLink ["link"] _ exLink_input (by rw [hds]; exact exLink_natural) "Ping"
    [exLinkHeader 5, exCount] (exLinkHeader 5) ["primary"]
    (by rw [hds]; exact exLink_header hd (by decide)) 20 exPrinter "link" ["Ping"] "SAT".toList exOut
    exPrinter_faithful exPrinter_oneLine exTlm_target (by decide +kernel)
  have ht : (readCosmos t).all (fun x => takes [24, 5, 0, 0] 0 x.items) = true := by
    rw [← newText_eq h1]; decide +kernel
  refine ⟨t, h1, ?_⟩
  unfold Describes at h2 ⊢
  generalize readCosmos t = l at h2 ht
  cases h2 with
  | cons h h' =>
    cases h'
    obtain ⟨k1, k2, ms, hms, h⟩ := h
    simp only [List.all_cons, Bool.and_eq_true] at ht
    have e1 := takes_accepts (p := exPrinter) ht.1
    have hid := h (message_eq (sources_of_input exLink_input) hms (by rw [hds]; exact hd)) (exLinkLeaves 5 exCount)
      (by rw [hds]; exact ⟨exLink_either hd, exLink_first 5 exCount, exLink_only 5⟩) ⟨_, e1⟩
    refine .cons ⟨k1, k2, ms, hms, fun fuel p out fs hp hr => ?_⟩ .nil
    obtain ⟨d, id, g1, g2, g3⟩ := hid fuel p out fs hp hr
    refine ⟨d, id, g1, g2, ?_, g3⟩
    obtain ⟨_, _, _, q1, q2⟩ := (g3 _).1 e1
    cases q1
    exact q2

/-- No data are taken for both `Ping` and `Pong`, which have the message ids 0x1805 and 0x1809. -/
example : ∃ t, Describes (okBundle (buildFromConfig exLink ["link"])) "link" "SAT".toList
    (fun ms items => ms = [exLinkHeader 5, exCount] → Describes (okBundle (buildFromConfig exLink ["link"])) "link"
      "SAT".toList (fun ms' items' => ms' = [exLinkHeader 9, exFew] →
        ¬ ∃ data, Accepts exPrinter data 0 items ∧ Accepts exPrinter data 0 items') ["Ping", "Pong"] t)
    ["Ping", "Pong"] t := by
  have hds := exLink_defs
  have hd : Def.seq "Ping" none [exLinkHeader 5, exCount] ∈ exLinkModule.defs := List.mem_of_getElem? (i := 3) rfl
  have hd' : Def.seq "Pong" none [exLinkHeader 9, exFew] ∈ exLinkModule.defs := List.mem_of_getElem? (i := 4) rfl
  obtain ⟨t, _, h⟩ := C104_apart_partial exLink ["link"] _ exLink_input (by rw [hds]; exact exLink_natural) "Ping" "Pong"
    _ _ (exLinkHeader 5) (exLinkHeader 9) ["primary"] ["primary"] (by rw [hds]; exact exLink_header hd (by decide))
    (by rw [hds]; exact exLink_header hd' (by decide)) 20 exPrinter "link" ["Ping", "Pong"] "SAT".toList exOut
    exPrinter_faithful exPrinter_oneLine exTlm_target (by decide +kernel)
  refine ⟨t, h.imp fun _ _ ⟨k1, k2, ms, k3, k4⟩ => ⟨k1, k2, ms, k3, fun e => (k4 e).imp
    fun _ _ ⟨g1, g2, ms', g3, g4⟩ => ⟨g1, g2, ms', g3, fun e' hboth => ?_⟩⟩⟩
  obtain ⟨id, i1, i2⟩ := g4 e' (exLinkLeaves 5 exCount) (exLinkLeaves 9 exFew)
    (by rw [hds]; exact ⟨exLink_either hd, exLink_first 5 exCount⟩)
    (by rw [hds]; exact ⟨exLink_either hd', exLink_first 9 exFew⟩) hboth
  have hr : (runCfs 20 exPrinter exLink ["link"] exOut).result = .ok () := by decide +kernel
  obtain ⟨d, _, m1, r1, rfl⟩ := i1 20 exPrinter exOut (fun _ => none) exPrinter_faithful hr
  obtain ⟨d', _, m2, r2, rfl⟩ := i2 20 exPrinter exOut (fun _ => none) exPrinter_faithful hr
  have hm : cfsMacros 20 exPrinter exLink ["link"] exOut (okBundle (buildFromConfig exLink ["link"])) (fun _ => none) =
      [("PING_MID".toList, "(0x1805)".toList), ("PONG_MID".toList, "(0x1809)".toList),
       ("LATE_MID".toList, "(0x1807)".toList)] := by decide +kernel
  rw [hm] at m1 m2
  have key : ∀ (x d : Text), (x, "(0x".toList ++ d ++ [')']) ∈ [("PING_MID".toList, "(0x1805)".toList),
      ("PONG_MID".toList, "(0x1809)".toList), ("LATE_MID".toList, "(0x1807)".toList)] →
      (x = "PING_MID".toList → d = "1805".toList) ∧ (x = "PONG_MID".toList → d = "1809".toList) := by
    intro x d h
    have cut : ∀ d e : Text, "(0x".toList ++ d ++ [')'] = "(0x".toList ++ e ++ [')'] → d = e := by
      intro d e h
      rw [List.append_assoc, List.append_assoc] at h
      exact List.append_cancel_right (List.append_cancel_left h)
    simp only [List.mem_cons, Prod.mk.injEq, List.not_mem_nil, or_false] at h
    rcases h with ⟨rfl, h⟩ | ⟨rfl, h⟩ | ⟨rfl, h⟩
    · exact ⟨fun _ => cut _ _ (h.trans (by decide)), fun h => absurd h (by decide)⟩
    · exact ⟨fun h => absurd h (by decide), fun _ => cut _ _ (h.trans (by decide))⟩
    · exact ⟨fun h => absurd h (by decide), fun h => absurd h (by decide)⟩
  have f1 := (key _ _ m1).1 (by decide +kernel)
  have f2 := (key _ _ m2).2 (by decide +kernel)
  subst f1 f2
  exact absurd (r1.trans r2.symm) (by decide +kernel)

end Apg
