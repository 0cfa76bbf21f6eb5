import Verif.Spec.Agreement
import Verif.Props.Agreement
import Verif.Props.Defines

/-!
# Property C50: application ids in COSMOS and cFS
-/

namespace Apg
open Spec

/-- The statement of C50 for leaves with a property. -/
def SameApid (G : List Def → List Member → Member → Prop) : Prop :=
  ∀ (raw : List Module) (cfg : List String) (b : Bundle), Input raw cfg b →
    ∀ (n : String) (c : Option Comment) (ms : List Member) (k : Member) (cl : Comps) (ks : List String)
      (parts : List (List (String × Leaf))) (ver ty fl ap : Nat),
      Def.seq n c ms ∈ b.defs → k ∈ ms → k.comps = some cl → HeaderIn cl ks (headerComps parts) →
      FixesHeader parts ver ty fl ap → ver < 8 ∧ ty < 2 ∧ fl < 2 ∧ ap < 2 ^ 11 →
      (∀ (fuel : Nat) (p : Printer) (out : Text) (fs : Files), Faithful p →
        (runCfs fuel p raw cfg out).result = .ok () →
        ∃ d id, (raise (ident n) ++ "_MID".toList, "(0x".toList ++ d ++ [')']) ∈
          cfsMacros fuel p raw cfg out b fs ∧ readNat 16 d = some id ∧ id % 2 ^ 11 = ap) ∧
      ∀ (fuel : Nat) (p : Printer) (module : String) (messages : List String) (target out : Text),
        Faithful p → OneLine p → IsTarget target →
        (runCosmos fuel p raw module messages target out).result = .ok () →
        ∃ t, (∀ fs, Adds fs ((runCosmos fuel p raw module messages target out).apply fs)
            (cosmosPath out target) t) ∧
          Describes b module target (LeafWise b.defs fun path m it => G b.defs path m → ApidPath k ks path →
            it.kind = "APPEND_ID_ITEM".toList ∧ ∃ d, it.value = ["0x".toList ++ d] ∧ readNat 16 d = some ap)
            messages t

/-- Full statement of C50. -/
def C50_full : Prop := SameApid fun _ _ _ => True

theorem headerIn_fixed {cl : Comps} {ks : List String} {h : Comps} (hh : HeaderIn cl ks h) :
    Fixed.header h ∈ fixedOf cl := by
  induction hh with
  | here => simp [fixedOf]
  | inside hk _ ih => simp only [fixedOf, hk, if_false, List.mem_append]; exact .inl ih
  | afterLeaf _ ih => simp only [fixedOf, List.mem_cons]; exact .inr ih
  | afterNode _ ih => simp only [fixedOf, List.mem_append]; exact .inr ih

theorem leavesComps_fixes {l : List (String × Leaf)} {k : String} {v : Leaf} (h : (k, v) ∈ l) :
    CompFixes (leavesComps l) [k] v := by
  induction l with
  | nil => cases h
  | cons x l ih =>
    obtain ⟨k', v'⟩ := x
    rcases List.mem_cons.1 h with h | h
    · cases h; exact .here
    · exact .afterLeaf (ih h)

theorem headerComps_fixes {parts : List (List (String × Leaf))} {k : String} {v : Leaf}
    (h : (k, v) ∈ parts.flatten) : CompFixes (headerComps parts) ["packet-identification", k] v := by
  induction parts with
  | nil => cases h
  | cons l parts ih =>
    rw [List.flatten_cons, List.mem_append] at h
    rcases h with h | h
    · exact .inside (leavesComps_fixes h)
    · exact .afterNode (ih h)

theorem headerIn_fixes {cl : Comps} {ks : List String} {h : Comps} (hh : HeaderIn cl ks h)
    {ks' : List String} {v : Leaf} (hf : CompFixes h ks' v) : CompFixes cl (ks ++ ks') v := by
  induction hh with
  | here => exact .inside hf
  | inside _ _ ih => exact .inside (ih hf)
  | afterLeaf _ ih => exact .afterLeaf (ih hf)
  | afterNode _ ih => exact .afterNode (ih hf)

/-- Value of the item of an application id that is no array and no BOOLEAN. -/
theorem item_apid {p : Printer} {m : Member} (hk : m.key = "application-process-identifier")
    (ha : ∀ e len, m.type ≠ .arr e len) {v : Leaf} {n : Nat} (hv : Denotes v n) {c : CType} (hc : c ≠ .bool)
    {lo hi : Option Num} {states : List Text} {e : Entry}
    (hm : MadeFrom p m (.leaf v) c lo hi states e) :
    (readItem p e).kind = "APPEND_ID_ITEM".toList ∧
      ∃ d, (readItem p e).value = ["0x".toList ++ d] ∧ readNat 16 d = some n := by
  have hs : e.specific = "0x".toList ++ hexText 2 (n : Int) := by
    have := hm.specific
    unfold specificText at this
    split at this
    · rename_i el len ht; exact absurd ht (ha _ _)
    · rw [if_pos hk] at this
      cases hv <;> exact (Except.ok.inj this).symm
  have harr : e.isArray = false := by
    rw [hm.isArray]
    split
    · rename_i el len ht; exact absurd ht (ha _ _)
    · rfl
  have hf : (itemFields e).2.1 = "0x".toList ++ hexText 2 (n : Int) := by
    unfold itemFields
    simp only [hm.ctype, hc, if_false, hs]
  constructor
  · show (itemFields e).2.2.text = _
    have : (itemFields e).2.2 = .id := by
      have hne := (isWord_hex (n : Int)).1
      rw [← hf] at hne
      unfold itemFields at hne ⊢
      simp only [harr, Bool.false_eq_true, if_false] at hne ⊢
      rw [if_pos hne]
    rw [this]
    rfl
  · refine ⟨_, ?_, readNat_hex n⟩
    show words (itemFields e).2.1 = _
    rw [hf, words_word_only (isWord_hex _)]

/-- **C50, partial.** For a packet with a fixed primary header the low 11 bits of the message id
printed by cFS and the number printed by COSMOS for the application id are both the fixed
application id. Missing: members that several clauses reach, application ids that are arrays or
BOOLEAN. -/
theorem C50_application_id_partial : SameApid fun ds path m =>
    Clear ds path ∧ (∀ e len, m.type ≠ .arr e len) ∧ ¬ IsBoolean ds m.type := by
  intro raw cfg b hin n c ms k cl ks parts ver ty fl ap hd hk hcl hh hfix hr
  have hsrc := sources_of_input hin
  have hs := accepted_sized hsrc
  constructor
  · intro fuel p out fs hp hrun
    have hmem : (n, Fixed.header (headerComps parts)) ∈ b.defs.flatMap fixedOfDef := by
      refine List.mem_flatMap.2 ⟨_, hd, ?_⟩
      refine List.mem_flatMap.2 ⟨k, hk, List.mem_map.2 ⟨_, ?_, rfl⟩⟩
      unfold fixedOfMember
      rw [hcl]
      exact headerIn_fixed hh
    obtain ⟨d, _, h1, _, h2, _⟩ := C25_packet_numbers_partial fuel p hp raw hin.grammar cfg out hrun b
      hin.accepted fs n n parts parts ver ver ty ty fl fl ap ap hmem hmem hfix hfix hr.2 hr.2
    refine ⟨d, _, h1, h2, ?_⟩
    have := hr.2.2.2
    omega
  · intro fuel p module messages target out hp ho ht hrun
    obtain ⟨v, t, f, a, _, _, _, hap, hperm⟩ := hfix
    have hmem : ("application-process-identifier", a) ∈ parts.flatten := hperm.mem_iff.2 (by simp)
    refine cosmos_describes hsrc hp ho ht hrun fun _ _ _ hl _ h => leafWise_of hl h
      fun path m s c lo hi states e _ hlast hmd hsh hm hfound hG hpath => ?_
    obtain ⟨pre, rest, hp1, hp2⟩ := hpath
    have hkey : m.key = "application-process-identifier" := by
      have h1 : (path.map (·.key)).getLast? = some m.key := by rw [List.getLast?_map, hlast]; rfl
      rw [hp1, List.map_append, List.map_cons, hp2] at h1
      have e : (pre.map (·.key) ++ k.key :: (ks ++ ["packet-identification", "application-process-identifier"])) =
          (pre.map (·.key) ++ k.key :: (ks ++ ["packet-identification"])) ++ ["application-process-identifier"] := by
        simp
      rw [e, List.getLast?_append] at h1
      simpa using h1.symm
    have hfixed : FixedTo path a := by
      refine ⟨pre, k, rest, cl, hp1, hcl, ?_⟩
      rw [hp2]
      exact headerIn_fixes hh (headerComps_fixes hmem)
    have hs' : s = .leaf a := ((hfound hG.1).2 a).2 (.inr hfixed)
    subst hs'
    refine item_apid hkey hG.2.1 hap (fun hc => ?_) hm
    exact hG.2.2 ((itemShape_bool_iff hs.nodup hs.grammar (member_grammar hs.grammar hmd).2.1 hsh).1 hc)

theorem leaves_unique {ds : List Def} (hnd : (ds.map (·.name)).Nodup) {ms : List Member}
    {ls ls' : List (List Member)} (h : Leaves ds ms ls) (h' : Leaves ds ms ls') : ls = ls' := by
  induction h generalizing ls' with
  | nil => cases h'; rfl
  | leaf hno _ ih =>
    cases h' with
    | leaf _ h' => rw [ih h']
    | seq hu hs _ _ => exact absurd hs (hno _ _ hu)
  | seq hu hs _ _ ih1 ih2 =>
    cases h' with
    | leaf hno _ => exact absurd hs (hno _ _ hu)
    | seq hu' hs' h1 h2 =>
      rw [usesName_iff] at hu hu'
      subst hu
      subst hu'
      obtain ⟨c, hs⟩ := hs
      obtain ⟨c', hs'⟩ := hs'
      cases mem_unique_of_nodup_map hnd hs hs' rfl
      rw [ih1 h1, ih2 h2]

/-- The member with the application id. -/
def exApid : Member := ⟨"application-process-identifier", intType 0 2047, none, none⟩

def exIdent : List Member := [
  ⟨"packet-version-number", intType 0 7, none, none⟩, ⟨"packet-type-is-cmd", intType 0 1, none, none⟩,
  ⟨"sec-hdr-flag-is-present", intType 0 1, none, none⟩, exApid]

/-- The identification with a default application id. -/
def exDefault : Member := ⟨"packet-identification", .plain "Packet-id" none none, none,
  some (.leaf "application-process-identifier" (.int 5) .nil)⟩

/-- The primary header with a default version. -/
def exPrimary : Member := ⟨"primary", .plain "Ccsds-primary" none none, none,
  some (.node "packet-identification" (.leaf "packet-version-number" (.int 0) .nil) .nil)⟩

/-- A packet header with defaults for the version and the application id. -/
def exDefaults : List Module :=
  [{ name := "base", defs := [.seq "Packet-id" none exIdent, .seq "Ccsds-primary" none [exDefault],
      .seq "Ccsds-header" none [exPrimary], exPacket "Ping" 0 1 1 7] }]

theorem exPacket_members (name : String) (version type flag apid : Nat) :
    ∃ k cl, exPacket name version type flag apid = .seq name none [k] ∧ k.comps = some cl ∧
      k.type = .plain "Ccsds-header" none none ∧
      ∃ parts, HeaderIn cl ["primary"] (headerComps parts) ∧ FixesHeader parts version type flag apid :=
  ⟨_, _, rfl, rfl, rfl, [[("packet-version-number", .int version), ("packet-type-is-cmd", .int type),
      ("sec-hdr-flag-is-present", .int flag), ("application-process-identifier", .int apid)]], .here,
    ⟨_, _, _, _, .int _, .int _, .int _, .int _, List.Perm.refl _⟩⟩

/-- It fails: with defaults at several levels COSMOS finds the member twice, drops what the packet
fixes and prints the default. -/
theorem C50_full_false : ¬ C50_full := by
  intro hf
  have hin : Input exDefaults ["base"] (okBundle (buildFromConfig exDefaults ["base"])) :=
    input_of (by decide +kernel) (by decide +kernel) (by decide +kernel)
  have hsrc := sources_of_input hin
  have hs := accepted_sized hsrc
  obtain ⟨k, cl, hk, hcl, hkt, parts, hh, hfix⟩ := exPacket_members "Ping" 0 1 1 7
  have hd : exPacket "Ping" 0 1 1 7 ∈ (okBundle (buildFromConfig exDefaults ["base"])).defs :=
    List.mem_of_getElem? (i := 3) (by decide +kernel)
  rw [hk] at hd
  have hd1 : Def.seq "Packet-id" none exIdent ∈ (okBundle (buildFromConfig exDefaults ["base"])).defs :=
    List.mem_of_getElem? (i := 0) (by decide +kernel)
  have hd2 : Def.seq "Ccsds-primary" none [exDefault] ∈ (okBundle (buildFromConfig exDefaults ["base"])).defs :=
    List.mem_of_getElem? (i := 1) (by decide +kernel)
  have hd3 : Def.seq "Ccsds-header" none [exPrimary] ∈ (okBundle (buildFromConfig exDefaults ["base"])).defs :=
    List.mem_of_getElem? (i := 2) (by decide +kernel)
  obtain ⟨t, h1, h2⟩ := (hf exDefaults ["base"] _ hin "Ping" none [k] k cl ["primary"] parts 0 1 1 7
    hd (List.Mem.head _) hcl hh hfix (by decide)).2 40 exPrinter "base" ["Ping"] "SAT".toList exOut
    exPrinter_faithful exPrinter_oneLine exTlm_target (by decide +kernel)
  have hv : (readCosmos t).map (fun x => x.items.map (·.value)) = [[[], [], [], ["0x05".toList]]] := by
    rw [← newText_eq h1]; decide +kernel
  unfold Describes at h2
  generalize readCosmos t = l at h2 hv
  cases h2 with
  | cons h h' =>
    cases h'
    obtain ⟨_, _, ms, hms, ls, hl, hall⟩ := h
    have := message_eq hsrc hms hd
    subst this
    have hint : ∀ m ∈ exIdent, ∀ n inner, UsesName m.type n → ¬ IsSequence
        (okBundle (buildFromConfig exDefaults ["base"])).defs n inner := by
      intro m hm n inner hu ⟨c, hc⟩
      have hn : m.type.name = "INTEGER" := by
        have : ∀ m ∈ exIdent, m.type.name = "INTEGER" := by decide
        exact this m hm
      rw [usesName_iff, hn] at hu
      subst hu
      exact absurd rfl (builtin_not_def hs.grammar (n := "INTEGER") (by decide) _ hc)
    have hleaf : ∀ l : List Member, (∀ m ∈ l, m ∈ exIdent) →
        Leaves (okBundle (buildFromConfig exDefaults ["base"])).defs l (l.map ([·])) := by
      intro l
      induction l with
      | nil => exact fun _ => .nil
      | cons m l ih =>
        exact fun h => .leaf (hint m (h m (List.Mem.head _))) (ih fun x hx => h x (.tail _ hx))
    have hL := Leaves.seq (m := k) (by rw [hkt]; exact .plain) ⟨_, hd3⟩
      (Leaves.seq (m := exPrimary) .plain ⟨_, hd2⟩
        (Leaves.seq (m := exDefault) .plain ⟨_, hd1⟩ (hleaf exIdent fun _ h => h) .nil) .nil) .nil
    have := leaves_unique hs.nodup hl hL
    subst this
    simp only [List.map_cons, List.map_nil, List.cons.injEq, and_true] at hv
    generalize CosmosPacket.items _ = items at hall hv
    simp only [exIdent, List.map_cons, List.map_nil, List.append_nil] at hall
    cases hall with
    | cons _ hall =>
    cases hall with
    | cons _ hall =>
    cases hall with
    | cons _ hall =>
    cases hall with
    | cons h hall =>
      obtain ⟨m, _, hR⟩ := h
      obtain ⟨_, d, hval, hread⟩ := hR trivial ⟨[], [exPrimary, exDefault, exApid], rfl, rfl⟩
      cases hall
      simp only [List.map_cons, List.map_nil, List.cons.injEq, and_true] at hv
      rw [hv.2.2.2] at hval
      have e : "0x05".toList = "0x".toList ++ ['0', '5'] := by decide
      rw [e] at hval
      have : ['0', '5'] = d := List.append_cancel_left (List.cons.inj hval).1
      subst this
      exact absurd hread (by decide +kernel)

theorem exCcsds_input : Input (exCcsds 5 9) ["base"] (okBundle (buildFromConfig (exCcsds 5 9) ["base"])) :=
  input_of (by decide +kernel) (by decide +kernel) (by decide +kernel)

/-- The clauses of the packets are separate. -/
theorem exCcsds_separate : Separate (okBundle (buildFromConfig (exCcsds 5 9) ["base"])).defs := by
  have hs := accepted_sized (sources_of_input exCcsds_input)
  have hd1 : Def.seq "Packet-id" none exIdent ∈ (okBundle (buildFromConfig (exCcsds 5 9) ["base"])).defs :=
    List.mem_of_getElem? (i := 0) (by decide +kernel)
  have hd2 : Def.seq "Ccsds-primary" none [⟨"packet-identification", .plain "Packet-id" none none, none, none⟩] ∈
      (okBundle (buildFromConfig (exCcsds 5 9) ["base"])).defs :=
    List.mem_of_getElem? (i := 1) (by decide +kernel)
  have hd3 : Def.seq "Ccsds-header" none [⟨"primary", .plain "Ccsds-primary" none none, none, none⟩] ∈
      (okBundle (buildFromConfig (exCcsds 5 9) ["base"])).defs :=
    List.mem_of_getElem? (i := 2) (by decide +kernel)
  have hd : (okBundle (buildFromConfig (exCcsds 5 9) ["base"])).defs.all (fun d => d.members.all fun m =>
      decide (m.comps = none ∨ m.type = .plain "Ccsds-header" none none ∧ [5, 9].any fun a =>
        m.comps = some (.node "primary" (.node "packet-identification"
          (.leaf "packet-version-number" (.int 0) (.leaf "packet-type-is-cmd" (.int 1)
            (.leaf "sec-hdr-flag-is-present" (.int 1)
              (.leaf "application-process-identifier" (.int a) .nil)))) .nil) .nil))) = true := by
    decide +kernel
  rintro n ms ⟨c, h⟩ m hm cs hcs t ht
  rcases of_decide_eq_true (List.all_eq_true.1 (List.all_eq_true.1 hd _ h) m hm) with h | ⟨hty, h⟩
  · rw [h] at hcs; cases hcs
  · obtain ⟨a, _, h⟩ := List.any_eq_true.1 h
    rw [of_decide_eq_true h] at hcs
    cases hcs
    rw [hty] at ht
    cases ht
    refine ⟨by decide, trivial, ?_⟩
    rintro ms' ⟨c', h'⟩ m' hm' -
    cases mem_unique_of_nodup_map hs.nodup h' hd3 rfl
    cases List.mem_singleton.1 hm'
    refine ⟨rfl, _, _, .plain, ⟨_, hd2⟩, by decide, trivial, ?_⟩
    rintro ms' ⟨c', h'⟩ m' hm' -
    cases mem_unique_of_nodup_map hs.nodup h' hd2 rfl
    cases List.mem_singleton.1 hm'
    exact ⟨rfl, _, _, .plain, ⟨_, hd1⟩, by simp [compKeys], by simp [compKeys], by simp [compKeys],
      by simp [compKeys], trivial⟩

/-- The theorem applies: cFS prints `0x1809` and COSMOS `0x09`. -/
example : (∃ d id, ("PONG_MID".toList, "(0x".toList ++ d ++ [')']) ∈
      cfsMacros 40 exPrinter (exCcsds 5 9) ["base"] exOut
        (okBundle (buildFromConfig (exCcsds 5 9) ["base"])) (fun _ => none) ∧ readNat 16 d = some id ∧ id % 2 ^ 11 = 9) ∧
    (readCosmos (newText (runCosmos 40 exPrinter (exCcsds 5 9) "base" ["Ping", "Pong"] "SAT".toList exOut)
      (cosmosPath exOut "SAT".toList))).map (fun x => x.items.map (·.value)) =
      [[["0".toList], ["1".toList], ["1".toList], ["0x05".toList]],
       [["0".toList], ["1".toList], ["1".toList], ["0x09".toList]]] := by
  obtain ⟨k, cl, hk, hcl, _, parts, hh, hfix⟩ := exPacket_members "Pong" 0 1 1 9
  have hd : exPacket "Pong" 0 1 1 9 ∈ (okBundle (buildFromConfig (exCcsds 5 9) ["base"])).defs :=
    List.mem_of_getElem? (i := 4) (by decide +kernel)
  rw [hk] at hd
  have := C50_application_id_partial (exCcsds 5 9) ["base"] _ exCcsds_input "Pong" none [k] k cl
    ["primary"] parts 0 1 1 9 hd (List.Mem.head _) hcl hh hfix (by decide)
  have hP : "PONG_MID".toList = raise (ident "Pong") ++ "_MID".toList := by decide +kernel
  refine ⟨?_, by decide +kernel⟩
  rw [hP]
  exact this.1 40 exPrinter exOut (fun _ => none) exPrinter_faithful (by decide +kernel)

end Apg
