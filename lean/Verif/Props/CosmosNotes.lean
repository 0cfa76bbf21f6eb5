import Verif.Lemmas.CosmosNotes
import Verif.Props.CosmosSuccess

/-!
# Property C67: descriptions, units and byte order in COSMOS files
-/

namespace Apg
open Spec

theorem entryNote_says {p : Printer} {m : Member} {s : Specific} {c : CType} {lo hi : Option Num}
    {states : List Text} {e : Entry} (hg : GoodEntry p e) (h : MadeFrom p m s c lo hi states e) :
    SaysItem m (entryNote e) ↔ Quotable (noteText m.comment) := by
  have hc : e.comment = noteText m.comment := by rw [h.comment]; cases m.comment <;> rfl
  have hq := (itemHead_plain hg).quote
  unfold SaysItem entryNote itemBody
  simp only
  rw [hc]
  constructor
  · rintro ⟨ws, _, h1⟩
    exact (quotedText_iff hq).1 ⟨ws, h1⟩
  · intro h1
    refine ⟨_, ?_, quotedText_of hq h1⟩
    rw [h.little]
    cases hm : m.comment with
    | none => exact .big (by rintro ⟨x, hx, _⟩; cases hx)
    | some x =>
      simp only
      split
      · rename_i hl
        rw [show words " LITTLE_ENDIAN".toList = ["LITTLE_ENDIAN".toList] by decide]
        exact .little ⟨x, rfl, hl⟩
      · rename_i hl
        exact .big (by rintro ⟨y, hy, hl'⟩; cases hy; exact hl hl')

/-- **C67, as stated.** The descriptions of the packets and items of a file are the comments of the
messages and members. -/
def C67_full : Prop :=
  ∀ (fuel : Nat) (p : Printer) (raw : List Module) (b : Bundle) (module : String)
    (messages : List String) (target out : Text), Sources raw b → Faithful p → OneLine p →
    IsTarget target → (runCosmos fuel p raw module messages target out).result = .ok () →
    ∃ t, (∀ fs, Adds fs ((runCosmos fuel p raw module messages target out).apply fs)
        (cosmosPath out target) t) ∧ Notes b module SaysPacket SaysItem messages t

/-- **C67, descriptions, partial.** The packets and items of a file are those of the messages in
order, and each has the comment of its message or member as description exactly if the comment can
stand between quotes. -/
theorem C67_descriptions_partial (fuel : Nat) (p : Printer) (raw : List Module) (b : Bundle)
    (module : String) (messages : List String) (target out : Text) (hi : Sources raw b)
    (hp : Faithful p) (ho : OneLine p) (ht : IsTarget target)
    (hr : (runCosmos fuel p raw module messages target out).result = .ok ()) :
    ∃ t, (∀ fs, Adds fs ((runCosmos fuel p raw module messages target out).apply fs)
        (cosmosPath out target) t) ∧
      Notes b module (fun c x => SaysPacket c x ↔ Quotable (noteText c))
        (fun m x => SaysItem m x ↔ Quotable (noteText m.comment)) messages t := by
  obtain ⟨t, xs, h1, rfl, h2, h3⟩ := cosmos_run hi hp ho ht hr
  refine ⟨_, h1, xs.map (fun x => (packetNote target x, x.entries.map entryNote)), ?_, ?_⟩
  · rw [readNotes_text ht.1 h2, List.flatMap_map]
  · refine (h3.flip.imp_mem fun x hx n hnx => ?_).flip.map_right
    obtain ⟨g1, g2, g3⟩ := h2 x hx
    obtain ⟨k1, ms, k2, ls, k3, k4, c, k5, k6⟩ := hnx
    refine ⟨c, ms, k5, ⟨rfl, k1, ?_⟩, ls, k3, ?_⟩
    · obtain ⟨a, ha, he⟩ := packetBody_quote (comment := x.comment) ht.1 g1
      have hc : x.comment = noteText c := by rw [k6]; cases c <;> rfl
      unfold SaysPacket packetNote
      simp only
      rw [he, hc]
      constructor
      · intro h; exact (quotedText_iff ha).1 ⟨_, h⟩
      · intro h; exact quotedText_of ha h
    · refine (k4.flip.imp_mem fun e he path hpe => ?_).flip.map_right
      obtain ⟨m, s, c, lo, hi, states, e1, _, _, e4, _⟩ := hpe
      obtain ⟨c, rfl, e6⟩ := makeEntry_ok e4
      exact ⟨m, e1, rfl, e6.name, entryNote_says (g3 e he) e6⟩

/-- **C67, units and byte order.** An item has one UNITS line with the unit of its member's comment,
or none if there is no unit, and ends with LITTLE_ENDIAN exactly if the comment says so. -/
theorem C67_units (fuel : Nat) (p : Printer) (raw : List Module) (b : Bundle)
    (module : String) (messages : List String) (target out : Text) (hi : Sources raw b)
    (hp : Faithful p) (ho : OneLine p) (ht : IsTarget target)
    (hr : (runCosmos fuel p raw module messages target out).result = .ok ()) :
    ∃ t, (∀ fs, Adds fs ((runCosmos fuel p raw module messages target out).apply fs)
        (cosmosPath out target) t) ∧
      Describes b module target (LeafWise b.defs fun _ m it =>
        UnitsOf m.comment it.units ∧ (it.little = true ↔ IsLittle m.comment)) messages t := by
  refine cosmos_describes hi hp ho ht hr fun _ _ _ hl _ h => leafWise_of hl h
    fun _ m _ _ _ _ _ e _ _ _ _ hm _ => ?_
  show UnitsOf m.comment (if e.unit = [] then [] else [[e.unit, e.unit]]) ∧ (e.little = true ↔ _)
  rw [hm.unit, hm.little]
  cases hc : m.comment with
  | none => exact ⟨.none (by simp), by simp [IsLittle]⟩
  | some x =>
    simp only
    refine ⟨?_, by simp [IsLittle]⟩
    split
    · rename_i hu
      exact .none fun y hy => by cases hy; exact String.toList_eq_nil_iff.1 hu
    · rename_i hu
      exact .unit rfl fun h => hu (by rw [h]; rfl)

/-! ### Examples -/

/-- Comments with quotes, a unit and a mark. -/
def exNotesModule : Module :=
  ⟨"notes", none, none, [], [
    .seq "Report" (some ⟨"Sent \\\"daily\\\"", "", false⟩) [
      ⟨"volts", .plain "INTEGER" (some (.int 0)) (some (.int 65535)), some ⟨"Bus voltage", "V", true⟩, none⟩,
      ⟨"mode", .plain "INTEGER" (some (.int 0)) (some (.int 255)), some ⟨"say \"hi\"", "", false⟩, none⟩,
      ⟨"spare", .plain "INTEGER" (some (.int 0)) (some (.int 255)), none, none⟩],
    .seq "Beep" (some ⟨"say \"hi\"", "", false⟩) [
      ⟨"tone", .plain "INTEGER" (some (.int 0)) (some (.int 255)), none, none⟩]]⟩

def exNotes : List Module := [exNotesModule]

theorem exNotes_sources : Sources exNotes (okBundle (buildFromTexts exNotes)) :=
  sources_of (by decide +kernel) (by decide +kernel) (by decide +kernel)

theorem exNotes_runs : (runCosmos 20 exPrinter exNotes "notes" ["Report", "Beep"] "SAT".toList exOut).result =
    .ok () := by
  decide +kernel

/-- The hypotheses of the theorems are met; the descriptions with quotes that no backslash
precedes end early. -/
example : ∃ t, (∀ fs, Adds fs
      ((runCosmos 20 exPrinter exNotes "notes" ["Report", "Beep"] "SAT".toList exOut).apply fs)
      (cosmosPath exOut "SAT".toList) t) ∧
    readNotes t = [⟨true, "Report".toList, some ("Sent \\\"daily\\\"".toList, [])⟩,
      ⟨false, "volts".toList, some ("Bus voltage".toList, ["LITTLE_ENDIAN".toList])⟩,
      ⟨false, "mode".toList, some ("say ".toList, ["hi\"\"".toList])⟩,
      ⟨false, "spare".toList, some ([], [])⟩,
      ⟨true, "Beep".toList, some ("say ".toList, ["hi\"\"".toList])⟩,
      ⟨false, "tone".toList, some ([], [])⟩] ∧
    (readCosmos t).map (fun x => x.items.map fun it => (it.units, it.little)) =
      [[([[['V'], ['V']]], true), ([], false), ([], false)], [([], false)]] := by
  obtain ⟨t, h1, _⟩ := C67_descriptions_partial 20 exPrinter exNotes _ "notes" ["Report", "Beep"]
    "SAT".toList exOut exNotes_sources exPrinter_faithful exPrinter_oneLine exTlm_target exNotes_runs
  refine ⟨t, h1, ?_, ?_⟩
  · rw [← newText_eq h1]; decide +kernel
  · rw [← newText_eq h1]; decide +kernel

/-- It fails for a comment with quotes. -/
theorem C67_full_false : ¬ C67_full := by
  intro hf
  obtain ⟨t, h1, gs, h2, h3⟩ := hf 20 exPrinter exNotes _ "notes" ["Beep"] "SAT".toList exOut exNotes_sources
    exPrinter_faithful exPrinter_oneLine exTlm_target (by decide +kernel)
  have hk : (readNotes t).head?.map (·.text) = some (some ("say ".toList, ["hi\"\"".toList])) := by
    rw [← newText_eq h1]; decide +kernel
  rw [h2] at hk
  cases h3 with
  | @cons _ g _ _ h h' =>
    cases h'
    obtain ⟨c, ms, ⟨m, hm, _, hd⟩, ⟨_, _, h⟩, _⟩ := h
    have hmods : (okBundle (buildFromTexts exNotes)).modules = [exNotesModule] := by decide +kernel
    rw [hmods, List.mem_singleton] at hm
    subst hm
    simp only [exNotesModule, List.mem_cons, List.not_mem_nil, or_false, Def.seq.injEq] at hd
    rcases hd with ⟨hd, _⟩ | ⟨_, rfl, _⟩
    · exact absurd hd (by decide)
    · unfold SaysPacket at h
      simp only [List.flatMap_cons, List.flatMap_nil, List.append_nil, List.head?_cons, Option.map_some, h,
        Option.some.injEq, Prod.mk.injEq] at hk
      exact absurd hk.2 (by decide)

end Apg
