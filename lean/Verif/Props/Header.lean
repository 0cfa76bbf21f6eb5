import Verif.Lemmas.Header

/-!
# Property C42: the structs in the headers
-/

namespace Apg
open Spec

/-! ### Examples -/

instance : DecidablePred GrammarComment := fun c => by unfold GrammarComment; infer_instance

instance : DecidablePred GrammarComments := fun m => by unfold GrammarComments; infer_instance

theorem input_of {raw : List Module} {cfg : List String} (h1 : grammarB raw = true)
    (h2 : raw.all (fun m => decide (GrammarComments m)) = true)
    (h3 : isOk (buildFromConfig raw cfg) = true) :
    Input raw cfg (okBundle (buildFromConfig raw cfg)) :=
  ⟨grammarB_sound h1, fun m hm => of_decide_eq_true (List.all_eq_true.1 h2 m hm), okBundle_eq h3⟩

/-- Text of a file, empty if there is none. -/
def fileText (fs : Files) (path : Text) : Text :=
  match fs path with
  | none => []
  | some c => c.filterMap fun x => x.getLeft?

theorem fileText_eq {fs : Files} {path t : Text} (h : HasText fs path t) : fileText fs path = t := by
  unfold fileText
  unfold HasText at h
  rw [h]
  simp only [List.filterMap_map]
  clear h
  induction t with
  | nil => rfl
  | cons c t ih =>
    rw [List.filterMap_cons_some (f := (fun x : Char ⊕ UInt8 => x.getLeft?) ∘ Sum.inl) (b := c) rfl, ih]

/-- A module with a string, an array, a comment and ranges of several widths. -/
def exStruct : List Module :=
  [{ name := "m", defs := [
      .simple "Uint16-t" none (.plain "INTEGER" (some (.int 0)) (some (.int 65535))),
      .simple "Small" none (.plain "INTEGER" (some (.int 0)) (some (.int 5))),
      .enum "Mode" none [⟨"off", 0, none⟩, ⟨"on", 1, none⟩],
      .seq "Rec" (some ⟨"A record", "", false⟩)
        [⟨"name", .str "IA5String" 12, none, none⟩,
         ⟨"raw-data", .arr (.plain "Uint16-t" none none) 4, some ⟨"samples", "V", false⟩, none⟩,
         ⟨"level", .plain "INTEGER" (some (.int 3)) (some (.int 300)), none, none⟩,
         ⟨"mode", .plain "Mode" none none, none, none⟩,
         ⟨"small", .plain "Small" none none, none, none⟩]] }]

theorem exStruct_input : Input exStruct ["m"] (okBundle (buildFromConfig exStruct ["m"])) :=
  input_of (by decide +kernel) (by decide +kernel) (by decide +kernel)

theorem exStruct_run : ((Command.c exPrinter).run 20 exStruct ["m"] exOut).result = .ok () := by
  decide +kernel

/-- A successful run on `exStruct`. -/
example : fileText (((Command.c exPrinter).run 20 exStruct ["m"] exOut).apply fun _ => none)
    "gen/m.h".toList =
    ("#ifndef ASN1_PARSER_M_H_INCLUDED\n#define ASN1_PARSER_M_H_INCLUDED\n\n/*\n" ++
     "This file was autogenerated from ASN.1 model.\n*/\n\n#include <stdint.h>\n\n" ++
     "// NOTE: Uint16-t is embedded directly where it is used. Rationale: Bitfields cannot be typedef'd.\n\n" ++
     "// NOTE: Small is embedded directly where it is used. Rationale: Bitfields cannot be typedef'd.\n\n" ++
     "typedef enum {\n  off = 0,\n  on = 1,\n} __attribute__((packed)) Mode;\n\n" ++
     "/* A record */\ntypedef struct\n{\n  char name[12];\n  // [V] samples\n  uint16_t raw_data[4];\n" ++
     "  uint16_t level : 9;\n  Mode mode : 1;\n  uint8_t small : 3;\n} __attribute__((packed)) Rec;\n\n" ++
     "#endif // ASN1_PARSER_M_H_INCLUDED\n").toList := by decide +kernel

/-! ### C42 -/

/-- Full statement of C42: in the header of every module each struct has one field per
member in declaration order, named after the member, with all declared dimensions. -/
def C42_full : Prop :=
  ∀ (cmd : Command) fuel raw cfg out b fs, Input raw cfg b →
    (cmd.run fuel raw cfg out).result = .ok () → ∀ m ∈ b.modules,
      ∃ h : HeaderParts, HasText ((cmd.run fuel raw cfg out).apply fs) (cmd.path out m.name) h.text ∧
        HasBlocks (fun _ _ _ => True) dims m h

/-- **C42, partial.** After a successful run of generate-cfs, generate-c or generate-binary
the header of every module consists of the guard, the includes and one block per definition;
the block of a SEQUENCE is a struct with exactly one field per member, in declaration order,
named after the member, with the outermost declared dimension, and the block of an
ENUMERATED has one enumerator per item with its position. Missing: the inner dimensions of
nested arrays and of arrays of strings are lost. -/
theorem C42_struct_fields_partial (cmd : Command) (fuel : Nat) (raw : List Module) (cfg : List String)
    (out : Text) (b : Bundle) (fs : Files) (hin : Input raw cfg b)
    (hr : (cmd.run fuel raw cfg out).result = .ok ()) (m : Module) (hm : m ∈ b.modules) :
    ∃ h : HeaderParts, HasText ((cmd.run fuel raw cfg out).apply fs) (cmd.path out m.name) h.text ∧
      HasBlocks (fun _ _ _ => True) (fun t => (dims t).take 1) m h := by
  obtain ⟨bm, hbm, rfl⟩ := List.mem_map.1 hm
  obtain ⟨h, sorted, tss, h1, _, h3, h4, h5, _⟩ :=
    header_file hin.grammar hin.comments hin.accepted hr hbm fs
  exact ⟨h, h1, sorted, tss, h3, h4.imp (fun d ts hb => block_mono (fun _ _ _ _ _ => trivial) hb), h5⟩

/-- Without nested arrays and arrays of strings all dimensions are printed. -/
theorem C42_struct_fields_flat_partial (cmd : Command) (fuel : Nat) (raw : List Module)
    (cfg : List String) (out : Text) (b : Bundle) (fs : Files) (hin : Input raw cfg b)
    (hr : (cmd.run fuel raw cfg out).result = .ok ()) (m : Module) (hm : m ∈ b.modules)
    (hflat : ∀ d ∈ m.defs, ∀ k ∈ d.members, (dims k.type).length ≤ 1) :
    ∃ h : HeaderParts, HasText ((cmd.run fuel raw cfg out).apply fs) (cmd.path out m.name) h.text ∧
      HasBlocks (fun _ _ _ => True) dims m h := by
  obtain ⟨h, h1, sorted, tss, h2, h3, h4⟩ :=
    C42_struct_fields_partial cmd fuel raw cfg out b fs hin hr m hm
  refine ⟨h, h1, sorted, tss, h2, h3.imp_mem ?_, h4⟩
  intro d hd ts hb
  have hd' := hflat d (h2.mem_iff.1 hd)
  cases d with
  | seq n c ms =>
    obtain ⟨t, rfl, fields, k1, k2⟩ := hb
    refine ⟨t, rfl, fields, k1, k2.imp_mem ?_⟩
    rintro k hk f ⟨ct, sfx, h5, h6⟩
    simp only [List.take_of_length_le (hd' k hk)] at h6
    exact ⟨ct, sfx, h5, h6⟩
  | enum => exact hb
  | choice => exact hb
  | simple => exact hb

example : Input exStruct ["m"] (okBundle (buildFromConfig exStruct ["m"])) ∧
    ((Command.c exPrinter).run 20 exStruct ["m"] exOut).result = .ok () ∧
    (∀ m ∈ (okBundle (buildFromConfig exStruct ["m"])).modules, ∀ d ∈ m.defs, ∀ k ∈ d.members,
      (dims k.type).length ≤ 1) :=
  ⟨exStruct_input, exStruct_run, by decide +kernel⟩

/-- A module with an array of arrays. -/
def exGridModule : Module :=
  { name := "m", defs := [
      .simple "Uint8-t" none (.plain "INTEGER" (some (.int 0)) (some (.int 255))),
      .seq "Grid" none [⟨"cell", .arr (.arr (.plain "Uint8-t" none none) 3) 2, none, none⟩]] }

def exGrid : List Module := [exGridModule]

theorem containsText_infix {a : Text} : ∀ {t : Text}, a <:+: t → containsText a t = true
  | [], ⟨x, y, h⟩ => by
    have : a = [] := by
      cases a with
      | nil => rfl
      | cons c a => simp at h
    simp [containsText, this]
  | c :: t, ⟨x, y, h⟩ => by
    simp only [containsText, Bool.or_eq_true]
    cases x with
    | nil =>
      left
      rw [List.isPrefixOf_iff_prefix]
      exact ⟨y, by simpa using h⟩
    | cons d x =>
      right
      simp only [List.cons_append, List.cons.injEq] at h
      exact containsText_infix ⟨x, y, h.2⟩

theorem exGrid_input : Input exGrid ["m"] (okBundle (buildFromConfig exGrid ["m"])) :=
  input_of (by decide +kernel) (by decide +kernel) (by decide +kernel)

theorem infix_flatMap {α} {l : List α} {f : α → Text} {a : α} (h : a ∈ l) : f a <:+: l.flatMap f := by
  obtain ⟨x, y, rfl⟩ := List.append_of_mem h
  exact ⟨x.flatMap f, y.flatMap f, by simp⟩

theorem infix_parts {h : HeaderParts} {t : Text} (ht : t ∈ h.blocks) : t <:+: h.text := by
  have h1 : t <:+: h.blocks.flatMap (· ++ "\n\n".toList) :=
    List.IsInfix.trans ⟨[], _, rfl⟩ (infix_flatMap (f := (· ++ "\n\n".toList)) ht)
  refine h1.trans ?_
  unfold HeaderParts.text
  simp only [List.append_assoc]
  generalize "#ifndef ".toList = a1
  generalize "\n#define ".toList = a2
  generalize "\n\n/*\nThis file was autogenerated from ASN.1 model.".toList = a3
  refine List.IsInfix.trans ?_ (List.suffix_append _ _).isInfix
  refine List.IsInfix.trans ?_ (List.suffix_append _ _).isInfix
  refine List.IsInfix.trans ?_ (List.suffix_append _ _).isInfix
  refine List.IsInfix.trans ?_ (List.suffix_append _ _).isInfix
  refine List.IsInfix.trans ?_ (List.suffix_append _ _).isInfix
  refine List.IsInfix.trans ?_ (List.suffix_append _ _).isInfix
  refine List.IsInfix.trans ?_ (List.suffix_append _ _).isInfix
  refine List.IsInfix.trans ?_ (List.suffix_append _ _).isInfix
  refine List.IsInfix.trans ?_ (List.suffix_append _ _).isInfix
  refine List.IsInfix.trans ?_ (List.suffix_append _ _).isInfix
  refine List.IsInfix.trans ?_ (List.suffix_append _ _).isInfix
  exact (List.prefix_append _ _).isInfix

/-- A field of a struct is in the text of the header. -/
theorem infix_field {T : TypeMap} {D : AType → List Int} {m : Module} {h : HeaderParts}
    (hb : HasBlocks T D m h) {n : String} {c : Option Comment} {ms : List Member}
    (hd : Def.seq n c ms ∈ m.defs) {k : Member} (hk : k ∈ ms) :
    ∃ ct sfx f, T k.type ct sfx ∧ FieldText k ct sfx (D k.type) f ∧ f <:+: h.text := by
  obtain ⟨sorted, tss, h1, h2, h3⟩ := hb
  obtain ⟨ts, hts, t, rfl, fields, k1, k2⟩ := all2_mem_left h2 (h1.mem_iff.2 hd)
  obtain ⟨f, hf, ct, sfx, h4, h5⟩ := all2_mem_left k2 hk
  refine ⟨ct, sfx, f, h4, h5, ?_⟩
  have h6 : t ∈ h.blocks := by rw [h3]; exact List.mem_flatten.2 ⟨_, hts, by simp⟩
  refine List.IsInfix.trans ?_ (infix_parts h6)
  rw [k1]
  have : f <:+: fields.flatten := by
    have := infix_flatMap (f := id) hf
    simpa [List.flatMap_id] using this
  refine this.trans ?_
  simp only [List.append_assoc]
  refine List.IsInfix.trans ?_ (List.suffix_append _ _).isInfix
  refine List.IsInfix.trans ?_ (List.suffix_append _ _).isInfix
  exact (List.prefix_append _ _).isInfix

/-- It fails: of `cell Uint8-t` in an array of two arrays of three only `cell[2]` is left. -/
theorem C42_full_false : ¬ C42_full := by
  intro hf
  obtain ⟨h, h1, h2⟩ := hf (.c exPrinter) 20 exGrid ["m"] exOut _ (fun _ => none) exGrid_input
    (by decide +kernel) exGridModule (by decide +kernel)
  obtain ⟨ct, sfx, f, _, ⟨cmt, br, h3, h4, _⟩, h5⟩ := infix_field h2 (n := "Grid") (c := none)
    (ms := [⟨"cell", .arr (.arr (.plain "Uint8-t" none none) 3) 2, none, none⟩]) (by decide +kernel)
    (List.Mem.head _)
  have hbr : "][".toList <:+: br := by
    cases h4 with
    | cons _ h4 =>
      cases h4 with
      | cons _ h4 =>
        cases h4
        rename_i d _ d' _
        exact ⟨'[' :: d, d' ++ [']'], by simp⟩
  have hin : "][".toList <:+: h.text := by
    refine hbr.trans (List.IsInfix.trans ?_ h5)
    rw [h3]
    exact (List.suffix_append _ _).isInfix.trans (List.prefix_append _ _).isInfix
  rw [← fileText_eq h1] at hin
  have := containsText_infix hin
  revert this
  decide +kernel

end Apg
