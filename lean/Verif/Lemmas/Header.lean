import Verif.Spec.Header
import Verif.Spec.CInit
import Verif.Lemmas.Comments
import Verif.Lemmas.Printer
import Verif.Props.Files
import Verif.Props.Defines

namespace Apg
open Spec

/-! ### Characters of types -/

theorem readInt_wordChar {d : Text} {i : Int} (h : readInt d = some i) : ∀ c ∈ d, c = '-' ∨ wordChar c = true := by
  intro c hc
  rcases readInt_chars h c hc with h | h
  · exact .inl h
  · have h' : ∀ c ∈ cSymbols, (digitVal c).isSome = false := by decide +kernel
    refine .inr ?_
    unfold wordChar
    cases hm : cSymbols.contains c with
    | false => rfl
    | true => rw [h' c (List.contains_iff_mem.1 hm)] at h; cases h

theorem typeText_of {t : Text} (hne : t ≠ []) (h : ∀ c ∈ t, wordChar c = true) : TypeText t := by
  cases t with
  | nil => exact absurd rfl hne
  | cons c r => exact ⟨⟨c, r, rfl, h c (by simp)⟩, fun c hc => .inl (h c hc)⟩

theorem typeText_lit {t : Text} (h : (t.head?.any wordChar && t.all (fun c => wordChar c || c == ' ')) = true) :
    TypeText t := by
  rw [Bool.and_eq_true] at h
  refine ⟨?_, ?_⟩
  · cases t with
    | nil => simp at h
    | cons c r => exact ⟨c, r, rfl, by simpa using h.1⟩
  · intro c hc
    have := List.all_eq_true.1 h.2 c hc
    simpa using this

/-- A C type and suffix that can be printed. -/
def GoodMapped (f : Mapped) : Prop := TypeText f.ctype ∧ SuffixText f.bits

theorem suffixText_nil : SuffixText [] := .inl rfl

theorem suffixText_int (i : Int) : SuffixText (" : ".toList ++ intText i) := .inr ⟨_, i, rfl, readInt_intText i⟩

theorem digits_wordChar (n : Nat) : ∀ c ∈ digits 10 n, wordChar c = true := by
  intro c hc
  have h := readNat_chars (readNat_digits (by omega) (by omega) n) c hc
  have h' : ∀ c ∈ cSymbols, (digitVal c).isSome = false := by decide +kernel
  unfold wordChar
  cases hm : cSymbols.contains c with
  | false => rfl
  | true => rw [h' c (List.contains_iff_mem.1 hm)] at h; cases h

theorem mapNumeric_good {t : AType} {f : Mapped} (h : mapNumeric t = .ok f) :
    GoodMapped f ∧ f.stdbool = false := by
  unfold mapNumeric at h
  split at h
  · cases h
  · rename_i c _
    simp only [bind_ok] at h
    obtain ⟨size, _, h⟩ := h
    have hbits : SuffixText (if c = .uint ∧ ¬ (size = 8 ∨ size = 16 ∨ size = 32 ∨ size = 64) then
        " : ".toList ++ intText size else []) := by
      split
      · exact suffixText_int _
      · exact suffixText_nil
    split at h
    · cases h
    · split at h
      · cases h
      · split at h
        · split at h
          · cases h
            refine ⟨⟨typeText_of (by simp) ?_, hbits⟩, rfl⟩
            intro c hc
            simp only [List.mem_append] at hc
            rcases hc with (hc | hc) | hc
            · revert c; decide +kernel
            · exact digits_wordChar _ c hc
            · revert c; decide +kernel
          · cases h
            exact ⟨⟨typeText_lit (t := "unsigned long long".toList) (by decide +kernel), hbits⟩, rfl⟩
        · cases h
          refine ⟨⟨?_, hbits⟩, rfl⟩
          simp only
          clear hbits
          cases c <;> exact typeText_lit (by decide +kernel)

theorem ident_wordChar {s : String} (h : GrammarName s) : ∀ c ∈ ident s, wordChar c = true := by
  intro c hc
  have h' : ∀ c ∈ cSymbols, (c == '_' || reLower c || reUpper c || reDigit c) = false := by
    decide +kernel
  unfold wordChar
  cases hm : cSymbols.contains c with
  | false => rfl
  | true => exact absurd hc (not_mem_ident h c (h' c (List.contains_iff_mem.1 hm)))

theorem typeName_good {t : AType} (h : GrammarType t) : TypeText (cName t.name) := by
  induction h with
  | arr _ ih => exact ih
  | named hn =>
    simp only [AType.name]
    rw [cName_eq (Or.inr hn)]
    exact typeText_of (ident_ne_nil (Or.inr hn)) (ident_wordChar (Or.inr hn))
  | _ => exact typeText_lit (by simp only [AType.name]; decide +kernel)

theorem typeName_ident {t : AType} (h : GrammarType t) : cName t.name = unionType t := by
  induction h with
  | arr _ ih => exact ih
  | named hn => exact cName_eq (Or.inr hn)
  | _ => simp only [AType.name, unionType]; decide +kernel

theorem mapMember_good {ds : List Def} {t : AType} (hg : GrammarType t) {f : Mapped}
    (h : mapMember ds t = .ok f) : GoodMapped f ∧ f.stdbool = false := by
  unfold mapMember at h
  simp only at h
  split at h
  · exact mapNumeric_good h
  · split at h
    · cases h
      exact ⟨⟨typeText_lit (by decide +kernel), .inr ⟨"1".toList, 1, rfl, by decide +kernel⟩⟩, rfl⟩
    · split at h
      · simp only [bind_ok, Except.ok.injEq] at h
        obtain ⟨size, _, rfl⟩ := h
        exact ⟨⟨typeName_good hg, suffixText_int _⟩, rfl⟩
      · cases h
        exact ⟨⟨typeName_good hg, suffixText_nil⟩, rfl⟩

theorem posixCTypes_good : ∀ t ∈ posixCTypes, TypeText t := by
  intro t ht
  have : ∀ t ∈ posixCTypes, (t.head?.any wordChar && t.all (fun c => wordChar c || c == ' ')) = true := by decide +kernel
  exact typeText_lit (this t ht)

theorem fieldType_good {ds simple : List Def} {t : AType} (hg : GrammarType t) {f : Mapped}
    (h : fieldType ds simple t = .ok f) : GoodMapped f ∧ f.stdbool = false := by
  unfold fieldType at h
  simp only [bind_ok] at h
  obtain ⟨m, hm, h⟩ := h
  obtain ⟨⟨g2, g3⟩, g4⟩ := mapMember_good hg hm
  split at h
  · simp only [bind_ok, Except.ok.injEq] at h
    obtain ⟨m', hm', rfl⟩ := h
    obtain ⟨⟨k2, k3⟩, k4⟩ := mapNumeric_good hm'
    exact ⟨⟨k2, k3⟩, by simp [g4, k4]⟩
  · cases h
    refine ⟨?_, g4⟩
    unfold GoodMapped
    simp only
    split
    · rename_i hp
      exact ⟨posixCTypes_good _ (List.contains_iff_mem.1 hp), g3⟩
    · exact ⟨g2, g3⟩

/-! ### Text of the blocks -/

/-- Outermost dimension. -/
def firstDim (t : AType) : List Int := (dims t).take 1

theorem fieldLine_text (m : Member) (f : Mapped) (hm : isNameLower m.key = true) :
    ∃ br, (fieldLine m f).text =
      "  ".toList ++ f.ctype ++ ' ' :: ident m.key ++ f.bits ++ br ++ ";\n".toList ∧
      Brackets (firstDim m.type) br := by
  have hk : cName m.key = ident m.key := cName_eq (Or.inl hm)
  unfold fieldLine firstDim
  cases m.type with
  | plain =>
    refine ⟨[], ?_, .nil⟩
    simp only [CLine.text, hk, List.append_assoc, List.cons_append, List.nil_append]
  | str n len =>
    refine ⟨'[' :: intText len ++ [']'], ?_, .cons (readInt_intText _) .nil⟩
    have e : "];\n".toList = ']' :: ";\n".toList := rfl
    simp only [CLine.text, hk, e, List.append_assoc, List.cons_append, List.nil_append]
  | arr t len =>
    refine ⟨'[' :: intText len ++ [']'], ?_, .cons (readInt_intText _) .nil⟩
    have e : "];\n".toList = ']' :: ";\n".toList := rfl
    simp only [CLine.text, hk, e, List.append_assoc, List.cons_append, List.nil_append]

theorem member_text {m : Member} {f : Mapped} (hm : isNameLower m.key = true)
    (hc : ∀ c, m.comment = some c → GrammarComment c) (hf : GoodMapped f) :
    FieldText m f.ctype f.bits (firstDim m.type)
      ((commentLines m ++ [fieldLine m f]).flatMap CLine.text) := by
  obtain ⟨br, h1, h2⟩ := fieldLine_text m f hm
  unfold FieldText
  cases hcm : m.comment with
  | none =>
    refine ⟨[], br, ?_, h2, ⟨fun _ => rfl, by simp⟩, hf.1, hf.2⟩
    rw [show commentLines m = [] by simp [commentLines, hcm]]
    simp only [List.nil_append, List.flatMap_cons, List.flatMap_nil, List.append_nil, h1, if_true]
  | some c =>
    obtain ⟨body, hb1, hb2, hb3⟩ := commentLine_note (hc c hcm)
    refine ⟨"  ".toList ++ "//".toList ++ body, br, ?_, h2,
      ⟨by simp, fun x hx => ⟨body, rfl, hb2, by cases hx; exact hb3⟩⟩, hf.1, hf.2⟩
    rw [show commentLines m = [.comment (commentText c)] by simp [commentLines, hcm]]
    rw [if_neg (by simp)]
    simp only [List.cons_append, List.nil_append, List.flatMap_cons, List.flatMap_nil, List.append_nil,
      h1, hb1, List.append_assoc]

/-- Comment after a line. -/
def noteOf (c : Option Comment) (pre : Text) : Text :=
  match c with
  | none => []
  | some c => pre ++ lineComment (commentText c)

theorem note_text {c : Option Comment} {pre : Text} (hc : ∀ x, c = some x → GrammarComment x) :
    NoteText c pre (noteOf c pre) := by
  unfold noteOf
  cases c with
  | none => exact ⟨fun _ => rfl, by simp⟩
  | some c =>
    obtain ⟨body, hb1, hb2, hb3⟩ := lineComment_note (hc c rfl)
    refine ⟨by simp, fun x hx => ⟨body, ?_, hb2, by cases hx; exact hb3⟩⟩
    simp only [hb1, List.append_assoc]

theorem defComment_eq (c : Option Comment) : defComment c = defCommentText c := by
  cases c with
  | none => rfl
  | some c =>
    unfold defComment defCommentText blockComment
    by_cases h : c.text = ""
    · simp [h]
    · have h' : c.text.toList ≠ [] := by
        intro he
        exact h (String.toList_injective (by rw [he]; rfl))
      simp only [if_neg h, if_neg h']
      have e : " */\n".toList = " */".toList ++ ['\n'] := rfl
      rw [e]
      simp only [List.append_assoc]

theorem enumLine_text {it : EnumItem} (hk : isNameLower it.key = true)
    (hc : ∀ c, it.comment = some c → GrammarComment c) : EnumLine it (enumLine it) := by
  refine ⟨intText it.pos, noteOf it.comment "     ".toList, ?_, readInt_intText _, note_text (pre := "     ".toList) hc⟩
  unfold enumLine noteOf
  rw [cName_eq (Or.inl hk)]
  cases it.comment <;> simp only [List.append_assoc, List.cons_append, List.nil_append]

theorem all2_map_self {α β} {R : α → β → Prop} {f : α → β} {l : List α} (h : ∀ a ∈ l, R a (f a)) :
    All2 R l (l.map f) := by
  induction l with
  | nil => exact .nil
  | cons a l ih => exact .cons (h a (by simp)) (ih (fun b hb => h b (by simp [hb])))

theorem convertEnum_block {n : String} {c : Option Comment} {its : List EnumItem}
    (hg : GrammarDef (.enum n c its)) (hc : ∀ x ∈ commentsOf (.enum n c its), GrammarComment x) :
    ∃ t, (convertEnum n c its).data = [t] ∧ EnumBlock n c its t := by
  refine ⟨_, rfl, its.map enumLine, ?_, ?_⟩
  · rw [defComment_eq, cName_eq (Or.inr hg.1), List.flatMap_def]
  · refine all2_map_self ?_
    intro it hit
    refine enumLine_text (hg.2.2 it hit) ?_
    intro x hx
    exact hc x (by simp only [commentsOf, List.mem_append, List.mem_filterMap]; exact Or.inr ⟨it, hit, hx⟩)

theorem lowerize_eq (t : Text) : lowerize t = lowerFirst t := by cases t <;> rfl

theorem convertChoice_block {n : String} {c : Option Comment} {ms : List Member}
    (hg : GrammarDef (.choice n c ms)) (hc : ∀ x ∈ commentsOf (.choice n c ms), GrammarComment x) :
    ∃ t, (convertChoice n c ms).data = [t] ∧ UnionBlock n c ms t := by
  refine ⟨_, rfl, ms.map choiceLine, ?_, ?_⟩
  · rw [defComment_eq, cName_eq (Or.inr hg.1), List.flatMap_def, lowerize_eq]
  · refine all2_map_self ?_
    intro m hm
    obtain ⟨h1, h2, _⟩ := hg.2.2 m hm
    refine ⟨noteOf m.comment "     ".toList, ?_, note_text (pre := "     ".toList) ?_⟩
    · unfold choiceLine noteOf
      rw [cName_eq (s := m.key) (Or.inl h1), typeName_ident h2]
      cases m.comment <;> rfl
    · intro x hx
      exact hc x (by simp only [commentsOf, List.mem_append, List.mem_filterMap]; exact Or.inr ⟨m, hm, hx⟩)

/-- Handlers that only add initialisers, macros or bytes. -/
def Quiet (h : Handler) : Prop :=
  ∀ cn m mod cd, h cn m mod = .ok cd →
    cd.data = [] ∧ cd.stdbool = false ∧ cd.stdint = false ∧ cd.includes = []

/-- What the model prints as the type of a field. -/
def ModelType (ds simple : List Def) (stdint : Bool) : TypeMap := fun t ct sfx =>
  ∃ f, fieldType ds simple t = .ok f ∧ ct = f.ctype ∧ sfx = f.bits ∧
    (f.stdint = true → stdint = true)

theorem convertSequence_block {h : Handler} (hq : Quiet h) {ds simple : List Def} {mod : Module}
    {n : String} {c : Option Comment} {ms : List Member} (hg : GrammarDef (.seq n c ms))
    (hc : ∀ x ∈ commentsOf (.seq n c ms), GrammarComment x) {p : CData}
    (hp : convertSequence h ds simple mod n c ms = .ok p) :
    (∃ t, p.data = [t] ∧ StructBlock (ModelType ds simple p.stdint) firstDim n c ms t) ∧
    p.stdbool = false ∧ p.includes = [] := by
  unfold convertSequence at hp
  simp only [bind_ok, Except.ok.injEq] at hp
  obtain ⟨r, hr, rfl⟩ := hp
  obtain ⟨rs, h1, h2, h3⟩ := convertMembers_ok hr
  have hqs : ∀ x ∈ rs, x.2.data = [] ∧ x.2.stdbool = false ∧ x.2.stdint = false ∧ x.2.includes = [] := by
    intro x hx
    obtain ⟨m, _, _, hm⟩ := all2_mem_right h1 hx
    unfold memberPart at hm
    split at hm
    · simp only [Except.ok.injEq] at hm
      rw [← hm]; exact ⟨rfl, rfl, rfl, rfl⟩
    · exact hq _ _ _ _ hm
  have hd : r.2.data = [] := by
    rw [h3.data]
    simp only [List.nil_append, List.flatMap_map, List.flatMap_eq_nil_iff]
    exact fun x hx => (hqs x hx).1
  have hi : r.2.includes = [] := by
    rw [h3.includes]
    simp only [List.nil_append, List.flatMap_map, List.flatMap_eq_nil_iff]
    exact fun x hx => (hqs x hx).2.2.2
  have hbool : r.2.stdbool = false := by
    rw [h3.stdbool]
    simp only [Bool.false_or, Bool.or_eq_false_iff, List.any_map, List.any_eq_false,
      Function.comp_apply, Bool.not_eq_true]
    refine ⟨fun x hx => ?_, fun x hx => (hqs x hx).2.1⟩
    obtain ⟨m, hm, hf, _⟩ := all2_mem_right h1 hx
    exact (fieldType_good (hg.2.2 m hm).2.1 hf).2
  refine ⟨⟨defComment c ++ structText r.1 (cName n), by simp only [hd, List.nil_append], ?_⟩, hbool, hi⟩
  refine ⟨(ms.zip rs).map fun x => (commentLines x.1 ++ [fieldLine x.1 x.2.1]).flatMap CLine.text, ?_, ?_⟩
  · rw [defComment_eq, cName_eq (Or.inr hg.1), h2]
    unfold structText
    rw [List.flatMap_assoc, List.flatMap_def (l := ms.zip rs)]
    simp only [List.append_assoc]
  · have hint : ∀ x ∈ rs, x.1.stdint = true → r.2.stdint = true := by
      intro x hx hs
      rw [h3.stdint]
      simp only [Bool.false_or, Bool.or_eq_true, List.any_eq_true]
      exact Or.inl ⟨x, hx, hs⟩
    clear h2 h3 hd hi hbool hr hqs
    have hms : ∀ m ∈ ms, GrammarMember m ∧ ∀ x, m.comment = some x → GrammarComment x := by
      intro m hm
      refine ⟨hg.2.2 m hm, fun x hx => hc x ?_⟩
      simp only [commentsOf, List.mem_append, List.mem_filterMap]
      exact Or.inr ⟨m, hm, hx⟩
    clear hg hc
    simp only
    generalize r.2.stdint = si at hint ⊢
    induction h1 with
    | nil => exact .nil
    | @cons m x ms rs hx _ ih =>
      refine .cons ⟨x.1.ctype, x.1.bits, ⟨x.1, hx.1, rfl, rfl, hint x (by simp)⟩, ?_⟩
        (ih (fun m' hm' => hms m' (by simp [hm'])) (fun y hy => hint y (by simp [hy])))
      obtain ⟨g1, g2⟩ := hms m (by simp)
      exact member_text g1.1 g2 (fieldType_good g1.2.1 hx.1).1

theorem block_mono {T T' : TypeMap} {D : AType → List Int} {d : Def} {ts : List (List Char)}
    (h : ∀ m ∈ d.members, ∀ ct sfx, T m.type ct sfx → T' m.type ct sfx) (hb : Block T D d ts) :
    Block T' D d ts := by
  cases d with
  | seq n c ms =>
    obtain ⟨t, rfl, fields, h1, h2⟩ := hb
    refine ⟨t, rfl, fields, h1, h2.imp_mem ?_⟩
    rintro m hm f ⟨ct, sfx, h3, h4⟩
    exact ⟨ct, sfx, h m hm ct sfx h3, h4⟩
  | enum => exact hb
  | choice => exact hb
  | simple => exact hb

theorem defPart_block {be : Backend} (hq : Quiet be.handler) {ds simple : List Def} {mod : Module}
    {d : Def} {p : CData} (h : defPart be ds simple mod d = .ok p) (hg : GrammarDef d)
    (hc : ∀ c ∈ commentsOf d, GrammarComment c) :
    Block (ModelType ds simple p.stdint) firstDim d p.data ∧ p.stdbool = false := by
  cases d with
  | simple n c t =>
    simp only [defPart, bind_ok, Except.ok.injEq] at h
    obtain ⟨_, _, rfl⟩ := h
    exact ⟨rfl, rfl⟩
  | seq n c ms =>
    obtain ⟨h1, h2, _⟩ := convertSequence_block hq hg hc h
    exact ⟨h1, h2⟩
  | enum n c its =>
    simp only [defPart, Except.ok.injEq] at h
    subst h
    exact ⟨convertEnum_block hg hc, rfl⟩
  | choice n c ms =>
    simp only [defPart, Except.ok.injEq] at h
    subst h
    exact ⟨convertChoice_block hg hc, rfl⟩

theorem cfs_quiet (p : Printer) : Quiet (cfsHandler p) := by
  intro cn m mod cd h
  unfold cfsHandler at h
  split at h
  · cases h; exact ⟨rfl, rfl, rfl, rfl⟩
  · simp only [bind_ok, Except.ok.injEq] at h
    obtain ⟨_, _, rfl⟩ := h
    exact ⟨rfl, rfl, rfl, rfl⟩

theorem c_quiet (p : Printer) : Quiet (cHandler p) := by
  intro cn m mod cd h
  unfold cHandler at h
  split at h
  · cases h; exact ⟨rfl, rfl, rfl, rfl⟩
  · cases h; exact ⟨rfl, rfl, rfl, rfl⟩

theorem bin_quiet (ds : List Def) (fuel : Nat) (e : Option Endian) : Quiet (binHandler ds fuel e) := by
  intro cn m mod cd h
  unfold binHandler at h
  split at h
  · cases h; exact ⟨rfl, rfl, rfl, rfl⟩
  · simp only [bind_ok, Except.ok.injEq] at h
    obtain ⟨_, _, _, _, rfl⟩ := h
    exact ⟨rfl, rfl, rfl, rfl⟩

/-- The header of a module in parts. -/
def partsOf (ty : HeaderType) (filenameH : Text) (cd : CData) : HeaderParts where
  symbol := guardSymbol filenameH
  doc := cd.headerComment
  stdbool := cd.stdbool
  stdint := cd.stdint
  includes := cd.includes
  blocks := cd.data
  decls := if ty = .stored then cd.predefs else []

theorem headerText_parts {ty : HeaderType} (hty : ty ≠ .msgids) (f : Text) (cd : CData) :
    headerText ty f cd = (partsOf ty f cd).text := by
  unfold headerText HeaderParts.text partsOf
  have hm : ¬ (ty = .msgids ∧ cd.defines ≠ []) := fun h => hty h.1
  have e1 : (if ty = .stored ∧ cd.predefs ≠ [] then cd.predefs.flatMap (fun d => d ++ ['\n']) ++ ['\n']
      else []) = (if (if ty = .stored then cd.predefs else []) = [] then [] else
        (if ty = .stored then cd.predefs else []).flatMap (· ++ ['\n']) ++ ['\n']) := by
    by_cases h : ty = .stored
    · by_cases h' : cd.predefs = []
      · simp [h']
      · simp [h, h']
    · simp [h]
  simp only [if_neg hty, if_neg hm]
  rw [e1]
  unfold guardOpen guardClose fileHeader
  have e2 : "\n\n/*\nThis file was autogenerated from ASN.1 model.".toList =
      ['\n'] ++ ['\n'] ++ "/*\nThis file was autogenerated from ASN.1 model.".toList := rfl
  have e3 : "\n*/\n\n".toList = "\n*/\n".toList ++ ['\n'] := rfl
  rw [e2, e3]
  generalize "#ifndef ".toList = a1
  generalize "\n#define ".toList = a2
  generalize "/*\nThis file was autogenerated from ASN.1 model.".toList = a3
  generalize "\n*/\n".toList = a4
  generalize "#endif // ".toList = a5
  simp only [List.append_assoc, List.append_nil, List.nil_append, List.cons_append]

theorem moduleData_blocks {fuel : Nat} {be : Backend} (hq : Quiet be.handler) {ds : List Def}
    {bm : BMod} {cd : CData} (h : moduleData fuel be ds bm = .ok cd)
    (hg : ∀ d ∈ bm.mod.defs, GrammarDef d) (hc : ∀ d ∈ bm.mod.defs, ∀ c ∈ commentsOf d, GrammarComment c) :
    ∃ sorted tss, sortDefs fuel bm.mod = some sorted ∧ sorted.Perm bm.mod.defs ∧
      All2 (Block (ModelType ds (simpleList bm) cd.stdint) firstDim) sorted tss ∧
      cd.data = tss.flatten ∧ cd.stdbool = false ∧ cd.headerComment = headerDoc bm.mod ∧
      (∃ ps, All2 (fun d p => defPart be ds (simpleList bm) bm.mod d = .ok p) sorted ps ∧
        cd.predefs = ps.flatMap (·.predefs)) ∧
      ∃ notes, cd.includes = importIncludes be.includeFile bm.mod ++ notes ∧
        ∀ l ∈ notes, ∃ n c t ls, Def.simple n c t ∈ bm.mod.defs ∧ be.note n t = .ok ls ∧ l ∈ ls := by
  obtain ⟨sorted, hs, hp, ps, h1, cd1, hj, hcv, rfl⟩ := moduleData_ok h
  have hb : ∀ d ∈ sorted, ∀ p, defPart be ds (simpleList bm) bm.mod d = .ok p →
      Block (ModelType ds (simpleList bm) p.stdint) firstDim d p.data ∧ p.stdbool = false := by
    intro d hd p hpp
    have hd' := hp.mem_iff.1 hd
    exact defPart_block hq hpp (hg d hd') (hc d hd')
  refine ⟨sorted, ps.map (·.data), hs, hp, ?_, ?_, ?_, rfl, ⟨ps, h1, hj.predefs⟩, ps.flatMap (·.includes), hj.includes, ?_⟩
  · have hint : ∀ p ∈ ps, p.stdint = true → cd1.stdint = true := by
      intro p hp hs
      rw [hj.stdint]
      simp only [Bool.false_or, List.any_eq_true]
      exact ⟨p, hp, hs⟩
    simp only
    generalize cd1.stdint = si at hint ⊢
    clear hj hs hp h hcv
    induction h1 with
    | nil => exact .nil
    | @cons d p l ps hd _ ih =>
      refine .cons ?_ (ih (fun d hd => hb d (by simp [hd])) (fun p hp => hint p (by simp [hp])))
      refine block_mono ?_ (hb d (by simp) p hd).1
      rintro m _ ct sfx ⟨f, k1, k2, k3, k4⟩
      exact ⟨f, k1, k2, k3, fun hf => hint p (by simp) (k4 hf)⟩
  · simp only [hj.data, List.nil_append, List.flatMap_def]
  · simp only [hj.stdbool, Bool.false_or, List.any_eq_false, Bool.not_eq_true]
    intro p hpp
    obtain ⟨d, hd, hdp⟩ := all2_mem_right h1 hpp
    exact (hb d hd p hdp).2
  · intro l hl
    obtain ⟨p, hpp, hlp⟩ := List.mem_flatMap.1 hl
    obtain ⟨d, hd, hdp⟩ := all2_mem_right h1 hpp
    have hd' := hp.mem_iff.1 hd
    cases d with
    | simple n c t =>
      simp only [defPart, bind_ok, Except.ok.injEq] at hdp
      obtain ⟨ls, h2, rfl⟩ := hdp
      exact ⟨n, c, t, ls, hd', h2, hlp⟩
    | seq n c ms =>
      rw [(convertSequence_block hq (hg _ hd') (hc _ hd') hdp).2.2] at hlp
      cases hlp
    | enum n c its => simp only [defPart, Except.ok.injEq] at hdp; subst hdp; cases hlp
    | choice n c ms => simp only [defPart, Except.ok.injEq] at hdp; subst hdp; cases hlp

theorem name_newline {s : String} (h : isNameLower s = true ∨ isNameCapital s = true) : '\n' ∉ s.toList := by
  intro hm
  have h1 := nameChar_of_mem h hm
  revert h1
  decide

theorem SafeNote.isNote {l : Text} (h : SafeNote l) : IsNote l := by
  obtain ⟨t, h1, h2, _⟩ := h
  exact ⟨t, h1, h2⟩

theorem joinComma_newline {ts : List Text} (h : ∀ t ∈ ts, '\n' ∉ t) : '\n' ∉ joinComma ts := by
  induction ts with
  | nil => simp [joinComma]
  | cons t ts ih =>
    cases ts with
    | nil => exact h t (by simp)
    | cons u us =>
      simp only [joinComma, List.mem_append, not_or]
      exact ⟨⟨h t (by simp), by decide⟩, ih fun x hx => h x (by simp [hx])⟩

theorem last_append {a b : Text} {c : Char} (h : b.getLast? = some c) (hc : c ≠ '\\') :
    (a ++ b).getLast? ≠ some '\\' := by
  rw [List.getLast?_append, h, Option.some_or]
  intro he
  exact hc (Option.some.inj he)

theorem joinComma_last {ts : List Text} {c : Char} (h : ∀ t ∈ ts, t.getLast? = some c) :
    joinComma ts = [] ∨ (joinComma ts).getLast? = some c := by
  induction ts with
  | nil => exact .inl rfl
  | cons t ts ih =>
    cases ts with
    | nil => exact .inr (h t (by simp))
    | cons u us =>
      refine .inr ?_
      rcases ih (fun x hx => h x (by simp [hx])) with he | he
      · exfalso
        have hu := h u (by simp)
        cases us with
        | nil => simp only [joinComma] at he; rw [he] at hu; cases hu
        | cons v vs =>
          simp only [joinComma, List.append_eq_nil_iff] at he
          exact absurd he.1.2 (by decide)
      · simp only [joinComma, List.getLast?_append, he, Option.some_or]

theorem cNote_note {n : String} (hn : isNameCapital n = true) {t : AType} {ls : List Text}
    (h : cNote n t = .ok ls) : ∀ l ∈ ls, SafeNote l := by
  intro l hl
  unfold cNote at h
  cases h
  rw [List.mem_singleton] at hl
  subst hl
  refine ⟨" NOTE: ".toList ++ n.toList ++
    " is embedded directly where it is used. Rationale: Bitfields cannot be typedef'd.".toList, .inr rfl, ?_, ?_⟩
  · simp only [List.mem_append, not_or]
    exact ⟨⟨by decide, name_newline (.inr hn)⟩, by decide⟩
  · exact last_append (c := '.') (by decide) (by decide)

theorem cfsNote_note {b : Bundle} (hb : ∀ u ∈ b.uses, ∀ x ∈ u.2, '\n' ∉ x.toList) {n : String}
    (hn : isNameCapital n = true) {t : AType} {ls : List Text} (h : cfsNote b n t = .ok ls) : ∀ l ∈ ls, SafeNote l := by
  intro l hl
  unfold cfsNote at h
  split at h
  · cases h; cases hl
  · rename_i u hu
    simp only [bind_ok, Except.ok.injEq] at h
    obtain ⟨size, _, rfl⟩ := h
    rw [List.mem_singleton] at hl
    subst hl
    refine ⟨" NOTE: The simple type '".toList ++ n.toList ++ "' has been generated to a C ".toList ++
      (if size = 8 ∨ size = 16 ∨ size = 32 ∨ size = 64 then "builtin".toList else "bitfield".toList) ++
      " type and is used directly in ".toList ++
      joinComma ((u.2.mergeSort (fun a b => decide (a ≤ b))).map fun n => '\'' :: n.toList ++ ['\'']), .inl rfl, ?_, ?_⟩
    · simp only [List.mem_append, not_or]
      refine ⟨⟨⟨⟨⟨by decide, name_newline (.inr hn)⟩, by decide⟩, ?_⟩, by decide⟩, joinComma_newline ?_⟩
      · split <;> decide
      · intro x hx
        obtain ⟨y, hy, rfl⟩ := List.mem_map.1 hx
        simp only [List.mem_append, List.mem_cons, List.not_mem_nil, or_false, not_or]
        exact ⟨⟨by decide, hb u (List.mem_of_find?_eq_some hu) y (List.mem_mergeSort.1 hy)⟩, by decide⟩
    · have := joinComma_last (ts := (u.2.mergeSort (fun a b => decide (a ≤ b))).map
        fun n => '\'' :: n.toList ++ ['\'']) (c := '\'') (by
          intro t ht
          obtain ⟨y, _, rfl⟩ := List.mem_map.1 ht
          rw [List.getLast?_append]
          rfl)
      rcases this with this | this
      · rw [this, List.append_nil]
        exact last_append (c := ' ') (by decide) (by decide)
      · exact last_append this (by decide)

/-- The lines of a header before its blocks. -/
theorem includes_lines {fileOf : String → Text} {included : String → Text} {m : Module} {notes is : List Text}
    (hc : ∀ c ∈ m.commentImport, GrammarComment c) (he : ∀ i ∈ m.imports, fileOf i.module = included i.module)
    (hi : is = importIncludes fileOf m ++ notes) (hn : ∀ l ∈ notes, SafeNote l) :
    ∃ pre post, is = pre ++ (m.imports.map fun i => "#include \"".toList ++ included i.module ++ ['"']) ++ post ∧
      pre = importNote m.commentImport ∧ (∀ l ∈ pre, IsNote l) ∧ ∀ l ∈ post, SafeNote l := by
  subst hi
  refine ⟨_, notes, by
    rw [importIncludes, List.map_congr_left (fun i hi => by rw [he i hi])], ?_, ?_, hn⟩
  · cases m.commentImport with
    | none => rfl
    | some c => exact congrArg (· :: []) (lineComment_eq _)
  cases hcm : m.commentImport with
  | none => intro l hl; cases hl
  | some c =>
    intro l hl
    simp only [List.mem_singleton] at hl
    subst hl
    refine ⟨_, .inl (lineComment_eq _), fun hm => ?_⟩
    rcases List.mem_cons.1 (rstrip_mem hm) with h | h
    · cases h
    · exact comment_newline (hc c hcm) h

theorem wordChar_of {c : Char} (h : cSymbols.all (fun d => d != c) = true) : wordChar c = true := by
  unfold wordChar
  cases hm : cSymbols.contains c with
  | false => rfl
  | true =>
    have := List.all_eq_true.1 h c (List.contains_iff_mem.1 hm)
    simp at this

theorem guardSymbol_word {n : String} (hn : isNameLower n = true) {x : Text} (hx : x ∈ suffixes) :
    ∀ c ∈ guardSymbol (ident n ++ x), wordChar c = true := by
  rw [guardSymbol_eq hn hx]
  intro c hc
  simp only [List.mem_append] at hc
  rcases hc with (hc | hc | hc) | hc
  · revert c; decide +kernel
  · obtain ⟨d, hd, rfl⟩ := List.mem_map.1 hc
    have ht := ident_lower_chars hn d hd
    have hw := ident_wordChar (.inl hn) d hd
    rw [guardChar_tail ht]
    rcases tailChar_upper ht with h | h
    · have h65 : 65 ≤ d.toUpper.toNat ∧ d.toUpper.toNat ≤ 90 := by omega
      have h' : ∀ c ∈ cSymbols, ¬ (65 ≤ c.toNat ∧ c.toNat ≤ 90) := by decide +kernel
      unfold wordChar
      cases hm : cSymbols.contains d.toUpper with
      | false => rfl
      | true => exact absurd h65 (h' _ (List.contains_iff_mem.1 hm))
    · have he : d.toUpper = d := h.2.1
      rw [he]; exact hw
  · simp only [suffixes, List.mem_cons, List.not_mem_nil, or_false] at hx
    rcases hx with rfl | rfl | rfl <;> revert c <;> decide +kernel
  · revert c; decide +kernel

/-- The declarations contributed by one definition. -/
theorem defPart_predefs {p : Printer} {out : Text} {b : Bundle} {ds simple : List Def}
    {mod : Module} {d : Def} (hg : GrammarDef d) {q : CData}
    (h : defPart (cBackend p out b) ds simple mod d = .ok q) :
    q.predefs = (clausesOf d).map fun x => ident x.1 ++ ' ' :: lowerFirst (ident x.1) ++ [';'] := by
  cases d with
  | simple n c t =>
    simp only [defPart, bind_ok, Except.ok.injEq] at h
    obtain ⟨_, _, rfl⟩ := h
    rfl
  | enum n c its =>
    simp only [defPart, convertEnum, Except.ok.injEq] at h
    subst h
    rfl
  | choice n c ms =>
    simp only [defPart, convertChoice, Except.ok.injEq] at h
    subst h
    rfl
  | seq n c ms =>
    simp only [defPart, convertSequence, bind_ok, Except.ok.injEq] at h
    obtain ⟨r, hr, rfl⟩ := h
    obtain ⟨rs, h1, h1', h3⟩ := convertMembers_ok hr
    simp only [h3.predefs, List.nil_append, clausesOf, List.flatMap_map]
    have hn := hg.1
    clear h1' h3 hr hg
    induction h1 with
    | nil => rfl
    | @cons m x ms rs hx _ ih =>
      rw [List.flatMap_cons, List.filterMap_cons, ih]
      have h2 := hx.2
      unfold memberPart at h2
      cases hc : m.comps with
      | none =>
        rw [hc] at h2
        simp only [Except.ok.injEq] at h2
        rw [← h2]
        rfl
      | some cs =>
        rw [hc] at h2
        simp only [cBackend, cHandler, hc, Except.ok.injEq] at h2
        rw [← h2]
        simp only [Option.map_some, List.map_cons, List.singleton_append, cName_eq (Or.inr hn), lowerize_eq]

theorem guardSymbol_command {n : String} (hn : isNameLower n = true) {x : Text} (hx : x ∈ suffixes) {cmd : Command}
    (h : cmd.header n = ident n ++ x) : guardSymbol (ident n ++ x) = cmd.guard n := by
  have e : (fun c : Char => (if c = '.' then '_' else c).toUpper) = guardChar := rfl
  rw [guardSymbol_eq hn hx]
  unfold Command.guard
  rw [h, e]
  generalize "ASN1_PARSER_".toList = q1
  generalize "_INCLUDED".toList = q2
  rw [List.map_append]

/-- The back end of a command. -/
def Spec.Command.backend (fuel : Nat) (out : Text) (b : Bundle) : Command → Backend
  | .cfs p => cfsBackend p out b
  | .c p => cBackend p out b
  | .binary e => binBackend fuel e out b

/-- **Headers.** After a successful run the header of a module is in parts, with one block
per definition that is not a simple one. -/
theorem header_file_data {fuel : Nat} {cmd : Command} {raw : List Module} {cfg : List String} {out : Text}
    (hg : ∀ m ∈ raw, GrammarModule m) (hc : ∀ m ∈ raw, GrammarComments m) {b : Bundle}
    (hb : buildFromConfig raw cfg = .ok b) (hr : (cmd.run fuel raw cfg out).result = .ok ())
    {bm : BMod} (hm : bm ∈ b.mods) (fs : Files) :
    ∃ (h : HeaderParts) (sorted : List Def) (tss : List (List (List Char))),
      (∃ cd, moduleData fuel (cmd.backend fuel out b) b.defs bm = .ok cd ∧ h.stdint = cd.stdint) ∧
      HasText ((cmd.run fuel raw cfg out).apply fs) (cmd.path out bm.mod.name) h.text ∧
      sortDefs fuel bm.mod = some sorted ∧ sorted.Perm bm.mod.defs ∧
      All2 (Block (ModelType b.defs (simpleList bm) h.stdint) firstDim) sorted tss ∧
      h.blocks = tss.flatten ∧ h.stdbool = false ∧
      ((∀ c ∈ h.symbol, wordChar c = true) ∧ h.symbol = cmd.guard bm.mod.name) ∧ h.doc = headerDoc bm.mod ∧ h.decls = cmd.objects sorted ∧
      ∃ pre post, h.includes = pre ++
          (bm.mod.imports.map fun i => "#include \"".toList ++ cmd.included i.module ++ ['"']) ++ post ∧
        pre = importNote bm.mod.commentImport ∧ (∀ l ∈ pre, IsNote l) ∧ ∀ l ∈ post, SafeNote l := by
  have hbt := buildFromTexts_of_config hb
  have hmm : bm.mod ∈ b.modules := List.mem_map.2 ⟨bm, hm, rfl⟩
  have hn := accepted_names hg hbt _ hmm
  have hgd : ∀ d ∈ bm.mod.defs, GrammarDef d := fun d hd =>
    (accepted_grammar hg hbt d (mem_defs_of_module hmm hd)).1
  have hcd := (accepted_comments hc hbt _ hmm).2
  have hci : ∀ c ∈ bm.mod.commentImport, GrammarComment c := fun c hc' =>
    (accepted_comments hc hbt _ hmm).1 c (by simp [Option.mem_def.1 hc'])
  have hsn : ∀ n c t, Def.simple n c t ∈ bm.mod.defs → isNameCapital n = true := fun n c t hd => (hgd _ hd).1
  have him : ∀ i ∈ bm.mod.imports, isNameLower i.module = true := by
    intro i hi
    obtain ⟨m', h1, h2, _⟩ := C13_imports raw cfg b hb _ hmm i hi
    rw [← h2]
    exact accepted_names hg hbt m' h1
  cases cmd with
  | cfs p =>
    obtain ⟨cd, h1, h2⟩ := run_module hr hb hm
    obtain ⟨sorted, tss, k1, k2, k3, k4, k5, k8, k9, notes, k6, k7⟩ := moduleData_blocks (cfs_quiet p) h1 hgd hcd
    refine ⟨partsOf .msg (ident bm.mod.name ++ "_msg.h".toList) cd, sorted, tss, ⟨cd, h1, rfl⟩, ?_, k1, k2, k3, k4, k5,
      ⟨guardSymbol_word hn (by decide), guardSymbol_command hn (by decide) rfl⟩, k8, rfl, includes_lines hci ?_ k6 ?_⟩
    · rw [← headerText_parts (by decide)]
      exact apply_get (cfs_noAppend _ _ _ _ _) (C27_cfs fuel p raw hg cfg out) fs
        (h2 _ (by rw [printed_cfs _ _ _ _ _ hn]; exact List.Mem.head _))
    · intro i hi
      simp only [cfsBackend, msgFilename, Command.included, Command.header, cName_eq (Or.inl (him i hi)),
        List.append_assoc]
      rfl
    · intro l hl
      obtain ⟨n, c, t, ls, q1, q2, q3⟩ := k7 l hl
      refine cfsNote_note ?_ (hsn n c t q1) q2 l q3
      intro u hu x hx
      obtain ⟨ms, _, _, _, q4, _⟩ := buildFromConfig_ok.1 hb
      obtain ⟨m', h5, rfl, _⟩ := ((C18_use_map ms b q4).1 u.1 x).1 ⟨u.2, hu, hx⟩
      rw [← build_modules q4] at h5
      exact name_newline (.inl (accepted_names hg hbt m' h5))
  | c p =>
    obtain ⟨cd, h1, h2⟩ := run_module hr hb hm
    obtain ⟨sorted, tss, k1, k2, k3, k4, k5, k8, k9, notes, k6, k7⟩ := moduleData_blocks (c_quiet p) h1 hgd hcd
    refine ⟨partsOf .stored (ident bm.mod.name ++ ".h".toList) cd, sorted, tss, ⟨cd, h1, rfl⟩, ?_, k1, k2, k3, k4, k5,
      ⟨guardSymbol_word hn (by decide), guardSymbol_command hn (by decide) rfl⟩, k8, ?_, includes_lines hci ?_ k6 ?_⟩
    · rw [← headerText_parts (by decide)]
      exact apply_get (c_noAppend _ _ _ _ _) (C27_c fuel p raw hg cfg out) fs
        (h2 _ (by rw [printed_c _ _ _ _ _ hn]; exact List.Mem.head _))
    · obtain ⟨ps, q1, q2⟩ := k9
      simp only [partsOf, if_true, q2, Command.objects]
      have hgs : ∀ d ∈ sorted, GrammarDef d := fun d hd => hgd d (k2.mem_iff.1 hd)
      clear k1 k2 k3 h2 q2
      induction q1 with
      | nil => rfl
      | @cons d p' sorted ps hd _ ih =>
        rw [List.flatMap_cons, List.flatMap_cons, List.map_append, ih (fun d hd => hgs d (by simp [hd])),
          defPart_predefs (hgs d (by simp)) hd]
    · intro i hi
      exact cName_eq (Or.inl (him i hi))
    · intro l hl
      obtain ⟨n, c, t, ls, q1, q2, q3⟩ := k7 l hl
      exact cNote_note (t := t) (hsn n c t q1) q2 l q3
  | binary e =>
    obtain ⟨cd, h1, h2⟩ := run_module hr hb hm
    obtain ⟨sorted, tss, k1, k2, k3, k4, k5, k8, k9, notes, k6, k7⟩ := moduleData_blocks (bin_quiet b.defs fuel e) h1 hgd hcd
    refine ⟨partsOf .storedBinary (ident bm.mod.name ++ ".h".toList) cd, sorted, tss, ⟨cd, h1, rfl⟩, ?_, k1, k2, k3, k4, k5,
      ⟨guardSymbol_word hn (by decide), guardSymbol_command hn (by decide) rfl⟩, k8, rfl, includes_lines hci ?_ k6 ?_⟩
    · rw [← headerText_parts (by decide)]
      exact apply_get (binary_noAppend _ _ _ _ _) (C27_binary fuel e raw hg cfg out) fs
        (h2 _ (by rw [printed_bin _ _ _ _ _ _ hn]; exact List.Mem.head _))
    · intro i hi
      exact cName_eq (Or.inl (him i hi))
    · intro l hl
      obtain ⟨n, c, t, ls, q1, q2, q3⟩ := k7 l hl
      simp only [binBackend, binNote] at q2
      split at q2
      · cases q2; cases q3
      · exact cNote_note (t := t) (hsn n c t q1) q2 l q3

theorem header_file {fuel : Nat} {cmd : Command} {raw : List Module} {cfg : List String} {out : Text}
    (hg : ∀ m ∈ raw, GrammarModule m) (hc : ∀ m ∈ raw, GrammarComments m) {b : Bundle}
    (hb : buildFromConfig raw cfg = .ok b) (hr : (cmd.run fuel raw cfg out).result = .ok ())
    {bm : BMod} (hm : bm ∈ b.mods) (fs : Files) :
    ∃ (h : HeaderParts) (sorted : List Def) (tss : List (List (List Char))),
      HasText ((cmd.run fuel raw cfg out).apply fs) (cmd.path out bm.mod.name) h.text ∧
      sortDefs fuel bm.mod = some sorted ∧ sorted.Perm bm.mod.defs ∧
      All2 (Block (ModelType b.defs (simpleList bm) h.stdint) firstDim) sorted tss ∧
      h.blocks = tss.flatten ∧ h.stdbool = false ∧
      ((∀ c ∈ h.symbol, wordChar c = true) ∧ h.symbol = cmd.guard bm.mod.name) ∧ h.doc = headerDoc bm.mod ∧ h.decls = cmd.objects sorted ∧
      ∃ pre post, h.includes = pre ++
          (bm.mod.imports.map fun i => "#include \"".toList ++ cmd.included i.module ++ ['"']) ++ post ∧
        pre = importNote bm.mod.commentImport ∧ (∀ l ∈ pre, IsNote l) ∧ ∀ l ∈ post, SafeNote l := by
  obtain ⟨h, sorted, tss, _, r⟩ := header_file_data hg hc hb hr hm fs
  exact ⟨h, sorted, tss, r⟩


end Apg
