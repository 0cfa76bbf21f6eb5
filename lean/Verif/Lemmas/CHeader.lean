import Verif.Lemmas.CDecls

namespace Apg
open Spec

/-- Types that the reader accepts. -/
def GoodMap (T : TypeMap) : Prop :=
  ∀ t ct sfx, GrammarType t → T t ct sfx → isType [ct] = true ∧ (sfx = [] ∨ dims t = [])

theorem isDirective_indent {w : Text} (h : w ≠ [] ∧ ∀ c ∈ w, wordChar c = true) (r : Text) :
    isDirective ("  ".toList ++ (w ++ r)) = false := isDirective_word h.1 h.2 r

theorem sees_defComment {c : Option Comment} (hg : ∀ x ∈ c, GrammarComment x) (hx : ∀ x ∈ c, NoClose x) :
    Sees (defCommentText c) [] [] := by
  cases c with
  | none => exact .nil
  | some c =>
    unfold defCommentText
    simp only
    split
    · exact .nil
    · exact sees_code (l := [' ']) (reads_defComment (comment_newline (hg c rfl)) (hx c rfl)) (by decide) (by decide)

theorem sees_lit {l : Text} (h : (l.all fun c => c != '/' && c != '\\' && c != '\n') = true)
    (hd : isDirective l = false) : Sees (l ++ ['\n']) [] (tokens l) := sees_plain (plain1_lit h) hd

theorem sees_close {n : Text} (hn : isName n = true) :
    Sees ("} __attribute__((packed)) ".toList ++ n ++ [';'] ++ "\n\n".toList) [] (['}'] :: packedTokens ++ [n, [';']]) := by
  have hw := isName_word hn
  have hp : Plain1 ("} __attribute__((packed)) ".toList ++ n ++ [';']) :=
    ((plain1_lit (by decide)).append (plain1_word hw.2)).append (plain1_lit (by decide))
  have h1 := sees_plain hp (by
    show isDirective ('}' :: _) = false
    exact isDirective_cons (by decide) _)
  have h2 := sees_lit (l := []) (by decide) (by decide)
  have e : tokens ("} __attribute__((packed)) ".toList ++ n ++ [';']) = ['}'] :: packedTokens ++ [n, [';']] := by
    have e1 : "} __attribute__((packed)) ".toList ++ n ++ [';'] = "} __attribute__((packed))".toList ++ ' ' :: (n ++ ';' :: []) := by
      have : "} __attribute__((packed)) ".toList = "} __attribute__((packed))".toList ++ [' '] := by decide
      rw [this]
      generalize "} __attribute__((packed))".toList = q
      simp
    have e2 : tokens "} __attribute__((packed))".toList = ['}'] :: packedTokens := by decide +kernel
    rw [e1, tokens_blank, tokens_symbol n (by decide), tokens_word hw.1 hw.2, tokens_nil, e2]
    rfl
  have := h1.append h2
  rw [e, tokens_nil, List.append_nil] at this
  have ec : "\n\n".toList = ['\n'] ++ ['\n'] := by decide
  rw [ec]
  intro t
  have := this t
  simpa only [List.append_assoc, List.nil_append, List.singleton_append, List.cons_append] using this

theorem flatMap_length_le {α : Type} (l : List (List α)) (s : α) : l.length ≤ (l.flatMap (· ++ [s])).length := by
  induction l with
  | nil => simp
  | cons a l ih => simp only [List.flatMap_cons, List.length_append, List.length_cons, List.length_nil]; omega

/-- The fields of a struct. -/
theorem fields_see {T : TypeMap} (hT : GoodMap T) {ms : List Member} {fields : List Text}
    (h : All2 (fun m f => ∃ ct sfx, T m.type ct sfx ∧ FieldText m ct sfx ((dims m.type).take 1) f) ms fields)
    (hg : ∀ k ∈ ms, GrammarMember k)
    (ht : ∀ k ∈ ms, (∀ x ∈ k.comment, NoBackslash x) ∧ NotReserved (ident k.key)) :
    ∃ (tss : List (List Text)) (fs : List CField), Sees fields.flatten [] (tss.flatMap (· ++ [[';']])) ∧
      All2 (fun ts f => readField ts = some f ∧ Clean ts) tss fs ∧ All2 (FieldOf T) ms fs := by
  induction h with
  | nil => exact ⟨[], [], .nil, .nil, .nil⟩
  | @cons k f ms fields hf _ ih =>
    obtain ⟨tss, fs, i1, i2, i3⟩ := ih (fun k hk => hg k (by simp [hk])) fun k hk => ht k (by simp [hk])
    obtain ⟨ct, sfx, h1, cmt, br, rfl, h2, h3, _, h5⟩ := hf
    obtain ⟨g1, g2, _⟩ := hg k (by simp)
    obtain ⟨t1, t2⟩ := ht k (by simp)
    obtain ⟨m1, m2⟩ := hT _ _ _ g2 h1
    obtain ⟨hp, ts, fld, e1, e2, e3, e4, e5, e6, e7⟩ := field_tokens m1 (name_lower g1 t2) h2 h5 m2
    refine ⟨ts :: tss, fld :: fs, ?_, .cons ⟨e3, e2⟩ i2, .cons ⟨e4, e5, ct, sfx, h1, e6, e7⟩ i3⟩
    have hw := isType_word m1
    have s1 := sees_own_note h3 t1
    have s2 := sees_plain hp (by
      simp only [List.append_assoc]
      exact isDirective_indent hw _)
    have := (s1.append s2).append i1
    rw [e1] at this
    intro t
    have e : ";\n".toList = [';'] ++ ['\n'] := by decide
    have this := this t
    rw [List.flatten_cons, e, List.flatMap_cons]
    simpa only [List.append_assoc, List.nil_append, List.singleton_append, List.cons_append] using this

theorem flatMap_clean {tss : List (List Text)} {s e : Text} (h : ∀ ts ∈ tss, e ∉ ts) (hs : e ≠ s) :
    e ∉ tss.flatMap (· ++ [s]) := by
  intro hm
  obtain ⟨ts, h1, h2⟩ := List.mem_flatMap.1 hm
  rcases List.mem_append.1 h2 with h2 | h2
  · exact h ts h1 h2
  · exact hs (by simpa using h2)

theorem all2_left {α β : Type} {R : α → β → Prop} {l : List α} {l' : List β} (h : All2 R l l') {a : α} (ha : a ∈ l) :
    ∃ b, R a b := by
  induction h with
  | nil => cases ha
  | cons h _ ih =>
    cases ha with
    | head => exact ⟨_, h⟩
    | tail _ ha => exact ih ha

theorem struct_see {T : TypeMap} (hT : GoodMap T) {n : String} {c : Option Comment} {ms : List Member} {t : Text}
    (h : StructBlock T (fun t => (dims t).take 1) n c ms t) (hg : GrammarDef (.seq n c ms))
    (hc : ∀ x ∈ commentsOf (.seq n c ms), GrammarComment x) (ht : TameDef (.seq n c ms)) :
    ∃ ts x, Sees (t ++ "\n\n".toList) [] ts ∧ Declaration ts x ∧ DeclOf T (.seq n c ms) x := by
  obtain ⟨fields, rfl, hf⟩ := h
  obtain ⟨tss, fs, i1, i2, i3⟩ := fields_see hT hf hg.2.2 ht.2.1
  have hn := name_capital hg.1
  refine ⟨_, _, ?_, declaration_struct (body := tss.flatMap (· ++ [[';']])) ?_
    (readFields_all i2 (flatMap_length_le _ _)) hn, fs, rfl, i3⟩
  · have s0 := sees_defComment (c := c) (fun x hx => hc x (by simp [commentsOf, Option.mem_def.1 hx])) ht.1
    have s1 := sees_lit (l := "typedef struct".toList) (by decide) (by decide)
    have s2 := sees_lit (l := "{".toList) (by decide) (by decide)
    have e1 : tokens "typedef struct".toList = ["typedef".toList, "struct".toList] := by decide +kernel
    have e2 : tokens "{".toList = [['{']] := by decide +kernel
    rw [e1] at s1
    rw [e2] at s2
    have := (((s0.append s1).append s2).append i1).append (sees_close hn)
    have e : "typedef struct\n{\n".toList = "typedef struct".toList ++ ['\n'] ++ ("{".toList ++ ['\n']) := by decide
    rw [e]
    generalize "typedef struct".toList = q1 at *
    generalize "{".toList = q2 at *
    generalize packedTokens = q4 at *
    generalize "typedef".toList = q5 at *
    generalize "struct".toList = q6 at *
    intro t
    have this := this t
    simpa only [List.append_assoc, List.nil_append, List.singleton_append, List.cons_append] using this
  · exact flatMap_clean (fun ts hts => (all2_left i2 hts).elim fun f hf => hf.2.2.1) (by decide)

/-- The enumerators. -/
theorem items_see {its : List EnumItem} {lines : List Text} (h : All2 EnumLine its lines)
    (hg : ∀ i ∈ its, isNameLower i.key = true)
    (ht : ∀ i ∈ its, (∀ x ∈ i.comment, NoBackslash x) ∧ NotReserved (ident i.key)) :
    ∃ tss : List (List Text), Sees lines.flatten [] (tss.flatMap (· ++ [[',']])) ∧
      All2 (fun ts (i : Text × Int) => ∃ d, ts = i.1 :: ['='] :: tokens d ∧ isName i.1 = true ∧ readInt d = some i.2) tss
        (its.map fun i => (ident i.key, i.pos)) := by
  induction h with
  | nil => exact ⟨[], .nil, .nil⟩
  | @cons k f its lines hf _ ih =>
    obtain ⟨tss, i1, i2⟩ := ih (fun k hk => hg k (by simp [hk])) fun k hk => ht k (by simp [hk])
    obtain ⟨d, cmt, rfl, h1, h2⟩ := hf
    obtain ⟨t1, t2⟩ := ht k (by simp)
    have hn := name_lower (hg k (by simp)) t2
    have hw := isName_word hn
    refine ⟨(ident k.key :: ['='] :: tokens d) :: tss, ?_, .cons ⟨d, rfl, hn, h1⟩ i2⟩
    have hp : Plain1 ("  ".toList ++ ident k.key ++ " = ".toList ++ d ++ [',']) :=
      ((((plain1_lit (by decide)).append (plain1_word hw.2)).append (plain1_lit (by decide))).append
        (plain1_number h1)).append (plain1_lit (by decide))
    have s := sees_note hp (by
      intro r
      simp only [List.append_assoc]
      exact isDirective_indent hw _) h2 ⟨5, by decide⟩ t1
    have e : tokens ("  ".toList ++ ident k.key ++ " = ".toList ++ d ++ [',']) =
        (ident k.key :: ['='] :: tokens d) ++ [[',']] := by
      have e0 : "  ".toList ++ ident k.key ++ " = ".toList ++ d ++ [','] =
          [] ++ ' ' :: ([] ++ ' ' :: (ident k.key ++ ' ' :: ([] ++ '=' :: ([] ++ ' ' :: (d ++ ',' :: []))))) := by
        simp
      rw [e0, tokens_blank, tokens_blank, tokens_blank, tokens_symbol [] (by decide), tokens_blank,
        tokens_symbol d (by decide), tokens_word hw.1 hw.2, tokens_nil]
      simp
    rw [e] at s
    have := s.append i1
    intro t
    have this := this t
    rw [List.flatten_cons, List.flatMap_cons]
    generalize "  ".toList = q1 at *
    generalize " = ".toList = q2 at *
    simpa only [List.append_assoc, List.nil_append, List.singleton_append, List.cons_append] using this

theorem enum_see (T : TypeMap) {n : String} {c : Option Comment} {its : List EnumItem} {t : Text}
    (h : EnumBlock n c its t) (hg : GrammarDef (.enum n c its))
    (hc : ∀ x ∈ commentsOf (.enum n c its), GrammarComment x) (ht : TameDef (.enum n c its)) :
    ∃ ts x, Sees (t ++ "\n\n".toList) [] ts ∧ Declaration ts x ∧ DeclOf T (.enum n c its) x := by
  obtain ⟨lines, rfl, hf⟩ := h
  obtain ⟨tss, i1, i2⟩ := items_see hf hg.2.2 ht.2
  have hn := name_capital hg.1
  refine ⟨_, _, ?_, declaration_enum (body := tss.flatMap (· ++ [[',']])) ?_
    (readItems_all i2 (flatMap_length_le _ _)) hn, rfl⟩
  · have s0 := sees_defComment (c := c) (fun x hx => hc x (by simp [commentsOf, Option.mem_def.1 hx])) ht.1
    have s1 := sees_lit (l := "typedef enum {".toList) (by decide) (by decide)
    have e1 : tokens "typedef enum {".toList = ["typedef".toList, "enum".toList, ['{']] := by decide +kernel
    rw [e1] at s1
    have := ((s0.append s1).append i1).append (sees_close hn)
    have e : "typedef enum {\n".toList = "typedef enum {".toList ++ ['\n'] := by decide
    rw [e]
    generalize "typedef enum {".toList = q1 at *
    generalize packedTokens = q4 at *
    generalize "typedef".toList = q5 at *
    generalize "enum".toList = q6 at *
    intro t
    have this := this t
    simpa only [List.append_assoc, List.nil_append, List.singleton_append, List.cons_append] using this
  · refine flatMap_clean (fun ts hts => ?_) (by decide)
    obtain ⟨i, d, rfl, h1, h2⟩ := all2_left i2 hts
    have : i.1 :: ['='] :: tokens d = [i.1] ++ ([['=']] ++ tokens d) := rfl
    rw [this]
    refine not_mem_of ?_ (not_mem_of (by decide) (number_clean h2 (by decide)))
    intro hm
    simp only [List.mem_singleton] at hm
    exact word_ne (isName_word h1) (show wordChar '}' = false by decide) hm.symm

theorem unionType_type {t : AType} (h : GrammarType t) : isType [unionType t] = true := by
  induction h with
  | arr _ ih => exact ih
  | named hn => simp only [unionType, isType, name_capital hn, Bool.true_or]
  | _ => simp only [unionType]; decide +kernel

theorem union_see (T : TypeMap) {n : String} {c : Option Comment} {ms : List Member} {t : Text}
    (h : UnionBlock n c ms t) (hg : GrammarDef (.choice n c ms))
    (hc : ∀ x ∈ commentsOf (.choice n c ms), GrammarComment x) (ht : TameDef (.choice n c ms)) :
    ∃ ts x, Sees (t ++ "\n\n".toList) [] ts ∧ Declaration ts x ∧ DeclOf T (.choice n c ms) x := by
  obtain ⟨fields, rfl, hf⟩ := h
  have hn := name_capital hg.1
  have ho := name_lowered hg.1 ht.2.2
  have hwn := isName_word hn
  have hwo := isName_word ho
  have key : Plain1 fields.flatten ∧ (∀ r, tokens (fields.flatten ++ '}' :: r) =
        (ms.map fun k => [unionType k.type, ident k.key]).flatMap (· ++ [[';']]) ++ ['}'] :: tokens r) ∧
      (∀ r, isDirective (fields.flatten ++ '}' :: r) = false) ∧
      All2 (fun ts f => readField ts = some f ∧ Clean ts) (ms.map fun k => [unionType k.type, ident k.key])
        (ms.map fun k => ⟨[unionType k.type], ident k.key, none, []⟩) := by
    have hg2 := hg.2.2
    have ht2 := ht.2.1
    clear hg hc ht
    induction hf with
    | nil =>
      refine ⟨(by intro c hc; cases hc), ?_, ?_, .nil⟩
      · intro r
        have := tokens_symbol [] (c := '}') (by decide) r
        simpa [tokens_nil] using this
      · intro r; exact isDirective_cons (by decide) r
    | @cons k f ms fields h1 _ ih =>
      obtain ⟨i1, i2, i3, i4⟩ := ih (fun k hk => hg2 k (by simp [hk])) fun k hk => ht2 k (by simp [hk])
      obtain ⟨cmt, rfl, h2⟩ := h1
      obtain ⟨g1, g2, _⟩ := hg2 k (by simp)
      obtain ⟨t1, t2⟩ := ht2 k (by simp)
      rw [h2.1 t1, List.append_nil]
      have hty := unionType_type g2
      have hk := name_lower g1 t2
      have hwt := isType_word hty
      have hwk := isName_word hk
      have hp : Plain1 ("  ".toList ++ unionType k.type ++ ' ' :: ident k.key ++ [';']) :=
        (((plain1_lit (by decide)).append (plain1_word hwt.2)).append (.cons (by decide) (plain1_word hwk.2))).append
          (plain1_lit (by decide))
      refine ⟨hp.append i1, ?_, ?_, .cons ⟨readField_plain hty hk, ?_⟩ i4⟩
      · intro r
        have e0 : (("  ".toList ++ unionType k.type ++ ' ' :: ident k.key ++ [';']) :: fields).flatten ++ '}' :: r =
            [] ++ ' ' :: ([] ++ ' ' :: (unionType k.type ++ ' ' :: (ident k.key ++ ';' :: (fields.flatten ++ '}' :: r)))) := by
          simp
        rw [e0, tokens_blank, tokens_blank, tokens_blank, tokens_symbol _ (by decide), i2, tokens_word hwt.1 hwt.2,
          tokens_word hwk.1 hwk.2, tokens_nil]
        simp
      · intro r
        rw [List.flatten_cons]
        simp only [List.append_assoc]
        exact isDirective_indent hwt _
      · have : ∀ c : Char, wordChar c = false → [c] ∉ [unionType k.type, ident k.key] := by
          intro c hc hm
          simp only [List.mem_cons, List.not_mem_nil, or_false] at hm
          rcases hm with hm | hm
          · exact word_ne hwt hc hm.symm
          · exact word_ne hwk hc hm.symm
        exact ⟨this _ (by decide), this _ (by decide), this _ (by decide)⟩
  obtain ⟨k1, k2, k3, k4⟩ := key
  refine ⟨_, _, ?_, declaration_union (body := (ms.map fun k => [unionType k.type, ident k.key]).flatMap (· ++ [[';']])) ?_
    (readFields_all k4 (flatMap_length_le _ _)) hn ho, rfl⟩
  · have s0 := sees_defComment (c := c) (fun x hx => hc x (by simp [commentsOf, Option.mem_def.1 hx])) ht.1
    have hp1 : Plain1 ("union ".toList ++ ident n ++ " {".toList) :=
      ((plain1_lit (by decide)).append (plain1_word hwn.2)).append (plain1_lit (by decide))
    have s1 := sees_plain hp1 (by
      show isDirective ('u' :: _) = false
      exact isDirective_cons (by decide) _)
    have e1 : tokens ("union ".toList ++ ident n ++ " {".toList) = ["union".toList, ident n, ['{']] := by
      have e0 : "union ".toList ++ ident n ++ " {".toList = "union".toList ++ ' ' :: (ident n ++ ' ' :: ([] ++ '{' :: [])) := by
        simp
      rw [e0, tokens_blank, tokens_blank, tokens_symbol [] (by decide), tokens_word hwn.1 hwn.2, tokens_nil,
        tokens_word (a := "union".toList) (by decide) (by decide +kernel)]
      rfl
    have hp2 : Plain1 (fields.flatten ++ '}' :: (' ' :: (lowerFirst (ident n) ++ [';']))) :=
      k1.append (.cons (by decide) (.cons (by decide) ((plain1_word hwo.2).append (plain1_lit (by decide)))))
    have s2 := sees_plain hp2 (k3 _)
    have e2 : tokens (' ' :: (lowerFirst (ident n) ++ [';'])) = [lowerFirst (ident n), [';']] := by
      have e0 : ' ' :: (lowerFirst (ident n) ++ [';']) = [] ++ ' ' :: (lowerFirst (ident n) ++ ';' :: []) := rfl
      rw [e0, tokens_blank, tokens_symbol _ (by decide), tokens_word hwo.1 hwo.2, tokens_nil]
      rfl
    rw [e1] at s1
    rw [k2, e2] at s2
    have s3 := sees_lit (l := []) (by decide) (by decide)
    rw [tokens_nil] at s3
    have := ((s0.append s1).append s2).append s3
    have ea : " {\n".toList = " {".toList ++ ['\n'] := by decide
    have eb : "} ".toList = '}' :: ' ' :: [] := by decide
    have ec : "\n\n".toList = ['\n'] ++ ['\n'] := by decide
    rw [ea, eb, ec]
    generalize "union ".toList = q1 at *
    generalize " {".toList = q2 at *
    generalize "union".toList = q3 at *
    intro t
    have this := this t
    simpa only [List.append_assoc, List.nil_append, List.singleton_append, List.cons_append, List.append_nil] using this
  · exact flatMap_clean (fun ts hts => (all2_left k4 hts).elim fun f hf => hf.2.2.1) (by decide)

/-- The blocks of a header. -/
theorem blocks_see {T : TypeMap} (hT : GoodMap T) {sorted : List Def} {tss : List (List Text)}
    (h : All2 (Block T fun t => (dims t).take 1) sorted tss) (hg : ∀ d ∈ sorted, GrammarDef d)
    (hc : ∀ d ∈ sorted, ∀ x ∈ commentsOf d, GrammarComment x) (ht : ∀ d ∈ sorted, TameDef d) :
    ∃ (tks : List (List Text)) (decls : List CDecl), Sees (tss.flatten.flatMap (· ++ "\n\n".toList)) [] tks.flatten ∧
      All2 Declaration tks decls ∧ All2 (DeclOf T) (sorted.filter fun d => !d.isSimple) decls := by
  induction h with
  | nil => exact ⟨[], [], .nil, .nil, .nil⟩
  | @cons d ts sorted tss hb _ ih =>
    obtain ⟨tks, decls, i1, i2, i3⟩ := ih (fun d hd => hg d (by simp [hd])) (fun d hd => hc d (by simp [hd]))
      fun d hd => ht d (by simp [hd])
    have hg := hg d (by simp)
    have hc := hc d (by simp)
    have ht := ht d (by simp)
    have single : ∀ t, ts = [t] → d.isSimple = false →
        (∃ us x, Sees (t ++ "\n\n".toList) [] us ∧ Declaration us x ∧ DeclOf T d x) →
        ∃ (tks : List (List Text)) (decls : List CDecl),
          Sees ((ts :: tss).flatten.flatMap (· ++ "\n\n".toList)) [] tks.flatten ∧
          All2 Declaration tks decls ∧ All2 (DeclOf T) ((d :: sorted).filter fun d => !d.isSimple) decls := by
      rintro t rfl hs ⟨us, x, j1, j2, j3⟩
      refine ⟨us :: tks, x :: decls, ?_, .cons j2 i2, ?_⟩
      · have := j1.append i1
        rw [List.flatten_cons, List.singleton_append, List.flatMap_cons, List.flatten_cons]
        exact this
      · rw [List.filter_cons_of_pos (by simp [hs])]
        exact .cons j3 i3
    cases d with
    | seq n c ms =>
      obtain ⟨t, h1, h2⟩ := hb
      exact single t h1 rfl (struct_see hT h2 hg hc ht)
    | enum n c its =>
      obtain ⟨t, h1, h2⟩ := hb
      exact single t h1 rfl (enum_see T h2 hg hc ht)
    | choice n c ms =>
      obtain ⟨t, h1, h2⟩ := hb
      exact single t h1 rfl (union_see T h2 hg hc ht)
    | simple n c t =>
      have h1 : ts = [] := hb
      subst h1
      exact ⟨tks, decls, i1, i2, by rw [List.filter_cons_of_neg (by simp [Def.isSimple])]; exact i3⟩

end Apg
