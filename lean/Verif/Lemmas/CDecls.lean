import Verif.Lemmas.CBlocks

namespace Apg
open Spec

/-! ### Names -/

theorem name_lower {s : String} (h : isNameLower s = true) (hr : NotReserved (ident s)) : isName (ident s) = true := by
  have ht := ident_lower_chars h
  have hne := ident_ne_nil (Or.inl h)
  have hh : ∀ c, (ident s).head? = some c → nameStart c = true := by
    intro c hc
    unfold isNameLower at h
    split at h
    · rename_i d cs hs
      simp only [Bool.and_eq_true] at h
      have hd : d ≠ '-' := by
        rintro rfl
        exact absurd h.1 (by decide)
      simp only [ident, hs, List.map_cons, if_neg hd, List.head?_cons, Option.some.injEq] at hc
      rw [← hc]
      exact reLower_start h.1
    · cases h
  cases hi : ident s with
  | nil => exact absurd hi hne
  | cons c r =>
    rw [hi] at ht hh hr
    exact isName_of ⟨c, r, rfl, hh c rfl, fun d hd => tailChar_name (ht d (by simp [hd]))⟩ hr

theorem name_capital {s : String} (h : isNameCapital s = true) : isName (ident s) = true := by
  obtain ⟨c, r, h1, h2, h3⟩ := ident_capital_chars h
  refine isName_of ⟨c, r, h1, reUpper_start h2, fun d hd => tailChar_name (h3 d hd)⟩ ?_
  intro hm
  rw [h1] at hm
  have hk : ∀ w ∈ keywords.map String.toList, ∀ c ∈ w.head?, reUpper c = false := by decide +kernel
  rw [hk _ hm c rfl] at h2
  cases h2

theorem name_lowered {s : String} (h : isNameCapital s = true) (hr : NotReserved (lowerFirst (ident s))) :
    isName (lowerFirst (ident s)) = true := by
  obtain ⟨c, r, h1, h2, h3⟩ := ident_capital_chars h
  rw [h1] at hr ⊢
  refine isName_of ⟨c.toLower, r, rfl, reLower_start ?_, fun d hd => tailChar_name (h3 d hd)⟩ hr
  have hall : ∀ n < 128, reUpper (Char.ofNat n) = true → reLower (Char.ofNat n).toLower = true := by decide +kernel
  have hc : c.toNat < 128 := by
    simp only [reUpper, Bool.and_eq_true, decide_eq_true_eq] at h2
    have : c.toNat ≤ 'Z'.toNat := h2.2
    have h90 : 'Z'.toNat = 90 := by decide
    omega
  have := hall c.toNat hc
  rw [Char.ofNat_toNat] at this
  exact this h2

/-! ### Readers of token lists -/

theorem upTo_mid {s : Char} {a : List Text} (h : [s] ∉ a) (r : List Text) : upTo s (a ++ [s] :: r) = some (a, r) := by
  have h1 : ∀ (a : List Text), [s] ∉ a → (a ++ [s] :: r).dropWhile (fun w => decide (w ≠ [s])) = [s] :: r ∧
      (a ++ [s] :: r).takeWhile (fun w => decide (w ≠ [s])) = a := by
    intro a ha
    induction a with
    | nil => simp
    | cons w a ih =>
      simp only [List.mem_cons, not_or] at ha
      obtain ⟨i1, i2⟩ := ih ha.2
      rw [List.cons_append, List.dropWhile_cons_of_pos (by simpa using Ne.symm ha.1),
        List.takeWhile_cons_of_pos (by simpa using Ne.symm ha.1), i1, i2]
      exact ⟨rfl, rfl⟩
  unfold upTo
  rw [(h1 a h).1, (h1 a h).2]

theorem after_append (pre r : List Text) : after pre (pre ++ r) = some r := by
  unfold after
  rw [if_pos (by rw [List.isPrefixOf_iff_prefix]; exact List.prefix_append _ _), List.drop_left]

theorem after_one (s : Text) (r : List Text) : after [s] (s :: r) = some r := after_append [s] r

theorem nextName_cons {w : Text} (h : isName w = true) (r : List Text) : nextName (w :: r) = some (w, r) := by
  simp [nextName, h]

/-- Tokens of a field or enumerator, without its end. -/
def Clean (ts : List Text) : Prop := [';'] ∉ ts ∧ ['}'] ∉ ts ∧ [','] ∉ ts

theorem number_clean {d : Text} {i : Int} (h : readInt d = some i) {c : Char} (hc : (!wordChar c && c != '-') = true) :
    [c] ∉ tokens d := by
  simp only [Bool.and_eq_true, Bool.not_eq_true', bne_iff_ne] at hc
  intro hm
  rcases (tokens_number h).2 _ hm with h | h
  · exact hc.2 (by simpa using h)
  · exact word_ne h hc.1 rfl

theorem not_mem_of {s : Text} {l m : List Text} (h : s ∉ l) (h' : s ∉ m) : s ∉ l ++ m := by
  simp [h, h']

theorem readField_plain {ct nm : Text} (ht : isType [ct] = true) (hn : isName nm = true) :
    readField [ct, nm] = some ⟨[ct], nm, none, []⟩ := by
  have h1 := isType_word ht
  have h2 := isName_word hn
  have e1 : [ct, nm].takeWhile (fun w => decide (w ≠ [':'] ∧ w ≠ ['['])) = [ct, nm] := by
    simp [word_ne h1 (show wordChar ':' = false by decide), word_ne h1 (show wordChar '[' = false by decide),
      word_ne h2 (show wordChar ':' = false by decide), word_ne h2 (show wordChar '[' = false by decide)]
  have e2 : [ct, nm].dropWhile (fun w => decide (w ≠ [':'] ∧ w ≠ ['['])) = [] := by
    simp [word_ne h1 (show wordChar ':' = false by decide), word_ne h1 (show wordChar '[' = false by decide),
      word_ne h2 (show wordChar ':' = false by decide), word_ne h2 (show wordChar '[' = false by decide)]
  unfold readField
  simp only [e1, e2]
  simp [ht, hn, readDims]

theorem readField_split {ct nm : Text} (ht : isType [ct] = true) (hn : isName nm = true) {s : Char}
    (hs : s = ':' ∨ s = '[') (r : List Text) :
    (ct :: nm :: [s] :: r).takeWhile (fun w => decide (w ≠ [':'] ∧ w ≠ ['['])) = [ct, nm] ∧
    (ct :: nm :: [s] :: r).dropWhile (fun w => decide (w ≠ [':'] ∧ w ≠ ['['])) = [s] :: r := by
  have h1 := isType_word ht
  have h2 := isName_word hn
  have n1 := word_ne h1 (show wordChar ':' = false by decide)
  have n2 := word_ne h1 (show wordChar '[' = false by decide)
  have n3 := word_ne h2 (show wordChar ':' = false by decide)
  have n4 := word_ne h2 (show wordChar '[' = false by decide)
  rcases hs with rfl | rfl <;> simp [n1, n2, n3, n4]

theorem readField_width {ct nm d : Text} {i : Int} (ht : isType [ct] = true) (hn : isName nm = true)
    (hd : readInt d = some i) : readField (ct :: nm :: [':'] :: tokens d) = some ⟨[ct], nm, some i, []⟩ := by
  obtain ⟨e1, e2⟩ := readField_split ht hn (.inl rfl) (tokens d)
  unfold readField
  simp only [e1, e2]
  simp [ht, hn, (tokens_number hd).1]

theorem readField_array {ct nm d : Text} {i : Int} (ht : isType [ct] = true) (hn : isName nm = true)
    (hd : readInt d = some i) :
    readField (ct :: nm :: ['['] :: (tokens d ++ [[']']])) = some ⟨[ct], nm, none, [i]⟩ := by
  obtain ⟨e1, e2⟩ := readField_split ht hn (.inr rfl) (tokens d ++ [[']']])
  have e3 : readDims (['['] :: (tokens d ++ [[']']])).length (['['] :: (tokens d ++ [[']']])) = some [i] := by
    have hu := upTo_mid (number_clean hd (c := ']') (by decide)) []
    rw [List.length_cons, readDims]
    · simp [after_one, hu, (tokens_number hd).1, readDims]
    · simp
  unfold readField
  simp only [e1, e2]
  simp only [e3]
  simp [ht, hn]

/-- The line of a field. -/
theorem field_tokens {k : Member} {ct sfx br : Text} (ht : isType [ct] = true) (hn : isName (ident k.key) = true)
    (hb : Brackets ((dims k.type).take 1) br) (hs : SuffixText sfx) (hor : sfx = [] ∨ dims k.type = []) :
    Plain1 ("  ".toList ++ ct ++ ' ' :: ident k.key ++ sfx ++ br ++ [';']) ∧
    ∃ ts f, tokens ("  ".toList ++ ct ++ ' ' :: ident k.key ++ sfx ++ br ++ [';']) = ts ++ [[';']] ∧ Clean ts ∧
      readField ts = some f ∧ f.name = ident k.key ∧ f.dims = (dims k.type).take 1 ∧ f.type = [ct] ∧
      ((sfx = [] ∧ f.width = none) ∨ ∃ d i, sfx = " : ".toList ++ d ∧ readInt d = some i ∧ f.width = some i) := by
  have h1 := isType_word ht
  have h2 := isName_word hn
  have wne : ∀ c : Char, wordChar c = false → [c] ∉ [ct, ident k.key] := by
    intro c hc hm
    simp only [List.mem_cons, List.not_mem_nil, or_false] at hm
    rcases hm with hm | hm
    · exact word_ne h1 hc hm.symm
    · exact word_ne h2 hc hm.symm
  have hstart : ∀ r : Text, tokens ("  ".toList ++ ct ++ ' ' :: (ident k.key ++ r)) = ct :: tokens (ident k.key ++ r) := by
    intro r
    have e := tokens_blank ("  ".toList ++ ct) (ident k.key ++ r)
    have e' : tokens ("  ".toList ++ ct) = [ct] := by
      have := tokens_blank [] (' ' :: ct)
      have this' := tokens_blank [] ct
      rw [tokens_nil, List.nil_append, List.nil_append] at this this'
      show tokens (' ' :: ' ' :: ct) = _
      rw [this, this', tokens_word h1.1 h1.2]
    rw [e, e', List.singleton_append]
  have p0 : Plain1 ("  ".toList ++ ct ++ ' ' :: ident k.key) :=
    ((plain1_lit (by decide)).append (plain1_word h1.2)).append (.cons (by decide) (plain1_word h2.2))
  by_cases hs0 : sfx = []
  · subst hs0
    cases hdm : (dims k.type).take 1 with
    | nil =>
      rw [hdm] at hb
      cases hb
      refine ⟨?_, [ct, ident k.key], _, ?_, ?_, readField_plain ht hn, rfl, rfl, rfl, .inl ⟨rfl, rfl⟩⟩
      · simpa using p0.append (plain1_lit (l := [';']) (by decide))
      · have := hstart [';']
        have e := tokens_symbol (ident k.key) (c := ';') (by decide) []
        rw [e, tokens_word h2.1 h2.2, tokens_nil] at this
        simpa using this
      · exact ⟨wne _ (by decide), wne _ (by decide), wne _ (by decide)⟩
    | cons i is =>
      have his : is = [] := by
        cases hd : dims k.type with
        | nil => rw [hd] at hdm; cases hdm
        | cons j js => rw [hd] at hdm; simp at hdm; exact hdm.2
      subst his
      rw [hdm] at hb
      obtain ⟨d, hd, rfl⟩ : ∃ d, readInt d = some i ∧ br = '[' :: d ++ [']'] := by
        cases hb with
        | cons hd hb' => cases hb'; exact ⟨_, hd, rfl⟩
      refine ⟨?_, ct :: ident k.key :: ['['] :: (tokens d ++ [[']']]), _, ?_, ?_, readField_array ht hn hd, rfl,
        rfl, rfl, .inl ⟨rfl, rfl⟩⟩
      · have := p0.append ((Plain1.cons (c := '[') (by decide) (plain1_number hd)).append (plain1_lit (l := "];".toList) (by decide)))
        simpa using this
      · have := hstart ('[' :: (d ++ ']' :: ';' :: []))
        rw [tokens_symbol (ident k.key) (c := '[') (by decide), tokens_symbol d (c := ']') (by decide),
          tokens_word h2.1 h2.2] at this
        have e := tokens_symbol [] (c := ';') (by decide) []
        rw [tokens_nil, List.nil_append, List.nil_append] at e
        rw [e] at this
        simpa using this
      · have hcl : ∀ c : Char, (!wordChar c && c != '-' && c != '[' && c != ']') = true →
            [c] ∉ ct :: ident k.key :: ['['] :: (tokens d ++ [[']']]) := by
          intro c hc
          simp only [Bool.and_eq_true, Bool.not_eq_true', bne_iff_ne] at hc
          have : ct :: ident k.key :: ['['] :: (tokens d ++ [[']']]) =
            [ct, ident k.key] ++ ([['[']] ++ (tokens d ++ [[']']])) := rfl
          rw [this]
          refine not_mem_of (wne c hc.1.1.1) (not_mem_of ?_ (not_mem_of (number_clean hd ?_) ?_))
          · simpa using hc.1.2
          · simp [hc.1.1.1, hc.1.1.2]
          · simpa using hc.2
        exact ⟨hcl _ (by decide), hcl _ (by decide), hcl _ (by decide)⟩
  · have hdn := hor.resolve_left hs0
    rw [hdn] at hb
    cases hb
    obtain ⟨d, i, rfl, hd⟩ := hs.resolve_left hs0
    refine ⟨?_, ct :: ident k.key :: [':'] :: tokens d, _, ?_, ?_, readField_width ht hn hd, rfl, ?_, rfl,
      .inr ⟨d, i, rfl, hd, rfl⟩⟩
    · have := p0.append ((plain1_lit (l := " : ".toList) (by decide)).append ((plain1_number hd).append
        (plain1_lit (l := ";".toList) (by decide))))
      simpa using this
    · have := hstart (' ' :: ':' :: ' ' :: (d ++ ';' :: []))
      rw [tokens_blank (ident k.key)] at this
      have e1 := tokens_symbol [] (c := ':') (by decide) (' ' :: (d ++ [';']))
      have e2 := tokens_blank [] (d ++ [';'])
      have e3 := tokens_symbol d (c := ';') (by decide) []
      rw [tokens_nil, List.nil_append, List.nil_append] at e1 e2
      rw [tokens_nil] at e3
      rw [show tokens (':' :: ' ' :: (d ++ ';' :: [])) = [':'] :: (tokens d ++ [[';']]) by rw [← e3, ← e2, ← e1],
        tokens_word h2.1 h2.2] at this
      simpa using this
    · have hcl : ∀ c : Char, (!wordChar c && c != '-' && c != ':') = true →
            [c] ∉ ct :: ident k.key :: [':'] :: tokens d := by
        intro c hc
        simp only [Bool.and_eq_true, Bool.not_eq_true', bne_iff_ne] at hc
        have : ct :: ident k.key :: [':'] :: tokens d = [ct, ident k.key] ++ ([[':']] ++ tokens d) := rfl
        rw [this]
        refine not_mem_of (wne c hc.1.1) (not_mem_of ?_ (number_clean hd ?_))
        · simpa using hc.2
        · simp [hc.1.1, hc.1.2]
      exact ⟨hcl _ (by decide), hcl _ (by decide), hcl _ (by decide)⟩
    · rw [hdn]; rfl

theorem readFields_all {tss : List (List Text)} {fs : List CField}
    (h : All2 (fun ts f => readField ts = some f ∧ Clean ts) tss fs) {n : Nat} (hn : tss.length ≤ n) :
    readFields n (tss.flatMap (· ++ [[';']])) = some fs := by
  induction h generalizing n with
  | nil => cases n <;> rfl
  | @cons ts f tss fs hf _ ih =>
    cases n with
    | zero => simp at hn
    | succ n =>
      simp only [List.length_cons] at hn
      rw [List.flatMap_cons, List.append_assoc]
      have e : upTo ';' (ts ++ ([[';']] ++ tss.flatMap (· ++ [[';']]))) = some (ts, tss.flatMap (· ++ [[';']])) :=
        upTo_mid hf.2.1 _
      have hne : ts ++ ([[';']] ++ tss.flatMap (· ++ [[';']])) ≠ [] := by simp
      have hstep : ∀ l : List Text, l ≠ [] → readFields (n + 1) l =
          (upTo ';' l).bind fun x => (readField x.1).bind fun f => (readFields n x.2).bind fun fs => some (f :: fs) := by
        intro l hl
        cases l with
        | nil => exact absurd rfl hl
        | cons => rfl
      rw [hstep _ hne, e]
      simp [hf.1, ih (by omega : tss.length ≤ n)]

theorem readItems_all {tss : List (List Text)} {is : List (Text × Int)}
    (h : All2 (fun ts (i : Text × Int) => ∃ d, ts = i.1 :: ['='] :: tokens d ∧ isName i.1 = true ∧ readInt d = some i.2)
      tss is) {n : Nat} (hn : tss.length ≤ n) :
    readItems n (tss.flatMap (· ++ [[',']])) = some is := by
  induction h generalizing n with
  | nil => cases n <;> rfl
  | @cons ts i tss is hf _ ih =>
    cases n with
    | zero => simp at hn
    | succ n =>
      simp only [List.length_cons] at hn
      obtain ⟨d, rfl, h1, h2⟩ := hf
      rw [List.flatMap_cons, List.append_assoc]
      have hc : [','] ∉ i.1 :: ['='] :: tokens d := by
        have : i.1 :: ['='] :: tokens d = [i.1] ++ ([['=']] ++ tokens d) := rfl
        rw [this]
        refine not_mem_of ?_ (not_mem_of (by decide) (number_clean h2 (by decide)))
        intro hm
        exact word_ne (isName_word h1) (show wordChar ',' = false by decide) (by simpa using Eq.symm (by simpa using hm))
      have e := upTo_mid hc (tss.flatMap (· ++ [[',']]))
      have hstep : ∀ l : List Text, l ≠ [] → readItems (n + 1) l =
          (upTo ',' l).bind fun x => (nextName x.1).bind fun y => (after [['=']] y.2).bind fun v =>
            (readNumber v).bind fun i => (readItems n x.2).bind fun is => some ((y.1, i) :: is) := by
        intro l hl
        cases l with
        | nil => exact absurd rfl hl
        | cons => rfl
      rw [hstep _ (by simp)]
      show ((upTo ',' ((i.1 :: ['='] :: tokens d) ++ [','] :: tss.flatMap (· ++ [[',']]))).bind _) = _
      rw [e]
      simp [nextName_cons h1, after_one, (tokens_number h2).1, ih (by omega : tss.length ≤ n)]

/-- The tokens are read as the declaration, whatever follows. -/
def Declaration (ts : List Text) (d : CDecl) : Prop := ts ≠ [] ∧ ∀ r, readDecl (ts ++ r) = some (d, r)

theorem readDecls_all {tss : List (List Text)} {ds : List CDecl} (h : All2 Declaration tss ds) {n : Nat}
    (hn : tss.length ≤ n) : readDecls n tss.flatten = some ds := by
  induction h generalizing n with
  | nil => cases n <;> rfl
  | @cons ts d tss ds hf _ ih =>
    cases n with
    | zero => simp at hn
    | succ n =>
      simp only [List.length_cons] at hn
      have hstep : ∀ l : List Text, l ≠ [] → readDecls (n + 1) l =
          (readDecl l).bind fun x => (readDecls n x.2).bind fun ds => some (x.1 :: ds) := by
        intro l hl
        cases l with
        | nil => exact absurd rfl hl
        | cons => rfl
      rw [List.flatten_cons, hstep _ (by simp [hf.1]), hf.2]
      simp [ih (by omega : tss.length ≤ n)]

theorem declaration_struct {body : List Text} {fs : List CField} {n : Text} (hb : ['}'] ∉ body)
    (hf : readFields body.length body = some fs) (hn : isName n = true) :
    Declaration (["typedef".toList, "struct".toList, ['{']] ++ body ++ ['}'] :: packedTokens ++ [n, [';']]) (.struct n fs) := by
  refine ⟨by simp, fun r => ?_⟩
  have e : ["typedef".toList, "struct".toList, ['{']] ++ body ++ ['}'] :: packedTokens ++ [n, [';']] ++ r =
      ["typedef".toList, "struct".toList, ['{']] ++ (body ++ ['}'] :: (packedTokens ++ n :: [';'] :: r)) := by
    generalize packedTokens = q
    generalize "typedef".toList = q1
    generalize "struct".toList = q2
    simp
  rw [e]
  unfold readDecl
  rw [after_append]
  simp [upTo_mid hb, hf, after_append, nextName_cons hn, after_one]

theorem declaration_enum {body : List Text} {is : List (Text × Int)} {n : Text} (hb : ['}'] ∉ body)
    (hf : readItems body.length body = some is) (hn : isName n = true) :
    Declaration (["typedef".toList, "enum".toList, ['{']] ++ body ++ ['}'] :: packedTokens ++ [n, [';']]) (.enum n is) := by
  refine ⟨by simp, fun r => ?_⟩
  have e : ["typedef".toList, "enum".toList, ['{']] ++ body ++ ['}'] :: packedTokens ++ [n, [';']] ++ r =
      ["typedef".toList, "enum".toList, ['{']] ++ (body ++ ['}'] :: (packedTokens ++ n :: [';'] :: r)) := by
    generalize packedTokens = q
    generalize "typedef".toList = q1
    generalize "enum".toList = q2
    simp
  rw [e]
  have h0 : ∀ x, after ["typedef".toList, "struct".toList, ['{']] (["typedef".toList, "enum".toList, ['{']] ++ x) = none := by
    intro x
    unfold after
    rw [if_neg]
    simp [List.isPrefixOf]
  unfold readDecl
  rw [h0, after_append]
  simp [upTo_mid hb, hf, after_append, nextName_cons hn, after_one]

theorem declaration_union {body : List Text} {fs : List CField} {n o : Text} (hb : ['}'] ∉ body)
    (hf : readFields body.length body = some fs) (hn : isName n = true) (ho : isName o = true) :
    Declaration (["union".toList, n, ['{']] ++ body ++ [['}'], o, [';']]) (.union n fs o) := by
  refine ⟨by simp, fun r => ?_⟩
  have e : ["union".toList, n, ['{']] ++ body ++ [['}'], o, [';']] ++ r =
      "union".toList :: n :: ['{'] :: (body ++ ['}'] :: o :: [';'] :: r) := by
    generalize "union".toList = q1
    simp
  rw [e]
  have h0 : ∀ s x, after ["typedef".toList, s, ['{']] ("union".toList :: x) = none := by
    intro s x
    unfold after
    rw [if_neg]
    simp [List.isPrefixOf]
  unfold readDecl
  rw [h0, h0, after_one]
  simp [upTo_mid hb, hf, nextName_cons hn, nextName_cons ho, after_one]

theorem declaration_object {t o : Text} (ht : isName t = true) (ho : isName o = true) :
    Declaration [t, o, [';']] (.object t o) := by
  refine ⟨by simp, fun r => ?_⟩
  have hk : ∀ k ∈ keywords, t ≠ k.toList := by
    rintro k hk rfl
    cases hs : k.toList with
    | nil => rw [hs] at ht; cases ht
    | cons c w =>
      rw [hs] at ht
      simp only [isName, Bool.and_eq_true, Bool.not_eq_true'] at ht
      have hm : (keywords.map String.toList).contains (c :: w) = true :=
        List.contains_iff_mem.2 (List.mem_map.2 ⟨k, hk, hs⟩)
      rw [hm] at ht
      cases ht.2
  have h0 : ∀ s x, after ["typedef".toList, s, ['{']] (t :: x) = none := by
    intro s x
    unfold after
    rw [if_neg]
    have := Ne.symm (hk "typedef" (by decide))
    generalize "typedef".toList = q at this
    simp [List.isPrefixOf, this]
  have h1 : ∀ x, after ["union".toList] (t :: x) = none := by
    intro x
    unfold after
    rw [if_neg]
    have := Ne.symm (hk "union" (by decide))
    generalize "union".toList = q at this
    simp [List.isPrefixOf, this]
  show readDecl (t :: o :: [';'] :: r) = _
  unfold readDecl
  rw [h0, h0, h1]
  simp [nextName_cons ht, nextName_cons ho, after_one]

end Apg
