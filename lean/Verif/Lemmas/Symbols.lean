import Verif.Lemmas.Defines

namespace Apg
open Spec

/-! ### Lines and the macros they define -/

theorem linesOf_append (a b : List Char) : linesOf (a ++ '\n' :: b) = linesOf a ++ linesOf b := by
  induction a with
  | nil => simp [linesOf]
  | cons c a ih =>
    simp only [List.cons_append, linesOf, ih]
    split
    · rfl
    · cases h : linesOf a with
      | nil =>
        exfalso
        cases a with
        | nil => simp [linesOf] at h
        | cons d a =>
          simp only [linesOf] at h
          split at h
          · cases h
          · split at h <;> cases h
      | cons l ls => simp

theorem linesOf_single {l : List Char} (h : '\n' ∉ l) : linesOf l = [l] := by
  induction l with
  | nil => rfl
  | cons c l ih =>
    simp only [List.mem_cons, not_or] at h
    simp [linesOf, ih h.2, Ne.symm h.1]

theorem definedMacros_append (a b : List Char) :
    definedMacros (a ++ '\n' :: b) = definedMacros a ++ definedMacros b := by
  simp [definedMacros, linesOf_append]

theorem definedMacros_line {l : List Char} (h : '\n' ∉ l) :
    definedMacros l = (lineMacro l).toList := by
  simp only [definedMacros, linesOf_single h]
  cases hl : lineMacro l <;> simp [hl]

theorem isPrefixOf_append (a b : List Char) : a.isPrefixOf (a ++ b) = true := by
  rw [List.isPrefixOf_iff_prefix]
  exact ⟨b, rfl⟩

theorem takeWhile_stop {s r : List Char} (h : ' ' ∉ s) :
    (s ++ ' ' :: r).takeWhile (fun c => decide (c ≠ ' ')) = s := by
  induction s with
  | nil => simp
  | cons c s ih =>
    simp only [List.mem_cons, not_or] at h
    have h1 := ih h.2
    have hc : decide (c ≠ ' ') = true := by simpa using Ne.symm h.1
    rw [List.cons_append, List.takeWhile_cons, if_pos hc, h1]

theorem takeWhile_all {s : List Char} (h : ' ' ∉ s) : s.takeWhile (fun c => decide (c ≠ ' ')) = s := by
  induction s with
  | nil => simp
  | cons c s ih =>
    simp only [List.mem_cons, not_or] at h
    have h1 := ih h.2
    have hc : decide (c ≠ ' ') = true := by simpa using Ne.symm h.1
    rw [List.takeWhile_cons, if_pos hc, h1]

theorem lineMacro_define {s r : List Char} (h : ' ' ∉ s) :
    lineMacro ("#define ".toList ++ (s ++ ' ' :: r)) = some (s, r) := by
  have hd : ("#define ".toList ++ (s ++ ' ' :: r)).drop 8 = s ++ ' ' :: r :=
    List.drop_left' (l₁ := "#define ".toList) (by decide)
  unfold lineMacro
  rw [if_pos (isPrefixOf_append _ _)]
  simp only [hd, takeWhile_stop h]
  rw [if_pos (by simp)]
  have : (s ++ ' ' :: r).drop (s.length + 1) = r := by
    rw [show s ++ ' ' :: r = (s ++ [' ']) ++ r by simp]
    exact List.drop_left' (by simp)
  rw [this]

theorem lineMacro_guard {s : List Char} (h : ' ' ∉ s) : lineMacro ("#define ".toList ++ s) = none := by
  have hd : ("#define ".toList ++ s).drop 8 = s :=
    List.drop_left' (l₁ := "#define ".toList) (by decide)
  unfold lineMacro
  rw [if_pos (isPrefixOf_append _ _)]
  simp only [hd, takeWhile_all h]
  rw [if_neg (by simp)]

theorem lineMacro_other {a t : List Char} (h : ∀ x, "#define ".toList.isPrefixOf (a ++ x) = false) :
    lineMacro (a ++ t) = none := by
  unfold lineMacro
  rw [h t]
  rfl

/-! ### Characters -/

theorem valueText_newline {p : Printer} (hp : Faithful p) {v : Leaf} {t : List Char}
    (h : ValueText p v t) : '\n' ∉ t := by
  intro hc
  have hr : ∀ i : Int, readInt t = some i → False := by
    intro i hi
    rcases readInt_chars hi _ hc with h | h <;> revert h <;> decide
  cases v with
  | int i => exact hr i h
  | bool b =>
    simp only [ValueText] at h
    rw [h] at hc
    cases b <;> revert hc <;> decide
  | flt x =>
    have hf : isFloat x = true → t = p.float x → False := by
      intro hx ht
      rw [ht] at hc
      have := hp.chars x hx _ hc
      revert this; decide
    cases x with
    | int i => exact hr i h
    | flt q => exact hf rfl h
    | inf b => exact hf rfl h

theorem fixedText_newline {p : Printer} (hp : Faithful p) {f : Fixed} {t : List Char}
    (h : FixedText p f t) : '\n' ∉ t := by
  cases f with
  | value k v => exact valueText_newline hp h
  | header c =>
    obtain ⟨id, hs, _, rfl, _, hc⟩ := h
    intro hm
    rw [List.mem_append] at hm
    rcases hm with hm | hm
    · revert hm; decide
    · rcases hc _ hm with h | h <;> revert h <;> decide

/-! ### Names of macros -/

theorem nameTail_append {l : List Char} (h : nameTail l = true) {c : Char} {cs : List Char}
    (hc : reAlnum c = true) (hcs : nameTail cs = true) : nameTail (l ++ '-' :: c :: cs) = true := by
  induction l using nameTail.induct with
  | case1 => simp [nameTail, hc, hcs]
  | case2 d ds ih =>
    simp only [nameTail, Bool.and_eq_true] at h
    simp [nameTail, h.1, ih h.2]
  | case3 d ds hne ih =>
    rw [nameTail] at h
    · simp only [Bool.and_eq_true] at h
      rw [List.cons_append, nameTail]
      · simp [h.1, ih h.2]
      · rintro x xs rfl
        rw [show reAlnum '-' = false by decide] at h
        simp at h
    · exact hne

/-- Name of a fixed value in a bundle. -/
def fullKey (x : String × Fixed) : String := x.1 ++ "-" ++ x.2.key

theorem lower_head {k : String} (h : isNameLower k = true) :
    ∃ c cs, k.toList = c :: cs ∧ reAlnum c = true ∧ nameTail cs = true := by
  unfold isNameLower at h
  split at h
  · rename_i c cs hs
    simp only [Bool.and_eq_true] at h
    exact ⟨c, cs, hs, by simp [reAlnum, h.1], h.2⟩
  · cases h

theorem isNameCapital_join {n k : String} (hn : isNameCapital n = true) (hk : isNameLower k = true) :
    isNameCapital (n ++ "-" ++ k) = true := by
  obtain ⟨c, cs, h1, h2, h3⟩ := lower_head hk
  unfold isNameCapital at hn
  split at hn
  · rename_i d ds hs
    simp only [Bool.and_eq_true] at hn
    have : (n ++ "-" ++ k).toList = d :: (ds ++ '-' :: c :: cs) := by
      simp [String.toList_append, hs, h1]
    unfold isNameCapital
    rw [this]
    simp [hn.1, nameTail_append hn.2 h2 h3]
  · cases hn

/-- The names of fixed values that the grammar allows. -/
def GoodFixed (x : String × Fixed) : Prop := isNameCapital x.1 = true ∧ isNameLower x.2.key = true

theorem macroName_eq (x : String × Fixed) : macroName x.1 x.2 = raise (ident (fullKey x)) := by
  obtain ⟨n, f⟩ := x
  have h : ∀ k : String, raise (ident (n ++ "-" ++ k)) = raise (ident n) ++ '_' :: raise (ident k) := by
    intro k
    simp [raise, ident, String.toList_append]
  unfold fullKey
  cases f with
  | value k v => rw [h]; rfl
  | header c =>
    rw [h]
    have : '_' :: raise (ident "mid") = "_MID".toList := by decide
    simp only [Fixed.key]
    rw [this]
    rfl

theorem macroName_inj {x y : String × Fixed} (hx : GoodFixed x) (hy : GoodFixed y) :
    macroName x.1 x.2 = macroName y.1 y.2 ↔ fullKey x = fullKey y := by
  rw [macroName_eq, macroName_eq]
  constructor
  · exact raise_capital_inj (isNameCapital_join hx.1 hx.2) (isNameCapital_join hy.1 hy.2)
  · intro h; rw [h]

theorem raise_ident_chars {s : String} (h : isNameCapital s = true) :
    ∀ c ∈ raise (ident s), c ≠ ' ' ∧ c ≠ '\n' := by
  obtain ⟨c, r, h1, h2, h3⟩ := ident_capital_chars h
  intro d hd
  unfold raise at hd
  rw [h1, List.map_cons, List.mem_cons] at hd
  have key : ∀ d : Char, 48 ≤ d.toNat → d ≠ ' ' ∧ d ≠ '\n' := by
    intro d hd
    constructor <;> (rintro rfl; revert hd; decide)
  apply key
  rcases hd with rfl | hd
  · have h4 := reUpper_range h2
    rw [toUpper_other]
    · omega
    · cases hl : reLower c with
      | false => rfl
      | true => have := reLower_range hl; omega
  · obtain ⟨e, he, rfl⟩ := List.mem_map.1 hd
    rcases tailChar_upper (h3 e he) with h | h
    · omega
    · rw [h.2.1]; omega

theorem macroName_chars {x : String × Fixed} (hx : GoodFixed x) :
    ' ' ∉ macroName x.1 x.2 ∧ '\n' ∉ macroName x.1 x.2 := by
  have h := raise_ident_chars (isNameCapital_join hx.1 hx.2)
  rw [macroName_eq]
  exact ⟨fun hc => (h _ hc).1 rfl, fun hc => (h _ hc).2 rfl⟩

/-! ### A message id header -/

theorem definedMacros_cons_newline (a : List Char) :
    definedMacros ('\n' :: a) = definedMacros a := by
  have := definedMacros_append [] a
  simp only [List.nil_append] at this
  rw [this]
  rfl

theorem macros_defineLine {p : Printer} (hp : Faithful p) {x : String × Fixed} (hx : GoodFixed x)
    {l : List Char} (h : DefineLine p x l) :
    ∃ y, MacroOf p x y ∧ ∀ r, definedMacros (l ++ r) = y :: definedMacros r := by
  obtain ⟨t, nl, rfl, ht, hnl⟩ := h
  obtain ⟨m1, m2⟩ := macroName_chars hx
  have htn := fixedText_newline hp ht
  refine ⟨(macroName x.1 x.2, '(' :: t ++ [')']), ⟨rfl, t, rfl, ht⟩, ?_⟩
  intro r
  generalize macroName x.1 x.2 = m at m1 m2 ⊢
  have hline : definedMacros ("#define ".toList ++ (m ++ ' ' :: ('(' :: t ++ [')']))) =
      [(m, '(' :: t ++ [')'])] := by
    rw [definedMacros_line, lineMacro_define m1]
    · rfl
    · simp only [List.mem_append, List.mem_cons, List.not_mem_nil, not_or]
      exact ⟨by decide, m2, by decide, ⟨by decide, htn⟩, by decide, by simp⟩
  have e0 : " (".toList = [' ', '('] := rfl
  rw [e0]
  revert hline
  generalize "#define ".toList = a
  intro hline
  rcases hnl with rfl | rfl
  · have : a ++ m ++ [' ', '('] ++ t ++ [')', '\n'] ++ r =
        (a ++ (m ++ ' ' :: ('(' :: t ++ [')']))) ++ '\n' :: r := by simp
    rw [this, definedMacros_append, hline]; rfl
  · have : a ++ m ++ [' ', '('] ++ t ++ [')', '\n', '\n'] ++ r =
        (a ++ (m ++ ' ' :: ('(' :: t ++ [')']))) ++ '\n' :: '\n' :: r := by simp
    rw [this, definedMacros_append, hline, definedMacros_cons_newline]; rfl

theorem macros_defineLines {p : Printer} (hp : Faithful p) {xs : List (String × Fixed)}
    {ls : List (List Char)} (h : All2 (DefineLine p) xs ls) (hx : ∀ x ∈ xs, GoodFixed x) :
    ∃ ys, All2 (MacroOf p) xs ys ∧ ∀ r, definedMacros (ls.flatten ++ r) = ys ++ definedMacros r := by
  induction h with
  | nil => exact ⟨[], .nil, fun r => rfl⟩
  | cons h1 _ ih =>
    obtain ⟨ys, h2, h3⟩ := ih (fun x hx' => hx x (by simp [hx']))
    obtain ⟨y, h4, h5⟩ := macros_defineLine hp (hx _ (by simp)) h1
    refine ⟨y :: ys, .cons h4 h2, ?_⟩
    intro r
    rw [List.flatten_cons, List.append_assoc, h5, h3]
    rfl

theorem isPrefixOf_ne (a : List Char) (h : ("#define ".toList.take a.length ≠ a.take 8)) (ha : a.length ≤ 8) (x : List Char) :
    "#define ".toList.isPrefixOf (a ++ x) = false := by
  cases hb : "#define ".toList.isPrefixOf (a ++ x) with
  | false => rfl
  | true =>
    exfalso
    rw [List.isPrefixOf_iff_prefix] at hb
    obtain ⟨r, hr⟩ := hb
    apply h
    have h1 := congrArg (List.take a.length) hr
    rw [List.take_left' rfl] at h1
    have h8 : "#define ".toList.length = 8 := by decide
    rw [List.take_append_of_le_length (by omega)] at h1
    rw [h1, List.take_of_length_le ha]

end Apg
