import Verif.Lemmas.Syntax

/-!
# Reading numbers, comments and types
-/

namespace Apg

open Spec Parse

/-! ### Numbers -/

/-- No digit follows. -/
def DigitEnd (d : Char → Option Nat) (t : Text) : Prop := ∀ c r, t = c :: r → d c = none

theorem digitEnd_cons {d : Char → Option Nat} {c : Char} (h : d c = none) (t : Text) :
    DigitEnd d (c :: t) := fun _ _ e => by cases e; exact h

theorem digitVal_ascii {c : Char} {v : Nat} (h : digitVal c = some v) (hv : v < 10) :
    '0' ≤ c ∧ c ≤ '9' ∧ v = c.toNat - '0'.toNat := by
  unfold digitVal at h
  split at h
  · rename_i hc; cases h; exact ⟨hc.1, hc.2, rfl⟩
  · split at h
    · cases h; omega
    · cases h

theorem asciiDigit_of {c : Char} {v : Nat} (h : digitVal c = some v) (hv : v < 10) :
    asciiDigit c = some v := by
  obtain ⟨h1, h2, rfl⟩ := digitVal_ascii h hv
  unfold asciiDigit
  rw [if_pos (by simp [h1, h2])]

theorem uniDigit_of {c : Char} {v : Nat} (h : digitVal c = some v) (hv : v < 10) :
    uniDigit c = some v := by
  obtain ⟨h1, h2, rfl⟩ := digitVal_ascii h hv
  have h1' : 48 ≤ c.toNat := h1
  have h2' : c.toNat ≤ 57 := h2
  have : digitStarts.find? (fun s => s ≤ c.toNat && c.toNat < s + 10) = some 48 := by
    unfold digitStarts
    rw [List.find?_cons_of_pos]
    simp only [Bool.and_eq_true, decide_eq_true_eq]
    exact ⟨h1', by omega⟩
  unfold uniDigit
  rw [this]; rfl

theorem digitRun_end {d : Char → Option Nat} {t : Text} (h : DigitEnd d t) :
    digitRun d t = ([], t) := by
  cases t with
  | nil => rfl
  | cons c t => unfold digitRun; rw [h c t rfl]

theorem digitRun_read {d : Char → Option Nat}
    (hd : ∀ c v, digitVal c = some v → v < 10 → d c = some v) {a t : Text} (ht : DigitEnd d t)
    {acc n : Nat} (h : readFrom 10 acc a = some n) :
    ∃ vs, digitRun d (a ++ t) = (vs, t) ∧ vs.foldl (fun n d => n * 10 + d) acc = n ∧
      vs.length = a.length := by
  induction a generalizing acc with
  | nil => exact ⟨[], digitRun_end ht, by simpa [readFrom] using h, rfl⟩
  | cons c a ih =>
    unfold readFrom at h
    cases hv : digitVal c with
    | none => rw [hv] at h; cases h
    | some v =>
      rw [hv] at h
      simp only at h
      split at h
      · rename_i hlt
        obtain ⟨vs, h1, h2, h3⟩ := ih h
        refine ⟨v :: vs, ?_, h2, by simp [h3]⟩
        show digitRun d (c :: (a ++ t)) = _
        unfold digitRun
        rw [hd c v hv hlt, h1]
      · cases h

theorem readFrom_append_some {b acc n : Nat} {x y : List Char} (h : readFrom b acc (x ++ y) = some n) :
    ∃ m, readFrom b acc x = some m ∧ readFrom b m y = some n := by
  induction x generalizing acc with
  | nil => exact ⟨acc, rfl, h⟩
  | cons c x ih =>
    have h' : readFrom b acc (c :: (x ++ y)) = some n := h
    rw [readFrom] at h' ⊢
    cases hv : digitVal c with
    | none => rw [hv] at h'; cases h'
    | some v =>
      rw [hv] at h'
      simp only at h' ⊢
      split at h'
      · rename_i hlt; rw [if_pos hlt]; exact ih h'
      · cases h'

theorem readNat_some {ds : List Char} {n : Nat} (h : readNat 10 ds = some n) :
    ds ≠ [] ∧ readFrom 10 0 ds = some n := by
  unfold readNat at h
  split at h
  · cases h
  · rename_i hne; exact ⟨hne, h⟩

theorem readFrom_head {acc n : Nat} {c : Char} {r : List Char}
    (h : readFrom 10 acc (c :: r) = some n) : '0' ≤ c ∧ c ≤ '9' := by
  unfold readFrom at h
  cases hv : digitVal c with
  | none => rw [hv] at h; cases h
  | some v =>
    rw [hv] at h
    simp only at h
    split at h
    · rename_i hlt; exact ⟨(digitVal_ascii hv hlt).1, (digitVal_ascii hv hlt).2.1⟩
    · cases h

theorem sign_other {c : Char} (h1 : c ≠ '-') (h2 : c ≠ '+') (t : Text) :
    sign (c :: t) = (false, c :: t) := by
  unfold sign
  split
  · rename_i h; exact absurd (List.cons.inj h).1 h1
  · rename_i h; exact absurd (List.cons.inj h).1 h2
  · rfl

theorem digit_not_sign {c : Char} (h : '0' ≤ c ∧ c ≤ '9') : c ≠ '-' ∧ c ≠ '+' := by
  constructor <;> (intro e; subst e; revert h; decide)

theorem sign_syntax {neg : Bool} {sg : Chars} (h : Sign neg sg) {c : Char} (h1 : c ≠ '-')
    (h2 : c ≠ '+') (t : Text) : sign (sg ++ c :: t) = (neg, c :: t) := by
  cases h with
  | none => exact sign_other h1 h2 t
  | plus => rfl
  | minus => rfl

theorem vs_ne_nil {vs : List Nat} {ds : List Char} (h : vs.length = ds.length) (hd : ds ≠ []) :
    vs ≠ [] := by
  intro e; subst e
  exact hd (List.length_eq_zero_iff.mp h.symm)

theorem intLit_syntax {i : Int} {s t : Text} (h : IntSyntax i s) (ht : DigitEnd asciiDigit t) :
    intLit (s ++ t) = some (i, t) := by
  cases h with
  | @mk neg sg ds n hs hr =>
    obtain ⟨hne, hr⟩ := readNat_some hr
    obtain ⟨vs, h1, h2, h3⟩ := digitRun_read (fun _ _ => asciiDigit_of) ht hr
    obtain ⟨c, ds', rfl⟩ := List.exists_cons_of_ne_nil hne
    have hc := digit_not_sign (readFrom_head hr)
    have h4 : sign ((sg ++ c :: ds') ++ t) = (neg, c :: ds' ++ t) := by
      rw [List.append_assoc]; exact sign_syntax hs hc.1 hc.2 _
    unfold intLit
    simp only [h4, h1]
    rw [if_neg (vs_ne_nil h3 hne)]
    have : ofDigits vs = n := h2
    rw [this]
    cases neg <;> rfl

theorem exponent_cons (c : Char) (t : Text) : exponent (c :: t) =
    if (c = 'e' || c = 'E') = true then
      if (digitRun uniDigit (sign t).2).1 = [] then none
      else some (if (sign t).1 then -((ofDigits (digitRun uniDigit (sign t).2).1 : Nat) : Int)
        else ((ofDigits (digitRun uniDigit (sign t).2).1 : Nat) : Int),
        (digitRun uniDigit (sign t).2).2)
    else none := rfl

theorem exponent_syntax {e : Int} {s t : Text} (h : ExpSyntax e s) (ht : DigitEnd uniDigit t) :
    exponent (s ++ t) = some (e, t) := by
  cases h with
  | @mk c _ s hc hi =>
    cases hi with
    | @mk neg sg ds n hs hr =>
      obtain ⟨hne, hr⟩ := readNat_some hr
      obtain ⟨vs, h1, h2, h3⟩ := digitRun_read (fun _ _ => uniDigit_of) ht hr
      obtain ⟨d, ds', rfl⟩ := List.exists_cons_of_ne_nil hne
      have hd := digit_not_sign (readFrom_head hr)
      have h4 : sign ((sg ++ d :: ds') ++ t) = (neg, d :: ds' ++ t) := by
        rw [List.append_assoc]; exact sign_syntax hs hd.1 hd.2 _
      show exponent (c :: ((sg ++ d :: ds') ++ t)) = _
      rw [exponent_cons, if_pos (by simpa using hc)]
      simp only [h4, h1]
      rw [if_neg (vs_ne_nil h3 hne)]
      have : ofDigits vs = n := h2
      rw [this]
      cases neg <;> rfl

theorem exp_head {e : Int} {s : Text} (h : ExpSyntax e s) (t : Text) :
    ∃ c r, s ++ t = c :: r ∧ (c = 'e' ∨ c = 'E') := by
  cases h with
  | mk hc _ => exact ⟨_, _, rfl, hc⟩

theorem uniDigit_e {c : Char} (h : c = 'e' ∨ c = 'E') : uniDigit c = none := by
  rcases h with rfl | rfl <;> decide +kernel

theorem floatLit_point {s u : Text} {neg : Bool} {vs fs : List Nat} {v w : Text}
    (h1 : sign s = (neg, u)) (h2 : digitRun uniDigit u = (vs, '.' :: v))
    (h3 : digitRun uniDigit v = (fs, w)) (h : vs ++ fs ≠ []) :
    floatLit s = some (decimalFloat neg (ofDigits (vs ++ fs)) ((exponentOpt w).1 - fs.length),
      (exponentOpt w).2) := by
  unfold floatLit
  simp only [h1, h2, h3]
  rw [if_neg]
  intro hc
  simp only [Bool.and_eq_true, decide_eq_true_eq] at hc
  exact h (by simp [hc.1, hc.2])

theorem floatLit_exp {s u : Text} {neg : Bool} {vs : List Nat} {c : Char} {w : Text}
    (h1 : sign s = (neg, u)) (h2 : digitRun uniDigit u = (vs, c :: w)) (hc : c ≠ '.')
    (h : vs ≠ []) :
    floatLit s = (exponent (c :: w)).map fun e => (decimalFloat neg (ofDigits vs) e.1, e.2) := by
  unfold floatLit
  simp only [h1, h2]
  split
  · rename_i heq; exact absurd (List.cons.inj heq).1 hc
  · rw [if_neg h]

/-- What follows a decimal: no digit and no exponent. -/
def RealEnd (t : Text) : Prop := DigitEnd uniDigit t ∧ ∀ c r, t = c :: r → c ≠ 'e' ∧ c ≠ 'E'

theorem exponent_none {t : Text} (h : RealEnd t) : exponentOpt t = (0, t) := by
  unfold exponentOpt
  cases t with
  | nil => rfl
  | cons c t =>
    have := h.2 c t rfl
    rw [exponent_cons, if_neg (by simp [this.1, this.2])]; rfl

theorem foldl_append_digits (vs fs : List Nat) :
    ofDigits (vs ++ fs) = fs.foldl (fun n d => n * 10 + d) (ofDigits vs) := by
  unfold ofDigits; exact List.foldl_append

theorem uniDigit_point : uniDigit '.' = none := by decide +kernel

theorem first_char {a b t : Text} {acc n : Nat} (h : readFrom 10 acc a = some n) :
    ∃ c r, a ++ '.' :: (b ++ t) = c :: r ∧ c ≠ '-' ∧ c ≠ '+' := by
  cases a with
  | nil => exact ⟨'.', b ++ t, rfl, by decide, by decide⟩
  | cons c a =>
    have := digit_not_sign (readFrom_head h)
    exact ⟨c, _, rfl, this.1, this.2⟩

theorem floatLit_syntax {x : Num} {s t : Text} (h : RealSyntax decimalFloat x s) (ht : RealEnd t) :
    floatLit (s ++ t) = some (x, t) := by
  cases h with
  | @point neg sg a b n hs hr =>
    obtain ⟨hne, hr⟩ := readNat_some hr
    obtain ⟨m, ha, hb⟩ := readFrom_append_some hr
    obtain ⟨vs, a1, a2, a3⟩ := digitRun_read (fun _ _ => uniDigit_of)
      (digitEnd_cons uniDigit_point (b ++ t)) ha
    obtain ⟨fs, b1, b2, b3⟩ := digitRun_read (fun _ _ => uniDigit_of) ht.1 hb
    obtain ⟨c, r, e, hc⟩ := first_char (b := b) (t := t) ha
    have h4 : sign ((sg ++ a ++ '.' :: b) ++ t) = (neg, a ++ '.' :: (b ++ t)) := by
      have : (sg ++ a ++ '.' :: b) ++ t = sg ++ (a ++ '.' :: (b ++ t)) := by simp
      rw [this, e]; exact sign_syntax hs hc.1 hc.2 _
    have hl : (vs ++ fs).length = (a ++ b).length := by simp [a3, b3]
    rw [floatLit_point h4 a1 b1 (vs_ne_nil hl hne), exponent_none ht, foldl_append_digits]
    have : ofDigits vs = m := a2
    rw [this, b2, b3]
    simp
  | @pointExp neg sg a b n ex se hs hr hx =>
    obtain ⟨hne, hr⟩ := readNat_some hr
    obtain ⟨m, ha, hb⟩ := readFrom_append_some hr
    obtain ⟨xc, xr, xe, hxc⟩ := exp_head hx t
    have hse : DigitEnd uniDigit (se ++ t) := by rw [xe]; exact digitEnd_cons (uniDigit_e hxc) _
    obtain ⟨vs, a1, a2, a3⟩ := digitRun_read (fun _ _ => uniDigit_of)
      (digitEnd_cons uniDigit_point (b ++ (se ++ t))) ha
    obtain ⟨fs, b1, b2, b3⟩ := digitRun_read (fun _ _ => uniDigit_of) hse hb
    obtain ⟨c, r, e, hc⟩ := first_char (b := b) (t := se ++ t) ha
    have h4 : sign ((sg ++ a ++ '.' :: b ++ se) ++ t) = (neg, a ++ '.' :: (b ++ (se ++ t))) := by
      have : (sg ++ a ++ '.' :: b ++ se) ++ t = sg ++ (a ++ '.' :: (b ++ (se ++ t))) := by simp
      rw [this, e]; exact sign_syntax hs hc.1 hc.2 _
    have hl : (vs ++ fs).length = (a ++ b).length := by simp [a3, b3]
    have hxo : exponentOpt (se ++ t) = (ex, t) := by
      unfold exponentOpt; rw [exponent_syntax hx ht.1]; rfl
    rw [floatLit_point h4 a1 b1 (vs_ne_nil hl hne), hxo, foldl_append_digits]
    have : ofDigits vs = m := a2
    rw [this, b2, b3]
  | @exp neg sg a n ex se hs hr hx =>
    obtain ⟨hne, hr⟩ := readNat_some hr
    obtain ⟨xc, xr, xe, hxc⟩ := exp_head hx t
    have hse : DigitEnd uniDigit (se ++ t) := by rw [xe]; exact digitEnd_cons (uniDigit_e hxc) _
    obtain ⟨vs, a1, a2, a3⟩ := digitRun_read (fun _ _ => uniDigit_of) hse hr
    obtain ⟨c, a', rfl⟩ := List.exists_cons_of_ne_nil hne
    have hc := digit_not_sign (readFrom_head hr)
    have h4 : sign ((sg ++ c :: a' ++ se) ++ t) = (neg, c :: a' ++ (se ++ t)) := by
      have : (sg ++ c :: a' ++ se) ++ t = sg ++ c :: (a' ++ (se ++ t)) := by simp
      rw [this]; exact sign_syntax hs hc.1 hc.2 _
    have hp : xc ≠ '.' := by rcases hxc with rfl | rfl <;> decide
    rw [xe] at a1 h4
    rw [floatLit_exp h4 a1 hp (vs_ne_nil a3 hne), ← xe, exponent_syntax hx ht.1]
    have : ofDigits vs = n := a2
    rw [this]; rfl

/-! ### Comments -/

theorem blanks_append {b : Text} (hb : Blanks b) (t : Text) : blanks (b ++ t) = blanks t := by
  induction b with
  | nil => rfl
  | cons c b ih =>
    have h1 : c = ' ' := hb c (List.Mem.head _)
    subst h1
    show (' ' :: (b ++ t)).dropWhile (· == ' ') = _
    rw [List.dropWhile_cons_of_pos (by rfl)]
    exact ih fun d hd => hb d (List.Mem.tail _ hd)

theorem blanks_cons {c : Char} (h : c ≠ ' ') (t : Text) : blanks (c :: t) = c :: t :=
  List.dropWhile_cons_of_neg (by simp [h])

theorem takeWhile_append {p : Char → Bool} {u : Text} {c : Char} (hu : ∀ x ∈ u, p x = true)
    (hc : p c = false) (t : Text) :
    (u ++ c :: t).takeWhile p = u ∧ (u ++ c :: t).dropWhile p = c :: t := by
  induction u with
  | nil => simp [hc]
  | cons d u ih =>
    have hd := hu d (List.Mem.head _)
    have ih := ih fun x hx => hu x (List.Mem.tail _ hx)
    simp [hd, ih.1, ih.2]

theorem lit_prefix {m x t u : Text} (hm : '\n' ∉ m) (h : lit m (x ++ '\n' :: t) = some u) :
    m <+: x := by
  induction m generalizing x with
  | nil => exact List.nil_prefix
  | cons c m ih =>
    cases x with
    | nil =>
      have h' : lit (c :: m) ('\n' :: t) = some u := h
      unfold lit at h'
      split at h'
      · rename_i e; subst e; exact absurd (List.Mem.head _) hm
      · cases h'
    | cons d x =>
      have h' : lit (c :: m) (d :: (x ++ '\n' :: t)) = some u := h
      unfold lit at h'
      split at h'
      · rename_i e; subst e
        exact List.cons_prefix_cons.mpr ⟨rfl, ih (fun h => hm (List.Mem.tail _ h)) h'⟩
      · cases h'

theorem isCommentChar_of {x : Char} (h : (' ' ≤ x ∧ x ≤ '_') ∨ reLower x = true) :
    isCommentChar x = true := by
  unfold isCommentChar
  rcases h with h | h
  · simp [h.1, h.2]
  · simp only [reLower] at h; rw [h]; simp

theorem isUnitChar_of {x : Char} (h : reLower x = true ∨ reUpper x = true ∨ reDigit x = true ∨
    x = '%' ∨ x = '/' ∨ x = '^') : isUnitChar x = true := by
  unfold isUnitChar
  rw [uniDigit_isSome]
  rcases h with h | h | h | h | h | h
  · simp only [reLower] at h; rw [h]; simp
  · simp only [reUpper] at h; rw [h]; simp
  · rw [h]; simp
  · subst h; rfl
  · subst h; decide +kernel
  · subst h; decide +kernel

theorem commentText_syntax {x : Text} (h : ∀ c ∈ x, isCommentChar c = true) (t : Text) :
    Parse.commentText (x ++ '\n' :: t) = (x, '\n' :: t) := by
  have hn : isCommentChar '\n' = false := by decide
  obtain ⟨h1, h2⟩ := takeWhile_append h hn t
  unfold Parse.commentText
  rw [h2]
  simp only [if_pos, h1]

/-- The text of a comment with the rest, after its blanks. -/
theorem blanks_text {x : Text} (h : x.head? ≠ some ' ') (t : Text) :
    blanks (x ++ '\n' :: t) = x ++ '\n' :: t := by
  cases x with
  | nil => exact blanks_cons (by decide) _
  | cons c x => exact blanks_cons (fun e => h (by rw [e]; rfl)) _

theorem lit_bracket {x : Text} (h : '[' ∉ x) (t : Text) : lit ['['] (x ++ '\n' :: t) = none := by
  cases x with
  | nil => exact lit_cons_ne (by decide) _ _
  | cons c x => exact lit_cons_ne (fun e => h (by rw [← e]; exact List.Mem.head _)) _ _

theorem unitOpt_none {t : Text} (h : lit ['['] t = none) : unitOpt t = ([], t) := by
  unfold unitOpt; rw [h]; rfl

theorem unitOpt_some {u : Text} (h : ∀ c ∈ u, isUnitChar c = true) (hne : u ≠ []) (t : Text) :
    unitOpt ('[' :: u ++ ']' :: t) = (u, t) := by
  have hb : isUnitChar ']' = false := by decide +kernel
  obtain ⟨h1, h2⟩ := takeWhile_append h hb t
  have h3 : lit ['['] ('[' :: u ++ ']' :: t) = some (u ++ ']' :: t) := lit_append ['['] _
  have h4 : lit [']'] (']' :: t) = some t := lit_append [']'] _
  unfold unitOpt
  rw [h3, Option.bind_some]
  simp only [h1, h2, if_neg hne, h4, Option.map_some, Option.getD_some]

theorem commentRule_syntax {c : Comment} {s : Text} (h : CommentSyntax c s) (t : Text) :
    commentRule (s ++ t) = some (c, '\n' :: t) := by
  cases h with
  | @mk b1 b2 b3 b4 mark unit hg hp h1 h2 h3 h4 hm hu =>
    have hx : ∀ x ∈ c.text.toList, isCommentChar x = true := fun x hx => isCommentChar_of (hg.1 x hx)
    have hy : ∀ x ∈ c.unit.toList, isUnitChar x = true := fun x hx => isUnitChar_of (hg.2 x hx)
    have e : (b1 ++ "--".toList ++ b2 ++ mark ++ b3 ++ unit ++ b4 ++ c.text.toList ++ ['\n']) ++ t =
        b1 ++ ("--".toList ++ (b2 ++ (mark ++ (b3 ++ (unit ++ (b4 ++ (c.text.toList ++ '\n' :: t))))))) := by
      simp only [List.append_assoc, List.cons_append, List.nil_append]
    rw [e]
    have hW := blanks_text hp.1 t
    have hB := lit_bracket hp.2.1 t
    have hC := commentText_syntax hx t
    have hN : littleMark <+: c.text.toList ∨
        lit littleMark (c.text.toList ++ '\n' :: t) = none := by
      cases hl : lit littleMark (c.text.toList ++ '\n' :: t) with
      | none => exact .inr rfl
      | some u => exact .inl (lit_prefix (by decide) hl)
    generalize hWt : c.text.toList ++ '\n' :: t = W at *
    -- the unit
    have hU : ∃ V, unitOpt (blanks (unit ++ (b4 ++ W))) = (c.unit.toList, V) ∧ blanks V = W ∧
        (c.unit.toList ≠ [] → ∃ r, blanks (unit ++ (b4 ++ W)) = '[' :: r) ∧
        (c.unit.toList = [] → blanks (unit ++ (b4 ++ W)) = W) := by
      by_cases he : c.unit.toList = []
      · rw [if_pos he] at hu
        subst hu
        have : blanks ([] ++ (b4 ++ W)) = W := by rw [List.nil_append, blanks_append h4, hW]
        rw [this, he]
        exact ⟨W, unitOpt_none hB, hW, fun h => absurd rfl h, fun _ => rfl⟩
      · rw [if_neg he] at hu
        subst hu
        have e2 : ('[' :: c.unit.toList ++ [']']) ++ (b4 ++ W) =
            '[' :: c.unit.toList ++ ']' :: (b4 ++ W) := by simp
        have : blanks ('[' :: c.unit.toList ++ ']' :: (b4 ++ W)) =
            '[' :: c.unit.toList ++ ']' :: (b4 ++ W) := blanks_cons (by decide) _
        rw [e2, this]
        exact ⟨b4 ++ W, unitOpt_some hy he _, by rw [blanks_append h4, hW],
          fun _ => ⟨_, rfl⟩, fun h => absurd h he⟩
    obtain ⟨V, hV1, hV2, hV3, hV4⟩ := hU
    have hD : lit "--".toList (blanks (b1 ++ ("--".toList ++ (b2 ++ (mark ++ (b3 ++ (unit ++ (b4 ++ W)))))))) =
        some (b2 ++ (mark ++ (b3 ++ (unit ++ (b4 ++ W))))) := by
      rw [blanks_append h1, lMinus]
      have : blanks (['-', '-'] ++ (b2 ++ (mark ++ (b3 ++ (unit ++ (b4 ++ W)))))) =
          ['-', '-'] ++ (b2 ++ (mark ++ (b3 ++ (unit ++ (b4 ++ W))))) := blanks_cons (by decide) _
      rw [this]; exact lit_append _ _
    unfold commentRule
    rw [hD, Option.map_some]
    have hfin : ∀ (T : Text) (l : Option Text), l.isSome = c.little →
        blanks (l.getD T) = blanks (unit ++ (b4 ++ W)) →
        some (({ text := String.ofList (Parse.commentText (blanks (unitOpt (blanks (l.getD T))).2)).1,
                 unit := String.ofList (unitOpt (blanks (l.getD T))).1,
                 little := l.isSome } : Comment),
          (Parse.commentText (blanks (unitOpt (blanks (l.getD T))).2)).2) = some (c, '\n' :: t) := by
      intro T l hl hb
      rw [hb, hV1]
      simp only [hV2, hC, hl]
      rw [String.ofList_toList, String.ofList_toList]
    refine hfin _ _ ?_ ?_
    · cases hl : c.little with
      | true =>
        rw [hl, if_pos rfl] at hm
        subst hm
        have : blanks (b2 ++ (littleMark ++ (b3 ++ (unit ++ (b4 ++ W))))) =
            littleMark ++ (b3 ++ (unit ++ (b4 ++ W))) := by
          rw [blanks_append h2]; unfold littleMark; rw [lLittle]; exact blanks_cons (by decide) _
        rw [this]
        show (lit littleMark _).isSome = true
        rw [lit_append]; rfl
      | false =>
        rw [hl, if_neg (by decide)] at hm
        subst hm
        rw [blanks_append h2, List.nil_append, blanks_append h3]
        show (lit littleMark _).isSome = false
        by_cases he : c.unit.toList = []
        · rw [hV4 he]
          rcases hN with hN | hN
          · exact absurd hN (hp.2.2 hl he)
          · rw [hN]; rfl
        · obtain ⟨r, hr⟩ := hV3 he
          rw [hr]; unfold littleMark; rw [lLittle, lit_cons_ne (by decide)]; rfl
    · cases hl : c.little with
      | true =>
        rw [hl, if_pos rfl] at hm
        subst hm
        have : blanks (b2 ++ (littleMark ++ (b3 ++ (unit ++ (b4 ++ W))))) =
            littleMark ++ (b3 ++ (unit ++ (b4 ++ W))) := by
          rw [blanks_append h2]; unfold littleMark; rw [lLittle]; exact blanks_cons (by decide) _
        rw [this]
        show blanks ((lit littleMark _).getD _) = _
        rw [lit_append, Option.getD_some, blanks_append h3]
      | false =>
        rw [hl, if_neg (by decide)] at hm
        subst hm
        rw [blanks_append h2, List.nil_append, blanks_append h3]
        have : lit "ENDIANNESS(LITTLE)".toList (blanks (unit ++ (b4 ++ W))) = none := by
          show lit littleMark _ = none
          by_cases he : c.unit.toList = []
          · rw [hV4 he]
            rcases hN with hN | hN
            · exact absurd hN (hp.2.2 hl he)
            · exact hN
          · obtain ⟨r, hr⟩ := hV3 he
            rw [hr]; unfold littleMark; rw [lLittle]; exact lit_cons_ne (by decide) _ _
        rw [this, Option.getD_none]
        have hid : ∀ u : Text, blanks (blanks u) = blanks u := by
          intro u
          induction u with
          | nil => rfl
          | cons d u ih =>
            by_cases hd : d = ' '
            · subst hd
              have : blanks (' ' :: u) = blanks u := List.dropWhile_cons_of_pos (by rfl)
              rw [this, ih]
            · rw [blanks_cons hd, blanks_cons hd]
        exact hid _

theorem commentRule_none {t : Text} (h : After (· ≠ '-') t) : commentRule t = none := by
  have : ∀ u : Text, After (· ≠ '-') u → lit ['-', '-'] (blanks u) = none := by
    intro u hu
    induction u with
    | nil => rfl
    | cons d u ih =>
      by_cases hd : d = ' '
      · subst hd
        have e : blanks (' ' :: u) = blanks u := List.dropWhile_cons_of_pos (by rfl)
        rw [e]
        refine ih ?_
        obtain ⟨c, r, h1, h2⟩ := hu
        exact ⟨c, r, by rw [← h1]; exact (skipWs_space (w := [' ']) (by intro c hc; simp_all) u).symm, h2⟩
      · rw [blanks_cons hd]
        obtain ⟨c, r, h1, h2⟩ := hu
        obtain ⟨d', t', e, hd'⟩ := head_of_skipWs h1
        cases e
        refine lit_cons_ne ?_ _ _
        rcases hd' with hd' | ⟨rfl, rfl⟩
        · exact fun e => by subst e; revert hd'; decide
        · exact Ne.symm h2
  unfold commentRule
  rw [lMinus, this t h]; rfl

/-- Blanks are white space. -/
theorem Spec.Blanks.space {b : Chars} (h : Blanks b) : Space b := fun c hc => .inl (h c hc)

theorem comment_after {c : Comment} {s : Text} (h : CommentSyntax c s) (t : Text) :
    ∃ b r, Blanks b ∧ s ++ t = b ++ '-' :: '-' :: r := by
  cases h with
  | @mk b1 b2 b3 b4 mark unit hg hp h1 h2 h3 h4 hm hu =>
    refine ⟨b1, b2 ++ mark ++ b3 ++ unit ++ b4 ++ c.text.toList ++ ['\n'] ++ t, h1, ?_⟩
    rw [lMinus]; simp

theorem space_newline : Space ['\n'] := fun c hc => by
  cases List.mem_singleton.mp hc; exact .inr (.inr (.inl rfl))

theorem optComment_syntax {c : Option Comment} {s t : Text} (h : OptComment strictStyle c s)
    (ht : After (· ≠ '-') t) : ∃ x, Space x ∧ commentOpt (s ++ t) = (c, x ++ t) := by
  cases h with
  | none =>
    refine ⟨[], space_nil, ?_⟩
    unfold commentOpt
    rw [List.nil_append, commentRule_none ht]
  | some h =>
    refine ⟨['\n'], space_newline, ?_⟩
    unfold commentOpt
    rw [commentRule_syntax h]; rfl

theorem optComment_after {P : Char → Prop} {c : Option Comment} {s t : Text} (h : OptComment strictStyle c s)
    (hp : P '-') (ht : After P t) : After P (s ++ t) := by
  cases h with
  | none => exact ht
  | some h =>
    obtain ⟨b, r, hb, e⟩ := comment_after h t
    rw [e]; exact After.mk hb.space (by decide) hp _

theorem optComment_nameEnd {c : Option Comment} {s t : Text} (h : OptComment strictStyle c s)
    (ht : NameEnd t) : NameEnd (s ++ t) := by
  cases h with
  | none => exact ht
  | some h =>
    obtain ⟨b, r, hb, e⟩ := comment_after h t
    rw [e]
    cases b with
    | nil => exact nameEnd_dash r
    | cons d b =>
      have : d = ' ' := hb d (List.Mem.head _)
      subst this; exact nameEnd_cons (by decide +kernel) (by decide) _

theorem Spec.SideSyntax.opt {s : Chars} (h : SideSyntax strictStyle s) :
    ∃ c, OptComment strictStyle c s ∧ ∀ x ∈ c.toList, CleanComment x := by
  cases h with
  | none => exact ⟨Option.none, .none, fun _ h => by cases h⟩
  | some h hc => exact ⟨Option.some _, .some h, fun x hx => by cases List.mem_singleton.mp hx; exact hc⟩

/-! ### Types -/

/-- What may follow a type: the end, white space, a comma, a brace, a comment or a clause. -/
def TypeEnd (t : Text) : Prop :=
  t = [] ∨ ∃ c r, t = c :: r ∧ (isWs c = true ∨ c = ',' ∨ c = '}' ∨
    (c = '-' ∧ ∃ r', r = '-' :: r') ∨ (c = '(' ∧ ∃ r', r = 'W' :: r'))

/-- An upper-case letter. -/
def isUp (c : Char) : Bool := 'A' ≤ c && c ≤ 'Z'

theorem nameChar_not_up {c : Char} (h : isNameChar c = true) : isUp c = false := by
  cases hu : isUp c with
  | false => rfl
  | true =>
    simp only [isUp, Bool.and_eq_true, decide_eq_true_eq] at hu
    have h1 : 65 ≤ c.toNat := hu.1
    have h2 : c.toNat ≤ 90 := hu.2
    unfold isNameChar at h
    rw [uniDigit_isSome] at h
    simp only [Bool.or_eq_true, Bool.and_eq_true, decide_eq_true_eq] at h
    rcases h with h | h
    · have : 97 ≤ c.toNat := h.1
      omega
    · unfold reDigit at h
      rw [List.any_eq_true] at h
      obtain ⟨x, hx, h⟩ := h
      simp only [Bool.and_eq_true, decide_eq_true_eq] at h
      have hall : digitBlocks.all (fun x => x + 10 ≤ 65 || 90 < x) = true := by decide +kernel
      have := (List.all_eq_true.mp hall) x hx
      simp only [Bool.or_eq_true, decide_eq_true_eq] at this
      omega

theorem nameTail_not_up {l : List Char} (h : nameTail l = true) : ∀ c ∈ l, isUp c = false := by
  induction l using nameTail.induct with
  | case1 => intro c hc; cases hc
  | case2 c cs ih =>
    have h : (reAlnum c && nameTail cs) = true := h
    simp only [Bool.and_eq_true] at h
    intro d hd
    cases hd with
    | head => decide
    | tail _ hd =>
      cases hd with
      | head => exact nameChar_not_up (by rw [isNameChar_eq]; exact h.1)
      | tail _ hd => exact ih h.2 d hd
  | case3 c cs hne ih =>
    have h : (reAlnum c && nameTail cs) = true := by
      rw [nameTail.eq_def] at h
      split at h
      · rename_i e; cases e
      · rename_i e
        obtain ⟨rfl, rfl⟩ := List.cons.inj e
        exact (hne _ _ rfl rfl).elim
      · rename_i e
        obtain ⟨rfl, rfl⟩ := List.cons.inj e
        exact h
    simp only [Bool.and_eq_true] at h
    intro d hd
    cases hd with
    | head => exact nameChar_not_up (by rw [isNameChar_eq]; exact h.1)
    | tail _ hd => exact ih h.2 d hd

theorem typeEnd_head {c : Char} {r : Text} (h : TypeEnd (c :: r)) :
    isNameChar c = false ∧ isUp c = false := by
  rcases h with h | ⟨c', r', e, h⟩
  · cases h
  · cases e
    rcases h with h | rfl | rfl | ⟨rfl, _⟩ | ⟨rfl, _⟩
    · exact ⟨(isNameChar_ws h).1, by rcases (isWs_iff c).mp h with rfl | rfl | rfl | rfl <;> decide⟩
    all_goals exact ⟨by decide +kernel, by decide⟩

theorem typeEnd_nameEnd {t : Text} (h : TypeEnd t) : NameEnd t := by
  rcases h with rfl | ⟨c, r, rfl, h⟩
  · exact nameEnd_nil
  · rcases h with h | rfl | rfl | ⟨rfl, r', rfl⟩ | ⟨rfl, _⟩
    · exact nameEnd_cons (isNameChar_ws h).1 (isNameChar_ws h).2 _
    · exact nameEnd_cons (by decide +kernel) (by decide) _
    · exact nameEnd_cons (by decide +kernel) (by decide) _
    · exact nameEnd_dash r'
    · exact nameEnd_cons (by decide +kernel) (by decide) _

theorem lit_nil {c : Char} {s : Text} : lit (c :: s) [] = none := rfl

/-- The text does not go on with a letter or digit of a name. -/
def WordEnd (t : Text) : Prop := ∀ c r, t = c :: r → isNameChar c = false ∧ isUp c = false

theorem typeEnd_wordEnd {t : Text} (h : TypeEnd t) : WordEnd t := fun c r e => by
  subst e; exact typeEnd_head h

/-- A word with an upper-case letter after small letters is not the rest of a name. -/
theorem lit_tail {pre l cs t : Text} {u : Char} (hp : ∀ c ∈ pre, isNameChar c = true)
    (hu : isUp u = true) (hcs : ∀ c ∈ cs, isUp c = false) (ht : WordEnd t) :
    lit (pre ++ u :: l) (cs ++ t) = none := by
  induction pre generalizing cs with
  | nil =>
    show lit (u :: l) (cs ++ t) = none
    have hne : ∀ c, isUp c = false → u ≠ c := fun c hc e => by subst e; rw [hu] at hc; cases hc
    cases cs with
    | nil =>
      cases t with
      | nil => rfl
      | cons c t => exact lit_cons_ne (hne c (ht c t rfl).2) _ _
    | cons c cs => exact lit_cons_ne (hne c (hcs c (List.Mem.head _))) _ _
  | cons p pre ih =>
    show lit (p :: (pre ++ u :: l)) (cs ++ t) = none
    cases cs with
    | nil =>
      cases t with
      | nil => rfl
      | cons c t =>
        refine lit_cons_ne (fun e => ?_) _ _
        have h1 := hp p (List.Mem.head _)
        have h2 := (ht c t rfl).1
        rw [e, h2] at h1; cases h1
    | cons c cs =>
      by_cases e : p = c
      · show lit (p :: _) (c :: (cs ++ t)) = none
        unfold lit; rw [if_pos e]
        exact ih (fun d hd => hp d (List.Mem.tail _ hd)) (fun d hd => hcs d (List.Mem.tail _ hd))
      · exact lit_cons_ne e _ _

/-- Such a word is not the beginning of a name either. -/
theorem lit_word {k pre l t : Text} {n : String} {b u : Char} (hk : k = b :: (pre ++ u :: l))
    (hp : ∀ c ∈ pre, isNameChar c = true) (hu : isUp u = true) (hn : isNameCapital n = true)
    (ht : WordEnd t) : lit k (n.toList ++ t) = none := by
  obtain ⟨c, cs, h1, h2, h3⟩ := capital_cases hn
  rw [h1, hk]
  show lit (b :: _) (c :: (cs ++ t)) = none
  by_cases e : b = c
  · unfold lit; rw [if_pos e]; exact lit_tail hp hu (nameTail_not_up h3) ht
  · exact lit_cons_ne e _ _

theorem lit_blank {k t : Text} : lit (' ' :: k) (' ' :: t) = lit k t := by
  show (if ' ' = ' ' then _ else _) = _
  rw [if_pos rfl]

theorem realType_none {t : Text} (h : lit " REAL".toList t = none) : realType t = none := by
  unfold Parse.realType; rw [h]; rfl
theorem integerType_none {t : Text} (h : lit " INTEGER".toList t = none) : integerType t = none := by
  unfold integerType; rw [h]; rfl
theorem keywordType_none {k : String} {t : Text} (h : lit (' ' :: k.toList) t = none) :
    keywordType k t = none := by
  unfold keywordType; rw [h]; rfl
theorem stringType_none {k : String} {t : Text} (h : lit (' ' :: k.toList) t = none) :
    stringType k t = none := by
  unfold stringType; rw [h]; rfl
theorem arrayType_none {p : Text → Option (AType × Text)} {t : Text}
    (h : lit " SEQUENCE (SIZE (".toList t = none) : arrayType p t = none := by
  unfold arrayType; rw [h]; rfl

theorem typeRule_succ (n : Nat) (t : Text) : typeRule (n + 1) t =
    ((realType t).or <| (integerType t).or <| (keywordType "NULL" t).or <|
    (keywordType "BOOLEAN" t).or <| (stringType "IA5String" t).or <|
    (stringType "NumericString" t).or <| (arrayType (typeRule n) t).or <| namedType t) := rfl

theorem floatLit_W (r : Text) : floatLit ('W' :: r) = none := by
  have h1 : sign ('W' :: r) = (false, 'W' :: r) := sign_other (by decide) (by decide) r
  have h2 : digitRun uniDigit ('W' :: r) = ([], 'W' :: r) :=
    digitRun_end (digitEnd_cons (by decide +kernel) r)
  unfold floatLit
  simp only [h1, h2]
  rfl

theorem intLit_none {c : Char} (h : asciiDigit c = none) (h1 : c ≠ '-') (h2 : c ≠ '+') (r : Text) :
    intLit (c :: r) = none := by
  have h1 : sign (c :: r) = (false, c :: r) := sign_other h1 h2 r
  have h2 : digitRun asciiDigit (c :: r) = ([], c :: r) := digitRun_end (digitEnd_cons h r)
  unfold intLit
  simp only [h1, h2]
  rfl

theorem range_none {t : Text} (h : TypeEnd t) : floatRange t = none ∧ intRange t = none := by
  rcases h with rfl | ⟨c, r, rfl, h⟩
  · exact ⟨rfl, rfl⟩
  · have hne : c ≠ '(' ∨ c = '(' ∧ ∃ r', r = 'W' :: r' := by
      rcases h with h | rfl | rfl | ⟨rfl, _⟩ | h
      · left; intro e; subst e; revert h; decide
      · exact .inl (by decide)
      · exact .inl (by decide)
      · exact .inl (by decide)
      · exact .inr h
    rcases hne with hne | ⟨rfl, r', rfl⟩
    · have : lit ['('] (c :: r) = none := lit_cons_ne (Ne.symm hne) _ _
      unfold floatRange intRange
      rw [this]; exact ⟨rfl, rfl⟩
    · have : lit ['('] ('(' :: 'W' :: r') = some ('W' :: r') := lit_append ['('] _
      unfold floatRange intRange
      rw [this]
      simp only [Option.bind_eq_bind, Option.bind_some, floatLit_W,
        intLit_none (c := 'W') (by decide) (by decide) (by decide), Option.bind_none]
      exact ⟨trivial, trivial⟩

theorem realEnd_cons {c : Char} (h : uniDigit c = none) (h1 : c ≠ 'e') (h2 : c ≠ 'E') (t : Text) :
    RealEnd (c :: t) :=
  ⟨digitEnd_cons h t, fun _ _ e => by cases e; exact ⟨h1, h2⟩⟩

theorem floatRange_syntax {b e : Num} {sb se : Chars} (hb : RealSyntax decimalFloat b sb)
    (he : RealSyntax decimalFloat e se) (t : Text) :
    floatRange ('(' :: (sb ++ ([' ', '.', '.', ' '] ++ (se ++ ')' :: t)))) = some ((b, e), t) := by
  have h1 := floatLit_syntax hb (t := [' ', '.', '.', ' '] ++ (se ++ ')' :: t))
    (realEnd_cons (by decide +kernel) (by decide) (by decide) _)
  have h2 := floatLit_syntax he (t := ')' :: t)
    (realEnd_cons (by decide +kernel) (by decide) (by decide) _)
  have h3 : lit ['('] ('(' :: (sb ++ ([' ', '.', '.', ' '] ++ (se ++ ')' :: t)))) =
    some (sb ++ ([' ', '.', '.', ' '] ++ (se ++ ')' :: t))) := lit_append ['('] _
  have h4 : lit [')'] (')' :: t) = some t := lit_append [')'] _
  unfold floatRange
  rw [h3, lDots]
  simp only [Option.bind_eq_bind, Option.bind_some, h1, lit_append, h2, h4, Option.pure_def]

theorem intRange_syntax {b e : Int} {sb se : Chars} (hb : IntSyntax b sb)
    (he : IntSyntax e se) (t : Text) :
    intRange ('(' :: (sb ++ (['.', '.'] ++ (se ++ ')' :: t)))) = some ((b, e), t) := by
  have h1 := intLit_syntax hb (t := ['.', '.'] ++ (se ++ ')' :: t))
    (digitEnd_cons (by decide) _)
  have h2 := intLit_syntax he (t := ')' :: t) (digitEnd_cons (by decide) _)
  have h3 : lit ['('] ('(' :: (sb ++ (['.', '.'] ++ (se ++ ')' :: t)))) =
    some (sb ++ (['.', '.'] ++ (se ++ ')' :: t))) := lit_append ['('] _
  have h4 : lit [')'] (')' :: t) = some t := lit_append [')'] _
  unfold intRange
  rw [h3, lDot2]
  simp only [Option.bind_eq_bind, Option.bind_some, h1, lit_append, h2, h4, Option.pure_def]

theorem stringType_syntax {k : String} {n : Int} {sn : Chars} (hn : IntSyntax n sn) (t : Text) :
    stringType k (' ' :: (k.toList ++ ([' ', '(', 'S', 'I', 'Z', 'E', ' ', '('] ++
      (sn ++ ([')', ')'] ++ t))))) = some (.str k n, t) := by
  have h1 : lit (' ' :: k.toList) (' ' :: (k.toList ++ ([' ', '(', 'S', 'I', 'Z', 'E', ' ', '('] ++
      (sn ++ ([')', ')'] ++ t))))) = some ([' ', '(', 'S', 'I', 'Z', 'E', ' ', '('] ++
      (sn ++ ([')', ')'] ++ t))) := lit_append (' ' :: k.toList) _
  have h2 := intLit_syntax hn (t := [')', ')'] ++ t) (digitEnd_cons (by decide) _)
  unfold stringType
  rw [h1, lSize, lClose2]
  simp only [Option.bind_eq_bind, Option.bind_some, lit_append, h2, Option.pure_def]

theorem arrayType_syntax {p : Text → Option (AType × Text)} {n : Int} {sn u : Chars} {e : AType}
    {t : Text} (hn : IntSyntax n sn) (he : p u = some (e, t)) :
    arrayType p (" SEQUENCE (SIZE (".toList ++ (sn ++ (")) OF".toList ++ u))) =
      some (.arr e n, t) := by
  have h2 := intLit_syntax hn (t := ")) OF".toList ++ u)
    (by rw [lOf]; exact digitEnd_cons (by decide) _)
  unfold arrayType
  rw [lit_append]
  simp only [Option.bind_eq_bind, Option.bind_some, h2, lit_append, he, Option.pure_def]

theorem lit_ne2 {a b c : Char} {k t : Text} (h : b ≠ c) : lit (a :: b :: k) (a :: c :: t) = none := by
  unfold lit; rw [if_pos rfl]; exact lit_cons_ne h _ _

/-- The type rule reads every written type. -/
theorem typeRule_syntax {y : AType} {s : Chars} (h : TypeSyntax strictStyle y s) {t : Text}
    (ht : TypeEnd t) : ∀ {n : Nat}, s.length ≤ n → typeRule n (s ++ t) = some (y, t) := by
  induction h with
  | real =>
    intro n hn
    cases n with
    | zero => rw [lReal] at hn; simp at hn
    | succ n =>
      rw [typeRule_succ]
      have : realType (" REAL".toList ++ t) = some (.plain "REAL" none none, t) := by
        unfold Parse.realType; rw [lit_append]
        show some (match floatRange t with | some r => _ | none => _) = _
        rw [(range_none ht).1]
      rw [this, Option.some_or]
  | realRange hb he =>
    rename_i b e sb se
    intro n hn
    cases n with
    | zero => rw [lRealP] at hn; simp at hn
    | succ n =>
      rw [typeRule_succ]
      have : realType (" REAL(".toList ++ sb ++ " .. ".toList ++ se ++ [')'] ++ t) =
          some (.plain "REAL" (some b) (some e), t) := by
        have e1 : " REAL(".toList ++ sb ++ " .. ".toList ++ se ++ [')'] ++ t =
            " REAL".toList ++ ('(' :: (sb ++ ([' ', '.', '.', ' '] ++ (se ++ ')' :: t)))) := by
          rw [lRealP, lReal, lDots]; simp
        rw [e1]
        unfold Parse.realType; rw [lit_append]
        show some (match floatRange _ with | some r => _ | none => _) = _
        rw [floatRange_syntax hb he]
      rw [this, Option.some_or]
  | integer =>
    intro n hn
    cases n with
    | zero => rw [lInteger] at hn; simp at hn
    | succ n =>
      rw [typeRule_succ]
      have h0 : realType (" INTEGER".toList ++ t) = none :=
        realType_none (by rw [lReal, lInteger]; exact lit_ne2 (by decide))
      have : integerType (" INTEGER".toList ++ t) = some (.plain "INTEGER" none none, t) := by
        unfold integerType; rw [lit_append]
        show some (match intRange t with | some r => _ | none => _) = _
        rw [(range_none ht).2]
      rw [h0, this, Option.none_or, Option.some_or]
  | integerRange hb he =>
    rename_i b e sb se
    intro n hn
    cases n with
    | zero => rw [lIntegerP] at hn; simp at hn
    | succ n =>
      rw [typeRule_succ]
      have e1 : " INTEGER(".toList ++ sb ++ "..".toList ++ se ++ [')'] ++ t =
          " INTEGER".toList ++ ('(' :: (sb ++ (['.', '.'] ++ (se ++ ')' :: t)))) := by
        rw [lIntegerP, lInteger, lDot2]; simp
      rw [e1]
      have h0 : realType (" INTEGER".toList ++ ('(' :: (sb ++ (['.', '.'] ++ (se ++ ')' :: t))))) = none :=
        realType_none (by rw [lReal, lInteger]; exact lit_ne2 (by decide))
      have : integerType (" INTEGER".toList ++ ('(' :: (sb ++ (['.', '.'] ++ (se ++ ')' :: t))))) =
          some (.plain "INTEGER" (some (.int b)) (some (.int e)), t) := by
        unfold integerType; rw [lit_append]
        show some (match intRange _ with | some r => _ | none => _) = _
        rw [intRange_syntax hb he]
      rw [h0, this, Option.none_or, Option.some_or]
  | null =>
    intro n hn
    cases n with
    | zero => rw [lNull] at hn; simp at hn
    | succ n =>
      rw [typeRule_succ]
      rw [realType_none (by rw [lReal, lNull]; exact lit_ne2 (by decide)),
        integerType_none (by rw [lInteger, lNull]; exact lit_ne2 (by decide)),
        Option.none_or, Option.none_or]
      have : keywordType "NULL" (" NULL".toList ++ t) = some (.plain "NULL" none none, t) := by
        have e1 : " NULL".toList = ' ' :: "NULL".toList := by rw [lNull, lNull']
        unfold keywordType; rw [e1, lit_append]; rfl
      rw [this, Option.some_or]
  | boolean =>
    intro n hn
    cases n with
    | zero => rw [lBoolean] at hn; simp at hn
    | succ n =>
      rw [typeRule_succ]
      rw [realType_none (by rw [lReal, lBoolean]; exact lit_ne2 (by decide)),
        integerType_none (by rw [lInteger, lBoolean]; exact lit_ne2 (by decide)),
        keywordType_none (by rw [lNull', lBoolean]; exact lit_ne2 (by decide)),
        Option.none_or, Option.none_or, Option.none_or]
      have : keywordType "BOOLEAN" (" BOOLEAN".toList ++ t) = some (.plain "BOOLEAN" none none, t) := by
        have e1 : " BOOLEAN".toList = ' ' :: "BOOLEAN".toList := by rw [lBoolean, lBoolean']
        unfold keywordType; rw [e1, lit_append]; rfl
      rw [this, Option.some_or]
  | ia5 hn' =>
    rename_i m sn
    intro n hn
    cases n with
    | zero => rw [lIa5] at hn; simp at hn
    | succ n =>
      have e1 : " IA5String (SIZE (".toList ++ sn ++ "))".toList ++ t =
          ' ' :: ("IA5String".toList ++ ([' ', '(', 'S', 'I', 'Z', 'E', ' ', '('] ++
            (sn ++ ([')', ')'] ++ t)))) := by
        rw [lIa5, lIa5', lClose2]; simp
      rw [typeRule_succ, e1]
      rw [realType_none (by rw [lReal, lIa5']; exact lit_ne2 (by decide)),
        integerType_none (by rw [lInteger, lIa5']; exact lit_blank.trans (lit_ne2 (by decide))),
        keywordType_none (by rw [lNull', lIa5']; exact lit_ne2 (by decide)),
        keywordType_none (by rw [lBoolean', lIa5']; exact lit_ne2 (by decide)),
        Option.none_or, Option.none_or, Option.none_or, Option.none_or,
        stringType_syntax hn', Option.some_or]
  | numeric hn' =>
    rename_i m sn
    intro n hn
    cases n with
    | zero => rw [lNumeric] at hn; simp at hn
    | succ n =>
      have e1 : " NumericString (SIZE (".toList ++ sn ++ "))".toList ++ t =
          ' ' :: ("NumericString".toList ++ ([' ', '(', 'S', 'I', 'Z', 'E', ' ', '('] ++
            (sn ++ ([')', ')'] ++ t)))) := by
        rw [lNumeric, lNumeric', lClose2]; simp
      rw [typeRule_succ, e1]
      rw [realType_none (by rw [lReal, lNumeric']; exact lit_ne2 (by decide)),
        integerType_none (by rw [lInteger, lNumeric']; exact lit_ne2 (by decide)),
        keywordType_none (by rw [lNull', lNumeric']; exact lit_blank.trans (lit_ne2 (by decide))),
        keywordType_none (by rw [lBoolean', lNumeric']; exact lit_ne2 (by decide)),
        stringType_none (by rw [lIa5', lNumeric']; exact lit_ne2 (by decide)),
        Option.none_or, Option.none_or, Option.none_or, Option.none_or, Option.none_or,
        stringType_syntax hn', Option.some_or]
  | arr hn' he ih =>
    rename_i e se m sn
    intro n hn
    cases n with
    | zero => rw [lArray] at hn; simp at hn
    | succ n =>
      have e1 : " SEQUENCE (SIZE (".toList ++ sn ++ ")) OF".toList ++ se ++ t =
          " SEQUENCE (SIZE (".toList ++ (sn ++ (")) OF".toList ++ (se ++ t))) := by simp
      have hlen : se.length ≤ n := by
        rw [lArray] at hn; simp at hn; omega
      rw [typeRule_succ, e1]
      rw [realType_none (by rw [lReal, lArray]; exact lit_ne2 (by decide)),
        integerType_none (by rw [lInteger, lArray]; exact lit_ne2 (by decide)),
        keywordType_none (by rw [lNull', lArray]; exact lit_ne2 (by decide)),
        keywordType_none (by rw [lBoolean', lArray]; exact lit_ne2 (by decide)),
        stringType_none (by rw [lIa5', lArray]; exact lit_ne2 (by decide)),
        stringType_none (by rw [lNumeric', lArray]; exact lit_ne2 (by decide)),
        Option.none_or, Option.none_or, Option.none_or, Option.none_or, Option.none_or,
        Option.none_or, arrayType_syntax hn' (ih hlen), Option.some_or]
  | named hn' =>
    rename_i m
    intro n hn
    cases n with
    | zero => simp at hn
    | succ n =>
      have w : ∀ {k pre l : Text} {b u : Char}, k = b :: (pre ++ u :: l) →
          (∀ c ∈ pre, isNameChar c = true) → isUp u = true →
          lit (' ' :: k) (' ' :: m.toList ++ t) = none := fun hk hp hu => by
        show lit (' ' :: _) (' ' :: (m.toList ++ t)) = none
        rw [lit_blank]; exact lit_word hk hp hu hn' (typeEnd_wordEnd ht)
      have np : ∀ c ∈ ([] : Text), isNameChar c = true := fun c hc => by cases hc
      rw [typeRule_succ]
      rw [realType_none (by rw [lReal]; exact w (pre := []) rfl np (by decide)),
        integerType_none (by rw [lInteger]; exact w (pre := []) rfl np (by decide)),
        keywordType_none (by rw [lNull']; exact w (pre := []) rfl np (by decide)),
        keywordType_none (by rw [lBoolean']; exact w (pre := []) rfl np (by decide)),
        stringType_none (by rw [lIa5']; exact w (pre := []) rfl np (by decide)),
        stringType_none (by
          rw [lNumeric']
          exact w (pre := ['u', 'm', 'e', 'r', 'i', 'c']) rfl (by decide +kernel) (by decide)),
        arrayType_none (by rw [lArray]; exact w (pre := []) rfl np (by decide)),
        Option.none_or, Option.none_or, Option.none_or, Option.none_or, Option.none_or,
        Option.none_or, Option.none_or]
      have h1 : lit [' '] (' ' :: m.toList ++ t) = some (m.toList ++ t) := lit_append [' '] _
      have h2 := nameCapital_here hn' (typeEnd_nameEnd ht)
      unfold namedType
      rw [h1]
      simp only [Option.bind_eq_bind, Option.bind_some, h2, Option.pure_def]

theorem typeOf_syntax {y : AType} {s t : Text} (h : TypeSyntax strictStyle y s)
    (ht : TypeEnd t) : typeOf (s ++ t) = some (y, t) :=
  typeRule_syntax h ht (by simp; omega)

/-- A type starts with a blank. -/
theorem typeSyntax_head {y : AType} {s : Text} (h : TypeSyntax strictStyle y s) :
    ∃ c r, s = ' ' :: c :: r ∧ isUp c = true := by
  cases h
  case real => exact ⟨_, _, lReal, by decide⟩
  case realRange => rw [lRealP]; exact ⟨_, _, rfl, by decide⟩
  case integer => exact ⟨_, _, lInteger, by decide⟩
  case integerRange => rw [lIntegerP]; exact ⟨_, _, rfl, by decide⟩
  case null => exact ⟨_, _, lNull, by decide⟩
  case boolean => exact ⟨_, _, lBoolean, by decide⟩
  case ia5 => rw [lIa5]; exact ⟨_, _, rfl, by decide⟩
  case numeric => rw [lNumeric]; exact ⟨_, _, rfl, by decide⟩
  case arr => rw [lArray]; exact ⟨_, _, rfl, by decide⟩
  case named h =>
    obtain ⟨c, cs, h1, h2, h3⟩ := capital_cases h
    rw [h1]; exact ⟨_, _, rfl, h2⟩

end Apg
