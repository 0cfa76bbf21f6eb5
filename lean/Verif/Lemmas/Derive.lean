import Verif.Lemmas.SyntaxModule
import Verif.Lemmas.Text
import Verif.Lemmas.Decimal

/-!
# What the parser reads is written in the text

The converse of `Lemmas/SyntaxModule.lean`: every tree the parser builds is written in the
text, in the syntax of `Spec/Syntax.lean` with loose style.
-/

namespace Apg

open Spec Parse

/-- The style of the texts that the parser accepts. -/
abbrev looseStyle : Style := .loose decimalFloat

/-! ### Words -/

theorem lit_inv {s t u : Text} (h : lit s t = some u) : t = s ++ u := by
  induction s generalizing t with
  | nil => cases h; rfl
  | cons c s ih =>
    cases t with
    | nil => cases h
    | cons d t =>
      rw [lit] at h
      split at h
      · rename_i hc; subst hc; rw [ih h]; rfl
      · cases h

theorem skipWs_inv (t : Text) : ∃ w, Space w ∧ t = w ++ skipWs t := by
  refine ⟨t.takeWhile isWs, fun c hc => ?_, (List.takeWhile_append_dropWhile).symm⟩
  exact (isWs_iff c).mp (takeWhile_sat c hc)

theorem tok_inv {s t u : Text} (h : tok s t = some u) : ∃ w, Space w ∧ t = w ++ (s ++ u) := by
  obtain ⟨w, hw, e⟩ := skipWs_inv t
  refine ⟨w, hw, ?_⟩
  rw [← lit_inv h]; exact e

theorem nameRest_inv (t : Text) : t = (nameRest t).1 ++ (nameRest t).2 := by
  induction t using nameRest.induct with
  | case1 => rfl
  | case2 c h => unfold nameRest; rw [if_pos h]; rfl
  | case3 c h => unfold nameRest; rw [if_neg h]; rfl
  | case4 c d t h ih =>
    unfold nameRest; rw [if_pos h]
    show c :: d :: t = c :: ((nameRest (d :: t)).1 ++ (nameRest (d :: t)).2)
    rw [← ih]
  | case5 c d t h h2 ih =>
    unfold nameRest; rw [if_neg h, if_pos h2]
    show c :: d :: t = c :: d :: ((nameRest t).1 ++ (nameRest t).2)
    rw [← ih]
  | case6 c d t h h2 => unfold nameRest; rw [if_neg h, if_neg h2]; rfl

theorem nameLower_inv {t : Text} {r : String × Text} (h : nameLower t = some r) :
    isNameLower r.1 = true ∧ t = r.1.toList ++ r.2 := by
  refine ⟨nameLower_ok h, ?_⟩
  cases t with
  | nil => cases h
  | cons c t =>
    rw [nameLower_cons] at h
    split at h
    · cases h
      rw [String.toList_ofList]
      show c :: t = c :: ((nameRest t).1 ++ (nameRest t).2)
      rw [← nameRest_inv]
    · cases h

theorem nameCapital_inv {t : Text} {r : String × Text} (h : nameCapital t = some r) :
    isNameCapital r.1 = true ∧ t = r.1.toList ++ r.2 := by
  refine ⟨nameCapital_ok h, ?_⟩
  cases t with
  | nil => cases h
  | cons c t =>
    rw [nameCapital_cons] at h
    split at h
    · cases h
      rw [String.toList_ofList]
      show c :: t = c :: ((nameRest t).1 ++ (nameRest t).2)
      rw [← nameRest_inv]
    · cases h

/-- A lower-case name after white space. -/
theorem nameLower_skip {t : Text} {r : String × Text} (h : nameLower (skipWs t) = some r) :
    ∃ w, Space w ∧ isNameLower r.1 = true ∧ t = w ++ (r.1.toList ++ r.2) := by
  obtain ⟨w, hw, e⟩ := skipWs_inv t
  obtain ⟨hn, e'⟩ := nameLower_inv h
  exact ⟨w, hw, hn, by rw [← e']; exact e⟩

/-- A capitalised name after white space. -/
theorem nameCapital_skip {t : Text} {r : String × Text} (h : nameCapital (skipWs t) = some r) :
    ∃ w, Space w ∧ isNameCapital r.1 = true ∧ t = w ++ (r.1.toList ++ r.2) := by
  obtain ⟨w, hw, e⟩ := skipWs_inv t
  obtain ⟨hn, e'⟩ := nameCapital_inv h
  exact ⟨w, hw, hn, by rw [← e']; exact e⟩

/-! ### Numbers -/

theorem sign_inv (t : Text) : ∃ sg, Sign (sign t).1 sg ∧ t = sg ++ (sign t).2 := by
  unfold sign
  split
  · exact ⟨_, .minus, rfl⟩
  · exact ⟨_, .plus, rfl⟩
  · exact ⟨_, .none, rfl⟩

theorem sign_chars {b : Bool} {sg : Chars} (h : Sign b sg) : ∀ c ∈ sg, c = '+' ∨ c = '-' := by
  cases h <;> simp

/-- Digits with a value that the specification agrees on for ASCII. -/
structure DigitClass (d : Char → Option Nat) : Prop where
  digit : ∀ c v, d c = some v → reDigit c = true
  value : ∀ c v, c.toNat < 128 → d c = some v → digitVal c = some v ∧ v < 10

theorem digitVal_of {c : Char} (h1 : '0' ≤ c) (h2 : c ≤ '9') :
    digitVal c = some (c.toNat - '0'.toNat) ∧ c.toNat - '0'.toNat < 10 := by
  refine ⟨by unfold digitVal; rw [if_pos ⟨h1, h2⟩], ?_⟩
  have h2' : c.toNat ≤ 57 := h2
  show c.toNat - 48 < 10
  omega

theorem uniDigit_class : DigitClass uniDigit := by
  refine ⟨fun c v h => by rw [← uniDigit_isSome, h]; rfl, fun c v hc h => ?_⟩
  unfold uniDigit at h
  rw [Option.map_eq_some_iff] at h
  obtain ⟨s, hs, rfl⟩ := h
  have h1 := List.find?_some hs
  have h2 := List.mem_of_find?_eq_some hs
  simp only [Bool.and_eq_true, decide_eq_true_eq] at h1
  have : ∀ s ∈ digitStarts, s < 128 → s = 48 := by decide
  have := this s h2 (by omega)
  subst this
  refine digitVal_of h1.1 ?_
  show c.toNat ≤ 57
  omega

theorem asciiDigit_some {c : Char} {v : Nat} (h : asciiDigit c = some v) :
    '0' ≤ c ∧ c ≤ '9' ∧ digitVal c = some v ∧ v < 10 := by
  unfold asciiDigit at h
  split at h
  · rename_i hc
    simp only [Bool.and_eq_true, decide_eq_true_eq] at hc
    cases h
    exact ⟨hc.1, hc.2, digitVal_of hc.1 hc.2⟩
  · cases h

theorem asciiDigit_class : DigitClass asciiDigit := by
  refine ⟨fun c v h => ?_, fun c v _ h => (asciiDigit_some h).2.2⟩
  obtain ⟨_, _, h1, h2⟩ := asciiDigit_some h
  rw [← uniDigit_isSome, uniDigit_of h1 h2]; rfl

theorem digitRun_inv {d : Char → Option Nat} (hd : DigitClass d) (t : Text) :
    ∃ ds, t = ds ++ (digitRun d t).2 ∧ ds.length = (digitRun d t).1.length ∧
      (∀ c ∈ ds, reDigit c = true ∧ (d c).isSome = true) ∧ ((∀ c ∈ ds, c.toNat < 128) → ∀ acc,
        readFrom 10 acc ds = some ((digitRun d t).1.foldl (fun n d => n * 10 + d) acc)) := by
  induction t with
  | nil => exact ⟨[], rfl, rfl, by simp, fun _ _ => rfl⟩
  | cons c t ih =>
    unfold digitRun
    cases h : d c with
    | none => exact ⟨[], rfl, rfl, by simp, fun _ _ => rfl⟩
    | some v =>
      obtain ⟨ds, h1, h2, h3, h4⟩ := ih
      refine ⟨c :: ds, by rw [List.cons_append, ← h1], by simp [h2], ?_, fun ha acc => ?_⟩
      · intro x hx
        rcases List.mem_cons.1 hx with rfl | hx
        · exact ⟨hd.digit _ _ h, by rw [h]; rfl⟩
        · exact h3 x hx
      · obtain ⟨hv, hlt⟩ := hd.value c v (ha c (List.Mem.head _)) h
        rw [readFrom, hv]
        simp only [if_pos hlt]
        exact h4 (fun x hx => ha x (List.Mem.tail _ hx)) _

theorem readNat_of {ds : Chars} {n : Nat} (hne : ds ≠ []) (h : readFrom 10 0 ds = some n) :
    readNat 10 ds = some n := by
  unfold readNat; rw [if_neg hne, h]

theorem intLit_inv {t : Text} {r : Int × Text} (h : intLit t = some r) :
    ∃ s, IntSyntax r.1 s ∧ t = s ++ r.2 := by
  unfold intLit at h
  simp only at h
  obtain ⟨sg, hs, e⟩ := sign_inv t
  obtain ⟨ds, h1, h2, h3, h4⟩ := digitRun_inv asciiDigit_class (sign t).2
  split at h
  · cases h
  · rename_i hne
    cases h
    have hd : ds ≠ [] := by
      rintro rfl
      exact hne (List.length_eq_zero_iff.1 h2.symm)
    refine ⟨sg ++ ds, ?_, by rw [List.append_assoc]; rw [← h1]; exact e⟩
    have := h4 (fun c hc => ?_) 0
    · exact .mk hs (readNat_of hd this)
    · obtain ⟨v, hv⟩ := Option.isSome_iff_exists.1 (h3 c hc).2
      have h5 : c.toNat ≤ 57 := (asciiDigit_some hv).2.1
      omega

/-- Characters of a decimal. -/
abbrev RealChar (c : Char) : Prop := reDigit c = true ∨ c ∈ ['+', '-', '.', 'e', 'E']

theorem realChar_sign {b : Bool} {sg : Chars} (h : Sign b sg) : ∀ c ∈ sg, RealChar c := by
  intro c hc
  rcases sign_chars h c hc with rfl | rfl <;> exact .inr (by decide)

theorem exponent_inv {t : Text} {r : Int × Text} (h : exponent t = some r) :
    ∃ s, t = s ++ r.2 ∧ (∀ c ∈ s, RealChar c) ∧ ((∀ c ∈ s, c.toNat < 128) → ExpSyntax r.1 s) := by
  cases t with
  | nil => cases h
  | cons c t =>
    rw [exponent_cons] at h
    split at h
    · rename_i hc
      simp only [Bool.or_eq_true, decide_eq_true_eq] at hc
      obtain ⟨sg, hs, e⟩ := sign_inv t
      obtain ⟨ds, h1, h2, h3, h4⟩ := digitRun_inv uniDigit_class (sign t).2
      split at h
      · cases h
      · rename_i hne
        cases h
        have hd : ds ≠ [] := by
          rintro rfl
          exact hne (List.length_eq_zero_iff.1 h2.symm)
        refine ⟨c :: (sg ++ ds), ?_, ?_, fun ha => ?_⟩
        · show c :: t = c :: (sg ++ ds ++ _)
          rw [List.append_assoc, ← h1, ← e]
        · intro x hx
          rcases List.mem_cons.1 hx with rfl | hx
          · rcases hc with rfl | rfl <;> exact .inr (by decide)
          · rcases List.mem_append.1 hx with hx | hx
            · exact realChar_sign hs x hx
            · exact .inl (h3 x hx).1
        · exact .mk hc (.mk hs (readNat_of hd
            (h4 (fun x hx => ha x (List.mem_cons_of_mem _ (List.mem_append_right _ hx))) 0)))
    · cases h

theorem double_of {F : Bool → Nat → Int → Num} (hF : Rounds F) (neg : Bool) (n : Nat) (e : Int) :
    IsDouble (F neg n e) := by
  have h := hF neg n e
  cases hx : F neg n e with
  | int i => rw [hx] at h; exact h
  | inf s => trivial
  | flt q => rw [hx] at h; obtain ⟨_, k, _, hq⟩ := h; exact ⟨k, hq⟩

theorem floatLit_double {t : Text} {r : Num × Text} (h : floatLit t = some r) : IsDouble r.1 := by
  unfold floatLit at h
  simp only at h
  split at h
  · split at h
    · cases h
    · cases h; exact double_of decimalFloat_rounds _ _ _
  · split at h
    · cases h
    · simp only [Option.map_eq_some_iff] at h
      obtain ⟨_, _, rfl⟩ := h
      exact double_of decimalFloat_rounds _ _ _

theorem floatLit_inv {t : Text} {r : Num × Text} (h : floatLit t = some r) :
    ∃ s, looseStyle.real r.1 s ∧ t = s ++ r.2 := by
  have hF := floatLit_double h
  unfold floatLit at h
  simp only at h
  obtain ⟨sg, hs, e⟩ := sign_inv t
  obtain ⟨a, a1, a2, a3, a4⟩ := digitRun_inv uniDigit_class (sign t).2
  split at h
  · rename_i u hu
    rw [hu] at a1
    obtain ⟨b, b1, b2, b3, b4⟩ := digitRun_inv uniDigit_class u
    split at h
    · cases h
    · rename_i hne
      cases h
      have hab : a ++ b ≠ [] := by
        intro h
        obtain ⟨rfl, rfl⟩ := List.append_eq_nil_iff.1 h
        apply hne
        rw [List.length_eq_zero_iff.1 a2.symm, List.length_eq_zero_iff.1 b2.symm]; rfl
      have hN : (∀ c ∈ a, c.toNat < 128) → (∀ c ∈ b, c.toNat < 128) → readNat 10 (a ++ b) =
          some (ofDigits ((digitRun uniDigit (sign t).2).1 ++ (digitRun uniDigit u).1)) := by
        intro ha hb
        refine readNat_of hab ?_
        rw [readFrom_append, a4 ha 0, Option.bind_some, b4 hb, ofDigits, List.foldl_append]
      have hch : ∀ c ∈ sg ++ a ++ '.' :: b, RealChar c := by
        intro c hc
        simp only [List.mem_append, List.mem_cons] at hc
        rcases hc with (hc | hc) | rfl | hc
        · exact realChar_sign hs c hc
        · exact .inl (a3 c hc).1
        · exact .inr (by decide)
        · exact .inl (b3 c hc).1
      unfold exponentOpt at hF ⊢
      cases hx : exponent (digitRun uniDigit u).2 with
      | none =>
        rw [hx] at hF
        refine ⟨sg ++ a ++ '.' :: b, ⟨hF, by simp, hch, fun ha => ?_⟩, ?_⟩
        · have := RealSyntax.point (F := decimalFloat) hs (hN (fun c hc => ha c (by simp [hc])) (fun c hc => ha c (by simp [hc])))
          simp only [Option.getD_none]
          rw [← b2, show (0 : Int) - b.length = -(b.length : Int) by omega]
          exact this
        · simp only [Option.getD_none, List.append_assoc, List.cons_append]
          rw [← b1, ← a1]; exact e
      | some r =>
        obtain ⟨se, e1, e2, e3⟩ := exponent_inv hx
        rw [hx] at hF
        refine ⟨sg ++ a ++ '.' :: b ++ se, ⟨hF, by simp, ?_, fun ha => ?_⟩, ?_⟩
        · intro c hc
          rcases List.mem_append.1 hc with hc | hc
          · exact hch c hc
          · exact e2 c hc
        · have := RealSyntax.pointExp (F := decimalFloat) hs (hN (fun c hc => ha c (by simp [hc]))
            (fun c hc => ha c (by simp [hc]))) (e3 (fun c hc => ha c (by simp [hc])))
          simp only [Option.getD_some]
          rw [← b2]
          exact this
        · simp only [Option.getD_some, List.append_assoc, List.cons_append]
          rw [← e1, ← b1, ← a1]; exact e
  · split at h
    · cases h
    · rename_i hne
      rw [Option.map_eq_some_iff] at h
      obtain ⟨r', hx, rfl⟩ := h
      obtain ⟨se, e1, e2, e3⟩ := exponent_inv hx
      have ha0 : a ≠ [] := by
        rintro rfl
        exact hne (List.length_eq_zero_iff.1 a2.symm)
      refine ⟨sg ++ a ++ se, ⟨hF, by simp [ha0], ?_, fun ha => ?_⟩, ?_⟩
      · intro c hc
        simp only [List.mem_append] at hc
        rcases hc with (hc | hc) | hc
        · exact realChar_sign hs c hc
        · exact .inl (a3 c hc).1
        · exact e2 c hc
      · exact RealSyntax.exp hs (readNat_of ha0 (a4 (fun c hc => ha c (by simp [hc])) 0))
          (e3 (fun c hc => ha c (by simp [hc])))
      · simp only [List.append_assoc]
        rw [← e1, ← a1]; exact e

/-! ### Comments -/

theorem blanks_inv (t : Text) : ∃ b, Blanks b ∧ t = b ++ blanks t := by
  refine ⟨t.takeWhile (· == ' '), fun c hc => ?_, (List.takeWhile_append_dropWhile).symm⟩
  simpa using takeWhile_sat c hc

theorem unitOpt_inv (t : Text) : ∃ u, t = u ++ (unitOpt t).2 ∧
    u = if (unitOpt t).1 = [] then [] else '[' :: (unitOpt t).1 ++ [']'] := by
  have hnone : ∀ {x : Option (Text × Text)}, unitOpt t = x.getD ([], t) → x = none →
      ∃ u, t = u ++ (unitOpt t).2 ∧ u = if (unitOpt t).1 = [] then [] else '[' :: (unitOpt t).1 ++ [']'] := by
    intro x h hx
    rw [hx] at h
    rw [h]
    exact ⟨[], rfl, rfl⟩
  cases h : lit ['['] t with
  | none => exact hnone rfl (by rw [h]; rfl)
  | some u =>
    have e := lit_inv h
    by_cases hr : u.takeWhile isUnitChar = []
    · exact hnone rfl (by rw [h, Option.bind_some]; simp only [hr, if_true])
    · cases hl : lit [']'] (u.dropWhile isUnitChar) with
      | none => exact hnone rfl (by rw [h, Option.bind_some]; simp only [hr, if_false, hl]; rfl)
      | some v =>
        have e' := lit_inv hl
        have hu : unitOpt t = (u.takeWhile isUnitChar, v) := by
          unfold unitOpt
          rw [h, Option.bind_some]
          simp only [hr, if_false, hl]; rfl
        rw [hu]
        refine ⟨_, ?_, rfl⟩
        show t = (if u.takeWhile isUnitChar = [] then _ else _) ++ v
        rw [if_neg hr, e, List.cons_append, List.append_assoc, ← e']
        show '[' :: u = '[' :: (u.takeWhile isUnitChar ++ u.dropWhile isUnitChar)
        rw [List.takeWhile_append_dropWhile]

theorem commentText_inv (t : Text) :
    t = (Parse.commentText t).1 ++ (Parse.commentText t).2 := by
  unfold Parse.commentText
  split
  · simp
  · rename_i c u h
    split
    · show t = t.takeWhile isCommentChar ++ c :: u
      rw [← h, List.takeWhile_append_dropWhile]
    · rfl

theorem blanks_head (t : Text) : (blanks t).head? ≠ some ' ' := by
  unfold blanks
  induction t with
  | nil => simp
  | cons c t ih =>
    rw [List.dropWhile_cons]
    split
    · exact ih
    · rename_i h; intro e; simp at e; exact h (by simp [e])

theorem prefix_lit {s t : Text} (h : s <+: t) : (lit s t).isSome = true := by
  induction s generalizing t with
  | nil => rfl
  | cons c s ih =>
    obtain ⟨u, rfl⟩ := h
    rw [List.cons_append, lit, if_pos rfl]
    exact ih ⟨u, rfl⟩

theorem prefix_head {s t : Text} (h : s <+: t) {c : Char} (hs : s.head? = some c) : t.head? = some c := by
  obtain ⟨u, rfl⟩ := h
  cases s with
  | nil => cases hs
  | cons d s => exact hs

theorem blanks_blanks (t : Text) : blanks (blanks t) = blanks t := by
  have h := blanks_head t
  generalize blanks t = u at *
  cases u with
  | nil => rfl
  | cons c u => unfold blanks; rw [List.dropWhile_cons, if_neg (by simpa using h)]

theorem commentRule_unmarked {t : Text} {r : Comment × Text} (h : commentRule t = some r) : Unmarked r.1 := by
  simp only [commentRule, Option.map_eq_some_iff] at h
  obtain ⟨u, _, rfl⟩ := h
  generalize hl : lit "ENDIANNESS(LITTLE)".toList (blanks u) = l
  generalize hv : unitOpt (blanks (l.getD (blanks u))) = v
  have hp : (Parse.commentText (blanks v.2)).1 <+: blanks v.2 := ⟨_, (commentText_inv _).symm⟩
  constructor
  · simp only [String.toList_ofList]
    intro e
    exact blanks_head _ (prefix_head hp e)
  · simp only [String.toList_ofList]
    intro h1 h2 h3
    have hn : l = none := by simpa using h1
    subst hn
    obtain ⟨w, e, hw⟩ := unitOpt_inv (blanks ((none : Option Text).getD (blanks u)))
    rw [hv] at e hw
    rw [if_pos h2] at hw
    subst hw
    rw [List.nil_append, Option.getD_none, blanks_blanks] at e
    have := prefix_lit (h3.trans hp)
    rw [← e, blanks_blanks] at this
    have h4 : lit littleMark (blanks u) = none := hl
    rw [h4] at this
    cases this

theorem commentRule_inv {t : Text} {r : Comment × Text} (h : commentRule t = some r) :
    ∃ s, AnyComment r.1 s ∧ t = s ++ r.2 := by
  have hg := commentRule_ok h
  have hu' := commentRule_unmarked h
  simp only [commentRule, Option.map_eq_some_iff] at h
  obtain ⟨u, hu, rfl⟩ := h
  obtain ⟨b₁, h1, e1⟩ := blanks_inv t
  have e2 := lit_inv hu
  obtain ⟨b₂, h2, e3⟩ := blanks_inv u
  generalize hl : lit "ENDIANNESS(LITTLE)".toList (blanks u) = l at hg hu' ⊢
  obtain ⟨b₃, h3, e4⟩ := blanks_inv (l.getD (blanks u))
  obtain ⟨un, e5, h5⟩ := unitOpt_inv (blanks (l.getD (blanks u)))
  generalize hv : unitOpt (blanks (l.getD (blanks u))) = v at hg hu' e5 h5 ⊢
  obtain ⟨b₄, h6, e6⟩ := blanks_inv v.2
  have e7 := commentText_inv (blanks v.2)
  generalize Parse.commentText (blanks v.2) = c at hg hu' e7 ⊢
  have e8 : blanks u = (if l.isSome then littleMark else []) ++ l.getD (blanks u) := by
    cases l with
    | none => rfl
    | some x => exact lit_inv hl
  refine ⟨_, .mk (unit := un) hg hu' h1 h2 h3 h6 rfl ?_, ?_⟩
  · rw [h5]
    simp only [String.toList_ofList]
  · show t = b₁ ++ "--".toList ++ b₂ ++ (if l.isSome then littleMark else []) ++ b₃ ++ un ++ b₄ ++
      (String.ofList c.1).toList ++ c.2
    have h9 : (String.ofList c.1).toList = c.1 := String.toList_ofList
    rw [h9]
    have eq : ∀ m : Text, blanks t = m ++ u → t = b₁ ++ m ++ b₂ ++ (if l.isSome then littleMark else []) ++
        b₃ ++ un ++ b₄ ++ c.1 ++ c.2 := by
      intro m hm
      simp only [List.append_assoc]
      rw [← e7, ← e6, ← e5, ← e4, ← e8, ← e3, ← hm]
      exact e1
    exact eq _ e2

theorem commentOpt_inv (t : Text) :
    ∃ s, OptComment looseStyle (commentOpt t).1 s ∧ t = s ++ (commentOpt t).2 := by
  unfold commentOpt
  cases h : commentRule t with
  | none => exact ⟨[], .none, rfl⟩
  | some r =>
    obtain ⟨s, h1, e⟩ := commentRule_inv h
    exact ⟨s, .some h1, e⟩

/-- A comment that is not kept. -/
theorem commentOpt_side (b : Bool) (t : Text) (h : CleanSides (sides b (commentOpt t).1)) :
    ∃ s, SideSyntax looseStyle s ∧ t = s ++ (commentOpt t).2 := by
  obtain ⟨s, h1, e⟩ := commentOpt_inv t
  refine ⟨s, ?_, e⟩
  generalize (commentOpt t).1 = c at h h1
  cases h1 with
  | none => exact .none
  | some hc => exact .some hc (h _ (List.Mem.head _))

/-! ### Types -/

theorem intRange_inv {t : Text} {r : (Int × Int) × Text} (h : intRange t = some r) :
    ∃ sb se, IntSyntax r.1.1 sb ∧ IntSyntax r.1.2 se ∧
      t = ['('] ++ (sb ++ ("..".toList ++ (se ++ ([')'] ++ r.2)))) := by
  simp only [intRange, Option.bind_eq_bind, Option.bind_eq_some_iff, Option.pure_def,
    Option.some.injEq] at h
  obtain ⟨t1, h1, b, h2, t2, h3, e, h4, t3, h5, rfl⟩ := h
  obtain ⟨sb, hb, e2⟩ := intLit_inv h2
  obtain ⟨se, he, e4⟩ := intLit_inv h4
  exact ⟨sb, se, hb, he, by rw [lit_inv h1, e2, lit_inv h3, e4, lit_inv h5]⟩

theorem floatRange_inv {t : Text} {r : (Num × Num) × Text} (h : floatRange t = some r) :
    ∃ sb se, looseStyle.real r.1.1 sb ∧ looseStyle.real r.1.2 se ∧
      t = ['('] ++ (sb ++ (" .. ".toList ++ (se ++ ([')'] ++ r.2)))) := by
  simp only [floatRange, Option.bind_eq_bind, Option.bind_eq_some_iff, Option.pure_def,
    Option.some.injEq] at h
  obtain ⟨t1, h1, b, h2, t2, h3, e, h4, t3, h5, rfl⟩ := h
  obtain ⟨sb, hb, e2⟩ := floatLit_inv h2
  obtain ⟨se, he, e4⟩ := floatLit_inv h4
  exact ⟨sb, se, hb, he, by rw [lit_inv h1, e2, lit_inv h3, e4, lit_inv h5]⟩

/-- A literal written in two parts. -/
theorem split_lit {a b : Text} (h : a = b) (t : Text) : b ++ t = a ++ t := by rw [h]

theorem typeRule_inv {n : Nat} {t : Text} {r : AType × Text} (h : typeRule n t = some r) :
    ∃ s, TypeSyntax looseStyle r.1 s ∧ t = s ++ r.2 := by
  induction n generalizing t r with
  | zero => cases h
  | succ n ih =>
    unfold typeRule at h
    rcases or_some h with h | h
    · simp only [Parse.realType, Option.map_eq_some_iff] at h
      obtain ⟨u, hu, h⟩ := h
      have e := lit_inv hu
      cases hr : floatRange u with
      | none => rw [hr] at h; cases h; exact ⟨_, .real, e⟩
      | some x =>
        rw [hr] at h; cases h
        obtain ⟨sb, se, hb, he, e'⟩ := floatRange_inv hr
        refine ⟨_, .realRange hb he, ?_⟩
        rw [e, e', show " REAL(".toList = " REAL".toList ++ ['('] by decide]
        generalize " REAL".toList = a
        generalize " .. ".toList = b
        simp only [List.append_assoc]
    rcases or_some h with h | h
    · simp only [integerType, Option.map_eq_some_iff] at h
      obtain ⟨u, hu, h⟩ := h
      have e := lit_inv hu
      cases hr : intRange u with
      | none => rw [hr] at h; cases h; exact ⟨_, .integer, e⟩
      | some x =>
        rw [hr] at h; cases h
        obtain ⟨sb, se, hb, he, e'⟩ := intRange_inv hr
        refine ⟨_, .integerRange hb he, ?_⟩
        rw [e, e', show " INTEGER(".toList = " INTEGER".toList ++ ['('] by decide]
        generalize " INTEGER".toList = a
        generalize "..".toList = b
        simp only [List.append_assoc]
    rcases or_some h with h | h
    · simp only [keywordType, Option.map_eq_some_iff] at h
      obtain ⟨u, hu, rfl⟩ := h
      exact ⟨_, .null, (lit_inv hu).trans (split_lit (by decide) u)⟩
    rcases or_some h with h | h
    · simp only [keywordType, Option.map_eq_some_iff] at h
      obtain ⟨u, hu, rfl⟩ := h
      exact ⟨_, .boolean, (lit_inv hu).trans (split_lit (by decide) u)⟩
    rcases or_some h with h | h
    · simp only [stringType, Option.bind_eq_bind, Option.bind_eq_some_iff, Option.pure_def,
        Option.some.injEq] at h
      obtain ⟨t1, h1, t2, h2, n, h3, t3, h4, rfl⟩ := h
      obtain ⟨s, hs, e⟩ := intLit_inv h3
      refine ⟨_, .ia5 hs, ?_⟩
      rw [lit_inv h1, lit_inv h2, e, lit_inv h4,
        show " IA5String (SIZE (".toList = (' ' :: "IA5String".toList) ++ " (SIZE (".toList by decide]
      generalize ' ' :: "IA5String".toList = a
      generalize " (SIZE (".toList = b
      generalize "))".toList = c
      simp only [List.append_assoc]
    rcases or_some h with h | h
    · simp only [stringType, Option.bind_eq_bind, Option.bind_eq_some_iff, Option.pure_def,
        Option.some.injEq] at h
      obtain ⟨t1, h1, t2, h2, n, h3, t3, h4, rfl⟩ := h
      obtain ⟨s, hs, e⟩ := intLit_inv h3
      refine ⟨_, .numeric hs, ?_⟩
      rw [lit_inv h1, lit_inv h2, e, lit_inv h4, show " NumericString (SIZE (".toList =
        (' ' :: "NumericString".toList) ++ " (SIZE (".toList by decide]
      generalize ' ' :: "NumericString".toList = a
      generalize " (SIZE (".toList = b
      generalize "))".toList = c
      simp only [List.append_assoc]
    rcases or_some h with h | h
    · simp only [arrayType, Option.bind_eq_bind, Option.bind_eq_some_iff, Option.pure_def,
        Option.some.injEq] at h
      obtain ⟨t1, h1, n, h2, t2, h3, y, h4, rfl⟩ := h
      obtain ⟨s, hs, e⟩ := intLit_inv h2
      obtain ⟨s', hy, e'⟩ := ih h4
      refine ⟨_, .arr hs hy, ?_⟩
      rw [lit_inv h1, e, lit_inv h3, e']
      generalize " SEQUENCE (SIZE (".toList = b
      generalize ")) OF".toList = c
      simp only [List.append_assoc]
    · simp only [namedType, Option.bind_eq_bind, Option.bind_eq_some_iff, Option.pure_def,
        Option.some.injEq] at h
      obtain ⟨t1, h1, n, h2, rfl⟩ := h
      obtain ⟨hn, e⟩ := nameCapital_inv h2
      refine ⟨_, .named hn, ?_⟩
      rw [lit_inv h1, e]; rfl

/-! ### Repetitions -/

theorem cleanSides_left {a b : List SideComment} (h : CleanSides (a ++ b)) : CleanSides a :=
  fun x hx => h x (List.mem_append_left _ hx)

theorem cleanSides_right {a b : List SideComment} (h : CleanSides (a ++ b)) : CleanSides b :=
  fun x hx => h x (List.mem_append_right _ hx)

theorem many_inv {α : Type} {side : α → List SideComment} {p : Text → Option (α × Text)}
    {R : List α → Chars → Prop}
    (hp : ∀ t r, p t = some r → CleanSides (side r.1) →
      ∃ s, t = s ++ r.2 ∧ ∀ l u, R l u → R (r.1 :: l) (s ++ u))
    (n : Nat) (t : Text) (hcl : CleanSides ((many p n t).1.flatMap side)) :
    ∃ s, t = s ++ (many p n t).2 ∧ ∀ l u, R l u → R ((many p n t).1 ++ l) (s ++ u) := by
  induction n generalizing t with
  | zero => exact ⟨[], rfl, fun _ _ h => h⟩
  | succ n ih =>
    unfold many at hcl ⊢
    cases h : p t with
    | none => exact ⟨[], rfl, fun _ _ h => h⟩
    | some r =>
      rw [h] at hcl
      obtain ⟨s, e, h1⟩ := hp t r h (cleanSides_left hcl)
      obtain ⟨s', e', h2⟩ := ih r.2 (cleanSides_right hcl)
      refine ⟨s ++ s', by rw [List.append_assoc]; rw [← e']; exact e, fun l u hl => ?_⟩
      rw [List.append_assoc]
      exact h1 _ _ (h2 l u hl)

theorem items_clean_inv {α : Type} {side : α → List SideComment} {p q : Text → Option (α × Text)}
    {R : List α → Chars → Prop}
    (hp : ∀ t r, p t = some r → CleanSides (side r.1) →
      ∃ s, t = s ++ r.2 ∧ ∀ l u, R l u → R (r.1 :: l) (s ++ u))
    (hq : ∀ t r, q t = some r → CleanSides (side r.1) → ∃ s, t = s ++ r.2 ∧ R [r.1] s)
    {t : Text} {r : List α × Text} (h : items p q t = some r) (hcl : CleanSides (r.1.flatMap side)) :
    ∃ s, t = s ++ r.2 ∧ R r.1 s := by
  simp only [items, Option.bind_eq_bind, Option.bind_eq_some_iff, Option.pure_def,
    Option.some.injEq] at h
  obtain ⟨x, hx, rfl⟩ := h
  rw [List.flatMap_append] at hcl
  obtain ⟨s, e, h1⟩ := many_inv hp t.length t (cleanSides_left hcl)
  obtain ⟨s', e', h2⟩ := hq _ _ hx (by simpa using cleanSides_right hcl)
  exact ⟨s ++ s', by rw [List.append_assoc]; rw [← e']; exact e, h1 _ _ h2⟩

/-! ### WITH COMPONENTS -/

theorem inParens_inv {α : Type} {p : Text → Option (α × Text)} {t : Text} {r : α × Text}
    (h : inParens p t = some r) : ∃ w₁ w₂ w₃ u v, Space w₁ ∧ Space w₂ ∧ Space w₃ ∧
      p u = some (r.1, v) ∧ t = w₁ ++ ('(' :: (w₂ ++ u)) ∧ v = w₃ ++ (')' :: r.2) := by
  simp only [inParens, Option.bind_eq_bind, Option.bind_eq_some_iff, Option.pure_def,
    Option.some.injEq] at h
  obtain ⟨t1, h1, v, h2, t2, h3, rfl⟩ := h
  obtain ⟨w₁, hw₁, e1⟩ := tok_inv h1
  obtain ⟨w₂, hw₂, e2⟩ := skipWs_inv t1
  obtain ⟨w₃, hw₃, e3⟩ := tok_inv h3
  refine ⟨w₁, w₂, w₃, skipWs t1, v.2, hw₁, hw₂, hw₃, h2, ?_, e3⟩
  rw [← e2]; exact e1

/-- A value with its clause. -/
def ValueSyntax : CompValue → Chars → Prop
  | .inl v, s => LeafSyntax looseStyle v s
  | .inr c, s => ClauseSyntax looseStyle true c s

/-- What is to show about clauses. -/
def ClauseInv (clause : Text → Option ((Comps × List SideComment) × Text)) : Prop :=
  ∀ t r, clause t = some r → CleanSides r.1.2 →
    ∃ s, t = s ++ r.2 ∧ ClauseSyntax looseStyle true r.1.1 s

theorem compValue_inv {clause : Text → Option ((Comps × List SideComment) × Text)}
    (hc : ClauseInv clause) {t : Text} {r : (CompValue × List SideComment) × Text}
    (h : compValue clause t = some r) (hs : CleanSides r.1.2) :
    ∃ s, t = s ++ r.2 ∧ ValueSyntax r.1.1 s := by
  rcases or_some h with h' | h' <;> clear h
  · rw [Option.map_eq_some_iff] at h'
    obtain ⟨x, h, rfl⟩ := h'
    rcases or_some h with h | h
    · obtain ⟨w₁, w₂, w₃, u, v, h1, h2, h3, hp, e1, e2⟩ := inParens_inv h
      rw [Option.map_eq_some_iff] at hp
      obtain ⟨i, hi, he⟩ := hp
      obtain ⟨s, hi, e3⟩ := intLit_inv hi
      obtain ⟨x, y⟩ := x
      simp only [Prod.mk.injEq] at he
      obtain ⟨rfl, rfl⟩ := he
      refine ⟨_, ?_, LeafSyntax.int h1 h2 h3 hi⟩
      rw [e1, e3, e2]; simp
    rcases or_some h with h | h
    · obtain ⟨w₁, w₂, w₃, u, v, h1, h2, h3, hp, e1, e2⟩ := inParens_inv h
      rw [Option.map_eq_some_iff] at hp
      obtain ⟨i, hi, he⟩ := hp
      obtain ⟨s, hi, e3⟩ := floatLit_inv hi
      obtain ⟨x, y⟩ := x
      simp only [Prod.mk.injEq] at he
      obtain ⟨rfl, rfl⟩ := he
      refine ⟨_, ?_, LeafSyntax.real h1 h2 h3 hi⟩
      rw [e1, e3, e2]; simp
    rcases or_some h with h | h
    · obtain ⟨w₁, w₂, w₃, u, v, h1, h2, h3, hp, e1, e2⟩ := inParens_inv h
      simp only [boolLit] at hp
      rw [Option.map_eq_some_iff] at hp
      obtain ⟨i, hi, he⟩ := hp
      obtain ⟨x, y⟩ := x
      simp only [Prod.mk.injEq] at he
      obtain ⟨rfl, rfl⟩ := he
      refine ⟨_, ?_, LeafSyntax.true h1 h2 h3⟩
      rw [e1, lit_inv hi, e2]
      generalize "TRUE".toList = a
      simp
    · obtain ⟨w₁, w₂, w₃, u, v, h1, h2, h3, hp, e1, e2⟩ := inParens_inv h
      simp only [boolLit] at hp
      rw [Option.map_eq_some_iff] at hp
      obtain ⟨i, hi, he⟩ := hp
      obtain ⟨x, y⟩ := x
      simp only [Prod.mk.injEq] at he
      obtain ⟨rfl, rfl⟩ := he
      refine ⟨_, ?_, LeafSyntax.false h1 h2 h3⟩
      rw [e1, lit_inv hi, e2]
      generalize "FALSE".toList = a
      simp
  · rw [Option.map_eq_some_iff] at h'
    obtain ⟨x, h, rfl⟩ := h'
    exact hc _ _ h hs

theorem compItemNotLast_inv {clause : Text → Option ((Comps × List SideComment) × Text)}
    (hc : ClauseInv clause) (t : Text) (r : CompItem × Text)
    (h : compItemNotLast clause t = some r) (hcl : CleanSides r.1.side) :
    ∃ s, t = s ++ r.2 ∧ ∀ l u, ClauseSyntax looseStyle false (toComps l) u →
      ClauseSyntax looseStyle false (toComps (r.1 :: l)) (s ++ u) := by
  simp only [compItemNotLast, Option.bind_eq_bind, Option.bind_eq_some_iff, Option.pure_def,
    Option.some.injEq] at h
  obtain ⟨k, hk, v, hv, u, hu, rfl⟩ := h
  obtain ⟨w, hw, hn, e1⟩ := nameLower_skip hk
  obtain ⟨s, e2, hs⟩ := compValue_inv hc hv (cleanSides_left hcl)
  obtain ⟨w', hw', e3⟩ := tok_inv hu
  obtain ⟨c, hcs, e4⟩ := commentOpt_side true u (cleanSides_right hcl)
  obtain ⟨⟨v, sd⟩, v2⟩ := v
  refine ⟨w ++ k.1.toList ++ s ++ w' ++ [','] ++ c, ?_, fun l u h => ?_⟩
  · rw [e1, e2, e3]
    simp only [List.append_assoc]
    rw [← e4]
  · cases v with
    | inl v => exact .leaf hw hn hs hw' hcs h
    | inr v => exact .node hw hn hs hw' hcs h

theorem compItemLast_inv {clause : Text → Option ((Comps × List SideComment) × Text)}
    (hc : ClauseInv clause) (t : Text) (r : CompItem × Text)
    (h : compItemLast clause t = some r) (hcl : CleanSides r.1.side) :
    ∃ s, t = s ++ r.2 ∧ ClauseSyntax looseStyle false (toComps [r.1]) s := by
  simp only [compItemLast, Option.bind_eq_bind, Option.bind_eq_some_iff, Option.pure_def,
    Option.some.injEq] at h
  obtain ⟨k, hk, v, hv, rfl⟩ := h
  obtain ⟨w, hw, hn, e1⟩ := nameLower_skip hk
  obtain ⟨s, e2, hs⟩ := compValue_inv hc hv (cleanSides_left hcl)
  obtain ⟨c, hcs, e4⟩ := commentOpt_side true v.2 (cleanSides_right hcl)
  obtain ⟨⟨v, sd⟩, v2⟩ := v
  refine ⟨w ++ k.1.toList ++ s ++ c, ?_, ?_⟩
  · rw [e1, e2]
    simp only [List.append_assoc]
    rw [← e4]
  · cases v with
    | inl v => exact .lastLeaf hw hn hs hcs
    | inr v => exact .lastNode hw hn hs hcs

theorem withComponents_inv (n : Nat) : ClauseInv (withComponents n) := by
  induction n with
  | zero => intro t r h; cases h
  | succ n ih =>
    intro t r h hcl
    simp only [withComponents, Option.bind_eq_bind, Option.bind_eq_some_iff, Option.pure_def,
      Option.some.injEq] at h
    obtain ⟨u, hu, l, hl, v, hv, rfl⟩ := h
    obtain ⟨w, hw, e1⟩ := tok_inv hu
    obtain ⟨c, hcs, e2⟩ := commentOpt_side false u (cleanSides_left hcl)
    obtain ⟨s, e3, hs⟩ := items_clean_inv (side := CompItem.side)
      (R := fun l s => ClauseSyntax looseStyle false (toComps l) s)
      (compItemNotLast_inv ih) (compItemLast_inv ih) hl (cleanSides_right hcl)
    obtain ⟨w', hw', e4⟩ := tok_inv hv
    refine ⟨_, ?_, .clause hw hcs hs hw'⟩
    rw [e1, e2, e3, e4]
    generalize "(WITH COMPONENTS {".toList = a
    generalize "})".toList = b
    simp only [List.append_assoc]

/-! ### Members -/

/-- Members as written. -/
abbrev MembersRel (l : List (WithSide Member)) (s : Chars) : Prop :=
  MembersSyntax looseStyle (l.map (·.1)) s

theorem memberNotLast_inv (t : Text) (r : WithSide Member × Text) (h : memberNotLast t = some r)
    (hcl : CleanSides r.1.2) :
    ∃ s, t = s ++ r.2 ∧ ∀ l u, MembersRel l u → MembersRel (r.1 :: l) (s ++ u) := by
  rcases or_some h with h' | h' <;> clear h
  · simp only [memberComma, Option.bind_eq_bind, Option.bind_eq_some_iff, Option.pure_def,
      Option.some.injEq] at h'
    obtain ⟨k, hk, y, hy, u, hu, rfl⟩ := h'
    obtain ⟨w, hw, hn, e1⟩ := nameLower_skip hk
    obtain ⟨s, hs, e2⟩ := typeRule_inv hy
    obtain ⟨w', hw', e3⟩ := tok_inv hu
    obtain ⟨c, hc, e4⟩ := commentOpt_inv u
    refine ⟨w ++ k.1.toList ++ s ++ w' ++ [','] ++ c, ?_, fun l u h => .comma hw hn hs hw' hc h⟩
    rw [e1, e2, e3]
    simp only [List.append_assoc]
    rw [← e4]
  · simp only [memberClauseComma, Option.bind_eq_bind, Option.bind_eq_some_iff, Option.pure_def,
      Option.some.injEq] at h'
    obtain ⟨k, hk, y, hy, v, hv, u, hu, rfl⟩ := h'
    obtain ⟨w, hw, hn, e1⟩ := nameLower_skip hk
    obtain ⟨s, hs, e2⟩ := typeRule_inv hy
    obtain ⟨c, hc, e3⟩ := commentOpt_inv y.2
    obtain ⟨q, e4, hq⟩ := withComponents_inv _ _ _ hv hcl
    obtain ⟨w', hw', e5⟩ := tok_inv hu
    refine ⟨w ++ k.1.toList ++ s ++ c ++ q ++ w' ++ [','], ?_,
      fun l u h => .clauseComma hw hn hs hc hq hw' h⟩
    rw [e1, e2, e3, e4, e5]
    simp only [List.append_assoc]

theorem memberLast_inv (t : Text) (r : WithSide Member × Text) (h : memberLast t = some r)
    (hcl : CleanSides r.1.2) : ∃ s, t = s ++ r.2 ∧ MembersRel [r.1] s := by
  simp only [memberLast, Option.bind_eq_bind, Option.bind_eq_some_iff] at h
  obtain ⟨k, hk, y, hy, h⟩ := h
  obtain ⟨w, hw, hn, e1⟩ := nameLower_skip hk
  obtain ⟨s, hs, e2⟩ := typeRule_inv hy
  obtain ⟨c, hc, e3⟩ := commentOpt_inv y.2
  cases hv : clauseOf (commentOpt y.2).2 with
  | none =>
    rw [hv] at h; cases h
    refine ⟨_, ?_, .last hw hn hs hc⟩
    rw [e1, e2]
    simp only [List.append_assoc]
    rw [← e3]
  | some v =>
    rw [hv] at h; cases h
    obtain ⟨q, e4, hq⟩ := withComponents_inv _ _ _ hv hcl
    refine ⟨_, ?_, .lastClause hw hn hs hc hq⟩
    rw [e1, e2, e3, e4]
    simp only [List.append_assoc]

theorem memberBlock_inv {o t : Text} {r : (String × Option Comment × List (WithSide Member)) × Text}
    (h : memberBlock o t = some r) (hcl : CleanSides (memberSides r.1.2.2)) :
    ∃ w w' sc s w'', Space w ∧ isNameCapital r.1.1 = true ∧ Space w' ∧
      OptComment looseStyle r.1.2.1 sc ∧ MembersRel r.1.2.2 s ∧ Space w'' ∧
      t = w ++ r.1.1.toList ++ w' ++ o ++ sc ++ s ++ w'' ++ ['}'] ++ r.2 := by
  simp only [memberBlock, Option.bind_eq_bind, Option.bind_eq_some_iff, Option.pure_def,
    Option.some.injEq] at h
  obtain ⟨n, hn, u, hu, l, hl, v, hv, rfl⟩ := h
  obtain ⟨w, hw, hn, e1⟩ := nameCapital_skip hn
  obtain ⟨w', hw', e2⟩ := tok_inv hu
  obtain ⟨c, hc, e3⟩ := commentOpt_inv u
  obtain ⟨s, e4, hs⟩ := items_clean_inv (side := fun m : WithSide Member => m.2) (R := MembersRel)
    memberNotLast_inv memberLast_inv hl hcl
  obtain ⟨w'', hw'', e5⟩ := tok_inv hv
  refine ⟨w, w', c, s, w'', hw, hn, hw', hc, hs, hw'', ?_⟩
  rw [e1, e2, e3, e4, e5]
  simp only [List.append_assoc]

/-! ### Definitions -/

theorem posOpt_inv (t : Text) : ∃ s, PosSyntax (posOpt t).1 s ∧ t = s ++ (posOpt t).2 := by
  unfold posOpt
  cases h : inParens intLit t with
  | none => exact ⟨[], .none, rfl⟩
  | some r =>
    obtain ⟨w₁, w₂, w₃, u, v, h1, h2, h3, hp, e1, e2⟩ := inParens_inv h
    obtain ⟨s, hs, e3⟩ := intLit_inv hp
    refine ⟨_, .some h1 h2 h3 hs, ?_⟩
    rw [e1, e3]
    show _ = _ ++ r.2
    simp only [e2]
    simp

theorem enumItemNotLast_inv (t : Text) (r : EnumItem × Text) (h : enumItemNotLast t = some r) :
    ∃ s, t = s ++ r.2 ∧ ∀ l u, EnumSyntax looseStyle l u → EnumSyntax looseStyle (r.1 :: l) (s ++ u) := by
  simp only [enumItemNotLast, Option.bind_eq_bind, Option.bind_eq_some_iff, Option.pure_def,
    Option.some.injEq] at h
  obtain ⟨k, hk, u, hu, rfl⟩ := h
  obtain ⟨w, hw, hn, e1⟩ := nameLower_skip hk
  obtain ⟨s, hs, e2⟩ := posOpt_inv k.2
  obtain ⟨w', hw', e3⟩ := tok_inv hu
  obtain ⟨c, hc, e4⟩ := commentOpt_inv u
  refine ⟨w ++ k.1.toList ++ s ++ w' ++ [','] ++ c, ?_, fun l u h => .comma hw hn hs hw' hc h⟩
  rw [e1, e2, e3]
  simp only [List.append_assoc]
  rw [← e4]

theorem enumItemLast_inv (t : Text) (r : EnumItem × Text) (h : enumItemLast t = some r) :
    ∃ s, t = s ++ r.2 ∧ EnumSyntax looseStyle [r.1] s := by
  simp only [enumItemLast, Option.bind_eq_bind, Option.bind_eq_some_iff, Option.pure_def,
    Option.some.injEq] at h
  obtain ⟨k, hk, rfl⟩ := h
  obtain ⟨w, hw, hn, e1⟩ := nameLower_skip hk
  obtain ⟨s, hs, e2⟩ := posOpt_inv k.2
  obtain ⟨c, hc, e3⟩ := commentOpt_inv (posOpt k.2).2
  refine ⟨_, ?_, .last hw hn hs hc⟩
  rw [e1]
  simp only [List.append_assoc]
  rw [← e3, ← e2]

theorem cleanSides_nil : CleanSides [] := fun _ h => by cases h

theorem cleanSides_const {α : Type} (l : List α) :
    CleanSides (l.flatMap fun _ => ([] : List SideComment)) := by
  intro x hx
  obtain ⟨_, _, h⟩ := List.mem_flatMap.mp hx
  cases h

theorem definition_inv (t : Text) (r : WithSide Def × Text) (h : definition t = some r)
    (hcl : CleanSides r.1.2) : ∃ s, t = s ++ r.2 ∧ DefSyntax looseStyle r.1.1 s := by
  rcases or_some h with h' | h' <;> clear h
  · rw [choiceDef, Option.map_eq_some_iff] at h'
    obtain ⟨x, hx, rfl⟩ := h'
    obtain ⟨w, w', sc, s, w'', h1, h2, h3, h4, h5, h6, e⟩ := memberBlock_inv hx hcl
    exact ⟨_, e, .choice h1 h2 h3 h4 h5 h6⟩
  rcases or_some h' with h | h <;> clear h'
  · simp only [enumeratedDef, Option.bind_eq_bind, Option.bind_eq_some_iff, Option.pure_def,
      Option.some.injEq] at h
    obtain ⟨n, hn, u, hu, l, hl, v, hv, rfl⟩ := h
    obtain ⟨w, hw, hn, e1⟩ := nameCapital_skip hn
    obtain ⟨w', hw', e2⟩ := tok_inv hu
    obtain ⟨c, hc, e3⟩ := commentOpt_inv u
    obtain ⟨s, e4, hs⟩ := items_clean_inv (side := fun _ : EnumItem => []) (R := EnumSyntax looseStyle)
      (fun t r h _ => enumItemNotLast_inv t r h) (fun t r h _ => enumItemLast_inv t r h) hl
      (cleanSides_const _)
    obtain ⟨w'', hw'', e5⟩ := tok_inv hv
    refine ⟨_, ?_, .enum hw hn hw' hc hs hw''⟩
    rw [e1, e2, e3, e4, e5]
    generalize "::= ENUMERATED {".toList = a
    simp only [List.append_assoc]
  rcases or_some h with h' | h' <;> clear h
  · rw [sequenceDef, Option.map_eq_some_iff] at h'
    obtain ⟨x, hx, rfl⟩ := h'
    obtain ⟨w, w', sc, s, w'', h1, h2, h3, h4, h5, h6, e⟩ := memberBlock_inv hx hcl
    exact ⟨_, e, .seq h1 h2 h3 h4 h5 h6⟩
  · simp only [simpleDef, Option.bind_eq_bind, Option.bind_eq_some_iff, Option.pure_def,
      Option.some.injEq] at h'
    obtain ⟨n, hn, u, hu, y, hy, rfl⟩ := h'
    obtain ⟨w, hw, hn, e1⟩ := nameCapital_skip hn
    obtain ⟨w', hw', e2⟩ := tok_inv hu
    obtain ⟨s, hs, e3⟩ := typeRule_inv hy
    obtain ⟨c, hc, e4⟩ := commentOpt_inv y.2
    refine ⟨_, ?_, .simple (w'' := []) hw hn hw' hs hc space_nil (fun h => h.elim)⟩
    rw [e1, e2, e3]
    generalize "::=".toList = a
    simp only [List.append_assoc, List.nil_append]
    rw [← e4]

/-! ### Modules -/

theorem manyDefs_inv (n : Nat) (t : Text) (hcl : CleanSides ((many definition n t).1.flatMap (·.2))) :
    ∃ s, t = s ++ (many definition n t).2 ∧ ∀ d u, DefSyntax looseStyle d u →
      DefsSyntax looseStyle (d :: (many definition n t).1.map (·.1)) (u ++ s) := by
  induction n generalizing t with
  | zero => exact ⟨[], rfl, fun d u h => by rw [List.append_nil]; exact .one h⟩
  | succ n ih =>
    unfold many at hcl ⊢
    cases h : definition t with
    | none => exact ⟨[], rfl, fun d u h => by rw [List.append_nil]; exact .one h⟩
    | some r =>
      rw [h] at hcl
      obtain ⟨s, e, h1⟩ := definition_inv t r h (cleanSides_left hcl)
      obtain ⟨s', e', h2⟩ := ih r.2 (cleanSides_right hcl)
      refine ⟨s ++ s', by rw [List.append_assoc]; rw [← e']; exact e, fun d u hd => ?_⟩
      exact .cons hd (h2 _ _ h1)

theorem defs_inv {t : Text} {r : List (WithSide Def) × Text} (h : plus definition t = some r)
    (hcl : CleanSides (r.1.flatMap (·.2))) :
    ∃ s, t = s ++ r.2 ∧ DefsSyntax looseStyle (r.1.map (·.1)) s := by
  simp only [plus, Option.bind_eq_bind, Option.bind_eq_some_iff, Option.pure_def,
    Option.some.injEq] at h
  obtain ⟨x, hx, rfl⟩ := h
  obtain ⟨s, e, h1⟩ := definition_inv t x hx (cleanSides_left hcl)
  obtain ⟨s', e', h2⟩ := manyDefs_inv x.2.length x.2 (cleanSides_right hcl)
  exact ⟨s ++ s', by rw [List.append_assoc]; rw [← show x.2 = s' ++ (star definition x.2).2 from e']; exact e,
    h2 _ _ h1⟩

theorem names_inv (n : Nat) (t : Text) :
    ∃ s, t = s ++ (many commaCapital n t).2 ∧ NamesSyntax (many commaCapital n t).1 s := by
  induction n generalizing t with
  | zero => exact ⟨[], rfl, .nil⟩
  | succ n ih =>
    unfold many
    cases h : commaCapital t with
    | none => exact ⟨[], rfl, .nil⟩
    | some r =>
      simp only [commaCapital, Option.bind_eq_bind, Option.bind_eq_some_iff] at h
      obtain ⟨u, hu, hn⟩ := h
      obtain ⟨w, hw, e1⟩ := tok_inv hu
      obtain ⟨w', hw', hn, e2⟩ := nameCapital_skip hn
      obtain ⟨s', e', h2⟩ := ih r.2
      refine ⟨_, ?_, .cons hw hw' hn h2⟩
      rw [e1, e2]
      simp only [List.append_assoc, List.cons_append, List.nil_append]
      rw [← e']

/-- Import items as written. -/
abbrev ImportsRel (l : List (WithSide ImportItem)) (s : Chars) : Prop :=
  ImportsSyntax looseStyle (l.map (·.1)) s

theorem importItem_inv (t : Text) (r : WithSide ImportItem × Text) (h : importItem t = some r)
    (hcl : CleanSides r.1.2) :
    ∃ s, t = s ++ r.2 ∧ ∀ l u, ImportsRel l u → ImportsRel (r.1 :: l) (s ++ u) := by
  simp only [importItem, Option.bind_eq_bind, Option.bind_eq_some_iff, Option.pure_def,
    Option.some.injEq] at h
  obtain ⟨n, hn, u, hu, m, hm, rfl⟩ := h
  obtain ⟨w, hw, hn, e1⟩ := nameCapital_skip hn
  obtain ⟨s, e2, hs⟩ := names_inv n.2.length n.2
  obtain ⟨w', hw', e3⟩ := tok_inv hu
  obtain ⟨w'', hw'', hm, e4⟩ := nameLower_skip hm
  obtain ⟨c, hc, e5⟩ := commentOpt_side false m.2 hcl
  refine ⟨w ++ n.1.toList ++ s ++ w' ++ "FROM Module-".toList ++ w'' ++ m.1.toList ++ c, ?_,
    fun l u h => .cons hw hn hs hw' hw'' hm hc h⟩
  have e3' : (many commaCapital n.2.length n.2).2 = w' ++ ("FROM Module-".toList ++ u) := e3
  rw [e1, e2, e3', e4]
  generalize "FROM Module-".toList = a
  simp only [List.append_assoc]
  rw [← e5]

theorem importClause_inv {t : Text} {r : (List (WithSide ImportItem) × Option Comment) × Text}
    (h : importClause t = some r) (hcl : CleanSides (r.1.1.flatMap (·.2))) :
    ∃ s, t = s ++ r.2 ∧ ImportClauseSyntax looseStyle (r.1.1.map (·.1)) r.1.2 s := by
  simp only [importClause, Option.bind_eq_bind, Option.bind_eq_some_iff, Option.pure_def,
    Option.some.injEq] at h
  obtain ⟨u, hu, l, hl, v, hv, rfl⟩ := h
  simp only [plus, Option.bind_eq_bind, Option.bind_eq_some_iff, Option.pure_def,
    Option.some.injEq] at hl
  obtain ⟨x, hx, rfl⟩ := hl
  obtain ⟨w, hw, e1⟩ := tok_inv hu
  obtain ⟨s, e2, h2⟩ := importItem_inv u x hx (cleanSides_left hcl)
  obtain ⟨s', e3, h3⟩ := many_inv (side := fun m : WithSide ImportItem => m.2) (R := ImportsRel)
    importItem_inv x.2.length x.2 (cleanSides_right hcl)
  obtain ⟨w', hw', e4⟩ := tok_inv hv
  obtain ⟨c, hc, e5⟩ := commentOpt_inv v
  have h4 := h2 _ _ (h3 [] [] .nil)
  rw [List.append_nil, List.append_nil] at h4
  refine ⟨_, ?_, ImportClauseSyntax.some hw h4 hw' hc⟩
  have e4' : (many importItem x.2.length x.2).2 = w' ++ ([';'] ++ v) := e4
  rw [e1, e2, e3, e4']
  generalize "IMPORTS".toList = a
  simp only [List.append_assoc]
  rw [← e5]

theorem skipWs_nil {t : Text} (h : skipWs t = []) : Space t := by
  obtain ⟨w, hw, e⟩ := skipWs_inv t
  rw [h, List.append_nil] at e
  rw [e]; exact hw

/-- What the parser accepts is written in the text. -/
theorem parseModule_inv {t : Text} {r : WithSide Module} (h : parseModule t = some r)
    (hcl : CleanSides r.2) : ModuleSyntax looseStyle r.1 t := by
  simp only [parseModule, Option.bind_eq_bind, Option.bind_eq_some_iff, Option.pure_def] at h
  obtain ⟨t1, h1, n, h2, t2, h3, l, h4, t3, h5, h6⟩ := h
  split at h6
  · rename_i hend
    cases h6
    obtain ⟨w, hw, e1⟩ := tok_inv h1
    obtain ⟨w₀, hw₀, hn, e2⟩ := nameLower_skip h2
    obtain ⟨w₁, hw₁, e3⟩ := tok_inv h3
    obtain ⟨c, hc, e4⟩ := commentOpt_inv t2
    have hi : ∃ s, (commentOpt t2).2 =
          s ++ ((importClause (commentOpt t2).2).getD (([], none), (commentOpt t2).2)).2 ∧
        ImportClauseSyntax looseStyle
          (((importClause (commentOpt t2).2).getD (([], none), (commentOpt t2).2)).1.1.map (·.1))
          ((importClause (commentOpt t2).2).getD (([], none), (commentOpt t2).2)).1.2 s := by
      have hcl' := cleanSides_left hcl
      cases hi : importClause (commentOpt t2).2 with
      | none => exact ⟨[], rfl, .none⟩
      | some r => rw [hi] at hcl'; exact importClause_inv hi hcl'
    obtain ⟨s, e5, hs⟩ := hi
    obtain ⟨sd, e6, hd⟩ := defs_inv h4 (cleanSides_right hcl)
    obtain ⟨w₂, hw₂, e7⟩ := tok_inv h5
    have m := ModuleSyntax.mk hw hw₀ hn hw₁ hc hs hd hw₂ (skipWs_nil hend)
    have e : t = w ++ "Module-".toList ++ w₀ ++ n.1.toList ++ w₁ ++
        "DEFINITIONS AUTOMATIC TAGS ::= BEGIN".toList ++ c ++ s ++ sd ++ w₂ ++ "END".toList ++ t3 := by
      rw [e1, e2, e3]
      generalize "Module-".toList = a
      generalize "DEFINITIONS AUTOMATIC TAGS ::= BEGIN".toList = b
      generalize "END".toList = x at e7 ⊢
      simp only [List.append_assoc]
      rw [← e7, ← e6, ← e5, ← e4]
    rw [e]; exact m
  · cases h6

end Apg
