import Verif.Spec.Written
import Verif.Lemmas.Unique
import Verif.Lemmas.Text
import Verif.Lemmas.Program

/-!
# Modules and their texts
-/

namespace Apg
open Parse Spec

/-! ### Doubles are decimals -/

theorem mag_top {b : Nat} (h : b < binary64.infBits) : mag binary64 b < ((2 ^ 1024 - 2 ^ 970 : Nat) : Rat) := by
  have h1 : mag binary64 (binary64.infBits - 1) < ((2 ^ 1024 - 2 ^ 970 : Nat) : Rat) := by decide +kernel
  by_cases hb : b = binary64.infBits - 1
  · rw [hb]; exact h1
  · have := (mag_lt binary64 (a := b) (b := binary64.infBits - 1)).1 (by omega)
    generalize ((2 ^ 1024 - 2 ^ 970 : Nat) : Rat) = K at *
    grind

theorem decimal_mag (s : Bool) (b : Nat) :
    decimal s (binary64.units b * 5 ^ 1074) (-1074) = if s then -mag binary64 b else mag binary64 b := by
  have h : ((binary64.units b * 5 ^ 1074 : Nat) : Rat) / ((10 ^ 1074 : Nat) : Rat) = mag binary64 b := by
    unfold mag
    have e10 : ((10 ^ 1074 : Nat) : Rat) = ((2 ^ 1074 : Nat) : Rat) * ((5 ^ 1074 : Nat) : Rat) := by
      rw [← Rat.natCast_mul]; decide +kernel
    have h5 : ((5 ^ 1074 : Nat) : Rat) ≠ 0 := by decide +kernel
    have h2 : ((2 ^ 1074 : Nat) : Rat) ≠ 0 := by decide +kernel
    have hm : binary64.minExp = 1074 := rfl
    rw [hm, e10, Rat.natCast_mul]
    generalize ((5 ^ 1074 : Nat) : Rat) = u at *
    generalize ((2 ^ 1074 : Nat) : Rat) = v at *
    generalize ((binary64.units b : Nat) : Rat) = w at *
    grind
  unfold decimal
  have e1 : ((-1074 : Int)).toNat = 0 := rfl
  have e2 : (-(-1074 : Int)).toNat = 1074 := rfl
  simp only [e1, e2, Nat.pow_zero, Nat.mul_one, h]

theorem mag_decimal (s : Bool) (b : Nat) :
    ∃ m e, decimal s m e = if s then -mag binary64 b else mag binary64 b := ⟨_, _, decimal_mag s b⟩

theorem double_decimal {x : Num} (h : IsDouble x) : ∃ neg n e, decimalFloat neg n e = x := by
  cases x with
  | int i => cases h
  | inf s => exact ⟨s, 1, 400, by cases s <;> decide +kernel⟩
  | flt q =>
    obtain ⟨n, hn⟩ := h
    obtain ⟨s, b, hb, _, rfl⟩ := ieee_inv binary64_ok hn
    obtain ⟨m, e, he⟩ := mag_decimal s b
    refine ⟨s, m, e, ?_⟩
    have hr := decimalFloat_rounds s m e
    rw [he] at hr
    have hl := mag_top hb
    have h0 := mag_nonneg binary64 b
    generalize decimalFloat s m e = y at hr ⊢
    cases y with
    | int _ => cases hr
    | inf t =>
      have := hr.2
      generalize ((2 ^ 1024 - 2 ^ 970 : Nat) : Rat) = K at *
      unfold dist at this
      cases s <;> simp at this <;> grind
    | flt q' =>
      obtain ⟨hlt, k, hk, hq⟩ := hr
      obtain ⟨_, y, hy, hyz⟩ := hk
      rw [hq] at hy
      cases hy
      have := (hyz n _ hn).1
      congr 1
      clear hl hlt
      unfold dist at this
      grind

/-! ### Texts without carriage returns -/

/-- The text has no carriage return. -/
def NoReturn (s : Chars) : Prop := '\r' ∉ s

theorem noReturn_append {s t : Chars} : NoReturn (s ++ t) ↔ NoReturn s ∧ NoReturn t := by simp [NoReturn]
theorem noReturn_cons {c : Char} {t : Chars} : NoReturn (c :: t) ↔ c ≠ '\r' ∧ NoReturn t := by
  simp [NoReturn, eq_comm]
theorem noReturn_nil : NoReturn [] := by simp [NoReturn]

theorem noReturn_digits (n : Nat) : NoReturn (digits 10 n) := by
  intro h
  have := readNat_chars (readNat_digits (b := 10) (by omega) (by omega) n) _ h
  revert this; decide

theorem noReturn_tail {t : Chars} (h : nameTail t = true) : NoReturn t := by
  intro hc
  have key : ∀ c ∈ t, c = '-' ∨ reAlnum c = true := by
    clear hc
    induction t using nameTail.induct with
    | case1 => simp
    | case2 c cs ih =>
      simp only [nameTail, Bool.and_eq_true] at h
      intro d hd
      simp only [List.mem_cons] at hd
      rcases hd with rfl | rfl | hd
      · exact .inl rfl
      · exact .inr h.1
      · exact ih h.2 d hd
    | case3 c cs hne ih =>
      rw [nameTail.eq_3 _ _ hne] at h
      simp only [Bool.and_eq_true] at h
      intro d hd
      simp only [List.mem_cons] at hd
      rcases hd with rfl | hd
      · exact .inr h.1
      · exact ih h.2 d hd
  rcases key _ hc with h | h
  · revert h; decide
  · revert h; decide +kernel

theorem noReturn_lower {k : String} (h : isNameLower k = true) : NoReturn k.toList := by
  unfold isNameLower at h
  split at h
  · rename_i c cs e
    rw [e, noReturn_cons]
    simp only [Bool.and_eq_true] at h
    refine ⟨?_, noReturn_tail h.2⟩
    rintro rfl
    exact absurd h.1 (by decide)
  · cases h

theorem noReturn_capital {k : String} (h : isNameCapital k = true) : NoReturn k.toList := by
  unfold isNameCapital at h
  split at h
  · rename_i c cs e
    rw [e, noReturn_cons]
    simp only [Bool.and_eq_true] at h
    refine ⟨?_, noReturn_tail h.2⟩
    rintro rfl
    exact absurd h.1 (by decide)
  · cases h

theorem stored_clean {t : Chars} (h : NoReturn t) : Stored t t := by
  induction t with
  | nil => exact .nil
  | cons c t ih =>
    rw [noReturn_cons] at h
    by_cases hn : c = '\n'
    · subst hn; exact .unix (ih h.2)
    · exact .char hn h.1 (ih h.2)

/-! ### Writing -/

abbrev St : Style := .strict decimalFloat

theorem int_text (i : Int) : ∃ s, IntSyntax i s ∧ NoReturn s := by
  by_cases h : i < 0
  · refine ⟨['-'] ++ digits 10 i.natAbs, ?_, ?_⟩
    · have := IntSyntax.mk (ds := digits 10 i.natAbs) .minus (readNat_digits (by omega) (by omega) i.natAbs)
      have e : signed true i.natAbs = i := by simp [signed]; omega
      rwa [e] at this
    · rw [noReturn_append, noReturn_cons]; exact ⟨⟨by decide, noReturn_nil⟩, noReturn_digits _⟩
  · refine ⟨[] ++ digits 10 i.natAbs, ?_, ?_⟩
    · have := IntSyntax.mk (ds := digits 10 i.natAbs) .none (readNat_digits (by omega) (by omega) i.natAbs)
      have e : signed false i.natAbs = i := by simp [signed]; omega
      rwa [e] at this
    · exact noReturn_digits _

theorem real_text {x : Num} (h : IsDouble x) : ∃ s, RealSyntax decimalFloat x s ∧ NoReturn s := by
  obtain ⟨neg, n, e, rfl⟩ := double_decimal h
  obtain ⟨se, h1, h2⟩ := int_text e
  have hn := readNat_digits (b := 10) (by omega) (by omega) n
  have he : ExpSyntax e ('e' :: se) := .mk (.inl rfl) h1
  cases neg
  · refine ⟨_, .exp .none hn he, ?_⟩
    simp only [noReturn_append, noReturn_cons]
    exact ⟨⟨noReturn_nil, noReturn_digits _⟩, by decide, h2⟩
  · refine ⟨_, .exp .minus hn he, ?_⟩
    simp only [noReturn_append, noReturn_cons]
    exact ⟨⟨⟨by decide, noReturn_nil⟩, noReturn_digits _⟩, by decide, h2⟩

theorem comment_text {c : Comment} (h : GrammarComment c) (hp : Plain c) :
    ∃ s, CommentSyntax c s ∧ NoReturn s := by
  refine ⟨_, .mk (b₁ := []) (b₂ := []) (b₃ := []) (b₄ := []) h hp (by simp [Blanks]) (by simp [Blanks])
    (by simp [Blanks]) (by simp [Blanks]) rfl rfl, ?_⟩
  have ht : NoReturn c.text.toList := by
    intro hc
    have := h.1 _ hc
    revert this; decide
  have hu : NoReturn c.unit.toList := by
    intro hc
    have := h.2 _ hc
    revert this; decide +kernel
  simp only [noReturn_append, noReturn_nil, and_true, true_and]
  refine ⟨⟨⟨⟨?_, ?_⟩, ?_⟩, ht⟩, ?_⟩
  · unfold NoReturn; decide
  · split
    · unfold NoReturn; decide
    · exact noReturn_nil
  · split
    · exact noReturn_nil
    · simp only [List.cons_append, noReturn_append, noReturn_cons]
      exact ⟨by decide, hu, by decide, noReturn_nil⟩
  · unfold NoReturn; decide

theorem optComment_text {c : Option Comment} (h : ∀ x ∈ c.toList, GrammarComment x ∧ Plain x) :
    ∃ s, OptComment St c s ∧ NoReturn s := by
  cases c with
  | none => exact ⟨[], .none, noReturn_nil⟩
  | some c =>
    obtain ⟨s, h1, h2⟩ := comment_text (h c (by simp)).1 (h c (by simp)).2
    exact ⟨s, .some h1, h2⟩

theorem type_text {y : AType} (h : GrammarType y) (hd : DoublesType y) : ∃ s, TypeSyntax St y s ∧ NoReturn s := by
  induction h with
  | real => exact ⟨_, .real, by unfold NoReturn; decide⟩
  | realRange _ _ =>
    obtain ⟨s, h1, h2⟩ := real_text (hd rfl _ (.inl rfl))
    obtain ⟨t, k1, k2⟩ := real_text (hd rfl _ (.inr rfl))
    refine ⟨_, .realRange h1 k1, ?_⟩
    simp only [noReturn_append, h2, k2, and_true]
    exact ⟨⟨by unfold NoReturn; decide, by unfold NoReturn; decide⟩, by unfold NoReturn; decide⟩
  | integer => exact ⟨_, .integer, by unfold NoReturn; decide⟩
  | @integerRange b e =>
    obtain ⟨s, h1, h2⟩ := int_text b
    obtain ⟨t, k1, k2⟩ := int_text e
    refine ⟨_, .integerRange h1 k1, ?_⟩
    simp only [noReturn_append, h2, k2, and_true]
    exact ⟨⟨by unfold NoReturn; decide, by unfold NoReturn; decide⟩, by unfold NoReturn; decide⟩
  | null => exact ⟨_, .null, by unfold NoReturn; decide⟩
  | boolean => exact ⟨_, .boolean, by unfold NoReturn; decide⟩
  | @ia5 n =>
    obtain ⟨s, h1, h2⟩ := int_text n
    refine ⟨_, .ia5 h1, ?_⟩
    simp only [noReturn_append, h2, and_true]
    exact ⟨by unfold NoReturn; decide, by unfold NoReturn; decide⟩
  | @numeric n =>
    obtain ⟨s, h1, h2⟩ := int_text n
    refine ⟨_, .numeric h1, ?_⟩
    simp only [noReturn_append, h2, and_true]
    exact ⟨by unfold NoReturn; decide, by unfold NoReturn; decide⟩
  | @arr e n _ ih =>
    obtain ⟨s, h1, h2⟩ := int_text n
    obtain ⟨t, k1, k2⟩ := ih hd
    refine ⟨_, .arr h1 k1, ?_⟩
    simp only [noReturn_append, h2, k2, and_true]
    exact ⟨by unfold NoReturn; decide, by unfold NoReturn; decide⟩
  | named h =>
    refine ⟨_, .named h, ?_⟩
    rw [noReturn_cons]
    exact ⟨by decide, noReturn_capital h⟩

theorem leaf_text {v : Leaf} (h : ∀ x, v = .flt x → IsDouble x) : ∃ s, LeafSyntax St v s ∧ NoReturn s := by
  have p1 : ('(' : Char) ≠ '\r' := by decide
  have p2 : (')' : Char) ≠ '\r' := by decide
  cases v with
  | int i =>
    obtain ⟨s, h1, h2⟩ := int_text i
    exact ⟨_, .int space_nil space_nil space_nil h1, by
      simp only [noReturn_append, noReturn_cons, List.nil_append]; exact ⟨⟨⟨⟨p1, noReturn_nil⟩, h2⟩, noReturn_nil⟩, p2, noReturn_nil⟩⟩
  | flt x =>
    obtain ⟨s, h1, h2⟩ := real_text (h x rfl)
    exact ⟨_, .real space_nil space_nil space_nil h1, by
      simp only [noReturn_append, noReturn_cons, List.nil_append]; exact ⟨⟨⟨⟨p1, noReturn_nil⟩, h2⟩, noReturn_nil⟩, p2, noReturn_nil⟩⟩
  | bool b =>
    cases b
    · exact ⟨_, .false space_nil space_nil space_nil, by unfold NoReturn; decide⟩
    · exact ⟨_, .true space_nil space_nil space_nil, by unfold NoReturn; decide⟩

theorem clause_of {cs : Comps} {s : Chars} (h : ClauseSyntax St false cs s) (hc : NoReturn s) :
    ∃ t, ClauseSyntax St true cs t ∧ NoReturn t := by
  refine ⟨_, .clause space_nil .none h space_nil, ?_⟩
  simp only [noReturn_append, hc, noReturn_nil, and_true, true_and]
  exact ⟨by unfold NoReturn; decide, by unfold NoReturn; decide⟩

theorem comma_clean {k s t : Chars} (hk : NoReturn k) (hs : NoReturn s) (ht : NoReturn t) :
    NoReturn ([] ++ k ++ s ++ [] ++ [','] ++ [] ++ t) := by
  simp only [noReturn_append, noReturn_cons, hk, hs, ht, noReturn_nil, and_true, true_and]
  decide

theorem items_text (cs : Comps) (h : GrammarComps cs) (hd : DoublesComps cs) (hn : cs ≠ .nil) :
    ∃ s, ClauseSyntax St false cs s ∧ NoReturn s := by
  induction cs with
  | nil => exact absurd rfl hn
  | leaf k v r ih =>
    obtain ⟨s, h1, h2⟩ := leaf_text hd.1
    have hk := noReturn_lower h.1
    by_cases hr : r = .nil
    · subst hr
      refine ⟨_, .lastLeaf space_nil h.1 h1 .none, ?_⟩
      simp only [noReturn_append]; exact ⟨⟨⟨noReturn_nil, hk⟩, h2⟩, noReturn_nil⟩
    · obtain ⟨t, k1, k2⟩ := ih h.2 hd.2 hr
      exact ⟨_, .leaf space_nil h.1 h1 space_nil .none k1, comma_clean hk h2 k2⟩
  | node k c r ihc ih =>
    obtain ⟨s', h1', h2'⟩ := ihc h.2.1.2 hd.1 h.2.1.1
    obtain ⟨s, h1, h2⟩ := clause_of h1' h2'
    have hk := noReturn_lower h.1
    by_cases hr : r = .nil
    · subst hr
      refine ⟨_, .lastNode space_nil h.1 h1 .none, ?_⟩
      simp only [noReturn_append]; exact ⟨⟨⟨noReturn_nil, hk⟩, h2⟩, noReturn_nil⟩
    · obtain ⟨t, k1, k2⟩ := ih h.2.2 hd.2 hr
      exact ⟨_, .node space_nil h.1 h1 space_nil .none k1, comma_clean hk h2 k2⟩

theorem clause_text {cs : Comps} (h : GrammarComps cs) (hd : DoublesComps cs) (hn : cs ≠ .nil) :
    ∃ s, ClauseSyntax St true cs s ∧ NoReturn s := by
  obtain ⟨s, h1, h2⟩ := items_text cs h hd hn
  exact clause_of h1 h2

theorem members_text (ms : List Member) (hn : ms ≠ []) (h : ∀ m ∈ ms, GrammarMember m)
    (hc : ∀ c ∈ ms.filterMap (·.comment), GrammarComment c ∧ Plain c)
    (hd : ∀ m ∈ ms, DoublesType m.type ∧ ∀ cs, m.comps = some cs → DoublesComps cs) :
    ∃ s, MembersSyntax St ms s ∧ NoReturn s := by
  induction ms with
  | nil => exact absurd rfl hn
  | cons m ms ih =>
    obtain ⟨k, y, c, comps⟩ := m
    obtain ⟨g1, g2, g3⟩ := h _ (List.mem_cons_self ..)
    obtain ⟨d1, d2⟩ := hd _ (List.mem_cons_self ..)
    obtain ⟨s, h1, h2⟩ := type_text g2 d1
    obtain ⟨sc, c1, c2⟩ := optComment_text (c := c) (fun x hx => hc x (by
      cases c with
      | none => simp at hx
      | some c => simp at hx; subst hx; simp))
    have hk := noReturn_lower g1
    have cm : (',' : Char) ≠ '\r' := by decide
    by_cases hm : ms = []
    · subst hm
      cases comps with
      | none =>
        refine ⟨_, .last space_nil g1 h1 c1, ?_⟩
        simp only [noReturn_append]; exact ⟨⟨⟨noReturn_nil, hk⟩, h2⟩, c2⟩
      | some cs =>
        obtain ⟨t, t1, t2⟩ := clause_text (g3 cs rfl).2 (d2 cs rfl) (g3 cs rfl).1
        refine ⟨_, .lastClause space_nil g1 h1 c1 t1, ?_⟩
        simp only [noReturn_append]; exact ⟨⟨⟨⟨noReturn_nil, hk⟩, h2⟩, c2⟩, t2⟩
    · obtain ⟨r, r1, r2⟩ := ih hm (fun m hm => h m (by simp [hm]))
        (fun x hx => hc x (by
          simp only [List.mem_filterMap] at hx ⊢
          obtain ⟨m, h1, h2⟩ := hx
          exact ⟨m, by simp [h1], h2⟩)) (fun m hm => hd m (by simp [hm]))
      cases comps with
      | none =>
        refine ⟨_, .comma space_nil g1 h1 space_nil c1 r1, ?_⟩
        simp only [noReturn_append, noReturn_cons]
        exact ⟨⟨⟨⟨⟨⟨noReturn_nil, hk⟩, h2⟩, noReturn_nil⟩, cm, noReturn_nil⟩, c2⟩, r2⟩
      | some cs =>
        obtain ⟨t, t1, t2⟩ := clause_text (g3 cs rfl).2 (d2 cs rfl) (g3 cs rfl).1
        refine ⟨_, .clauseComma space_nil g1 h1 c1 t1 space_nil r1, ?_⟩
        simp only [noReturn_append, noReturn_cons]
        exact ⟨⟨⟨⟨⟨⟨⟨noReturn_nil, hk⟩, h2⟩, c2⟩, t2⟩, noReturn_nil⟩, cm, noReturn_nil⟩, r2⟩

theorem enum_text (its : List EnumItem) (hn : its ≠ []) (h : ∀ it ∈ its, isNameLower it.key)
    (hc : ∀ c ∈ its.filterMap (·.comment), GrammarComment c ∧ Plain c) :
    ∃ s, EnumSyntax St its s ∧ NoReturn s := by
  induction its with
  | nil => exact absurd rfl hn
  | cons m ms ih =>
    obtain ⟨k, i, c⟩ := m
    have g1 : isNameLower k = true := h _ (List.mem_cons_self ..)
    obtain ⟨s', h1', h2'⟩ := int_text i
    have h1 : PosSyntax i _ := .some space_nil space_nil space_nil h1'
    have p1 : ('(' : Char) ≠ '\r' := by decide
    have p2 : (')' : Char) ≠ '\r' := by decide
    have h2 : NoReturn ([] ++ '(' :: [] ++ s' ++ [] ++ [')']) := by
      simp only [noReturn_append, noReturn_cons]; exact ⟨⟨⟨⟨noReturn_nil, p1, noReturn_nil⟩, h2'⟩, noReturn_nil⟩, p2, noReturn_nil⟩
    obtain ⟨sc, c1, c2⟩ := optComment_text (c := c) (fun x hx => hc x (by
      cases c with
      | none => simp at hx
      | some c => simp at hx; subst hx; simp))
    have hk := noReturn_lower g1
    have cm : (',' : Char) ≠ '\r' := by decide
    by_cases hm : ms = []
    · subst hm
      refine ⟨_, .last space_nil g1 h1 c1, ?_⟩
      rw [noReturn_append, noReturn_append, noReturn_append]; exact ⟨⟨⟨noReturn_nil, hk⟩, h2⟩, c2⟩
    · obtain ⟨r, r1, r2⟩ := ih hm (fun m hm => h m (by simp [hm]))
        (fun x hx => hc x (by
          simp only [List.mem_filterMap] at hx ⊢
          obtain ⟨m, h1, h2⟩ := hx
          exact ⟨m, by simp [h1], h2⟩))
      refine ⟨_, .comma space_nil g1 h1 space_nil c1 r1, ?_⟩
      rw [noReturn_append, noReturn_append, noReturn_append, noReturn_append, noReturn_append, noReturn_append, noReturn_cons]
      exact ⟨⟨⟨⟨⟨⟨noReturn_nil, hk⟩, h2⟩, noReturn_nil⟩, cm, noReturn_nil⟩, c2⟩, r2⟩

theorem space_line : Space ['\n'] := by simp [Space]

theorem def_text {d : Def} (h : GrammarDef d) (hc : ∀ c ∈ commentsOf d, GrammarComment c ∧ Plain c)
    (hd : DoublesDef d) : ∃ s, DefSyntax St d s ∧ NoReturn s := by
  have cl : NoReturn ['\n'] := by unfold NoReturn; decide
  have cb : NoReturn ['}'] := by unfold NoReturn; decide
  cases d with
  | seq n c ms =>
    obtain ⟨sc, c1, c2⟩ := optComment_text (c := c) (fun x hx => hc x (by simp [commentsOf] at hx ⊢; exact .inl hx))
    obtain ⟨s, s1, s2⟩ := members_text ms h.2.1 h.2.2 (fun x hx => hc x (by
      rw [commentsOf, List.mem_append]; exact .inr hx)) hd
    refine ⟨_, .seq space_line h.1 space_nil c1 s1 space_nil, ?_⟩
    simp only [noReturn_append]
    exact ⟨⟨⟨⟨⟨⟨⟨cl, noReturn_capital h.1⟩, noReturn_nil⟩, by unfold NoReturn; decide⟩, c2⟩, s2⟩, noReturn_nil⟩, cb⟩
  | choice n c ms =>
    obtain ⟨sc, c1, c2⟩ := optComment_text (c := c) (fun x hx => hc x (by simp [commentsOf] at hx ⊢; exact .inl hx))
    obtain ⟨s, s1, s2⟩ := members_text ms h.2.1 h.2.2 (fun x hx => hc x (by
      rw [commentsOf, List.mem_append]; exact .inr hx)) hd
    refine ⟨_, .choice space_line h.1 space_nil c1 s1 space_nil, ?_⟩
    simp only [noReturn_append]
    exact ⟨⟨⟨⟨⟨⟨⟨cl, noReturn_capital h.1⟩, noReturn_nil⟩, by unfold NoReturn; decide⟩, c2⟩, s2⟩, noReturn_nil⟩, cb⟩
  | enum n c its =>
    obtain ⟨sc, c1, c2⟩ := optComment_text (c := c) (fun x hx => hc x (by simp [commentsOf] at hx ⊢; exact .inl hx))
    obtain ⟨s, s1, s2⟩ := enum_text its h.2.1 h.2.2 (fun x hx => hc x (by
      rw [commentsOf, List.mem_append]; exact .inr hx))
    refine ⟨_, .enum space_line h.1 space_nil c1 s1 space_nil, ?_⟩
    simp only [noReturn_append]
    exact ⟨⟨⟨⟨⟨⟨⟨cl, noReturn_capital h.1⟩, noReturn_nil⟩, by unfold NoReturn; decide⟩, c2⟩, s2⟩, noReturn_nil⟩, cb⟩
  | simple n c y =>
    obtain ⟨sc, c1, c2⟩ := optComment_text (c := c) (fun x hx => hc x hx)
    obtain ⟨s, s1, s2⟩ := type_text h.2 hd
    refine ⟨_, .simple space_line h.1 space_nil s1 c1 space_line (fun _ _ => by simp), ?_⟩
    simp only [noReturn_append]
    exact ⟨⟨⟨⟨⟨⟨cl, noReturn_capital h.1⟩, noReturn_nil⟩, by unfold NoReturn; decide⟩, s2⟩, c2⟩, cl⟩

theorem defs_text (ds : List Def) (hn : ds ≠ []) (h : ∀ d ∈ ds, GrammarDef d)
    (hc : ∀ d ∈ ds, ∀ c ∈ commentsOf d, GrammarComment c ∧ Plain c) (hd : ∀ d ∈ ds, DoublesDef d) :
    ∃ s, DefsSyntax St ds s ∧ NoReturn s := by
  induction ds with
  | nil => exact absurd rfl hn
  | cons d ds ih =>
    obtain ⟨s, h1, h2⟩ := def_text (h d (by simp)) (hc d (by simp)) (hd d (by simp))
    by_cases hm : ds = []
    · subst hm; exact ⟨s, .one h1, h2⟩
    · obtain ⟨t, k1, k2⟩ := ih hm (fun d hm => h d (by simp [hm])) (fun d hm => hc d (by simp [hm]))
        (fun d hm => hd d (by simp [hm]))
      exact ⟨_, .cons h1 k1, by rw [noReturn_append]; exact ⟨h2, k2⟩⟩

theorem names_text (ns : List String) (h : ∀ n ∈ ns, isNameCapital n = true) : ∃ s, NamesSyntax ns s ∧ NoReturn s := by
  induction ns with
  | nil => exact ⟨[], .nil, noReturn_nil⟩
  | cons n ns ih =>
    obtain ⟨t, k1, k2⟩ := ih (fun n hm => h n (by simp [hm]))
    refine ⟨_, .cons space_nil space_nil (h n (by simp)) k1, ?_⟩
    simp only [noReturn_append, noReturn_cons]
    exact ⟨⟨⟨noReturn_nil, by decide, noReturn_nil⟩, noReturn_capital (h n (by simp))⟩, k2⟩

theorem imports_text (is : List ImportItem)
    (h : ∀ i ∈ is, isNameLower i.module ∧ i.defs ≠ [] ∧ ∀ n ∈ i.defs, isNameCapital n) :
    ∃ s, ImportsSyntax St is s ∧ NoReturn s := by
  induction is with
  | nil => exact ⟨[], .nil, noReturn_nil⟩
  | cons i is ih =>
    obtain ⟨t, k1, k2⟩ := ih (fun n hm => h n (by simp [hm]))
    obtain ⟨defs, m⟩ := i
    obtain ⟨g1, g2, g3⟩ := h _ (List.mem_cons_self ..)
    cases defs with
    | nil => exact absurd rfl g2
    | cons n ns =>
      obtain ⟨s, s1, s2⟩ := names_text ns (fun n hm => g3 n (by simp [hm]))
      have gn := g3 n (by simp)
      refine ⟨_, .cons (w := ['\n']) (w' := ['\n']) space_line gn s1 space_line space_nil g1 .none k1, ?_⟩
      simp only [noReturn_append]
      exact ⟨⟨⟨⟨⟨⟨⟨⟨by unfold NoReturn; decide, noReturn_capital gn⟩, s2⟩, by unfold NoReturn; decide⟩,
        by unfold NoReturn; decide⟩, noReturn_nil⟩, noReturn_lower g1⟩, noReturn_nil⟩, k2⟩

theorem module_text {m : Module} (h : Expressible m) : ∃ t, ModuleSyntax St m t ∧ NoReturn t := by
  obtain ⟨n, c, ci, is, ds⟩ := m
  obtain ⟨⟨g1, g2, g3, g4⟩, ⟨c1, c2⟩, ⟨p1, p2⟩, hd, hi⟩ := h
  obtain ⟨sc, h1, h2⟩ := optComment_text (c := c) (fun x hx =>
    ⟨c1 x (by simp at hx ⊢; exact .inl hx), p1 x (by simp at hx ⊢; exact .inl hx)⟩)
  obtain ⟨si', i1', i2'⟩ := optComment_text (c := ci) (fun x hx =>
    ⟨c1 x (by simp at hx ⊢; exact .inr hx), p1 x (by simp at hx ⊢; exact .inr hx)⟩)
  obtain ⟨sd, d1, d2⟩ := defs_text ds g2 g3 (fun d hd x hx => ⟨c2 d hd x hx, p2 d hd x hx⟩) hd
  have cl : NoReturn ['\n'] := by unfold NoReturn; decide
  have : ∃ si, ImportClauseSyntax St is ci si ∧ NoReturn si := by
    cases is with
    | nil =>
      obtain rfl : ci = none := hi rfl
      exact ⟨[], .none, noReturn_nil⟩
    | cons i is =>
      obtain ⟨s, s1, s2⟩ := imports_text (i :: is) g4
      refine ⟨_, .some space_line s1 space_nil i1', ?_⟩
      simp only [noReturn_append]
      exact ⟨⟨⟨⟨⟨cl, by unfold NoReturn; decide⟩, s2⟩, noReturn_nil⟩, by unfold NoReturn; decide⟩, i2'⟩
  obtain ⟨si, i1, i2⟩ := this
  refine ⟨_, .mk space_nil space_nil g1 space_line h1 i1 d1 space_line space_line, ?_⟩
  simp only [noReturn_append]
  exact ⟨⟨⟨⟨⟨⟨⟨⟨⟨⟨⟨noReturn_nil, by unfold NoReturn; decide⟩, noReturn_nil⟩, noReturn_lower g1⟩, cl⟩,
    by unfold NoReturn; decide⟩, h2⟩, i2⟩, d2⟩, cl⟩, by unfold NoReturn; decide⟩, cl⟩

end Apg
