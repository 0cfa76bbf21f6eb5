import Verif.Props.SizeOf

/-!
# C04: which definitions may have the name of a standard integer type
-/

namespace Apg
open Spec

theorem flt_eq {x : Num} {i : Int} (hf : isFloat x) (h1 : NumLE x (.int i)) (h2 : NumLE (.int i) x) :
    x = .flt (i : Rat) := by
  cases x with
  | int j => simp [isFloat] at hf
  | flt q =>
    have h3 : q ≤ (i : Rat) := Classical.byContradiction fun hc => by
      have := h1 i (by show (i : Rat) < q; grind)
      change (i : Rat) < (i : Rat) at this
      grind
    have h4 : (i : Rat) ≤ q := Classical.byContradiction fun hc => by
      have := h2 q (by show q < (i : Rat); grind)
      change q < q at this
      grind
    rw [show q = (i : Rat) by grind]
  | inf neg =>
    cases neg with
    | true =>
      have := h2 ((i : Rat) - 1) (by show (i : Rat) - 1 < (i : Rat); grind)
      exact this.elim
    | false =>
      have := h1 (i : Rat) trivial
      change (i : Rat) < (i : Rat) at this
      grind

/-- **C04, exact.** A definition with the name of a standard integer type is INTEGER with exactly the range of the
C type, or REAL with exactly these bounds, or no simple definition. All three are accepted (C04_full_false,
C04_full_false_sequence and the example below), so nothing more can be said. -/
theorem C04_kinds_partial (raw : List Module) (b : Bundle) (hg : ∀ m ∈ raw, GrammarModule m)
    (h : buildFromTexts raw = .ok b) (d : Def) (hd : d ∈ defsOf b.modules) (lo hi : Int) (w : Nat)
    (hs : StandardInt d.name lo hi w) :
    (∃ c, d = .simple d.name c (intType lo hi)) ∨
      (∃ c, d = .simple d.name c (realType (.flt lo) (.flt hi))) ∨
      (∃ n c ms, d = .seq n c ms) ∨ (∃ n c ms, d = .choice n c ms) ∨ ∃ n c is, d = .enum n c is := by
  cases d with
  | seq n c ms => exact .inr (.inr (.inl ⟨n, c, ms, rfl⟩))
  | choice n c ms => exact .inr (.inr (.inr (.inl ⟨n, c, ms, rfl⟩)))
  | enum n c is => exact .inr (.inr (.inr (.inr ⟨n, c, is, rfl⟩)))
  | simple n c t =>
    obtain ⟨⟨x, y, hx, hy, h1, h2, h3, h4⟩, hint⟩ := C04_standard_int_partial raw b hg h n c t hd lo hi w hs
    have hgt := (accepted_grammar hg h _ hd).1.2
    cases hgt with
    | realRange hb he =>
      simp only [AType.lo, AType.hi, Option.some.injEq] at hx hy
      subst hx hy
      exact .inr (.inl ⟨c, by rw [flt_eq hb h1 h2, flt_eq he h3 h4]; rfl⟩)
    | integerRange => exact .inl ⟨c, by rw [(hint (by rw [usesName_iff]; rfl)).1]; rfl⟩
    | real => simp [AType.lo] at hx
    | integer => simp [AType.lo] at hx
    | null => simp [AType.lo] at hx
    | boolean => simp [AType.lo] at hx
    | ia5 => simp [AType.lo] at hx
    | numeric => simp [AType.lo] at hx
    | arr _ => simp [AType.lo] at hx
    | named _ => simp [AType.lo] at hx

/-- The names of floating point types of C with the largest number of the type. -/
inductive StandardReal : String → Int → Prop
  | float : StandardReal "Float" (8999725064576941 * 2 ^ 75)
  | double : StandardReal "Double" (2 ^ 1024 - 2 ^ 971)

/-- **C04, exact (Float and Double).** The same for the two floating point names: REAL with exactly the range of the
C type as the tool knows it, or INTEGER with exactly these bounds, or no simple definition. -/
theorem C04_real_kinds_partial (raw : List Module) (b : Bundle) (hg : ∀ m ∈ raw, GrammarModule m)
    (h : buildFromTexts raw = .ok b) (d : Def) (hd : d ∈ defsOf b.modules) (lim : Int)
    (hs : StandardReal d.name lim) :
    (∃ c, d = .simple d.name c (realType (.flt (-lim : Int)) (.flt lim))) ∨
      (∃ c, d = .simple d.name c (intType (-lim) lim)) ∨
      (∃ n c ms, d = .seq n c ms) ∨ (∃ n c ms, d = .choice n c ms) ∨ ∃ n c is, d = .enum n c is := by
  cases d with
  | seq n c ms => exact .inr (.inr (.inl ⟨n, c, ms, rfl⟩))
  | choice n c ms => exact .inr (.inr (.inr (.inl ⟨n, c, ms, rfl⟩)))
  | enum n c is => exact .inr (.inr (.inr (.inr ⟨n, c, is, rfl⟩)))
  | simple n c t =>
    have hw : ∃ w : Int, n = "Float" ∧ (lim : Rat) = (8999725064576941 * 2 ^ 75 : Int) ∧ w = 32 ∨
        n = "Double" ∧ (lim : Rat) = (2 ^ 1024 - 2 ^ 971 : Int) ∧ w = 64 := by
      simp only [Def.name] at hs
      cases hs with
      | float => exact ⟨32, .inl ⟨rfl, rfl, rfl⟩⟩
      | double => exact ⟨64, .inr ⟨rfl, rfl, rfl⟩⟩
    obtain ⟨w, hw⟩ := hw
    obtain ⟨⟨x, y, hx, hy, h1, h2, h3, h4⟩, -⟩ := C04_standard_real_partial raw b h n c t hd lim w hw
    have hn : (-(lim : Rat)) = ((-lim : Int) : Rat) := by grind
    rw [hn] at h1 h2
    have hgt := (accepted_grammar hg h _ hd).1.2
    cases hgt with
    | realRange hb he =>
      simp only [AType.lo, AType.hi, Option.some.injEq] at hx hy
      subst hx hy
      exact .inl ⟨c, by rw [flt_eq hb h1 h2, flt_eq he h3 h4]; rfl⟩
    | integerRange =>
      simp only [AType.lo, AType.hi, Option.some.injEq] at hx hy
      subst hx hy
      have g1 := (numLE_int _ _).1 (show NumLE (.int _) (.int (-lim)) from h1)
      have g2 := (numLE_int _ _).1 (show NumLE (.int (-lim)) (.int _) from h2)
      have g3 := (numLE_int _ _).1 (show NumLE (.int _) (.int lim) from h3)
      have g4 := (numLE_int _ _).1 (show NumLE (.int lim) (.int _) from h4)
      refine .inr (.inl ⟨c, ?_⟩)
      unfold intType Def.name
      congr 4 <;> omega
    | real => simp [AType.lo] at hx
    | integer => simp [AType.lo] at hx
    | null => simp [AType.lo] at hx
    | boolean => simp [AType.lo] at hx
    | ia5 => simp [AType.lo] at hx
    | numeric => simp [AType.lo] at hx
    | arr _ => simp [AType.lo] at hx
    | named _ => simp [AType.lo] at hx

/-- An INTEGER called Float is accepted. -/
example : ∃ b, buildFromTexts [⟨"a", none, none, [], [.simple "Float" none
      (intType (-(8999725064576941 * 2 ^ 75)) (8999725064576941 * 2 ^ 75))]⟩] = .ok b ∧
    StandardReal "Float" (8999725064576941 * 2 ^ 75) ∧ (defsOf b.modules).length = 1 :=
  ⟨_, rfl, .float, by decide +kernel⟩

/-- All three kinds pass validation in one run. -/
def exStandard : List Module :=
  [{ name := "a"
     defs := [.simple "Uint8-t" none (intType 0 255),
              .simple "Int16-t" none (realType (.flt (-32768)) (.flt 32767)),
              .enum "Int8-t" none [⟨"off", 0, none⟩, ⟨"on", 1, none⟩]] }]

example : ∃ b, buildFromTexts exStandard = .ok b ∧ StandardInt "Uint8-t" 0 255 8 ∧
    StandardInt "Int16-t" (-32768) 32767 16 ∧ StandardInt "Int8-t" (-128) 127 8 ∧
    (defsOf b.modules).map (·.name) = ["Uint8-t", "Int16-t", "Int8-t"] :=
  ⟨_, rfl, .u8, .i16, .i8, by decide +kernel⟩

end Apg
