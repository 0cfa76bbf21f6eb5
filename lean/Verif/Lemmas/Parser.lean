import Verif.Model.Parser
import Verif.Spec.Grammar

/-!
# Every tree the parser builds is a tree of the grammar
-/

namespace Apg

open Spec Parse

theorem uniDigit_isSome (c : Char) : (uniDigit c).isSome = reDigit c := by
  unfold uniDigit reDigit
  rw [Option.isSome_map]
  show (List.find? _ digitBlocks).isSome = _
  rw [Bool.eq_iff_iff, List.find?_isSome]
  simp

theorem isNameChar_eq (c : Char) : isNameChar c = reAlnum c := by
  unfold isNameChar reAlnum
  rw [uniDigit_isSome]; rfl

theorem nameTail_cons {c : Char} {l : List Char} (hc : reAlnum c = true) (hl : nameTail l = true) :
    nameTail (c :: l) = true := by
  have hne : c ≠ '-' := by
    intro h; subst h; revert hc; decide
  cases l with
  | nil => unfold nameTail; simp_all
  | cons d l => unfold nameTail; simp_all

theorem nameTail_nameRest (t : Text) : nameTail (nameRest t).1 = true := by
  induction t using nameRest.induct with
  | case1 => rfl
  | case2 c h => unfold nameRest; rw [if_pos h]; exact nameTail_cons (by rw [← isNameChar_eq, h]) rfl
  | case3 c h => unfold nameRest; rw [if_neg h]; rfl
  | case4 c d t h ih =>
    unfold nameRest; rw [if_pos h]; exact nameTail_cons (by rw [← isNameChar_eq, h]) ih
  | case5 c d t h h2 ih =>
    unfold nameRest; rw [if_neg h, if_pos h2]
    simp only [Bool.and_eq_true, decide_eq_true_eq] at h2
    obtain ⟨rfl, h2⟩ := h2
    show nameTail ('-' :: d :: _) = true
    have : nameTail ('-' :: d :: (nameRest t).1) = (reAlnum d && nameTail (nameRest t).1) := rfl
    rw [this, ← isNameChar_eq, h2, ih]; rfl
  | case6 c d t h h2 => unfold nameRest; rw [if_neg h, if_neg h2]; rfl

theorem nameLower_ok {t : Text} {r : String × Text} (h : nameLower t = some r) :
    isNameLower r.1 = true := by
  cases t with
  | nil => simp [nameLower] at h
  | cons c t =>
    rw [nameLower] at h
    split at h
    · rename_i hc
      cases h
      simp only [isNameLower, String.toList_ofList, Bool.and_eq_true]
      exact ⟨hc, nameTail_nameRest t⟩
    · cases h

theorem nameCapital_ok {t : Text} {r : String × Text} (h : nameCapital t = some r) :
    isNameCapital r.1 = true := by
  cases t with
  | nil => simp [nameCapital] at h
  | cons c t =>
    rw [nameCapital] at h
    split at h
    · rename_i hc
      cases h
      simp only [isNameCapital, String.toList_ofList, Bool.and_eq_true]
      exact ⟨hc, nameTail_nameRest t⟩
    · cases h

theorem decimalFloat_isFloat (n : Bool) (m : Nat) (e : Int) : isFloat (decimalFloat n m e) = true := by
  unfold decimalFloat
  simp only
  split <;> rfl

theorem floatLit_ok {t : Text} {r : Num × Text} (h : floatLit t = some r) : isFloat r.1 = true := by
  unfold floatLit at h
  simp only at h
  split at h
  · split at h
    · cases h
    · cases h; exact decimalFloat_isFloat _ _ _
  · split at h
    · cases h
    · simp only [Option.map_eq_some_iff] at h
      obtain ⟨_, _, rfl⟩ := h
      exact decimalFloat_isFloat _ _ _

/-! ### Comments -/

theorem takeWhile_sat {p : Char → Bool} {t : Text} : ∀ x ∈ t.takeWhile p, p x = true := by
  induction t with
  | nil => intro x hx; cases hx
  | cons c t ih =>
    intro x hx
    rw [List.takeWhile_cons] at hx
    split at hx
    · cases hx with
      | head => assumption
      | tail _ hx => exact ih x hx
    · cases hx

theorem dropWhile_nil {p : Char → Bool} {t : Text} (h : t.dropWhile p = []) :
    ∀ x ∈ t, p x = true := by
  induction t with
  | nil => intro x hx; cases hx
  | cons c t ih =>
    rw [List.dropWhile_cons] at h
    split at h
    · intro x hx
      cases hx with
      | head => assumption
      | tail _ hx => exact ih h x hx
    · cases h

theorem unitOpt_ok (t : Text) : ∀ x ∈ (unitOpt t).1, isUnitChar x = true := by
  unfold unitOpt
  cases h : lit ['['] t with
  | none => intro x hx; cases hx
  | some u =>
    simp only [Option.bind_some]
    split
    · intro x hx; cases hx
    · cases lit [']'] (u.dropWhile isUnitChar) with
      | none => intro x hx; cases hx
      | some v => exact fun x hx => takeWhile_sat x hx

theorem commentText_ok (t : Text) : ∀ x ∈ (Parse.commentText t).1, isCommentChar x = true := by
  unfold Parse.commentText
  split
  · rename_i h
    intro x hx
    exact dropWhile_nil h x hx
  · split
    · exact takeWhile_sat
    · intro x hx; cases hx

theorem isUnitChar_ok {x : Char} (h : isUnitChar x = true) :
    reLower x = true ∨ reUpper x = true ∨ reDigit x = true ∨ x = '%' ∨ x = '/' ∨ x = '^' := by
  unfold isUnitChar at h
  rw [uniDigit_isSome] at h
  simp only [Bool.or_eq_true, beq_iff_eq] at h
  rcases h with ((((h | h) | h) | h) | h) | h
  · exact .inr (.inr (.inr (.inl h)))
  · exact .inr (.inl h)
  · exact .inl h
  · exact .inr (.inr (.inl h))
  · exact .inr (.inr (.inr (.inr (.inl h))))
  · exact .inr (.inr (.inr (.inr (.inr h))))

theorem commentRule_ok {t : Text} {r : Comment × Text} (h : commentRule t = some r) :
    GrammarComment r.1 := by
  unfold commentRule at h
  simp only [Option.map_eq_some_iff] at h
  obtain ⟨u, _, rfl⟩ := h
  constructor
  · intro x hx
    simp only [String.toList_ofList] at hx
    have := commentText_ok _ x hx
    simp only [isCommentChar, Bool.or_eq_true, Bool.and_eq_true, decide_eq_true_eq] at this
    rcases this with h | h
    · exact .inl h
    · exact .inr (by simp [reLower, h])
  · intro x hx
    simp only [String.toList_ofList] at hx
    exact isUnitChar_ok (unitOpt_ok _ x hx)

theorem commentOpt_ok (t : Text) : ∀ c ∈ (commentOpt t).1.toList, GrammarComment c := by
  unfold commentOpt
  cases h : commentRule t with
  | none => intro c hc; cases hc
  | some r =>
    intro c hc
    simp only [Option.toList_some, List.mem_singleton] at hc
    subst hc; exact commentRule_ok h

/-! ### Types -/

theorem or_some {α : Type} {a b : Option α} {r : α} (h : a.or b = some r) : a = some r ∨ b = some r := by
  cases a with
  | none => exact .inr h
  | some x => exact .inl h

theorem realType_ok {t : Text} {r : AType × Text} (h : realType t = some r) : GrammarType r.1 := by
  unfold realType at h
  simp only [Option.map_eq_some_iff] at h
  obtain ⟨u, _, h⟩ := h
  cases hf : floatRange u with
  | none => rw [hf] at h; subst h; exact .real
  | some s =>
    rw [hf] at h; subst h
    simp only [floatRange, Option.bind_eq_bind, Option.bind_eq_some_iff, Option.pure_def,
      Option.some.injEq] at hf
    obtain ⟨_, _, b, hb, _, _, e, he, _, _, rfl⟩ := hf
    exact .realRange (floatLit_ok hb) (floatLit_ok he)

theorem integerType_ok {t : Text} {r : AType × Text} (h : integerType t = some r) :
    GrammarType r.1 := by
  unfold integerType at h
  simp only [Option.map_eq_some_iff] at h
  obtain ⟨u, _, h⟩ := h
  cases hf : intRange u with
  | none => rw [hf] at h; subst h; exact .integer
  | some s => rw [hf] at h; subst h; exact .integerRange

theorem typeRule_ok {n : Nat} {t : Text} {r : AType × Text} (h : typeRule n t = some r) :
    GrammarType r.1 := by
  induction n generalizing t r with
  | zero => cases h
  | succ n ih =>
    unfold typeRule at h
    rcases or_some h with h | h
    · exact realType_ok h
    rcases or_some h with h | h
    · exact integerType_ok h
    rcases or_some h with h | h
    · simp only [keywordType, Option.map_eq_some_iff] at h
      obtain ⟨_, _, rfl⟩ := h; exact .null
    rcases or_some h with h | h
    · simp only [keywordType, Option.map_eq_some_iff] at h
      obtain ⟨_, _, rfl⟩ := h; exact .boolean
    rcases or_some h with h | h
    · simp only [stringType, Option.bind_eq_bind, Option.bind_eq_some_iff, Option.pure_def,
        Option.some.injEq] at h
      obtain ⟨_, _, _, _, _, _, _, _, rfl⟩ := h; exact .ia5
    rcases or_some h with h | h
    · simp only [stringType, Option.bind_eq_bind, Option.bind_eq_some_iff, Option.pure_def,
        Option.some.injEq] at h
      obtain ⟨_, _, _, _, _, _, _, _, rfl⟩ := h; exact .numeric
    rcases or_some h with h | h
    · simp only [arrayType, Option.bind_eq_bind, Option.bind_eq_some_iff, Option.pure_def,
        Option.some.injEq] at h
      obtain ⟨_, _, _, _, _, _, e, he, rfl⟩ := h; exact .arr (ih he)
    · simp only [namedType, Option.bind_eq_bind, Option.bind_eq_some_iff, Option.pure_def,
        Option.some.injEq] at h
      obtain ⟨_, _, _, hn, rfl⟩ := h; exact .named (nameCapital_ok hn)

/-! ### Repetitions -/

theorem many_ok {α : Type} {p : Text → Option (α × Text)} {P : α → Prop}
    (hp : ∀ t r, p t = some r → P r.1) (n : Nat) (t : Text) : ∀ x ∈ (many p n t).1, P x := by
  induction n generalizing t with
  | zero => intro x hx; cases hx
  | succ n ih =>
    intro x hx
    unfold many at hx
    cases h : p t with
    | none => rw [h] at hx; cases hx
    | some r =>
      rw [h] at hx
      cases hx with
      | head => exact hp _ _ h
      | tail _ hx => exact ih _ _ hx

theorem items_ok {α : Type} {p q : Text → Option (α × Text)} {P : α → Prop} {t : Text}
    {r : List α × Text} (hp : ∀ t r, p t = some r → P r.1) (hq : ∀ t r, q t = some r → P r.1)
    (h : items p q t = some r) : r.1 ≠ [] ∧ ∀ x ∈ r.1, P x := by
  simp only [items, Option.bind_eq_bind, Option.bind_eq_some_iff, Option.pure_def,
    Option.some.injEq] at h
  obtain ⟨s, hs, rfl⟩ := h
  refine ⟨by simp, fun x hx => ?_⟩
  rcases List.mem_append.mp hx with hx | hx
  · exact many_ok hp _ _ _ hx
  · cases List.mem_singleton.mp hx; exact hq _ _ hs

theorem plus_ok {α : Type} {p : Text → Option (α × Text)} {P : α → Prop} {t : Text}
    {r : List α × Text} (hp : ∀ t r, p t = some r → P r.1) (h : plus p t = some r) :
    r.1 ≠ [] ∧ ∀ x ∈ r.1, P x := by
  simp only [plus, Option.bind_eq_bind, Option.bind_eq_some_iff, Option.pure_def,
    Option.some.injEq] at h
  obtain ⟨s, hs, rfl⟩ := h
  refine ⟨by simp, fun x hx => ?_⟩
  cases hx with
  | head => exact hp _ _ hs
  | tail _ hx => exact many_ok hp _ _ _ hx

/-! ### WITH COMPONENTS -/

/-- A component as the grammar builds it. -/
def ItemOk (i : CompItem) : Prop :=
  isNameLower i.key = true ∧ (∀ c, i.value = .inr c → c ≠ .nil ∧ GrammarComps c) ∧
  ∀ s ∈ i.side, GrammarComment s.2

/-- A clause as the grammar builds it. -/
def ClauseOk (r : Comps × List SideComment) : Prop :=
  (r.1 ≠ .nil ∧ GrammarComps r.1) ∧ ∀ s ∈ r.2, GrammarComment s.2

theorem sides_ok {b : Bool} {c : Option Comment} (h : ∀ x ∈ c.toList, GrammarComment x) :
    ∀ s ∈ sides b c, GrammarComment s.2 := by
  intro s hs
  simp only [sides, List.mem_map] at hs
  obtain ⟨x, hx, rfl⟩ := hs
  exact h x hx

theorem toComps_ok {l : List CompItem} (h : ∀ i ∈ l, ItemOk i) : GrammarComps (toComps l) := by
  induction l with
  | nil => exact trivial
  | cons i l ih =>
    have ih := ih fun j hj => h j (List.Mem.tail _ hj)
    obtain ⟨h1, h2, _⟩ := h i (List.Mem.head _)
    obtain ⟨k, v, s⟩ := i
    cases v with
    | inl v => exact ⟨h1, ih⟩
    | inr c => exact ⟨h1, h2 c rfl, ih⟩

theorem toComps_ne_nil {l : List CompItem} (h : l ≠ []) : toComps l ≠ .nil := by
  cases l with
  | nil => exact absurd rfl h
  | cons i l => obtain ⟨k, v, s⟩ := i; cases v <;> exact fun h => by cases h

theorem compValue_ok {clause : Text → Option ((Comps × List SideComment) × Text)}
    (hc : ∀ t r, clause t = some r → ClauseOk r.1) {t : Text}
    {r : (CompValue × List SideComment) × Text} (h : compValue clause t = some r) :
    (∀ c, r.1.1 = .inr c → c ≠ .nil ∧ GrammarComps c) ∧ ∀ s ∈ r.1.2, GrammarComment s.2 := by
  unfold compValue at h
  rcases or_some h with h | h
  · simp only [Option.map_eq_some_iff] at h
    obtain ⟨_, _, rfl⟩ := h
    exact ⟨fun c h => (by cases h), fun s h => (by cases h)⟩
  · simp only [Option.map_eq_some_iff] at h
    obtain ⟨x, hx, rfl⟩ := h
    refine ⟨fun c h => ?_, (hc _ _ hx).2⟩
    cases h; exact (hc _ _ hx).1

theorem compItemNotLast_ok {clause : Text → Option ((Comps × List SideComment) × Text)}
    (hc : ∀ t r, clause t = some r → ClauseOk r.1) (t : Text) (r : CompItem × Text)
    (h : compItemNotLast clause t = some r) : ItemOk r.1 := by
  simp only [compItemNotLast, Option.bind_eq_bind, Option.bind_eq_some_iff, Option.pure_def,
    Option.some.injEq] at h
  obtain ⟨k, hk, v, hv, u, _, rfl⟩ := h
  have := compValue_ok hc hv
  refine ⟨nameLower_ok hk, this.1, fun s hs => ?_⟩
  rcases List.mem_append.mp hs with hs | hs
  · exact this.2 s hs
  · exact sides_ok (commentOpt_ok _) s hs

theorem compItemLast_ok {clause : Text → Option ((Comps × List SideComment) × Text)}
    (hc : ∀ t r, clause t = some r → ClauseOk r.1) (t : Text) (r : CompItem × Text)
    (h : compItemLast clause t = some r) : ItemOk r.1 := by
  simp only [compItemLast, Option.bind_eq_bind, Option.bind_eq_some_iff, Option.pure_def,
    Option.some.injEq] at h
  obtain ⟨k, hk, v, hv, rfl⟩ := h
  have := compValue_ok hc hv
  refine ⟨nameLower_ok hk, this.1, fun s hs => ?_⟩
  rcases List.mem_append.mp hs with hs | hs
  · exact this.2 s hs
  · exact sides_ok (commentOpt_ok _) s hs

theorem withComponents_ok (n : Nat) (t : Text) (r : (Comps × List SideComment) × Text)
    (h : withComponents n t = some r) : ClauseOk r.1 := by
  induction n generalizing t r with
  | zero => cases h
  | succ n ih =>
    simp only [withComponents, Option.bind_eq_bind, Option.bind_eq_some_iff, Option.pure_def,
      Option.some.injEq] at h
    obtain ⟨u, _, l, hl, v, _, rfl⟩ := h
    have := items_ok (compItemNotLast_ok ih) (compItemLast_ok ih) hl
    refine ⟨⟨toComps_ne_nil this.1, toComps_ok this.2⟩, fun s hs => ?_⟩
    rcases List.mem_append.mp hs with hs | hs
    · exact sides_ok (commentOpt_ok _) s hs
    · obtain ⟨i, hi, hs⟩ := List.mem_flatMap.mp hs
      exact (this.2 i hi).2.2 s hs

/-! ### Members and definitions -/

/-- A member with its comments. -/
def MemberOk (m : WithSide Member) : Prop :=
  GrammarMember m.1 ∧ (∀ c ∈ m.1.comment.toList, GrammarComment c) ∧ ∀ s ∈ m.2, GrammarComment s.2

theorem memberNotLast_ok (t : Text) (r : WithSide Member × Text) (h : memberNotLast t = some r) :
    MemberOk r.1 := by
  rcases or_some h with h | h
  · simp only [memberComma, Option.bind_eq_bind, Option.bind_eq_some_iff, Option.pure_def,
      Option.some.injEq] at h
    obtain ⟨k, hk, y, hy, u, _, rfl⟩ := h
    exact ⟨⟨nameLower_ok hk, typeRule_ok hy, fun _ h => (by cases h)⟩, commentOpt_ok _,
      fun _ h => (by cases h)⟩
  · simp only [memberClauseComma, Option.bind_eq_bind, Option.bind_eq_some_iff, Option.pure_def,
      Option.some.injEq] at h
    obtain ⟨k, hk, y, hy, w, hw, u, _, rfl⟩ := h
    have := withComponents_ok _ _ _ hw
    exact ⟨⟨nameLower_ok hk, typeRule_ok hy, fun _ h => (by cases h; exact this.1)⟩,
      commentOpt_ok _, this.2⟩

theorem memberLast_ok (t : Text) (r : WithSide Member × Text) (h : memberLast t = some r) :
    MemberOk r.1 := by
  simp only [memberLast, Option.bind_eq_bind, Option.bind_eq_some_iff] at h
  obtain ⟨k, hk, y, hy, h⟩ := h
  cases hw : clauseOf (commentOpt y.2).2 with
  | none =>
    rw [hw] at h; cases h
    exact ⟨⟨nameLower_ok hk, typeRule_ok hy, fun _ h => (by cases h)⟩, commentOpt_ok _,
      fun _ h => (by cases h)⟩
  | some w =>
    rw [hw] at h; cases h
    have := withComponents_ok _ _ _ hw
    exact ⟨⟨nameLower_ok hk, typeRule_ok hy, fun _ h => (by cases h; exact this.1)⟩,
      commentOpt_ok _, this.2⟩

/-- A definition with its comments. -/
def DefOk (d : WithSide Def) : Prop :=
  GrammarDef d.1 ∧ (∀ c ∈ commentsOf d.1, GrammarComment c) ∧ ∀ s ∈ d.2, GrammarComment s.2

theorem memberBlock_ok {o t : Text} {r : (String × Option Comment × List (WithSide Member)) × Text}
    (h : memberBlock o t = some r) :
    isNameCapital r.1.1 = true ∧ (∀ c ∈ r.1.2.1.toList, GrammarComment c) ∧
    r.1.2.2 ≠ [] ∧ ∀ m ∈ r.1.2.2, MemberOk m := by
  simp only [memberBlock, Option.bind_eq_bind, Option.bind_eq_some_iff, Option.pure_def,
    Option.some.injEq] at h
  obtain ⟨n, hn, u, _, l, hl, v, _, rfl⟩ := h
  have := items_ok memberNotLast_ok memberLast_ok hl
  exact ⟨nameCapital_ok hn, commentOpt_ok _, this⟩

theorem members_ok {l : List (WithSide Member)} (h : l ≠ []) (hl : ∀ m ∈ l, MemberOk m) :
    (l.map (·.1) ≠ [] ∧ ∀ m ∈ l.map (·.1), GrammarMember m) ∧
    (∀ c ∈ (l.map (·.1)).filterMap (·.comment), GrammarComment c) ∧
    ∀ s ∈ memberSides l, GrammarComment s.2 := by
  refine ⟨⟨by simpa using h, fun m hm => ?_⟩, fun c hc => ?_, fun s hs => ?_⟩
  · obtain ⟨x, hx, rfl⟩ := List.mem_map.mp hm
    exact (hl x hx).1
  · obtain ⟨m, hm, hc⟩ := List.mem_filterMap.mp hc
    obtain ⟨x, hx, rfl⟩ := List.mem_map.mp hm
    exact (hl x hx).2.1 c (by simp [hc])
  · obtain ⟨x, hx, hs⟩ := List.mem_flatMap.mp hs
    exact (hl x hx).2.2 s hs

theorem enumItem_ok {t : Text} {r : EnumItem × Text}
    (h : enumItemNotLast t = some r ∨ enumItemLast t = some r) :
    isNameLower r.1.key = true ∧ ∀ c ∈ r.1.comment.toList, GrammarComment c := by
  rcases h with h | h
  · simp only [enumItemNotLast, Option.bind_eq_bind, Option.bind_eq_some_iff, Option.pure_def,
      Option.some.injEq] at h
    obtain ⟨k, hk, u, _, rfl⟩ := h
    exact ⟨nameLower_ok hk, commentOpt_ok _⟩
  · simp only [enumItemLast, Option.bind_eq_bind, Option.bind_eq_some_iff, Option.pure_def,
      Option.some.injEq] at h
    obtain ⟨k, hk, rfl⟩ := h
    exact ⟨nameLower_ok hk, commentOpt_ok _⟩

theorem definition_ok (t : Text) (r : WithSide Def × Text) (h : definition t = some r) :
    DefOk r.1 := by
  rcases or_some h with h | h
  · simp only [choiceDef, Option.map_eq_some_iff] at h
    obtain ⟨x, hx, rfl⟩ := h
    obtain ⟨h1, h2, h3, h4⟩ := memberBlock_ok hx
    obtain ⟨a, b, c⟩ := members_ok h3 h4
    refine ⟨⟨h1, a.1, a.2⟩, fun y hy => ?_, c⟩
    rcases List.mem_append.mp hy with hy | hy
    · exact h2 y hy
    · exact b y hy
  rcases or_some h with h | h
  · simp only [enumeratedDef, Option.bind_eq_bind, Option.bind_eq_some_iff, Option.pure_def,
      Option.some.injEq] at h
    obtain ⟨n, hn, u, _, l, hl, v, _, rfl⟩ := h
    have := items_ok (P := fun i : EnumItem => isNameLower i.key = true ∧
        ∀ c ∈ i.comment.toList, GrammarComment c) (fun t r h => enumItem_ok (.inl h))
      (fun t r h => enumItem_ok (.inr h)) hl
    refine ⟨⟨nameCapital_ok hn, this.1, fun i hi => (this.2 i hi).1⟩, fun y hy => ?_,
      fun _ h => (by cases h)⟩
    rcases List.mem_append.mp hy with hy | hy
    · exact commentOpt_ok _ y hy
    · obtain ⟨i, hi, hc⟩ := List.mem_filterMap.mp hy
      exact (this.2 i hi).2 y (by simp [hc])
  rcases or_some h with h | h
  · simp only [sequenceDef, Option.map_eq_some_iff] at h
    obtain ⟨x, hx, rfl⟩ := h
    obtain ⟨h1, h2, h3, h4⟩ := memberBlock_ok hx
    obtain ⟨a, b, c⟩ := members_ok h3 h4
    refine ⟨⟨h1, a.1, a.2⟩, fun y hy => ?_, c⟩
    rcases List.mem_append.mp hy with hy | hy
    · exact h2 y hy
    · exact b y hy
  · simp only [simpleDef, Option.bind_eq_bind, Option.bind_eq_some_iff, Option.pure_def,
      Option.some.injEq] at h
    obtain ⟨n, hn, u, _, y, hy, rfl⟩ := h
    exact ⟨⟨nameCapital_ok hn, typeRule_ok hy⟩, commentOpt_ok _, fun _ h => (by cases h)⟩

/-! ### Modules -/

theorem importItem_ok (t : Text) (r : WithSide ImportItem × Text) (h : importItem t = some r) :
    (isNameLower r.1.1.module = true ∧ r.1.1.defs ≠ [] ∧
      ∀ n ∈ r.1.1.defs, isNameCapital n = true) ∧ ∀ s ∈ r.1.2, GrammarComment s.2 := by
  simp only [importItem, Option.bind_eq_bind, Option.bind_eq_some_iff, Option.pure_def,
    Option.some.injEq] at h
  obtain ⟨n, hn, u, _, m, hm, rfl⟩ := h
  refine ⟨⟨nameLower_ok hm, by simp, fun x hx => ?_⟩, sides_ok (commentOpt_ok _)⟩
  cases hx with
  | head => exact nameCapital_ok hn
  | tail _ hx =>
    refine many_ok (P := fun n => isNameCapital n = true) (p := commaCapital) (fun t r h => ?_) _ _ x hx
    simp only [commaCapital, Option.bind_eq_bind, Option.bind_eq_some_iff] at h
    obtain ⟨_, _, h⟩ := h
    exact nameCapital_ok h

theorem parseModule_ok {t : Text} {r : WithSide Module} (h : parseModule t = some r) :
    GrammarModule r.1 ∧ GrammarComments r.1 ∧ ∀ s ∈ r.2, GrammarComment s.2 := by
  simp only [parseModule, Option.bind_eq_bind, Option.bind_eq_some_iff] at h
  obtain ⟨u, _, n, hn, v, _, l, hl, w, _, h⟩ := h
  split at h
  case isFalse => cases h
  case isTrue =>
    cases h
    have hd := plus_ok definition_ok hl
    have hi : (∀ i ∈ ((importClause (commentOpt v).2).getD (([], none), (commentOpt v).2)).1.1,
        (isNameLower i.1.module = true ∧ i.1.defs ≠ [] ∧
          ∀ n ∈ i.1.defs, isNameCapital n = true) ∧ ∀ s ∈ i.2, GrammarComment s.2) ∧
        ∀ c ∈ ((importClause (commentOpt v).2).getD (([], none), (commentOpt v).2)).1.2.toList,
          GrammarComment c := by
      cases hi : importClause (commentOpt v).2 with
      | none => exact ⟨fun _ h => (by cases h), fun _ h => (by cases h)⟩
      | some x =>
        simp only [importClause, Option.bind_eq_bind, Option.bind_eq_some_iff, Option.pure_def,
          Option.some.injEq] at hi
        obtain ⟨_, _, l, hl, _, _, rfl⟩ := hi
        exact ⟨(plus_ok importItem_ok hl).2, commentOpt_ok _⟩
    refine ⟨⟨nameLower_ok hn, by simpa using hd.1, fun d h => ?_, fun i h => ?_⟩,
      ⟨fun c h => ?_, fun d h => ?_⟩, fun s h => ?_⟩
    · obtain ⟨x, hx, rfl⟩ := List.mem_map.mp h
      exact (hd.2 x hx).1
    · obtain ⟨x, hx, rfl⟩ := List.mem_map.mp h
      exact (hi.1 x hx).1
    · rcases List.mem_append.mp h with h | h
      · exact commentOpt_ok _ c h
      · exact hi.2 c h
    · obtain ⟨x, hx, rfl⟩ := List.mem_map.mp h
      exact (hd.2 x hx).2.1
    · rcases List.mem_append.mp h with h | h
      · obtain ⟨x, hx, h⟩ := List.mem_flatMap.mp h
        exact (hi.1 x hx).2 s h
      · obtain ⟨x, hx, h⟩ := List.mem_flatMap.mp h
        exact (hd.2 x hx).2.2 s h

end Apg
