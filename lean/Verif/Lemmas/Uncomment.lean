import Verif.Spec.Comments
import Verif.Lemmas.SyntaxBlock

/-!
# Texts without their comments write modules without comments
-/

namespace Apg

open Parse Spec

/-- Without comments `s` is `s'`, whatever follows. -/
def Cut (s s' : Text) : Prop := ∀ b, uncommentFrom false (s ++ b) = s' ++ uncommentFrom false b

/-- There are no comments in `s`. -/
abbrev Inert (s : Text) : Prop := Cut s s

theorem Cut.append {a a' b b' : Text} (ha : Cut a a') (hb : Cut b b') : Cut (a ++ b) (a' ++ b') := by
  intro x
  rw [List.append_assoc, ha, hb, List.append_assoc]

theorem inert_nil : Inert [] := fun _ => rfl

theorem uncomment_cons {c : Char} (h : c ≠ '-') (t : Text) :
    uncommentFrom false (c :: t) = c :: uncommentFrom false t := by
  rw [uncommentFrom.eq_def]
  split
  · rename_i h'; cases h'
  · rename_i h' _; cases h'
  · rename_i h' ; cases h'; exact absurd rfl h
  · rename_i h'; cases h'; rfl

theorem uncomment_dash {c : Char} (h : c ≠ '-') (t : Text) :
    uncommentFrom false ('-' :: c :: t) = '-' :: uncommentFrom false (c :: t) := by
  rw [uncommentFrom.eq_def]
  split
  · rename_i h'; cases h'
  · rename_i h' _; cases h'
  · rename_i h' ; cases h'; exact absurd rfl h
  · rename_i h'; cases h'; rfl

theorem inert_cons {c : Char} {s : Text} (h : c ≠ '-') (hs : Inert s) : Inert (c :: s) := by
  intro b
  rw [List.cons_append, uncomment_cons h, hs, List.cons_append]

theorem inert_dash {c : Char} {s : Text} (h : c ≠ '-') (hs : Inert (c :: s)) :
    Inert ('-' :: c :: s) := by
  intro b
  have := hs b
  rw [List.cons_append] at this
  rw [List.cons_append, List.cons_append, uncomment_dash h, this]; simp

theorem inert_of {s : Text} (h : ∀ c ∈ s, c ≠ '-') : Inert s := by
  induction s with
  | nil => exact inert_nil
  | cons c s ih => exact inert_cons (h c (by simp)) (ih fun c hc => h c (by simp [hc]))

theorem space_inert {w : Text} (h : Space w) : Inert w :=
  inert_of fun c hc e => by subst e; have := h _ hc; simp at this

/-- A nonempty text that does not start with `-`. -/
def NoDash (s : Text) : Prop := ∃ c r, s = c :: r ∧ c ≠ '-'

theorem inert_after_dash {s : Text} (h : NoDash s) (hs : Inert s) : Inert ('-' :: s) := by
  obtain ⟨c, r, rfl, hc⟩ := h
  exact inert_dash hc hs

/-! ### Names and numbers -/

theorem alnum_ne {c : Char} (h : reAlnum c = true) : c ≠ '-' := by
  rintro rfl; revert h; decide +kernel

theorem nameTail_inert {l : List Char} (h : nameTail l = true) : Inert l := by
  induction l using nameTail.induct with
  | case1 => exact inert_nil
  | case2 c cs ih =>
    rw [nameTail, Bool.and_eq_true] at h
    exact inert_dash (alnum_ne h.1) (inert_cons (alnum_ne h.1) (ih h.2))
  | case3 c cs hne ih =>
    rw [nameTail, Bool.and_eq_true] at h
    · exact inert_cons (alnum_ne h.1) (ih h.2)
    · exact hne

theorem lower_inert {k : String} (h : isNameLower k = true) : Inert k.toList ∧ NoDash k.toList := by
  obtain ⟨c, l, hk, hc, hl⟩ := lower_cases h
  have : c ≠ '-' := by rintro rfl; revert hc; decide +kernel
  rw [hk]
  exact ⟨inert_cons this (nameTail_inert hl), c, l, rfl, this⟩

theorem capital_inert {k : String} (h : isNameCapital k = true) : Inert k.toList := by
  obtain ⟨c, l, hk, hc, hl⟩ := capital_cases h
  have : c ≠ '-' := by rintro rfl; revert hc; decide +kernel
  rw [hk]
  exact inert_cons this (nameTail_inert hl)

theorem NoDash.append {s : Text} (h : NoDash s) (t : Text) : NoDash (s ++ t) := by
  obtain ⟨c, r, rfl, hc⟩ := h
  exact ⟨c, r ++ t, rfl, hc⟩

theorem NoDash.space {w s : Text} (hw : Space w) (h : NoDash s) : NoDash (w ++ s) := by
  cases w with
  | nil => exact h
  | cons c w =>
    exact ⟨c, w ++ s, rfl, fun e => by subst e; have := hw '-' (by simp); simp at this⟩

theorem digits_inert {acc n : Nat} {ds : List Char} (h : readFrom 10 acc ds = some n) :
    ∀ c ∈ ds, c ≠ '-' := by
  induction ds generalizing acc with
  | nil => simp
  | cons c r ih =>
    have hc := readFrom_head h
    obtain ⟨acc', h'⟩ : ∃ a, readFrom 10 a r = some n := by
      rw [readFrom] at h
      split at h
      · split at h
        · exact ⟨_, h⟩
        · cases h
      · cases h
    intro x hx
    rcases List.mem_cons.1 hx with rfl | hx
    · exact (digit_not_sign hc).1
    · exact ih h' x hx

theorem readNat_noDash {n : Nat} {ds : List Char} (h : readNat 10 ds = some n) :
    (∀ c ∈ ds, c ≠ '-') ∧ NoDash ds := by
  obtain ⟨hne, h⟩ := readNat_some h
  have := digits_inert h
  cases ds with
  | nil => exact absurd rfl hne
  | cons c r => exact ⟨this, c, r, rfl, this c (by simp)⟩

theorem sign_inert {neg : Bool} {sg s : Text} (h : Sign neg sg) (hs : NoDash s) (hi : Inert s) :
    Inert (sg ++ s) := by
  cases h with
  | none => exact hi
  | plus => exact inert_cons (by decide) hi
  | minus => exact inert_after_dash hs hi

theorem intSyntax_inert {i : Int} {s : Text} (h : IntSyntax i s) : Inert s := by
  obtain ⟨hs, hn⟩ := h
  obtain ⟨h1, h2⟩ := readNat_noDash hn
  exact sign_inert hs h2 (inert_of h1)

theorem expSyntax_inert {i : Int} {s : Text} (h : ExpSyntax i s) : Inert s ∧ NoDash s := by
  obtain ⟨hc, h⟩ := h
  rename_i c _
  have : c ≠ '-' := by rcases hc with rfl | rfl <;> decide
  exact ⟨inert_cons this (intSyntax_inert h), _, _, rfl, this⟩

theorem point_noDash {a b : Text} {n : Nat} (h : readNat 10 (a ++ b) = some n) :
    Inert (a ++ '.' :: b) ∧ NoDash (a ++ '.' :: b) := by
  obtain ⟨h1, _⟩ := readNat_noDash h
  have hi : ∀ c ∈ a ++ '.' :: b, c ≠ '-' := by
    intro c hc
    rcases List.mem_append.1 hc with hc | hc
    · exact h1 c (by simp [hc])
    · rcases List.mem_cons.1 hc with rfl | hc
      · decide
      · exact h1 c (by simp [hc])
  refine ⟨inert_of hi, ?_⟩
  cases a with
  | nil => exact ⟨_, _, rfl, by decide⟩
  | cons c a => exact ⟨_, _, rfl, hi c (by simp)⟩

theorem realSyntax_inert {F : Bool → Nat → Int → Num} {x : Num} {s : Text}
    (h : RealSyntax F x s) : Inert s := by
  cases h with
  | point hs hn =>
    obtain ⟨h1, h2⟩ := point_noDash hn
    rw [List.append_assoc]; exact sign_inert hs h2 h1
  | pointExp hs hn he =>
    obtain ⟨h1, h2⟩ := point_noDash hn
    rw [List.append_assoc, List.append_assoc, ← List.append_assoc (bs := '.' :: _)]
    exact sign_inert hs (h2.append _) (h1.append (expSyntax_inert he).1)
  | exp hs hn he =>
    obtain ⟨h1, h2⟩ := readNat_noDash hn
    rw [List.append_assoc]
    exact sign_inert hs (h2.append _) ((inert_of h1).append (expSyntax_inert he).1)

/-! ### Comments -/

theorem uncomment_line {s : Text} (h : '\n' ∉ s) (b : Text) :
    uncommentFrom true (s ++ '\n' :: b) = '\n' :: uncommentFrom false b := by
  induction s with
  | nil => rw [List.nil_append, uncommentFrom, if_pos rfl]
  | cons c s ih =>
    simp only [List.mem_cons, not_or] at h
    rw [List.cons_append, uncommentFrom, if_neg (Ne.symm h.1), ih h.2]

theorem blanks_no_newline {b : Text} (h : Blanks b) : '\n' ∉ b := fun hn => by
  have := h _ hn; simp at this

theorem comment_no_newline {c : Comment} (h : GrammarComment c) :
    '\n' ∉ c.text.toList ∧ '\n' ∉ c.unit.toList := by
  constructor
  · intro hn; have := h.1 _ hn; revert this; decide +kernel
  · intro hn; have := h.2 _ hn; revert this; decide +kernel

theorem comment_cut {c : Comment} {s : Text} (h : CommentSyntax c s) :
    ∃ w, Space w ∧ w ≠ [] ∧ Cut s w := by
  obtain ⟨hg, _, h1, h2, h3, h4, hm, hu⟩ := h
  rename_i b₁ b₂ b₃ b₄ mark unit _
  refine ⟨b₁ ++ ['\n'], space_append h1.space space_newline, by simp, fun b => ?_⟩
  obtain ⟨n1, n2⟩ := comment_no_newline hg
  have hn : '\n' ∉ b₂ ++ mark ++ b₃ ++ unit ++ b₄ ++ c.text.toList := by
    have hl : '\n' ∉ littleMark := by decide +kernel
    have hm' : '\n' ∉ mark := by rw [hm]; split <;> simp [hl]
    have hu' : '\n' ∉ unit := by rw [hu]; split <;> simp [n2]
    simp only [List.mem_append, not_or]
    exact ⟨⟨⟨⟨⟨blanks_no_newline h2, hm'⟩, blanks_no_newline h3⟩, hu'⟩, blanks_no_newline h4⟩, n1⟩
  have e : b₁ ++ "--".toList ++ b₂ ++ mark ++ b₃ ++ unit ++ b₄ ++ c.text.toList ++ ['\n'] ++ b =
      b₁ ++ ('-' :: '-' :: ((b₂ ++ mark ++ b₃ ++ unit ++ b₄ ++ c.text.toList) ++ '\n' :: b)) := by
    rw [lMinus]; simp
  rw [e, space_inert h1.space, uncommentFrom, uncomment_line hn]
  simp

theorem optComment_cut {F : Bool → Nat → Int → Num} {c : Option Comment} {s : Text} (h : OptComment (.strict F) c s) :
    ∃ w, Space w ∧ (c ≠ none → w ≠ []) ∧ Cut s w := by
  cases h with
  | none => exact ⟨[], space_nil, fun h => absurd rfl h, inert_nil⟩
  | some h =>
    obtain ⟨w, h1, h2, h3⟩ := comment_cut h
    exact ⟨w, h1, fun _ => h2, h3⟩

theorem side_cut {F : Bool → Nat → Int → Num} {s : Text} (h : SideSyntax (.strict F) s) : ∃ w, Space w ∧ Cut s w := by
  cases h with
  | none => exact ⟨[], space_nil, inert_nil⟩
  | some h =>
    obtain ⟨w, h1, _, h3⟩ := comment_cut h
    exact ⟨w, h1, h3⟩

/-! ### Types and values -/

theorem inert_lit {s : Text} (h : (s.all fun c => c != '-') = true) : Inert s :=
  inert_of fun c hc => by simpa using List.all_eq_true.1 h c hc

theorem type_inert {F : Bool → Nat → Int → Num} {y : AType} {s : Text}
    (h : TypeSyntax (.strict F) y s) : Inert s := by
  induction h with
  | real => exact inert_lit (by decide +kernel)
  | realRange hb he =>
    exact ((((inert_lit (by decide +kernel)).append (realSyntax_inert hb)).append
      (inert_lit (by decide +kernel))).append (realSyntax_inert he)).append (inert_lit (by decide +kernel))
  | integer => exact inert_lit (by decide +kernel)
  | integerRange hb he =>
    exact ((((inert_lit (by decide +kernel)).append (intSyntax_inert hb)).append
      (inert_lit (by decide +kernel))).append (intSyntax_inert he)).append (inert_lit (by decide +kernel))
  | null => exact inert_lit (by decide +kernel)
  | boolean => exact inert_lit (by decide +kernel)
  | ia5 hn =>
    exact ((inert_lit (by decide +kernel)).append (intSyntax_inert hn)).append (inert_lit (by decide +kernel))
  | numeric hn =>
    exact ((inert_lit (by decide +kernel)).append (intSyntax_inert hn)).append (inert_lit (by decide +kernel))
  | arr hn _ ih =>
    exact (((inert_lit (by decide +kernel)).append (intSyntax_inert hn)).append
      (inert_lit (by decide +kernel))).append ih
  | named hn => exact inert_cons (by decide) (capital_inert hn)

theorem parens_inert {w₁ w₂ w₃ s : Text} (h1 : Space w₁) (h2 : Space w₂) (h3 : Space w₃)
    (h : Inert s) : Inert (w₁ ++ '(' :: w₂ ++ s ++ w₃ ++ [')']) :=
  ((((space_inert h1).append (inert_cons (by decide) (space_inert h2))).append h).append
    (space_inert h3)).append (inert_lit (by decide))

theorem leaf_inert {F : Bool → Nat → Int → Num} {v : Leaf} {s : Text}
    (h : LeafSyntax (.strict F) v s) : Inert s := by
  cases h with
  | int h1 h2 h3 h => exact parens_inert h1 h2 h3 (intSyntax_inert h)
  | real h1 h2 h3 h => exact parens_inert h1 h2 h3 (realSyntax_inert h)
  | true h1 h2 h3 => exact parens_inert h1 h2 h3 (inert_lit (by decide +kernel))
  | false h1 h2 h3 => exact parens_inert h1 h2 h3 (inert_lit (by decide +kernel))

theorem pos_inert {i : Int} {s : Text} (h : PosSyntax i s) : Inert s := by
  cases h with
  | none => exact inert_nil
  | some h1 h2 h3 h => exact parens_inert h1 h2 h3 (intSyntax_inert h)

/-! ### White space in front -/

theorem Spec.ClauseSyntax.space {S : Style} {b : Bool} {cs : Comps} {v s : Text} (hv : Space v)
    (h : ClauseSyntax S b cs s) : ClauseSyntax S b cs (v ++ s) := by
  cases h with
  | clause h1 h2 h3 h4 =>
    have := ClauseSyntax.clause (S := S) (space_append hv h1) h2 h3 h4
    simpa only [List.append_assoc] using this
  | lastLeaf h1 h2 h3 h4 =>
    have := ClauseSyntax.lastLeaf (S := S) (space_append hv h1) h2 h3 h4
    simpa only [List.append_assoc] using this
  | lastNode h1 h2 h3 h4 =>
    have := ClauseSyntax.lastNode (S := S) (space_append hv h1) h2 h3 h4
    simpa only [List.append_assoc] using this
  | leaf h1 h2 h3 h4 h5 h6 =>
    have := ClauseSyntax.leaf (S := S) (space_append hv h1) h2 h3 h4 h5 h6
    simpa only [List.append_assoc] using this
  | node h1 h2 h3 h4 h5 h6 =>
    have := ClauseSyntax.node (S := S) (space_append hv h1) h2 h3 h4 h5 h6
    simpa only [List.append_assoc] using this

theorem Spec.MembersSyntax.space {S : Style} {ms : List Member} {v s : Text} (hv : Space v)
    (h : MembersSyntax S ms s) : MembersSyntax S ms (v ++ s) := by
  cases h with
  | last h1 h2 h3 h4 =>
    have := MembersSyntax.last (S := S) (space_append hv h1) h2 h3 h4
    simpa only [List.append_assoc] using this
  | lastClause h1 h2 h3 h4 h5 =>
    have := MembersSyntax.lastClause (S := S) (space_append hv h1) h2 h3 h4 h5
    simpa only [List.append_assoc] using this
  | comma h1 h2 h3 h4 h5 h6 =>
    have := MembersSyntax.comma (S := S) (space_append hv h1) h2 h3 h4 h5 h6
    simpa only [List.append_assoc] using this
  | clauseComma h1 h2 h3 h4 h5 h6 h7 =>
    have := MembersSyntax.clauseComma (S := S) (space_append hv h1) h2 h3 h4 h5 h6 h7
    simpa only [List.append_assoc] using this

theorem Spec.EnumSyntax.space {S : Style} {is : List EnumItem} {v s : Text} (hv : Space v)
    (h : EnumSyntax S is s) : EnumSyntax S is (v ++ s) := by
  cases h with
  | last h1 h2 h3 h4 =>
    have := EnumSyntax.last (S := S) (space_append hv h1) h2 h3 h4
    simpa only [List.append_assoc] using this
  | comma h1 h2 h3 h4 h5 h6 =>
    have := EnumSyntax.comma (S := S) (space_append hv h1) h2 h3 h4 h5 h6
    simpa only [List.append_assoc] using this

theorem Spec.DefSyntax.space {S : Style} {d : Def} {v s : Text} (hv : Space v)
    (h : DefSyntax S d s) : DefSyntax S d (v ++ s) := by
  cases h with
  | seq h1 h2 h3 h4 h5 h6 =>
    have := DefSyntax.seq (S := S) (space_append hv h1) h2 h3 h4 h5 h6
    simpa only [List.append_assoc] using this
  | choice h1 h2 h3 h4 h5 h6 =>
    have := DefSyntax.choice (S := S) (space_append hv h1) h2 h3 h4 h5 h6
    simpa only [List.append_assoc] using this
  | enum h1 h2 h3 h4 h5 h6 =>
    have := DefSyntax.enum (S := S) (space_append hv h1) h2 h3 h4 h5 h6
    simpa only [List.append_assoc] using this
  | simple h1 h2 h3 h4 h5 h6 h7 =>
    have := DefSyntax.simple (S := S) (space_append hv h1) h2 h3 h4 h5 h6 h7
    simpa only [List.append_assoc] using this

theorem Spec.DefsSyntax.space {S : Style} {ds : List Def} {v s : Text} (hv : Space v)
    (h : DefsSyntax S ds s) : DefsSyntax S ds (v ++ s) := by
  cases h with
  | one h => exact .one (h.space hv)
  | cons h h' =>
    have := DefsSyntax.cons (h.space hv) h'
    simpa only [List.append_assoc] using this

theorem Spec.ImportsSyntax.space {S : Style} {i : ImportItem} {is : List ImportItem} {v s : Text} (hv : Space v)
    (h : ImportsSyntax S (i :: is) s) : ImportsSyntax S (i :: is) (v ++ s) := by
  cases h with
  | cons h1 h2 h3 h4 h5 h6 h7 h8 =>
    have := ImportsSyntax.cons (S := S) (space_append hv h1) h2 h3 h4 h5 h6 h7 h8
    simpa only [List.append_assoc] using this

/-! ### Clauses -/

theorem clause_cut {F : Bool → Nat → Int → Num} {b : Bool} {cs : Comps} {s : Text}
    (h : ClauseSyntax (.strict F) b cs s) :
    ∃ s' w, Space w ∧ (b = true → w = []) ∧ Cut s (s' ++ w) ∧ ClauseSyntax (.strict F) b cs s' := by
  induction h with
  | clause h1 h2 _ h4 ih =>
    obtain ⟨v, hv, hc⟩ := side_cut h2
    obtain ⟨s', w', hw', _, hs, hsyn⟩ := ih
    refine ⟨_, [], space_nil, fun _ => rfl, ?_,
      .clause (c := []) h1 .none (hsyn.space hv) (space_append hw' h4)⟩
    have := ((((space_inert h1).append (inert_lit (s := "(WITH COMPONENTS {".toList)
      (by decide +kernel))).append hc).append hs).append
      ((space_inert h4).append (inert_lit (s := "})".toList) (by decide +kernel)))
    simpa only [List.append_assoc, List.append_nil, List.nil_append] using this
  | lastLeaf h1 h2 h3 h4 =>
    obtain ⟨v, hv, hc⟩ := side_cut h4
    refine ⟨_, v, hv, by simp, ?_, .lastLeaf (c := []) h1 h2 h3 .none⟩
    rw [List.append_nil]
    exact (((space_inert h1).append (lower_inert h2).1).append (leaf_inert h3)).append hc
  | lastNode h1 h2 h3 h4 ih =>
    obtain ⟨v, hv, hc⟩ := side_cut h4
    obtain ⟨s', w', hw', hw0, hs, hsyn⟩ := ih
    rw [hw0 rfl, List.append_nil] at hs
    refine ⟨_, v, hv, by simp, ?_, .lastNode (c := []) h1 h2 hsyn .none⟩
    rw [List.append_nil]
    exact (((space_inert h1).append (lower_inert h2).1).append hs).append hc
  | leaf h1 h2 h3 h4 h5 _ ih =>
    obtain ⟨v, hv, hc⟩ := side_cut h5
    obtain ⟨s', w', hw', _, hs, hsyn⟩ := ih
    refine ⟨_, w', hw', by simp, ?_, .leaf (c := []) h1 h2 h3 h4 .none (hsyn.space hv)⟩
    have := ((((((space_inert h1).append (lower_inert h2).1).append (leaf_inert h3)).append
      (space_inert h4)).append (inert_lit (s := [',']) (by decide))).append hc).append hs
    simpa only [List.append_assoc, List.append_nil, List.nil_append] using this
  | node h1 h2 _ h4 h5 _ ih1 ih =>
    obtain ⟨v, hv, hc⟩ := side_cut h5
    obtain ⟨s1, w1, hw1, hw0, hs1, hsyn1⟩ := ih1
    rw [hw0 rfl, List.append_nil] at hs1
    obtain ⟨s', w', hw', _, hs, hsyn⟩ := ih
    refine ⟨_, w', hw', by simp, ?_, .node (c := []) h1 h2 hsyn1 h4 .none (hsyn.space hv)⟩
    have := ((((((space_inert h1).append (lower_inert h2).1).append hs1).append
      (space_inert h4)).append (inert_lit (s := [',']) (by decide))).append hc).append hs
    simpa only [List.append_assoc, List.append_nil, List.nil_append] using this

theorem clause_cut_true {F : Bool → Nat → Int → Num} {cs : Comps} {s : Text}
    (h : ClauseSyntax (.strict F) true cs s) :
    ∃ s', Cut s s' ∧ ClauseSyntax (.strict F) true cs s' := by
  obtain ⟨s', w, _, hw, hc, hs⟩ := clause_cut h
  rw [hw rfl, List.append_nil] at hc
  exact ⟨s', hc, hs⟩

/-! ### Members and items -/

theorem members_cut {F : Bool → Nat → Int → Num} {ms : List Member} {s : Text}
    (h : MembersSyntax (.strict F) ms s) :
    ∃ s' w, Space w ∧ Cut s (s' ++ w) ∧ MembersSyntax (.strict F) (ms.map bareMember) s' := by
  induction h with
  | last h1 h2 h3 h4 =>
    obtain ⟨v, hv, _, hc⟩ := optComment_cut h4
    refine ⟨_, v, hv, ?_, .last h1 h2 h3 .none⟩
    rw [List.append_nil]
    exact (((space_inert h1).append (lower_inert h2).1).append (type_inert h3)).append hc
  | lastClause h1 h2 h3 h4 h5 =>
    obtain ⟨v, hv, _, hc⟩ := optComment_cut h4
    obtain ⟨t', ht, hsyn⟩ := clause_cut_true h5
    refine ⟨_, [], space_nil, ?_, .lastClause h1 h2 h3 .none (hsyn.space hv)⟩
    have := ((((space_inert h1).append (lower_inert h2).1).append (type_inert h3)).append hc).append ht
    simpa only [List.append_assoc, List.append_nil, List.nil_append] using this
  | comma h1 h2 h3 h4 h5 _ ih =>
    obtain ⟨v, hv, _, hc⟩ := optComment_cut h5
    obtain ⟨s', w', hw', hs, hsyn⟩ := ih
    refine ⟨_, w', hw', ?_, .comma h1 h2 h3 h4 .none (hsyn.space hv)⟩
    have := ((((((space_inert h1).append (lower_inert h2).1).append (type_inert h3)).append
      (space_inert h4)).append (inert_lit (s := [',']) (by decide))).append hc).append hs
    simpa only [List.append_assoc, List.append_nil, List.nil_append] using this
  | clauseComma h1 h2 h3 h4 h5 h6 _ ih =>
    obtain ⟨v, hv, _, hc⟩ := optComment_cut h4
    obtain ⟨t', ht, htsyn⟩ := clause_cut_true h5
    obtain ⟨s', w', hw', hs, hsyn⟩ := ih
    refine ⟨_, w', hw', ?_, .clauseComma h1 h2 h3 .none (htsyn.space hv) h6 hsyn⟩
    have := (((((((space_inert h1).append (lower_inert h2).1).append (type_inert h3)).append hc).append
      ht).append (space_inert h6)).append (inert_lit (s := [',']) (by decide))).append hs
    simpa only [List.append_assoc, List.append_nil, List.nil_append] using this

theorem enum_cut {F : Bool → Nat → Int → Num} {is : List EnumItem} {s : Text}
    (h : EnumSyntax (.strict F) is s) :
    ∃ s' w, Space w ∧ Cut s (s' ++ w) ∧ EnumSyntax (.strict F) (is.map bareItem) s' := by
  induction h with
  | last h1 h2 h3 h4 =>
    obtain ⟨v, hv, _, hc⟩ := optComment_cut h4
    refine ⟨_, v, hv, ?_, .last h1 h2 h3 .none⟩
    rw [List.append_nil]
    exact (((space_inert h1).append (lower_inert h2).1).append (pos_inert h3)).append hc
  | comma h1 h2 h3 h4 h5 _ ih =>
    obtain ⟨v, hv, _, hc⟩ := optComment_cut h5
    obtain ⟨s', w', hw', hs, hsyn⟩ := ih
    refine ⟨_, w', hw', ?_, .comma h1 h2 h3 h4 .none (hsyn.space hv)⟩
    have := ((((((space_inert h1).append (lower_inert h2).1).append (pos_inert h3)).append
      (space_inert h4)).append (inert_lit (s := [',']) (by decide))).append hc).append hs
    simpa only [List.append_assoc, List.append_nil, List.nil_append] using this

/-! ### Definitions -/

theorem block_cut {w n w' o sc v s s' w₁ w'' : Text} (h1 : Space w) (h2 : Inert n) (h3 : Space w')
    (ho : Inert o) (hc : Cut sc v) (hs : Cut s (s' ++ w₁)) (h6 : Space w'') :
    Cut (w ++ n ++ w' ++ o ++ sc ++ s ++ w'' ++ ['}'])
      (w ++ n ++ w' ++ o ++ [] ++ (v ++ s') ++ (w₁ ++ w'') ++ ['}']) := by
  have := ((((((space_inert h1).append h2).append (space_inert h3)).append ho).append hc).append
    hs).append ((space_inert h6).append (inert_lit (s := ['}']) (by decide)))
  simpa only [List.append_assoc, List.append_nil, List.nil_append] using this

theorem def_cut {F : Bool → Nat → Int → Num} {d : Def} {s : Text}
    (h : DefSyntax (.strict F) d s) : ∃ s', Cut s s' ∧ DefSyntax (.strict F) (bareDef d) s' := by
  cases h with
  | seq h1 h2 h3 h4 h5 h6 =>
    obtain ⟨v, hv, _, hc⟩ := optComment_cut h4
    obtain ⟨s', w₁, hw₁, hs, hsyn⟩ := members_cut h5
    exact ⟨_, block_cut h1 (capital_inert h2) h3 (inert_lit (by decide +kernel)) hc hs h6,
      .seq h1 h2 h3 .none (hsyn.space hv) (space_append hw₁ h6)⟩
  | choice h1 h2 h3 h4 h5 h6 =>
    obtain ⟨v, hv, _, hc⟩ := optComment_cut h4
    obtain ⟨s', w₁, hw₁, hs, hsyn⟩ := members_cut h5
    exact ⟨_, block_cut h1 (capital_inert h2) h3 (inert_lit (by decide +kernel)) hc hs h6,
      .choice h1 h2 h3 .none (hsyn.space hv) (space_append hw₁ h6)⟩
  | enum h1 h2 h3 h4 h5 h6 =>
    obtain ⟨v, hv, _, hc⟩ := optComment_cut h4
    obtain ⟨s', w₁, hw₁, hs, hsyn⟩ := enum_cut h5
    exact ⟨_, block_cut h1 (capital_inert h2) h3 (inert_lit (by decide +kernel)) hc hs h6,
      .enum h1 h2 h3 .none (hsyn.space hv) (space_append hw₁ h6)⟩
  | simple h1 h2 h3 h4 h5 h6 h7 =>
    obtain ⟨v, hv, hne, hc⟩ := optComment_cut h5
    refine ⟨_, ?_, .simple h1 h2 h3 h4 .none (space_append hv h6) fun hg _ => ?_⟩
    · have := ((((((space_inert h1).append (capital_inert h2)).append (space_inert h3)).append
        (inert_lit (s := "::=".toList) (by decide +kernel))).append (type_inert h4)).append hc).append
        (space_inert h6)
      simpa only [List.append_assoc, List.append_nil, List.nil_append] using this
    · rename_i c _ _ _
      by_cases hcn : c = none
      · have := h7 hg hcn
        intro e; exact this (List.append_eq_nil_iff.1 e).2
      · have := hne hcn
        intro e; exact this (List.append_eq_nil_iff.1 e).1

theorem defs_cut {F : Bool → Nat → Int → Num} {ds : List Def} {s : Text}
    (h : DefsSyntax (.strict F) ds s) :
    ∃ s', Cut s s' ∧ DefsSyntax (.strict F) (ds.map bareDef) s' := by
  induction h with
  | one h =>
    obtain ⟨s', hc, hs⟩ := def_cut h
    exact ⟨s', hc, .one hs⟩
  | cons h _ ih =>
    obtain ⟨s', hc, hs⟩ := def_cut h
    obtain ⟨t', hc', hs'⟩ := ih
    exact ⟨s' ++ t', hc.append hc', .cons hs hs'⟩

/-! ### Modules -/

theorem names_inert {ns : List String} {s : Text} (h : NamesSyntax ns s) : Inert s := by
  induction h with
  | nil => exact inert_nil
  | cons h1 h2 h3 _ ih =>
    exact (((space_inert h1).append (inert_cons (by decide) (space_inert h2))).append
      (capital_inert h3)).append ih

theorem module_inert {p w : Text} {m : String} (hp : (p.all fun c => c != '-') = true) (hw : Space w)
    (hm : isNameLower m = true) : Inert (p ++ ['-'] ++ w ++ m.toList) := by
  obtain ⟨h1, h2⟩ := lower_inert hm
  have := (inert_lit hp).append (inert_after_dash (h2.space hw) ((space_inert hw).append h1))
  simpa only [List.append_assoc, List.cons_append, List.nil_append] using this

theorem imports_cut {F : Bool → Nat → Int → Num} {is : List ImportItem} {s : Text}
    (h : ImportsSyntax (.strict F) is s) :
    ∃ s' w, Space w ∧ Cut s (s' ++ w) ∧ ImportsSyntax (.strict F) is s' := by
  induction h with
  | nil => exact ⟨[], [], space_nil, inert_nil, .nil⟩
  | cons h1 h2 h3 h4 h5 h6 h7 h8 ih =>
    obtain ⟨v, hv, hc⟩ := side_cut h7
    obtain ⟨s', w', hw', hs, hsyn⟩ := ih
    have e : "FROM Module-".toList = "FROM Module".toList ++ ['-'] := by decide +kernel
    have key := ((((space_inert h1).append (capital_inert h2)).append (names_inert h3)).append
      (space_inert h4)).append (module_inert (p := "FROM Module".toList) (by decide +kernel) h5 h6)
    have key := (key.append hc).append hs
    rename_i is _ _
    cases is with
    | nil =>
      cases hsyn
      refine ⟨_, v ++ w', space_append hv hw', ?_, .cons (c := []) h1 h2 h3 h4 h5 h6 .none .nil⟩
      rw [e]
      generalize "FROM Module".toList = x at key ⊢
      simpa only [List.append_assoc, List.append_nil, List.nil_append] using key
    | cons i is =>
      refine ⟨_, w', hw', ?_, .cons (c := []) h1 h2 h3 h4 h5 h6 .none (hsyn.space hv)⟩
      rw [e]
      generalize "FROM Module".toList = x at key ⊢
      simpa only [List.append_assoc, List.append_nil, List.nil_append] using key

theorem importClause_cut {F : Bool → Nat → Int → Num} {is : List ImportItem} {c : Option Comment}
    {s v : Text} (hv : Space v) (h : ImportClauseSyntax (.strict F) is c s) :
    ∃ s' w, Space w ∧ Cut s (s' ++ w) ∧ (∀ u, Cut u v → ∃ s' w, Space w ∧ Cut (u ++ s) (s' ++ w) ∧
      ImportClauseSyntax (.strict F) is none s') := by
  cases h with
  | none => exact ⟨[], [], space_nil, inert_nil, fun u hu => ⟨[], v, hv, by simpa using hu, .none⟩⟩
  | some h1 h2 h3 h4 =>
    obtain ⟨x, hx, _, hc⟩ := optComment_cut h4
    obtain ⟨s', w', hw', hs, hsyn⟩ := imports_cut h2
    have key := (((space_inert h1).append (inert_lit (s := "IMPORTS".toList) (by decide +kernel))).append
      hs).append (((space_inert h3).append (inert_lit (s := [';']) (by decide))).append hc)
    refine ⟨_, [], space_nil, by rw [List.append_nil]; simpa only [List.append_assoc] using key,
      fun u hu => ⟨_, x, hx, ?_, .some (space_append hv h1) hsyn (space_append hw' h3) .none⟩⟩
    have := hu.append key
    simpa only [List.append_assoc, List.append_nil, List.nil_append] using this

/-- Without comments the text of a module writes the module without comments. -/
theorem module_cut {F : Bool → Nat → Int → Num} {m : Module} {t : Text}
    (h : ModuleSyntax (.strict F) m t) : ModuleSyntax (.strict F) (bare m) (uncomment t) := by
  obtain ⟨h1, h2, h3, h4, h5, h6, h7, h8, h9⟩ := h
  obtain ⟨v, hv, _, hc⟩ := optComment_cut h5
  obtain ⟨_, _, _, _, hi⟩ := importClause_cut hv h6
  obtain ⟨si, wi, hwi, hsi, hisyn⟩ := hi _ hc
  obtain ⟨sd, hsd, hdsyn⟩ := defs_cut h7
  have e : "Module-".toList = "Module".toList ++ ['-'] := by decide +kernel
  have key := ((((((space_inert h1).append (module_inert (p := "Module".toList) (by decide +kernel) h2
    h3)).append (space_inert h4)).append (inert_lit (s := "DEFINITIONS AUTOMATIC TAGS ::= BEGIN".toList)
    (by decide +kernel))).append hsi).append hsd).append (((space_inert h8).append
    (inert_lit (s := "END".toList) (by decide +kernel))).append (space_inert h9))
  have key := key []
  have res := ModuleSyntax.mk (S := .strict F) h1 h2 h3 h4 .none hisyn (hdsyn.space hwi) h8 h9
  rw [e] at res ⊢
  generalize "Module".toList = x at key res ⊢
  generalize "DEFINITIONS AUTOMATIC TAGS ::= BEGIN".toList = y at key res ⊢
  generalize "END".toList = z at key res ⊢
  simp only [List.append_assoc, List.append_nil, uncommentFrom] at key res ⊢
  rw [uncomment, key]
  exact res

end Apg
