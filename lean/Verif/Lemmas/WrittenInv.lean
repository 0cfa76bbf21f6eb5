import Verif.Lemmas.Written

/-!
# What texts say about their modules
-/

namespace Apg
open Parse Spec

/-- The reals of the style are doubles, its comments satisfy `Q`. -/
structure StyleFits (S : Style) (Q : Comment → Prop) : Prop where
  real : ∀ {x s}, S.real x s → IsDouble x
  comment : ∀ {c s}, S.comment c s → Q c

theorem text_real {F : Bool → Nat → Int → Num} (hF : Rounds F) {x : Num} {s : Chars} (h : RealSyntax F x s) :
    IsDouble x := by
  cases h <;> exact double_of hF _ _ _

theorem strict_fits {F : Bool → Nat → Int → Num} (hF : Rounds F) :
    StyleFits (.strict F) (fun c => GrammarComment c ∧ Plain c) :=
  ⟨fun h => text_real hF h, fun h => by cases h with | mk h1 h2 => exact ⟨h1, h2⟩⟩

theorem loose_fits {F : Bool → Nat → Int → Num} : StyleFits (.loose F) (fun c => GrammarComment c ∧ Unmarked c) :=
  ⟨fun h => h.1, fun h => by cases h with | mk h1 h2 => exact ⟨h1, h2⟩⟩

variable {S : Style} {Q : Comment → Prop}

theorem double_isFloat {x : Num} (h : IsDouble x) : isFloat x = true := by
  cases x with
  | int _ => cases h
  | _ => rfl

theorem text_optComment (hS : StyleFits S Q) {c : Option Comment} {s : Chars} (h : OptComment S c s) :
    ∀ x, c = some x → Q x := by
  cases h with
  | none => intro x hx; cases hx
  | some h => intro x hx; cases hx; exact hS.comment h

theorem text_type (hS : StyleFits S Q) {y : AType} {s : Chars} (h : TypeSyntax S y s) :
    GrammarType y ∧ DoublesType y := by
  have lit {a b : String} (h : a ≠ b) {P : Prop} : a = b → P := fun e => absurd e h
  induction h with
  | real => exact ⟨.real, fun _ x hx => by simp at hx⟩
  | realRange h1 h2 =>
    have d1 := hS.real h1
    have d2 := hS.real h2
    refine ⟨.realRange (double_isFloat d1) (double_isFloat d2), fun _ x hx => ?_⟩
    simp only [Option.some.injEq] at hx
    rcases hx with rfl | rfl
    · exact d1
    · exact d2
  | integer => exact ⟨.integer, fun _ x hx => by simp at hx⟩
  | integerRange _ _ => exact ⟨.integerRange, lit (by decide)⟩
  | null => exact ⟨.null, fun _ x hx => by simp at hx⟩
  | boolean => exact ⟨.boolean, fun _ x hx => by simp at hx⟩
  | ia5 _ => exact ⟨.ia5, trivial⟩
  | numeric _ => exact ⟨.numeric, trivial⟩
  | arr _ _ ih => exact ⟨.arr ih.1, ih.2⟩
  | named h => exact ⟨.named h, fun _ x hx => by simp at hx⟩

theorem text_leaf (hS : StyleFits S Q) {v : Leaf} {s : Chars} (h : LeafSyntax S v s) :
    ∀ x, v = .flt x → IsDouble x := by
  cases h with
  | real _ _ _ h => intro x hx; cases hx; exact hS.real h
  | _ => intro x hx; cases hx

theorem text_clause (hS : StyleFits S Q) {b : Bool} {cs : Comps} {s : Chars} (h : ClauseSyntax S b cs s) :
    cs ≠ .nil ∧ GrammarComps cs ∧ DoublesComps cs := by
  induction h with
  | clause _ _ _ _ ih => exact ih
  | lastLeaf _ hk h _ => exact ⟨by simp, ⟨hk, trivial⟩, text_leaf hS h, trivial⟩
  | lastNode _ hk _ _ ih => exact ⟨by simp, ⟨hk, ⟨ih.1, ih.2.1⟩, trivial⟩, ih.2.2, trivial⟩
  | leaf _ hk h _ _ _ ih => exact ⟨by simp, ⟨hk, ih.2.1⟩, text_leaf hS h, ih.2.2⟩
  | node _ hk _ _ _ _ ih1 ih2 => exact ⟨by simp, ⟨hk, ⟨ih1.1, ih1.2.1⟩, ih2.2.1⟩, ih1.2.2, ih2.2.2⟩

/-- What is said about a member. -/
def MemberFits (Q : Comment → Prop) (m : Member) : Prop :=
  GrammarMember m ∧ (∀ x, m.comment = some x → Q x) ∧
  DoublesType m.type ∧ ∀ cs, m.comps = some cs → DoublesComps cs

theorem text_members (hS : StyleFits S Q) {ms : List Member} {s : Chars} (h : MembersSyntax S ms s) :
    ms ≠ [] ∧ ∀ m ∈ ms, MemberFits Q m := by
  have plain {k : String} {y : AType} {c : Option Comment} {s sc : Chars} (hk : isNameLower k = true)
      (ht : TypeSyntax S y s) (hc : OptComment S c sc) : MemberFits Q ⟨k, y, c, none⟩ :=
    ⟨⟨hk, (text_type hS ht).1, fun _ h => by cases h⟩, text_optComment hS hc, (text_type hS ht).2,
      fun _ h => by cases h⟩
  have clause {k : String} {y : AType} {c : Option Comment} {cs : Comps} {s sc t : Chars}
      (hk : isNameLower k = true) (ht : TypeSyntax S y s) (hc : OptComment S c sc)
      (hcs : ClauseSyntax S true cs t) : MemberFits Q ⟨k, y, c, some cs⟩ := by
    obtain ⟨h1, h2, h3⟩ := text_clause hS hcs
    refine ⟨⟨hk, (text_type hS ht).1, ?_⟩, text_optComment hS hc, (text_type hS ht).2, ?_⟩
    · intro _ h; cases h; exact ⟨h1, h2⟩
    · intro _ h; cases h; exact h3
  induction h with
  | last _ hk ht hc =>
    refine ⟨by simp, fun m hm => ?_⟩
    rw [List.mem_singleton] at hm
    rw [hm]; exact plain hk ht hc
  | lastClause _ hk ht hc hcs =>
    refine ⟨by simp, fun m hm => ?_⟩
    rw [List.mem_singleton] at hm
    rw [hm]; exact clause hk ht hc hcs
  | comma _ hk ht _ hc _ ih =>
    refine ⟨by simp, fun m hm => ?_⟩
    rcases List.mem_cons.1 hm with hm | hm
    · rw [hm]; exact plain hk ht hc
    · exact ih.2 m hm
  | clauseComma _ hk ht hc hcs _ _ ih =>
    refine ⟨by simp, fun m hm => ?_⟩
    rcases List.mem_cons.1 hm with hm | hm
    · rw [hm]; exact clause hk ht hc hcs
    · exact ih.2 m hm

theorem text_enum (hS : StyleFits S Q) {its : List EnumItem} {s : Chars} (h : EnumSyntax S its s) :
    its ≠ [] ∧ ∀ it ∈ its, isNameLower it.key = true ∧ ∀ x, it.comment = some x → Q x := by
  induction h with
  | last _ hk _ hc =>
    refine ⟨by simp, fun m hm => ?_⟩
    rw [List.mem_singleton] at hm
    rw [hm]; exact ⟨hk, text_optComment hS hc⟩
  | comma _ hk _ _ hc _ ih =>
    refine ⟨by simp, fun m hm => ?_⟩
    rcases List.mem_cons.1 hm with hm | hm
    · rw [hm]; exact ⟨hk, text_optComment hS hc⟩
    · exact ih.2 m hm

theorem text_def (hS : StyleFits S Q) {d : Def} {s : Chars} (h : DefSyntax S d s) :
    GrammarDef d ∧ (∀ c ∈ commentsOf d, Q c) ∧ DoublesDef d := by
  cases h with
  | seq _ hn _ hc hm _ =>
    obtain ⟨h1, h2⟩ := text_members hS hm
    refine ⟨⟨hn, h1, fun m hm => (h2 m hm).1⟩, fun c hcm => ?_, fun m hm => (h2 m hm).2.2⟩
    simp only [commentsOf, List.mem_append, Option.mem_toList, List.mem_filterMap] at hcm
    rcases hcm with hcm | ⟨m, hm, hcm⟩
    · exact text_optComment hS hc c hcm
    · exact (h2 m hm).2.1 c hcm
  | choice _ hn _ hc hm _ =>
    obtain ⟨h1, h2⟩ := text_members hS hm
    refine ⟨⟨hn, h1, fun m hm => (h2 m hm).1⟩, fun c hcm => ?_, fun m hm => (h2 m hm).2.2⟩
    simp only [commentsOf, List.mem_append, Option.mem_toList, List.mem_filterMap] at hcm
    rcases hcm with hcm | ⟨m, hm, hcm⟩
    · exact text_optComment hS hc c hcm
    · exact (h2 m hm).2.1 c hcm
  | enum _ hn _ hc hm _ =>
    obtain ⟨h1, h2⟩ := text_enum hS hm
    refine ⟨⟨hn, h1, fun m hm => (h2 m hm).1⟩, fun c hcm => ?_, trivial⟩
    simp only [commentsOf, List.mem_append, Option.mem_toList, List.mem_filterMap] at hcm
    rcases hcm with hcm | ⟨m, hm, hcm⟩
    · exact text_optComment hS hc c hcm
    · exact (h2 m hm).2 c hcm
  | simple _ hn _ ht hc _ _ =>
    obtain ⟨h1, h2⟩ := text_type hS ht
    exact ⟨⟨hn, h1⟩, fun c hcm => text_optComment hS hc c (by simpa [commentsOf] using hcm), h2⟩

theorem text_defs (hS : StyleFits S Q) {ds : List Def} {s : Chars} (h : DefsSyntax S ds s) :
    ds ≠ [] ∧ ∀ d ∈ ds, GrammarDef d ∧ (∀ c ∈ commentsOf d, Q c) ∧ DoublesDef d := by
  induction h with
  | one h =>
    refine ⟨by simp, fun d hd => ?_⟩
    rw [List.mem_singleton] at hd
    rw [hd]; exact text_def hS h
  | cons h _ ih =>
    refine ⟨by simp, fun d hd => ?_⟩
    rcases List.mem_cons.1 hd with hd | hd
    · rw [hd]; exact text_def hS h
    · exact ih.2 d hd

theorem text_names {ns : List String} {s : Chars} (h : NamesSyntax ns s) : ∀ n ∈ ns, isNameCapital n = true := by
  induction h with
  | nil => simp
  | cons _ _ hn _ ih =>
    intro n hm
    rcases List.mem_cons.1 hm with hm | hm
    · rw [hm]; exact hn
    · exact ih n hm

theorem text_imports {is : List ImportItem} {s : Chars} (h : ImportsSyntax S is s) :
    ∀ i ∈ is, isNameLower i.module ∧ i.defs ≠ [] ∧ ∀ n ∈ i.defs, isNameCapital n := by
  induction h with
  | nil => simp
  | cons _ hn hns _ _ hm _ _ ih =>
    intro i hi
    rcases List.mem_cons.1 hi with hi | hi
    · rw [hi]
      refine ⟨hm, by simp, fun n hn' => ?_⟩
      rcases List.mem_cons.1 hn' with h | h
      · rw [h]; exact hn
      · exact text_names hns n h
    · exact ih i hi

theorem text_parts (hS : StyleFits S Q) {m : Module} {t : Chars} (h : ModuleSyntax S m t) :
    GrammarModule m ∧ (∀ x ∈ m.comment.toList ++ m.commentImport.toList, Q x) ∧
    (∀ d ∈ m.defs, ∀ c ∈ commentsOf d, Q c) ∧ (∀ d ∈ m.defs, DoublesDef d) ∧
    (m.imports = [] → m.commentImport = none) := by
  cases h with
  | @mk n _ _ _ c sc is ci si ds sd _ _ _ _ hn _ hc hi hd _ _ =>
    obtain ⟨d1, d2⟩ := text_defs hS hd
    have himp : (∀ i ∈ is, isNameLower i.module ∧ i.defs ≠ [] ∧ ∀ n ∈ i.defs, isNameCapital n) ∧
        (∀ x, ci = some x → Q x) ∧ (is = [] → ci = none) := by
      cases hi with
      | none => exact ⟨by simp, fun _ h => (by cases h), fun _ => rfl⟩
      | some _ h _ hci => exact ⟨text_imports h, text_optComment hS hci, fun h => (by cases h)⟩
    have hcs : ∀ x ∈ c.toList ++ ci.toList, Q x := by
      intro x hx
      simp only [List.mem_append, Option.mem_toList] at hx
      exact hx.elim (text_optComment hS hc x) (himp.2.1 x)
    exact ⟨⟨hn, d1, fun d hd => (d2 d hd).1, himp.1⟩, hcs, fun d hd => (d2 d hd).2.1,
      fun d hd => (d2 d hd).2.2, himp.2.2⟩

theorem text_module {F : Bool → Nat → Int → Num} (hF : Rounds F) {m : Module} {t : Chars}
    (h : ModuleSyntax (.strict F) m t) : Expressible m := by
  obtain ⟨h1, h2, h3, h4, h5⟩ := text_parts (strict_fits hF) h
  exact ⟨h1, ⟨fun x hx => (h2 x hx).1, fun d hd x hx => (h3 d hd x hx).1⟩,
    ⟨fun x hx => (h2 x hx).2, fun d hd x hx => (h3 d hd x hx).2⟩, h4, h5⟩

end Apg
