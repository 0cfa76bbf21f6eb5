import Verif.Spec.Grammar
import Verif.Spec.Text
import Verif.Spec.Decimal

/-!
# How modules are written

Which texts write which module, independent of any parser: the concrete syntax of the ASN.1
subset with free white space between the words. Parameters say how decimals and comments
are written (`Style`).
-/

namespace Apg.Spec

/-- Text. -/
abbrev Chars := List Char

/-- White space: blanks, tabulators and line ends. -/
def Space (w : Chars) : Prop := ∀ c ∈ w, c = ' ' ∨ c = '\t' ∨ c = '\n' ∨ c = '\r'

/-- Blanks only. -/
def Blanks (w : Chars) : Prop := ∀ c ∈ w, c = ' '

/-! ### Numbers -/

/-- A sign, which may be left out; whether it is a minus. -/
inductive Sign : Bool → Chars → Prop
  | none : Sign false []
  | plus : Sign false ['+']
  | minus : Sign true ['-']

/-- A number with its sign. -/
def signed (neg : Bool) (n : Nat) : Int := if neg then -(n : Int) else n

/-- An integer in decimal digits. -/
inductive IntSyntax : Int → Chars → Prop
  | mk {neg sg ds n} : Sign neg sg → readNat 10 ds = some n → IntSyntax (signed neg n) (sg ++ ds)

/-- The exponent of a decimal. -/
inductive ExpSyntax : Int → Chars → Prop
  | mk {c e s} : (c = 'e' ∨ c = 'E') → IntSyntax e s → ExpSyntax e (c :: s)

/-- A decimal with a point or an exponent. The meaning `F` of a decimal (negative, digits as a
number, power of ten) as a floating-point number is a parameter. -/
inductive RealSyntax (F : Bool → Nat → Int → Num) : Num → Chars → Prop
  | point {neg sg a b n} : Sign neg sg → readNat 10 (a ++ b) = some n →
      RealSyntax F (F neg n (-(b.length : Int))) (sg ++ a ++ '.' :: b)
  | pointExp {neg sg a b n e se} : Sign neg sg → readNat 10 (a ++ b) = some n → ExpSyntax e se →
      RealSyntax F (F neg n (e - b.length)) (sg ++ a ++ '.' :: b ++ se)
  | exp {neg sg a n e se} : Sign neg sg → readNat 10 a = some n → ExpSyntax e se →
      RealSyntax F (F neg n e) (sg ++ a ++ se)

/-! ### Comments -/

/-- The mark of a little-endian member. -/
def littleMark : Chars := "ENDIANNESS(LITTLE)".toList

/-- The comment can be told apart from its text: the text does not start with a blank and
does not look like the mark or a unit that is not there. -/
def Plain (c : Comment) : Prop :=
  c.text.toList.head? ≠ some ' ' ∧ '[' ∉ c.text.toList ∧
  (c.little = false → c.unit.toList = [] → ¬ littleMark <+: c.text.toList)

/-- A comment up to the end of its line. -/
inductive CommentSyntax : Comment → Chars → Prop
  | mk {c : Comment} {b₁ b₂ b₃ b₄ mark unit : Chars} : GrammarComment c → Plain c →
      Blanks b₁ → Blanks b₂ → Blanks b₃ → Blanks b₄ →
      (mark = if c.little then littleMark else []) →
      (unit = if c.unit.toList = [] then [] else '[' :: c.unit.toList ++ [']']) →
      CommentSyntax c
        (b₁ ++ "--".toList ++ b₂ ++ mark ++ b₃ ++ unit ++ b₄ ++ c.text.toList ++ ['\n'])

/-- The comment has none of the signs that are refused. -/
def CleanComment (c : Comment) : Prop :=
  '[' ∉ c.text.toList ∧ ']' ∉ c.text.toList ∧ ¬ ['-', '-'] <:+: c.text.toList

/-! ### Styles -/

/-- What is left open in the syntax below. -/
structure Style where
  /-- how decimals are written -/
  real : Num → Chars → Prop
  /-- how comments are written -/
  comment : Comment → Chars → Prop
  /-- comments allowed at places where the module does not keep them -/
  side : Comment → Prop
  /-- after a type that ends a definition there is white space -/
  gap : Prop

/-- Modules in good style: ASCII digits, comments that end with their line. -/
def Style.strict (F : Bool → Nat → Int → Num) : Style :=
  ⟨RealSyntax F, CommentSyntax, CleanComment, True⟩

/-- A decimal whose digits may be of any script. It is some double; which one is only said for ASCII
digits. -/
def AnyReal (F : Bool → Nat → Int → Num) (x : Num) (s : Chars) : Prop :=
  IsDouble x ∧ s ≠ [] ∧ (∀ c ∈ s, reDigit c = true ∨ c ∈ ['+', '-', '.', 'e', 'E']) ∧
  ((∀ c ∈ s, c.toNat < 128) → RealSyntax F x s)

/-- The text does not start with a blank and does not look like a mark that is not there. -/
def Unmarked (c : Comment) : Prop :=
  c.text.toList.head? ≠ some ' ' ∧
  (c.little = false → c.unit.toList = [] → ¬ littleMark <+: c.text.toList)

/-- A comment whose text may stop before the end of the line. -/
inductive AnyComment : Comment → Chars → Prop
  | mk {c : Comment} {b₁ b₂ b₃ b₄ mark unit : Chars} : GrammarComment c → Unmarked c →
      Blanks b₁ → Blanks b₂ → Blanks b₃ → Blanks b₄ →
      (mark = if c.little then littleMark else []) →
      (unit = if c.unit.toList = [] then [] else '[' :: c.unit.toList ++ [']']) →
      AnyComment c (b₁ ++ "--".toList ++ b₂ ++ mark ++ b₃ ++ unit ++ b₄ ++ c.text.toList)

/-- Modules in any style. -/
def Style.loose (F : Bool → Nat → Int → Num) : Style :=
  ⟨AnyReal F, AnyComment, CleanComment, False⟩

/-- A comment or none. -/
inductive OptComment (S : Style) : Option Comment → Chars → Prop
  | none : OptComment S none []
  | some {c s} : S.comment c s → OptComment S (some c) s

/-- A comment at a place where the module does not keep it, or none. -/
inductive SideSyntax (S : Style) : Chars → Prop
  | none : SideSyntax S []
  | some {c s} : S.comment c s → S.side c → SideSyntax S s

/-! ### Types -/

/-- A type, with the blank in front of it. -/
inductive TypeSyntax (S : Style) : AType → Chars → Prop
  | real : TypeSyntax S (.plain "REAL" none none) " REAL".toList
  | realRange {b e sb se} : S.real b sb → S.real e se →
      TypeSyntax S (.plain "REAL" (some b) (some e))
        (" REAL(".toList ++ sb ++ " .. ".toList ++ se ++ [')'])
  | integer : TypeSyntax S (.plain "INTEGER" none none) " INTEGER".toList
  | integerRange {b e sb se} : IntSyntax b sb → IntSyntax e se →
      TypeSyntax S (.plain "INTEGER" (some (.int b)) (some (.int e)))
        (" INTEGER(".toList ++ sb ++ "..".toList ++ se ++ [')'])
  | null : TypeSyntax S (.plain "NULL" none none) " NULL".toList
  | boolean : TypeSyntax S (.plain "BOOLEAN" none none) " BOOLEAN".toList
  | ia5 {n sn} : IntSyntax n sn →
      TypeSyntax S (.str "IA5String" n) (" IA5String (SIZE (".toList ++ sn ++ "))".toList)
  | numeric {n sn} : IntSyntax n sn →
      TypeSyntax S (.str "NumericString" n) (" NumericString (SIZE (".toList ++ sn ++ "))".toList)
  | arr {e se n sn} : IntSyntax n sn → TypeSyntax S e se →
      TypeSyntax S (.arr e n) (" SEQUENCE (SIZE (".toList ++ sn ++ ")) OF".toList ++ se)
  | named {n : String} : isNameCapital n = true →
      TypeSyntax S (.plain n none none) (' ' :: n.toList)

/-! ### WITH COMPONENTS -/

/-- A fixed value in parentheses. -/
inductive LeafSyntax (S : Style) : Leaf → Chars → Prop
  | int {i s w₁ w₂ w₃} : Space w₁ → Space w₂ → Space w₃ → IntSyntax i s →
      LeafSyntax S (.int i) (w₁ ++ '(' :: w₂ ++ s ++ w₃ ++ [')'])
  | real {x s w₁ w₂ w₃} : Space w₁ → Space w₂ → Space w₃ → S.real x s →
      LeafSyntax S (.flt x) (w₁ ++ '(' :: w₂ ++ s ++ w₃ ++ [')'])
  | true {w₁ w₂ w₃} : Space w₁ → Space w₂ → Space w₃ →
      LeafSyntax S (.bool true) (w₁ ++ '(' :: w₂ ++ "TRUE".toList ++ w₃ ++ [')'])
  | false {w₁ w₂ w₃} : Space w₁ → Space w₂ → Space w₃ →
      LeafSyntax S (.bool false) (w₁ ++ '(' :: w₂ ++ "FALSE".toList ++ w₃ ++ [')'])

/-- A clause (`true`) or the items in it (`false`). -/
inductive ClauseSyntax (S : Style) : Bool → Comps → Chars → Prop
  | clause {cs w c s w'} : Space w → SideSyntax S c → ClauseSyntax S false cs s → Space w' →
      ClauseSyntax S true cs (w ++ "(WITH COMPONENTS {".toList ++ c ++ s ++ w' ++ "})".toList)
  | lastLeaf {k : String} {v w s c} : Space w → isNameLower k = true → LeafSyntax S v s →
      SideSyntax S c → ClauseSyntax S false (.leaf k v .nil) (w ++ k.toList ++ s ++ c)
  | lastNode {k : String} {cs w s c} : Space w → isNameLower k = true → ClauseSyntax S true cs s →
      SideSyntax S c → ClauseSyntax S false (.node k cs .nil) (w ++ k.toList ++ s ++ c)
  | leaf {k : String} {v w s w' c r t} : Space w → isNameLower k = true → LeafSyntax S v s →
      Space w' → SideSyntax S c → ClauseSyntax S false r t →
      ClauseSyntax S false (.leaf k v r) (w ++ k.toList ++ s ++ w' ++ [','] ++ c ++ t)
  | node {k : String} {cs w s w' c r t} : Space w → isNameLower k = true →
      ClauseSyntax S true cs s → Space w' → SideSyntax S c → ClauseSyntax S false r t →
      ClauseSyntax S false (.node k cs r) (w ++ k.toList ++ s ++ w' ++ [','] ++ c ++ t)

/-! ### Definitions -/

/-- The members of a sequence or choice. -/
inductive MembersSyntax (S : Style) : List Member → Chars → Prop
  | last {k : String} {y w s c sc} : Space w → isNameLower k = true → TypeSyntax S y s →
      OptComment S c sc → MembersSyntax S [⟨k, y, c, none⟩] (w ++ k.toList ++ s ++ sc)
  | lastClause {k : String} {y w s c sc cs t} : Space w → isNameLower k = true →
      TypeSyntax S y s → OptComment S c sc → ClauseSyntax S true cs t →
      MembersSyntax S [⟨k, y, c, some cs⟩] (w ++ k.toList ++ s ++ sc ++ t)
  | comma {k : String} {y w s w' c sc ms t} : Space w → isNameLower k = true →
      TypeSyntax S y s → Space w' → OptComment S c sc → MembersSyntax S ms t →
      MembersSyntax S (⟨k, y, c, none⟩ :: ms) (w ++ k.toList ++ s ++ w' ++ [','] ++ sc ++ t)
  | clauseComma {k : String} {y w s c sc cs u w' ms t} : Space w → isNameLower k = true →
      TypeSyntax S y s → OptComment S c sc → ClauseSyntax S true cs u → Space w' →
      MembersSyntax S ms t →
      MembersSyntax S (⟨k, y, c, some cs⟩ :: ms)
        (w ++ k.toList ++ s ++ sc ++ u ++ w' ++ [','] ++ t)

/-- The number of an enumeration item, which may be left out. -/
inductive PosSyntax : Int → Chars → Prop
  | none : PosSyntax 0 []
  | some {i s w₁ w₂ w₃} : Space w₁ → Space w₂ → Space w₃ → IntSyntax i s →
      PosSyntax i (w₁ ++ '(' :: w₂ ++ s ++ w₃ ++ [')'])

/-- The items of an enumeration. -/
inductive EnumSyntax (S : Style) : List EnumItem → Chars → Prop
  | last {k : String} {i w s c sc} : Space w → isNameLower k = true → PosSyntax i s →
      OptComment S c sc → EnumSyntax S [⟨k, i, c⟩] (w ++ k.toList ++ s ++ sc)
  | comma {k : String} {i w s w' c sc its t} : Space w → isNameLower k = true → PosSyntax i s →
      Space w' → OptComment S c sc → EnumSyntax S its t →
      EnumSyntax S (⟨k, i, c⟩ :: its) (w ++ k.toList ++ s ++ w' ++ [','] ++ sc ++ t)

/-- A definition. After a type without a comment there is white space. -/
inductive DefSyntax (S : Style) : Def → Chars → Prop
  | seq {n : String} {w w' c sc ms s w''} : Space w → isNameCapital n = true → Space w' →
      OptComment S c sc → MembersSyntax S ms s → Space w'' →
      DefSyntax S (.seq n c ms)
        (w ++ n.toList ++ w' ++ "::= SEQUENCE {".toList ++ sc ++ s ++ w'' ++ ['}'])
  | choice {n : String} {w w' c sc ms s w''} : Space w → isNameCapital n = true → Space w' →
      OptComment S c sc → MembersSyntax S ms s → Space w'' →
      DefSyntax S (.choice n c ms)
        (w ++ n.toList ++ w' ++ "::= CHOICE {".toList ++ sc ++ s ++ w'' ++ ['}'])
  | enum {n : String} {w w' c sc its s w''} : Space w → isNameCapital n = true → Space w' →
      OptComment S c sc → EnumSyntax S its s → Space w'' →
      DefSyntax S (.enum n c its)
        (w ++ n.toList ++ w' ++ "::= ENUMERATED {".toList ++ sc ++ s ++ w'' ++ ['}'])
  | simple {n : String} {w w' y s c sc w''} : Space w → isNameCapital n = true → Space w' →
      TypeSyntax S y s → OptComment S c sc → Space w'' → (S.gap → c = none → w'' ≠ []) →
      DefSyntax S (.simple n c y) (w ++ n.toList ++ w' ++ "::=".toList ++ s ++ sc ++ w'')

/-- Definitions one after the other. -/
inductive DefsSyntax (S : Style) : List Def → Chars → Prop
  | one {d s} : DefSyntax S d s → DefsSyntax S [d] s
  | cons {d s ds t} : DefSyntax S d s → DefsSyntax S ds t → DefsSyntax S (d :: ds) (s ++ t)

/-! ### Modules -/

/-- The names after the first of an import. -/
inductive NamesSyntax : List String → Chars → Prop
  | nil : NamesSyntax [] []
  | cons {n : String} {w w' ns t} : Space w → Space w' → isNameCapital n = true →
      NamesSyntax ns t → NamesSyntax (n :: ns) (w ++ ',' :: w' ++ n.toList ++ t)

/-- Import items one after the other. -/
inductive ImportsSyntax (S : Style) : List ImportItem → Chars → Prop
  | nil : ImportsSyntax S [] []
  | cons {n m : String} {w ns s w' w'' c is t} : Space w → isNameCapital n = true →
      NamesSyntax ns s → Space w' → Space w'' → isNameLower m = true → SideSyntax S c → ImportsSyntax S is t →
      ImportsSyntax S (⟨n :: ns, m⟩ :: is)
        (w ++ n.toList ++ s ++ w' ++ "FROM Module-".toList ++ w'' ++ m.toList ++ c ++ t)

/-- The import clause, which is left out when there is nothing to import. -/
inductive ImportClauseSyntax (S : Style) : List ImportItem → Option Comment → Chars → Prop
  | none : ImportClauseSyntax S [] none []
  | some {i is w s w' c sc} : Space w → ImportsSyntax S (i :: is) s → Space w' → OptComment S c sc →
      ImportClauseSyntax S (i :: is) c (w ++ "IMPORTS".toList ++ s ++ w' ++ [';'] ++ sc)

/-- A module. -/
inductive ModuleSyntax (S : Style) : Module → Chars → Prop
  | mk {n : String} {w w₀ w₁ c sc is ci si ds sd w₂ w₃} : Space w → Space w₀ → isNameLower n = true → Space w₁ →
      OptComment S c sc → ImportClauseSyntax S is ci si → DefsSyntax S ds sd → Space w₂ → Space w₃ →
      ModuleSyntax S ⟨n, c, ci, is, ds⟩
        (w ++ "Module-".toList ++ w₀ ++ n.toList ++ w₁ ++ "DEFINITIONS AUTOMATIC TAGS ::= BEGIN".toList ++
          sc ++ si ++ sd ++ w₂ ++ "END".toList ++ w₃)

/-! ### Files -/

/-- A text as stored in a file, with Unix, Windows or old Macintosh line ends. -/
inductive Stored : Chars → Chars → Prop
  | nil : Stored [] []
  | char {c s t} : c ≠ '\n' → c ≠ '\r' → Stored s t → Stored (c :: s) (c :: t)
  | unix {s t} : Stored s t → Stored ('\n' :: s) ('\n' :: t)
  | mac {s t} : t.head? ≠ some '\n' → Stored s t → Stored ('\n' :: s) ('\r' :: t)
  | windows {s t} : Stored s t → Stored ('\n' :: s) ('\r' :: '\n' :: t)

end Apg.Spec
