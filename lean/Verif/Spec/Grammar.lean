import Verif.Model.Ast

/-!
# What the grammar guarantees

Predicates on syntax trees that hold for every tree textX builds from
`asn1_parser/asn1/grammar.py`. They are hypotheses of theorems, never conclusions.
-/

namespace Apg.Spec

/-- First code points of the blocks of ten Unicode decimal digits (category `Nd`,
Unicode 14). Python's `\d` in a `str` pattern matches all of them. -/
def digitBlocks : List Nat :=
  [48, 1632, 1776, 1984, 2406, 2534, 2662, 2790, 2918, 3046, 3174, 3302, 3430, 3558, 3664,
   3792, 3872, 4160, 4240, 6112, 6160, 6470, 6608, 6784, 6800, 6992, 7088, 7232, 7248, 42528,
   43216, 43264, 43472, 43504, 43600, 44016, 65296, 66720, 68912, 69734, 69872, 69942, 70096,
   70384, 70736, 70864, 71248, 71360, 71472, 71904, 72016, 72784, 73040, 73120, 92768, 92864,
   93008, 120782, 120792, 120802, 120812, 120822, 123200, 123632, 125264, 130032]

/-- `\d` -/
def reDigit (c : Char) : Bool := digitBlocks.any fun s => s ≤ c.toNat && c.toNat < s + 10

/-- `[a-z]` -/
def reLower (c : Char) : Bool := 'a' ≤ c && c ≤ 'z'

/-- `[A-Z]` -/
def reUpper (c : Char) : Bool := 'A' ≤ c && c ≤ 'Z'

/-- `[a-z\d]` -/
def reAlnum (c : Char) : Bool := reLower c || reDigit c

/-- `[a-z\d]*(-[a-z\d]+)*` (`grammar.py:27-33`), deterministically. -/
def nameTail : List Char → Bool
  | [] => true
  | '-' :: c :: cs => reAlnum c && nameTail cs
  | c :: cs => reAlnum c && nameTail cs

/-- `NameLower` (`grammar.py:27-29`). -/
def isNameLower (s : String) : Bool :=
  match s.toList with
  | c :: cs => reLower c && nameTail cs
  | [] => false

/-- `NameCapital` (`grammar.py:31-33`). -/
def isNameCapital (s : String) : Bool :=
  match s.toList with
  | c :: cs => reUpper c && nameTail cs
  | [] => false

/-- A finite or infinite float literal. -/
def isFloat : Num → Bool
  | .int _ => false
  | _ => true

/-- `Asn1Type` (`grammar.py:54-62,133-141`). -/
inductive GrammarType : AType → Prop
  | real : GrammarType (.plain "REAL" none none)
  | realRange {b e} : isFloat b → isFloat e → GrammarType (.plain "REAL" (some b) (some e))
  | integer : GrammarType (.plain "INTEGER" none none)
  | integerRange {b e : Int} : GrammarType (.plain "INTEGER" (some (.int b)) (some (.int e)))
  | null : GrammarType (.plain "NULL" none none)
  | boolean : GrammarType (.plain "BOOLEAN" none none)
  | ia5 {len} : GrammarType (.str "IA5String" len)
  | numeric {len} : GrammarType (.str "NumericString" len)
  | arr {e len} : GrammarType e → GrammarType (.arr e len)
  | named {n} : isNameCapital n → GrammarType (.plain n none none)

/-- The items of a WITH COMPONENTS clause (`grammar.py:88-113`). -/
def GrammarComps : Comps → Prop
  | .nil => True
  | .leaf k _ r => isNameLower k ∧ GrammarComps r
  | .node k c r => isNameLower k ∧ (c ≠ .nil ∧ GrammarComps c) ∧ GrammarComps r

/-- A member of a sequence or choice (`grammar.py:64-86`). -/
def GrammarMember (m : Member) : Prop :=
  isNameLower m.key ∧ GrammarType m.type ∧ ∀ cs, m.comps = some cs → cs ≠ .nil ∧ GrammarComps cs

/-- A definition as the grammar builds it (`grammar.py:35-131`). -/
def GrammarDef : Def → Prop
  | .seq n _ ms => isNameCapital n ∧ ms ≠ [] ∧ ∀ m ∈ ms, GrammarMember m
  | .choice n _ ms => isNameCapital n ∧ ms ≠ [] ∧ ∀ m ∈ ms, GrammarMember m
  | .enum n _ its => isNameCapital n ∧ its ≠ [] ∧ ∀ it ∈ its, isNameLower it.key
  | .simple n _ t => isNameCapital n ∧ GrammarType t

/-- A module as the grammar builds it (`grammar.py:2-14`). -/
def GrammarModule (m : Module) : Prop :=
  isNameLower m.name ∧ m.defs ≠ [] ∧ (∀ d ∈ m.defs, GrammarDef d) ∧
  ∀ i ∈ m.imports, isNameLower i.module ∧ i.defs ≠ [] ∧ ∀ n ∈ i.defs, isNameCapital n

/-- A comment (`grammar.py:16-25`): text of the characters from blank to `_` and lower-case
letters, unit of letters, digits, `%`, `/` and `^`. -/
def GrammarComment (c : Comment) : Prop :=
  (∀ x ∈ c.text.toList, (' ' ≤ x ∧ x ≤ '_') ∨ reLower x = true) ∧
  ∀ x ∈ c.unit.toList, reLower x = true ∨ reUpper x = true ∨ reDigit x = true ∨
    x = '%' ∨ x = '/' ∨ x = '^'

/-- The comments of a definition. -/
def commentsOf : Def → List Comment
  | .seq _ c ms => c.toList ++ ms.filterMap (·.comment)
  | .choice _ c ms => c.toList ++ ms.filterMap (·.comment)
  | .enum _ c its => c.toList ++ its.filterMap (·.comment)
  | .simple _ c _ => c.toList

/-- The comments of a module are as the grammar builds them. -/
def GrammarComments (m : Module) : Prop :=
  (∀ c ∈ m.comment.toList ++ m.commentImport.toList, GrammarComment c) ∧
  ∀ d ∈ m.defs, ∀ c ∈ commentsOf d, GrammarComment c

end Apg.Spec
