import Verif.Spec.Sizes
import Verif.Spec.Names
import Verif.Spec.Text
import Verif.Spec.Lists

/-!
# Specification of the C types of fields
-/

namespace Apg.Spec

/-- The unsigned types of stdint.h and their widths. -/
inductive StdUInt : Nat → List Char → Prop
  | w8 : StdUInt 8 "uint8_t".toList
  | w16 : StdUInt 16 "uint16_t".toList
  | w32 : StdUInt 32 "uint32_t".toList
  | w64 : StdUInt 64 "uint64_t".toList

/-- `sfx` is the bit-field suffix for `w` bits. -/
def BitSuffix (w : Nat) (sfx : List Char) : Prop :=
  ∃ ds, sfx = " : ".toList ++ ds ∧ readInt ds = some (w : Int)

/-- An unsigned field of `w` bits: the smallest standard type that holds it, with a
bit-field suffix iff no standard type has exactly that width. -/
def UnsignedField (w : Nat) (ct sfx : List Char) : Prop :=
  ∃ n, StdUInt n ct ∧ w ≤ n ∧ (∀ n' ct', StdUInt n' ct' → w ≤ n' → n ≤ n') ∧
    ((∃ ct', StdUInt w ct') ∧ sfx = [] ∨ (¬ ∃ ct', StdUInt w ct') ∧ BitSuffix w sfx)

/-- `w` is the least number of bits for the range. -/
def LeastUnsigned (w : Nat) (b e : Int) : Prop :=
  (∀ v, InRange b e v → FitsUnsigned w v) ∧
  ∀ w' : Nat, (∀ v, InRange b e v → FitsUnsigned w' v) → w ≤ w'

/-- `w` is the least number of bits for the positions of the items. -/
def LeastForItems (w : Nat) (its : List EnumItem) : Prop :=
  (∀ it ∈ its, FitsUnsigned w it.pos) ∧
  ∀ w' : Nat, (∀ it ∈ its, FitsUnsigned w' it.pos) → w ≤ w'

/-- C type and bit-field suffix of a range type. -/
inductive ScalarC : AType → List Char → List Char → Prop
  | uint {b e w ct sfx} : 0 ≤ b → LeastUnsigned w b e → UnsignedField w ct sfx →
      ScalarC (intType b e) ct sfx
  | sint {b e} : b < 0 → ScalarC (intType b e) "int".toList []
  | single {b e} : LeafSize (realType b e) 32 → ScalarC (realType b e) "float".toList []
  | double {b e} : LeafSize (realType b e) 64 → ScalarC (realType b e) "double".toList []

/-- ASN.1 names of the integer types of stdint.h, with these types. -/
inductive Posix : String → List Char → Prop
  | i8 : Posix "Int8-t" "int8_t".toList
  | i16 : Posix "Int16-t" "int16_t".toList
  | i32 : Posix "Int32-t" "int32_t".toList
  | i64 : Posix "Int64-t" "int64_t".toList
  | u8 : Posix "Uint8-t" "uint8_t".toList
  | u16 : Posix "Uint16-t" "uint16_t".toList
  | u32 : Posix "Uint32-t" "uint32_t".toList
  | u64 : Posix "Uint64-t" "uint64_t".toList

/-- C type and bit-field suffix of a defined name, enumerations excepted. -/
inductive NamedC (ds : List Def) : String → List Char → List Char → Prop
  | posix {n c t ct} : Def.simple n c t ∈ ds → Posix n ct → NamedC ds n ct []
  | struct {n c ms} : Def.seq n c ms ∈ ds → NamedC ds n (ident n) []
  | union {n c ms} : Def.choice n c ms ∈ ds → NamedC ds n (ident n) []
  | alias {n c t ct sfx} : Def.simple n c t ∈ ds → (∀ ct, ¬ Posix n ct) → ScalarC t ct sfx →
      NamedC ds n ct sfx
  | aliasBool {n c} : Def.simple n c (.plain "BOOLEAN" none none) ∈ ds →
      NamedC ds n "bool".toList []
  | aliasFloat {n c} : Def.simple n c (.plain "Float" none none) ∈ ds →
      NamedC ds n "float".toList []
  | aliasDouble {n c} : Def.simple n c (.plain "Double" none none) ∈ ds →
      NamedC ds n "double".toList []

/-- C type and bit-field suffix of a member, the names being defined in `ds`. -/
inductive FieldType (ds : List Def) : AType → List Char → List Char → Prop
  | scalar {t ct sfx} : ScalarC t ct sfx → FieldType ds t ct sfx
  | bool {sfx} : BitSuffix 1 sfx → FieldType ds (.plain "BOOLEAN" none none) "uint8_t".toList sfx
  | chars {n len} : FieldType ds (.str n len) "char".toList []
  | named {n ct sfx} : NamedC ds n ct sfx → FieldType ds (.plain n none none) ct sfx
  | enum {n c its w sfx} : Def.enum n c its ∈ ds → LeastForItems w its → BitSuffix w sfx →
      FieldType ds (.plain n none none) (ident n) sfx
  | array {n ct sfx len} : NamedC ds n ct sfx → FieldType ds (.arr (.plain n none none) len) ct []
  | arrayEnum {n c its len} : Def.enum n c its ∈ ds →
      FieldType ds (.arr (.plain n none none) len) (ident n) []

/-- A range of unsigned numbers that reaches beyond 64 bits. -/
def WideRange (t : AType) : Prop := ∃ b e : Int, t = intType b e ∧ 0 ≤ b ∧ 2 ^ 64 ≤ e

/-- A range of unsigned numbers is exactly as wide as a type of stdint.h. -/
def WholeWidth (t : AType) : Prop :=
  ∀ b e : Int, t = intType b e → 0 ≤ b → ∃ w ct, StdUInt w ct ∧ LeastUnsigned w b e

/-- The name of a type of stdint.h is a simple definition; any other simple definition is no array and no range
beyond 64 bits. -/
def RightName (ds : List Def) (n : String) : Prop :=
  (∀ d ∈ ds, d.name = n → (∃ ct, Posix n ct) → d.isSimple = true) ∧
  ∀ c t, Def.simple n c t ∈ ds → (¬ ∃ ct, Posix n ct) → (∀ e len, t ≠ .arr e len) ∧ ¬ WideRange t

/-- Types of members for which headers have the right type: no ranges beyond 64 bits, only right names, and only
arrays of named types that need no bit-field. -/
def RightType (ds : List Def) : AType → Prop
  | .plain n lo hi => ¬ WideRange (.plain n lo hi) ∧ RightName ds n
  | .str .. => True
  | .arr (.plain n none none) _ => (∃ d ∈ ds, d.name = n) ∧ RightName ds n ∧
      ∀ c t, Def.simple n c t ∈ ds → (¬ ∃ ct, Posix n ct) → WholeWidth t
  | .arr .. => False

/-- Declared dimensions of a type, outermost first. -/
def dims : AType → List Int
  | .plain .. => []
  | .str _ len => [len]
  | .arr e len => len :: dims e

/-- `t` is the sequence of C array dimensions `ns`. -/
inductive Brackets : List Int → List Char → Prop
  | nil : Brackets [] []
  | cons {n ns d r} : readInt d = some n → Brackets ns r →
      Brackets (n :: ns) ('[' :: d ++ ']' :: r)

/-- Text without the blanks at its end. -/
def trimRight (t : List Char) : List Char := (t.reverse.dropWhile (· = ' ')).reverse

/-- Text of a comment with its unit. -/
def noteBody (c : Comment) : List Char :=
  (if c.unit = "" then [] else '[' :: c.unit.toList ++ "] ".toList) ++ c.text.toList

/-- `t` is the line comment after `pre`, or empty if there is no comment. -/
def NoteText (c : Option Comment) (pre : List Char) (t : List Char) : Prop :=
  (c = none → t = []) ∧
  ∀ x, c = some x → ∃ body, t = pre ++ "//".toList ++ body ∧ '\n' ∉ body ∧ body = trimRight (' ' :: noteBody x)

/-- Characters that are C tokens on their own or part of longer operators, and blanks. -/
def cSymbols : List Char := " \t\n!\"#%&'()*+,-./:;<=>?[\\]^{|}~".toList

/-- Characters of words: identifiers and numbers. -/
def wordChar (c : Char) : Bool := !cSymbols.contains c

/-- A type is one or more words. -/
def TypeText (t : List Char) : Prop :=
  (∃ c r, t = c :: r ∧ wordChar c = true) ∧ ∀ c ∈ t, wordChar c = true ∨ c = ' '

/-- A bit-field suffix, or none. -/
def SuffixText (t : List Char) : Prop := t = [] ∨ ∃ d i, t = " : ".toList ++ d ∧ readInt d = some i

/-- A field of a struct: an optional comment line, then type, name, suffix and array
dimensions. -/
def FieldText (m : Member) (ct sfx : List Char) (dims : List Int) (text : List Char) : Prop :=
  ∃ cmt br, text = cmt ++ (if cmt = [] then [] else ['\n']) ++
      "  ".toList ++ ct ++ ' ' :: ident m.key ++ sfx ++ br ++ ";\n".toList ∧
    Brackets dims br ∧ NoteText m.comment "  ".toList cmt ∧ TypeText ct ∧ SuffixText sfx

/-- `T` relates types to C types with bit-field suffixes. -/
abbrev TypeMap := AType → List Char → List Char → Prop

/-- Text of the comment before a definition. -/
def defCommentText : Option Comment → List Char
  | none => []
  | some c => if c.text = "" then [] else "/* ".toList ++ c.text.toList ++ " */\n".toList

/-- `t` is the struct of a sequence; `D` gives the dimensions of arrays. -/
def StructBlock (T : TypeMap) (D : AType → List Int) (n : String) (c : Option Comment)
    (ms : List Member) (t : List Char) : Prop :=
  ∃ fields, t = defCommentText c ++ "typedef struct\n{\n".toList ++ fields.flatten ++
      "} __attribute__((packed)) ".toList ++ ident n ++ [';'] ∧
    All2 (fun m f => ∃ ct sfx, T m.type ct sfx ∧ FieldText m ct sfx (D m.type) f) ms fields

/-- `t` is the line of an enumerator. -/
def EnumLine (it : EnumItem) (t : List Char) : Prop :=
  ∃ d cmt, t = "  ".toList ++ ident it.key ++ " = ".toList ++ d ++ ',' :: cmt ++ ['\n'] ∧
    readInt d = some it.pos ∧ NoteText it.comment "     ".toList cmt

/-- `t` is the C enumeration of an ENUMERATED. -/
def EnumBlock (n : String) (c : Option Comment) (its : List EnumItem) (t : List Char) : Prop :=
  ∃ lines, t = defCommentText c ++ "typedef enum {\n".toList ++ lines.flatten ++
      "} __attribute__((packed)) ".toList ++ ident n ++ [';'] ∧
    All2 EnumLine its lines

/-- Text with the first letter in lower case. -/
def lowerFirst : List Char → List Char
  | [] => []
  | c :: r => c.toLower :: r

/-- The type of a union field: `char` for strings, else the name of the ASN.1 type; for an array, of its
elements. -/
def unionType : AType → List Char
  | .plain n _ _ => ident n
  | .str .. => "char".toList
  | .arr e _ => unionType e

/-- `t` is what is printed for a CHOICE. There is no line break between the fields, and no
dimension of an array. -/
def UnionBlock (n : String) (c : Option Comment) (ms : List Member) (t : List Char) : Prop :=
  ∃ fields, t = defCommentText c ++ "union ".toList ++ ident n ++ " {\n".toList ++
      fields.flatten ++ "} ".toList ++ lowerFirst (ident n) ++ [';'] ∧
    All2 (fun m f => ∃ cmt, f = "  ".toList ++ unionType m.type ++ ' ' :: ident m.key ++ [';'] ++ cmt ∧
      NoteText m.comment "     ".toList cmt) ms fields

/-- `t` is what is printed for a definition; nothing for a simple definition. -/
def Block (T : TypeMap) (D : AType → List Int) : Def → List (List Char) → Prop
  | .seq n c ms, ts => ∃ t, ts = [t] ∧ StructBlock T D n c ms t
  | .enum n c its, ts => ∃ t, ts = [t] ∧ EnumBlock n c its t
  | .choice n c ms, ts => ∃ t, ts = [t] ∧ UnionBlock n c ms t
  | .simple .., ts => ts = []

/-- Parts of a header file. -/
structure HeaderParts where
  symbol : List Char
  doc : List Char
  stdbool : Bool
  stdint : Bool
  includes : List (List Char)
  blocks : List (List Char)
  decls : List (List Char)

/-- Text of a header file. -/
def HeaderParts.text (h : HeaderParts) : List Char :=
  "#ifndef ".toList ++ h.symbol ++ "\n#define ".toList ++ h.symbol ++
  "\n\n/*\nThis file was autogenerated from ASN.1 model.".toList ++
  (if h.doc = [] then [] else "\n\n".toList ++ h.doc) ++ "\n*/\n\n".toList ++
  (if h.stdbool then "#include <stdbool.h>\n".toList else []) ++
  (if h.stdint then "#include <stdint.h>\n".toList else []) ++
  h.includes.flatMap (· ++ ['\n']) ++ ['\n'] ++
  h.blocks.flatMap (· ++ "\n\n".toList) ++
  (if h.decls = [] then [] else h.decls.flatMap (· ++ ['\n']) ++ ['\n']) ++
  "#endif // ".toList ++ h.symbol ++ ['\n']

end Apg.Spec
