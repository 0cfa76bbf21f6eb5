import Verif.Spec.CInit

/-!
# A reader of C headers

The translation phases of C11 5.1.1.2 as far as the generated headers need them: lines ending in a backslash
are continued, comments become blanks, lines starting with `#` are directives, the rest is split into words
and symbols and read as a list of declarations. Trigraphs, string literals and character constants are left
out; the headers have none outside of comments and include lines.
-/

namespace Apg.Spec

/-- Every backslash at the end of a line is left out, together with the line break. -/
def splice : List Char → List Char
  | [] => []
  | '\\' :: '\n' :: t => splice t
  | c :: t => c :: splice t

/-- Where a character is. -/
inductive Zone where
  | code
  | line
  | block

/-- Every line comment is left out, every other comment becomes a blank. -/
def noComments : Zone → List Char → List Char
  | _, [] => []
  | .code, '/' :: '/' :: t => noComments .line t
  | .code, '/' :: '*' :: t => ' ' :: noComments .block t
  | .code, c :: t => c :: noComments .code t
  | .line, c :: t => if c = '\n' then c :: noComments .code t else noComments .line t
  | .block, '*' :: '/' :: t => noComments .code t
  | .block, _ :: t => noComments .block t

/-- Words and symbols; `w` is the beginning of the current word. -/
def lexFrom (w : List Char) : List Char → List (List Char)
  | [] => if w = [] then [] else [w]
  | c :: t =>
    if wordChar c then lexFrom (w ++ [c]) t
    else (if w = [] then [] else [w]) ++ (if c = ' ' ∨ c = '\n' ∨ c = '\t' then [] else [[c]]) ++ lexFrom [] t

/-- The words and symbols of a text. -/
def tokens (t : List Char) : List (List Char) := lexFrom [] t

/-- The line is a preprocessor directive. -/
def isDirective (l : List Char) : Bool := (l.dropWhile (· = ' ')).head? == some '#'

/-- The lines of a C file without comments. -/
def cLines (t : List Char) : List (List Char) := linesOf (noComments .code (splice t))

/-- A field of a struct or union: type, name, bit-field width, array dimensions. -/
structure CField where
  type : List (List Char)
  name : List Char
  width : Option Int
  dims : List Int
  deriving DecidableEq

/-- A declaration. -/
inductive CDecl where
  /-- `typedef struct { fields } __attribute__((packed)) name;` -/
  | struct (name : List Char) (fields : List CField)
  /-- `typedef enum { name = value, ... } __attribute__((packed)) name;` -/
  | enum (name : List Char) (items : List (List Char × Int))
  /-- `union tag { fields } object;` -/
  | union (tag : List Char) (fields : List CField) (object : List Char)
  /-- `type name;` -/
  | object (type name : List Char)
  deriving DecidableEq

/-- The rest of the tokens after `pre`. -/
def after (pre : List (List Char)) (ts : List (List Char)) : Option (List (List Char)) :=
  if pre.isPrefixOf ts then some (ts.drop pre.length) else none

/-- The tokens before the first `s` and the tokens after it. -/
def upTo (s : Char) (ts : List (List Char)) : Option (List (List Char) × List (List Char)) :=
  match ts.dropWhile (· ≠ [s]) with
  | [] => none
  | _ :: r => some (ts.takeWhile (· ≠ [s]), r)

/-- Letters and the underscore. -/
def nameStart (c : Char) : Bool := c.isAlpha || c == '_'

/-- Letters, digits and the underscore. Characters beyond ASCII are taken as letters, as GCC does; see C26
for names with such characters. -/
def nameRest (c : Char) : Bool := nameStart c || c.isDigit || 128 ≤ c.toNat

/-- The word is an identifier. -/
def isName : List Char → Bool
  | [] => false
  | c :: r => nameStart c && r.all nameRest &&
      !(keywords.map String.toList).contains (c :: r)

/-- An identifier and the tokens after it. -/
def nextName : List (List Char) → Option (List Char × List (List Char))
  | [] => none
  | w :: r => if isName w then some (w, r) else none

/-- An integer constant, perhaps with a sign. -/
def readNumber : List (List Char) → Option Int
  | [w] => readInt w
  | [s, w] => if s = ['-'] then readInt ('-' :: w) else none
  | _ => none

/-- Keywords of types. -/
def typeKeywords : List (List Char) :=
  ["char", "short", "int", "long", "signed", "unsigned", "float", "double"].map String.toList

/-- A type: the name of one or keywords. -/
def isType : List (List Char) → Bool
  | [] => false
  | [w] => isName w || typeKeywords.contains w
  | ws => ws.all typeKeywords.contains

/-- Array dimensions. -/
def readDims : Nat → List (List Char) → Option (List Int)
  | _, [] => some []
  | 0, _ => none
  | n + 1, ts => do
    let r ← after [['[']] ts
    let (d, r) ← upTo ']' r
    let i ← readNumber d
    let is ← readDims n r
    pure (i :: is)

/-- A field, without its semicolon: the words before `:` or `[` are type and name. There are no arrays of
bit-fields. -/
def readField (ts : List (List Char)) : Option CField :=
  let words := ts.takeWhile fun w => w ≠ [':'] ∧ w ≠ ['[']
  let rest := ts.dropWhile fun w => w ≠ [':'] ∧ w ≠ ['[']
  match words.getLast? with
  | none => none
  | some name =>
    if isType words.dropLast && isName name then
      match rest with
      | [':'] :: r => (readNumber r).map fun w => ⟨words.dropLast, name, some w, []⟩
      | _ => (readDims rest.length rest).map fun ds => ⟨words.dropLast, name, none, ds⟩
    else none

/-- Fields, each with a semicolon. -/
def readFields : Nat → List (List Char) → Option (List CField)
  | _, [] => some []
  | 0, _ => none
  | n + 1, ts => do
    let (f, r) ← upTo ';' ts
    let x ← readField f
    let xs ← readFields n r
    pure (x :: xs)

/-- Enumerators `name = value`, each with a comma. -/
def readItems : Nat → List (List Char) → Option (List (List Char × Int))
  | _, [] => some []
  | 0, _ => none
  | n + 1, ts => do
    let (it, r) ← upTo ',' ts
    let (name, v) ← nextName it
    let v ← after [['=']] v
    let i ← readNumber v
    let is ← readItems n r
    pure ((name, i) :: is)

/-- The tokens of `__attribute__((packed))`. -/
def packedTokens : List (List Char) := ["__attribute__".toList, ['('], ['('], "packed".toList, [')'], [')']]

/-- A declaration and the tokens after it. -/
def readDecl (ts : List (List Char)) : Option (CDecl × List (List Char)) :=
  match after ["typedef".toList, "struct".toList, ['{']] ts with
  | some r => do
    let (body, r) ← upTo '}' r
    let fs ← readFields body.length body
    let r ← after packedTokens r
    let (name, r) ← nextName r
    let r ← after [[';']] r
    pure (.struct name fs, r)
  | none =>
    match after ["typedef".toList, "enum".toList, ['{']] ts with
    | some r => do
      let (body, r) ← upTo '}' r
      let is ← readItems body.length body
      let r ← after packedTokens r
      let (name, r) ← nextName r
      let r ← after [[';']] r
      pure (.enum name is, r)
    | none =>
      match after ["union".toList] ts with
      | some r => do
        let (tag, r) ← nextName r
        let r ← after [['{']] r
        let (body, r) ← upTo '}' r
        let fs ← readFields body.length body
        let (object, r) ← nextName r
        let r ← after [[';']] r
        pure (.union tag fs object, r)
      | none => do
        let (type, r) ← nextName ts
        let (name, r) ← nextName r
        let r ← after [[';']] r
        pure (.object type name, r)

/-- Declarations. -/
def readDecls : Nat → List (List Char) → Option (List CDecl)
  | _, [] => some []
  | 0, _ => none
  | n + 1, ts => do
    let (d, r) ← readDecl ts
    let ds ← readDecls n r
    pure (d :: ds)

/-- A piece of a C file: a directive or a declaration. -/
inductive CPiece where
  | directive (line : List Char)
  | decl (d : CDecl)
  deriving DecidableEq

/-- The directives (left) and the tokens of the other lines (right) of a C file. -/
def cItems (t : List Char) : List (List Char ⊕ List Char) :=
  (cLines t).flatMap fun l => if isDirective l then [.inl l] else (tokens l).map .inr

/-- Directives, and declarations between them. -/
def readPieces : Nat → List (List Char ⊕ List Char) → Option (List CPiece)
  | _, [] => some []
  | 0, _ => none
  | n + 1, .inl l :: r => (readPieces n r).map (.directive l :: ·)
  | n + 1, ts => do
    let code := (ts.takeWhile (·.isRight)).filterMap Sum.getRight?
    let ds ← readDecls code.length code
    let ps ← readPieces n (ts.dropWhile (·.isRight))
    pure (ds.map .decl ++ ps)

/-- The pieces of a C header. -/
def readFile (t : List Char) : Option (List CPiece) := readPieces (cItems t).length (cItems t)

/-- The directives. -/
def directivesOf (ps : List CPiece) : List (List Char) :=
  ps.filterMap fun p => match p with | .directive l => some l | .decl _ => none

/-- The declarations. -/
def declsOf (ps : List CPiece) : List CDecl :=
  ps.filterMap fun p => match p with | .directive _ => none | .decl d => some d

/-- The directives and the declarations of a C header. -/
def readHeader (t : List Char) : Option (List (List Char) × List CDecl) :=
  (readFile t).map fun ps => (directivesOf ps, declsOf ps)

/-- The field says what the member says: the same name, the type and width of `T`, the first dimension. -/
def FieldOf (T : TypeMap) (k : Member) (f : CField) : Prop :=
  f.name = ident k.key ∧ f.dims = (dims k.type).take 1 ∧
  ∃ ct sfx, T k.type ct sfx ∧ f.type = [ct] ∧
    ((sfx = [] ∧ f.width = none) ∨ ∃ d i, sfx = " : ".toList ++ d ∧ readInt d = some i ∧ f.width = some i)

/-- The declaration of a definition. -/
def DeclOf (T : TypeMap) : Def → CDecl → Prop
  | .seq n _ ms, x => ∃ fs, x = .struct (ident n) fs ∧ All2 (FieldOf T) ms fs
  | .enum n _ its, x => x = .enum (ident n) (its.map fun i => (ident i.key, i.pos))
  | .choice n _ ms, x => x = .union (ident n)
      (ms.map fun k => ⟨[unionType k.type], ident k.key, none, []⟩) (lowerFirst (ident n))
  | .simple .., _ => False

/-- The comment does not end in a backslash. -/
def NoBackslash (c : Comment) : Prop := (trimRight c.text.toList).getLast? ≠ some '\\'

/-- The comment does not close a C comment. -/
def NoClose (c : Comment) : Prop := ¬ "*/".toList <:+: c.text.toList

/-- The word is not reserved in C. -/
def NotReserved (w : List Char) : Prop := w ∉ keywords.map String.toList

/-- The comments of the definition stay comments in C, and no name is reserved. -/
def TameDef : Def → Prop
  | .seq n c ms => (∀ x ∈ c, NoClose x) ∧
      (∀ k ∈ ms, (∀ x ∈ k.comment, NoBackslash x) ∧ NotReserved (ident k.key)) ∧
      ((∃ k ∈ ms, k.comps ≠ none) → NotReserved (lowerFirst (ident n)))
  | .enum _ c its => (∀ x ∈ c, NoClose x) ∧
      ∀ i ∈ its, (∀ x ∈ i.comment, NoBackslash x) ∧ NotReserved (ident i.key)
  | .choice n c ms => (∀ x ∈ c, NoClose x) ∧ (∀ k ∈ ms, k.comment = none ∧ NotReserved (ident k.key)) ∧
      NotReserved (lowerFirst (ident n))
  | .simple .. => True

/-- The comments of the module stay comments in C, and no name is reserved. -/
structure Tame (m : Module) : Prop where
  doc : ∀ c ∈ m.comment, NoClose c
  imports : ∀ c ∈ m.commentImport, NoBackslash c
  defs : ∀ d ∈ m.defs, TameDef d

/-- The include lines of a header. -/
def includeLines (cmd : Command) (m : Module) : List (List Char) :=
  m.imports.map fun i => "#include \"".toList ++ cmd.included i.module ++ ['"']

/-- The declarations of the variables of generate-c. -/
def objectsOf (cmd : Command) (sorted : List Def) : List CDecl :=
  match cmd with
  | .c _ => (sorted.flatMap clausesOf).map fun x => .object (ident x.1) (lowerFirst (ident x.1))
  | _ => []

/-- The header of `m` says to a C compiler: an include guard, perhaps stdint.h, the imported modules, the
declarations `decls` of the definitions that are not simple, in the order of `sorted`, and the variables of
generate-c. `T` may depend on whether stdint.h is included. -/
def HeaderReads (cmd : Command) (T : Bool → TypeMap) (m : Module) (sorted : List Def) (std : Bool) (decls : List CDecl)
    (text : List Char) : Prop :=
  All2 (DeclOf (T std)) (sorted.filter fun d => !d.isSimple) decls ∧
  readFile text = some
    ((["#ifndef ".toList ++ cmd.guard m.name, "#define ".toList ++ cmd.guard m.name] ++
      (if std then ["#include <stdint.h>".toList] else []) ++ includeLines cmd m).map .directive ++
      (decls ++ objectsOf cmd sorted).map .decl ++ [.directive "#endif ".toList])

/-- What the header of `m` says to a C compiler, the definitions being in some order. -/
def HeaderSays (cmd : Command) (T : Bool → TypeMap) (m : Module) (text : List Char) : Prop :=
  ∃ (sorted : List Def) (std : Bool) (decls : List CDecl), sorted.Perm m.defs ∧ HeaderReads cmd T m sorted std decls text

end Apg.Spec
