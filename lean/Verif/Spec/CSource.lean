import Verif.Spec.CCompile
import Verif.Spec.Printer

/-!
# Specification of C files: what a C compiler makes of variables with initialisers
-/

namespace Apg.Spec

/-- The character goes on with the number `w`: a point, or a sign after an exponent (C11 6.4.8). -/
def numberChar (w : List Char) (c : Char) : Bool :=
  match w with
  | [] => false
  | d :: _ => d.isDigit && (c == '.' || (c == '+' || c == '-') && (w.getLast? == some 'e' || w.getLast? == some 'E'))

/-- Words, numbers and symbols; `w` is the beginning of the current word. -/
def lexNumbers (w : List Char) : List Char → List (List Char)
  | [] => if w = [] then [] else [w]
  | c :: t =>
    if wordChar c || numberChar w c then lexNumbers (w ++ [c]) t
    else (if w = [] then [] else [w]) ++ (if c = ' ' ∨ c = '\n' ∨ c = '\t' then [] else [[c]]) ++ lexNumbers [] t

/-- The entries of a designated initialiser; a value is a list of tokens. -/
inductive Entries where
  | nil
  | value (name : List Char) (tokens : List (List Char)) (rest : Entries)
  | group (name : List Char) (inner rest : Entries)
  deriving DecidableEq

/-- Entries `.name = value,` and `.name = {...},` as long as there are any, and the tokens after them. -/
def readValues : Nat → List (List Char) → Option (Entries × List (List Char))
  | 0, _ => none
  | n + 1, ['.'] :: k :: ['='] :: ['{'] :: r => do
    let (i, r) ← readValues n r
    let r ← after [['}'], [',']] r
    let (j, r) ← readValues n r
    pure (.group k i j, r)
  | n + 1, ['.'] :: k :: ['='] :: r => do
    let (v, r) ← upTo ',' r
    let (j, r) ← readValues n r
    pure (.value k v j, r)
  | _ + 1, r => some (.nil, r)

/-- The definition of a variable: `type name = { entries };` -/
structure CVar where
  type : List Char
  name : List Char
  init : Entries
  deriving DecidableEq

/-- A variable and the tokens after it. -/
def readVar (ts : List (List Char)) : Option (CVar × List (List Char)) := do
  let (type, r) ← nextName ts
  let (name, r) ← nextName r
  let r ← after [['='], ['{']] r
  let (i, r) ← readValues (r.length + 1) r
  let r ← after [['}'], [';']] r
  pure (⟨type, name, i⟩, r)

/-- Variables. -/
def readVars : Nat → List (List Char) → Option (List CVar)
  | _, [] => some []
  | 0, _ => none
  | n + 1, ts => do
    let (v, r) ← readVar ts
    let vs ← readVars n r
    pure (v :: vs)

/-- The directives (left) and the tokens of the other lines (right) of a C file. -/
def sourceItems (t : List Char) : List (List Char ⊕ List Char) :=
  (cLines t).flatMap fun l => if isDirective l then [.inl l] else (lexNumbers [] l).map .inr

/-- A C file of directives and then variables. -/
def readSource (t : List Char) : Option (List (List Char) × List CVar) :=
  let items := sourceItems t
  let code := items.dropWhile (·.isLeft)
  if code.all (·.isRight) then
    (readVars code.length (code.filterMap Sum.getRight?)).map fun vs =>
      ((items.takeWhile (·.isLeft)).filterMap Sum.getLeft?, vs)
  else none

/-- One or more decimal digits. -/
def Digits (t : List Char) : Prop := t ≠ [] ∧ ∀ c ∈ t, c.isDigit = true

/-- A floating constant of C: digits with a fraction or an exponent (C11 6.4.4.2). -/
def FloatText (t : List Char) : Prop :=
  ∃ a f e, t = a ++ f ++ e ∧ Digits a ∧ (f = [] ∨ ∃ d, f = '.' :: d ∧ Digits d) ∧
    (e = [] ∨ ∃ s d, e = 'e' :: s ++ d ∧ (s = [] ∨ s = ['+'] ∨ s = ['-']) ∧ Digits d) ∧ (f ≠ [] ∨ e ≠ [])

/-- A decimal constant that has a type of 64 bits (C11 6.4.4.1), or a floating constant. -/
def IsConstant (t : List Char) : Prop := (∃ n, readDec t = some n ∧ n < 2 ^ 63) ∨ FloatText t

/-- A constant, perhaps with a sign. -/
def ConstantTokens (ts : List (List Char)) : Prop := ∃ w, IsConstant w ∧ (ts = [w] ∨ ts = [['-'], w])

/-- The type is a struct. -/
def IsStruct (ds : List CDecl) (t : List (List Char)) : Prop := ∃ n fs, t = [n] ∧ CDecl.struct n fs ∈ ds

/-- The entries initialise a struct with the given fields: each entry names one; a field that is neither a struct nor an
array has a constant, and a struct has entries for its own fields. -/
inductive Initialises (ds : List CDecl) : List CField → Entries → Prop
  | nil {fs} : Initialises ds fs .nil
  | value {fs k v r f} : f ∈ fs → f.name = k → f.dims = [] → ¬ IsStruct ds f.type → ConstantTokens v →
      Initialises ds fs r → Initialises ds fs (.value k v r)
  | group {fs k i r f n fs'} : f ∈ fs → f.name = k → f.dims = [] → f.type = [n] → CDecl.struct n fs' ∈ ds → i ≠ .nil →
      Initialises ds fs' i → Initialises ds fs r → Initialises ds fs (.group k i r)

/-- A C compiler accepts the C file with text `t`: the included files are there, the translation unit with the
variables compiles, no variable is initialised twice, and the initialisers are right for the structs. -/
def SourceCompiles (fs : Files) (out t : List Char) : Prop :=
  ∃ dirs vars, readSource t = some (dirs, vars) ∧
    ∃ n unit syms, preprocess fs out n [] (dirs.map .directive) = some (unit, syms) ∧
      Compiles (unit ++ vars.map fun v => .decl (.object v.type v.name)) syms ∧
      (vars.map (·.name)).Nodup ∧
      ∀ v ∈ vars, ∃ f, CDecl.struct v.type f ∈ declsOf unit ∧ Initialises (declsOf unit) f v.init

/-- What is known of Python's `repr` of floats as a number: a floating constant with or without a sign, or the name of
an infinity. -/
structure PythonFloats (p : Printer) : Prop where
  finite : ∀ q, ∃ w, FloatText w ∧ (p.float (.flt q) = w ∨ p.float (.flt q) = '-' :: w)
  infinite : p.float (.inf false) = "inf".toList ∧ p.float (.inf true) = "-inf".toList

/-- C has a constant for the value. -/
def HasConstant : Leaf → Prop
  | .int i => i.natAbs < 2 ^ 63
  | .bool _ => True
  | .flt (.int i) => i.natAbs < 2 ^ 63
  | .flt (.flt _) => True
  | .flt (.inf _) => False

/-- The clause suits the members: it fixes members by their keys, those that are neither an array, a string nor a
SEQUENCE to a value, and a SEQUENCE by its own members. -/
inductive SuitsMembers (ds : List Def) : List Member → Comps → Prop
  | nil {ms} : SuitsMembers ds ms .nil
  | leaf {ms k v r} {m : Member} : m ∈ ms → m.key = k → dims m.type = [] →
      (∀ n c ms', m.type = .plain n none none → Def.seq n c ms' ∉ ds) → HasConstant v → SuitsMembers ds ms r →
      SuitsMembers ds ms (.leaf k v r)
  | node {ms k i r n c ms'} {m : Member} : m ∈ ms → m.key = k → m.type = .plain n none none → Def.seq n c ms' ∈ ds →
      SuitsMembers ds ms' i → SuitsMembers ds ms r → SuitsMembers ds ms (.node k i r)

/-- The clauses of a module can be C initialisers, `sorted` being its definitions in the order of the header: the last
block has a clause if any has, no sequence has two, and each one suits the members. -/
structure Initialisable (ds : List Def) (m : Module) (sorted : List Def) : Prop where
  last : (∃ d ∈ m.defs, clausesOf d ≠ []) →
    ∃ d, (sorted.filter fun d => !d.isSimple).getLast? = some d ∧ clausesOf d ≠ []
  once : ∀ d ∈ m.defs, (clausesOf d).length ≤ 1
  suits : ∀ n c ms, Def.seq n c ms ∈ m.defs → ∀ k ∈ ms, ∀ x ∈ k.comps, SuitsMembers ds ms (.node k.key x .nil)

end Apg.Spec
