import Verif.Spec.Header

/-!
# Specification of the C files of generate-c
-/

namespace Apg.Spec

/-- The entries of a C designated initialiser. -/
inductive Init where
  | nil
  | value (name text : List Char) (rest : Init)
  | group (name : List Char) (inner rest : Init)
  deriving DecidableEq

/-- Read entries `.name=value,` and `.name={...},` as long as there are any; the rest of the
text is returned. -/
def readEntries : Nat → List Char → Option (Init × List Char)
  | 0, _ => none
  | fuel + 1, '.' :: t =>
    match t.dropWhile (· ≠ '=') with
    | '=' :: '{' :: r =>
      match readEntries fuel r with
      | some (inner, '}' :: ',' :: r') =>
        (readEntries fuel r').map fun x => (.group (t.takeWhile (· ≠ '=')) inner x.1, x.2)
      | _ => none
    | '=' :: r =>
      match r.dropWhile (· ≠ ',') with
      | ',' :: r' =>
        (readEntries fuel r').map fun x =>
          (.value (t.takeWhile (· ≠ '=')) (r.takeWhile (· ≠ ',')) x.1, x.2)
      | _ => none
    | _ => none
  | _ + 1, t => some (.nil, t)

/-- Read the entries between the braces of an initialiser; blanks and line breaks do not
count. -/
def readInit (t : List Char) : Option Init :=
  let t' := t.filter fun c => c ≠ ' ' ∧ c ≠ '\n'
  match readEntries (t'.length + 1) t' with
  | some (i, []) => some i
  | _ => none

/-- `t` is the C text of a value. -/
def CValueText (p : Printer) : Leaf → List Char → Prop
  | .int i, t => readInt t = some i
  | .bool b, t => readInt t = some (if b then 1 else 0)
  | .flt (.int i), t => readInt t = some i
  | .flt x, t => t = p.float x

/-- The entries say what the clause says: the same members in the same order and nesting,
with the same values. -/
inductive Says (p : Printer) : Comps → Init → Prop
  | nil : Says p .nil .nil
  | leaf {k v r t i} : CValueText p v t → Says p r i →
      Says p (.leaf k v r) (.value (ident k) t i)
  | node {k c r i j} : Says p c i → Says p r j → Says p (.node k c r) (.group (ident k) i j)

/-- The WITH COMPONENTS clauses of a definition: name of the sequence, key of the member,
clause. -/
def clausesOf : Def → List (String × String × Comps)
  | .seq n _ ms => ms.filterMap fun m => m.comps.map fun c => (n, m.key, c)
  | _ => []

/-- The declarations after the blocks of a header: generate-c declares the variables of its C file. -/
def Command.objects (cmd : Command) (sorted : List Def) : List (List Char) :=
  match cmd with
  | .c _ => (sorted.flatMap clausesOf).map fun x => ident x.1 ++ ' ' :: lowerFirst (ident x.1) ++ [';']
  | _ => []

/-- `t` defines the variable for a clause: its type is the struct of the sequence, its name
the name of the sequence with a lower-case first letter. -/
def Initialiser (p : Printer) (x : String × String × Comps) (t : List Char) : Prop :=
  ∃ body i, t = ident x.1 ++ ' ' :: lowerFirst (ident x.1) ++ " = {".toList ++ body ++ "};\n".toList ∧
    readInit body = some (.group (ident x.2.1) i .nil) ∧ Says p x.2.2 i

/-- A C file: the comment, perhaps an include line, the variables. -/
def sourceFile (doc : List Char) (incl : Option (List Char)) (vars : List (List Char)) : List Char :=
  "/*\nThis file was autogenerated from ASN.1 model.".toList ++
  (if doc = [] then [] else "\n\n".toList ++ doc) ++ "\n*/\n\n".toList ++
  (match incl with | none => [] | some h => "#include \"".toList ++ h ++ "\"\n\n".toList) ++
  vars.flatten

/-- The number a value stands for in C. -/
def leafNum : Leaf → Num
  | .int i => .int i
  | .bool b => .int (if b then 1 else 0)
  | .flt x => x

/-- The clauses fix the same members in the same order and nesting to values that are the
same number in C. -/
inductive SameClause : Comps → Comps → Prop
  | nil : SameClause .nil .nil
  | leaf {k v w r s} : leafNum v = leafNum w → SameClause r s → SameClause (.leaf k v r) (.leaf k w s)
  | node {k c d r s} : SameClause c d → SameClause r s → SameClause (.node k c r) (.node k d s)

end Apg.Spec
