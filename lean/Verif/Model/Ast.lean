/-!
# Abstract syntax of the ASN.1 subset

The tree built by textX from `asn1_parser/asn1/grammar.py` (lines 1-142), with
the Python classes of `asn1_parser/asn1/grammar_elements/`.
-/

deriving instance DecidableEq for Except

namespace Apg

/-- Python exception classes that the modelled code can raise. Messages are
dropped. `recursion` is `RecursionError`. `running` is not an exception: it marks a
`while` loop that has not ended within the given fuel. -/
inductive Err where
  | valueError | floatingPoint | consistency | indexError | notImplemented
  | keyError | structError | attributeError | assertion | syntaxError
  | typeError | exception | textxSyntax | recursion | overflow | running
  deriving DecidableEq, Repr

/-- A Python number as it can occur as a range bound or a fixed value: an `int`
(textX `INT`), a finite `float` with its exact rational value, or an infinite
`float` (textX `STRICTFLOAT` text such as `1e999` overflows to `inf`).
NaN cannot be written with textX `STRICTFLOAT`. -/
inductive Num where
  | int (i : Int)
  | flt (q : Rat)
  | inf (negative : Bool)
  deriving DecidableEq, Repr

/-- Python `a < b` between `int` and `float`: the comparison is exact (CPython
`float_richcompare` compares mathematically, without rounding). -/
def Num.lt : Num → Num → Bool
  | .inf true, .inf true => false
  | .inf true, _ => true
  | .inf false, _ => false
  | _, .inf neg => !neg
  | .int a, .int b => a < b
  | .int a, .flt b => (a : Rat) < b
  | .flt a, .int b => a < (b : Rat)
  | .flt a, .flt b => a < b

/-- Python `a <= b`; there is no NaN, so it is `not (b < a)`. -/
def Num.le (a b : Num) : Bool := !(Num.lt b a)

/-- Python `a == b` between `int` and `float` (exact, `1 == 1.0`). -/
def Num.eq (a b : Num) : Bool := !(Num.lt a b) && !(Num.lt b a)

/-- `asn1/grammar_elements/asn1_comment.py:4-29`, `grammar.py:16-25`. Unset text
attributes are empty strings. -/
structure Comment where
  text : String
  unit : String
  little : Bool
  deriving DecidableEq, Repr

/-- `asn1/grammar_elements/asn1_type.py:9-32`, `array.py:6-10`,
`asn1_string.py:4-8`, `grammar.py:54-62,133-141`.
* `plain`: `REAL`, `INTEGER`, `NULL`, `BOOLEAN` or a user-defined name with
  optional bounds (only `REAL` and `INTEGER` can carry bounds in the grammar);
* `str`: `IA5String`/`NumericString` with a size;
* `arr`: `SEQUENCE (SIZE (len)) OF elem`. -/
inductive AType where
  | plain (name : String) (lo hi : Option Num)
  | str (name : String) (len : Int)
  | arr (elem : AType) (len : Int)
  deriving DecidableEq, Repr

/-- `Asn1Type.get_type_name` with the copying done in
`asn1_type.py:23-31`: an array reports the name of its element type, a string
the string type's name. -/
def AType.name : AType → String
  | .plain n _ _ => n
  | .str n _ => n
  | .arr e _ => e.name

/-- `Asn1Type.get_begin` (`asn1_type.py:51-52`); unset for arrays and strings. -/
def AType.lo : AType → Option Num
  | .plain _ l _ => l
  | _ => none

/-- `Asn1Type.get_end` (`asn1_type.py:58-59`). -/
def AType.hi : AType → Option Num
  | .plain _ _ h => h
  | _ => none

/-- A fixed value of a `WITH COMPONENTS` item (`grammar.py:95-113`), after
`str_to_bool` (`processor.py:158-164`) has turned `TRUE`/`FALSE` into booleans. -/
inductive Leaf where
  | int (i : Int)
  | flt (x : Num)
  | bool (b : Bool)
  deriving DecidableEq, Repr

/-- `with_components.py:8-34` and `components_item.py:7-49`: the list of items of
a `WITH COMPONENTS` clause, an item being a key with a fixed value (`leaf`) or
a key with an inner clause (`node`). The list is unfolded into the constructor
so that the type is not nested. -/
inductive Comps where
  | nil
  | leaf (key : String) (v : Leaf) (rest : Comps)
  | node (key : String) (inner : Comps) (rest : Comps)
  deriving DecidableEq, Repr

/-- `key_type_pair.py:9-59`: a member of a `SEQUENCE` or `CHOICE`. -/
structure Member where
  key : String
  type : AType
  comment : Option Comment := none
  comps : Option Comps := none
  deriving DecidableEq, Repr

/-- `enumerated_item.py:6-34`; `pos` is 0 when not written (textX default of
`INT` attributes). -/
structure EnumItem where
  key : String
  pos : Int
  comment : Option Comment := none
  deriving DecidableEq, Repr

/-- The four kinds of definitions (`grammar.py:35-37`, `sequence.py`,
`choice.py`, `enumerated.py`, `simple_definition.py`). -/
inductive Def where
  | seq (name : String) (comment : Option Comment) (members : List Member)
  | choice (name : String) (comment : Option Comment) (members : List Member)
  | enum (name : String) (comment : Option Comment) (items : List EnumItem)
  | simple (name : String) (comment : Option Comment) (type : AType)
  deriving DecidableEq, Repr

/-- `Definitions.get_type_name` (`definitions.py:21-22`). -/
def Def.name : Def → String
  | .seq n _ _ => n
  | .choice n _ _ => n
  | .enum n _ _ => n
  | .simple n _ _ => n

/-- `Definitions.get_comment` (`definitions.py:24-25`). -/
def Def.comment : Def → Option Comment
  | .seq _ c _ => c
  | .choice _ c _ => c
  | .enum _ c _ => c
  | .simple _ c _ => c

/-- `get_children` of `Sequence` and `Choice` (`sequence.py:29-30`,
`choice.py:22-23`); no children otherwise. -/
def Def.members : Def → List Member
  | .seq _ _ ms => ms
  | .choice _ _ ms => ms
  | _ => []

/-- `isinstance(d, Sequence)`. -/
def Def.isSeq : Def → Bool
  | .seq .. => true
  | _ => false

/-- `isinstance(d, SimpleDefinition)`. -/
def Def.isSimple : Def → Bool
  | .simple .. => true
  | _ => false

/-- `import_item.py:6-33`. The comment of an import item is never used. -/
structure ImportItem where
  defs : List String
  module : String
  deriving DecidableEq, Repr

/-- `asn1_module.py:9-87` without `imported_modules`, which the bundle builder
fills in (see `Builder.lean`). -/
structure Module where
  name : String
  comment : Option Comment := none
  commentImport : Option Comment := none
  imports : List ImportItem := []
  defs : List Def
  deriving DecidableEq, Repr

/-- `asn1_module.py:11-17` and `processor.py:32-38`. -/
def predefined : List String :=
  ["BOOLEAN", "INTEGER", "REAL", "IA5String", "NumericString"]

/-- A member list of a bundle: all definitions of all modules in order. -/
def allDefs (ms : List Module) : List Def := ms.flatMap (·.defs)

end Apg
