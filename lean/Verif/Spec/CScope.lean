import Verif.Spec.CReader
import Verif.Spec.Valid

/-!
# Specification of scopes: which identifiers of C declarations clash
-/

namespace Apg.Spec

/-- The identifiers that a declaration puts into the scope of the file, apart from tags (C11 6.2.3). -/
def CDecl.names : CDecl → List (List Char)
  | .struct n _ => [n]
  | .enum n is => n :: is.map (·.1)
  | .union _ _ o => [o]
  | .object _ n => [n]

/-- The tags that a declaration puts into the scope of the file. -/
def CDecl.tags : CDecl → List (List Char)
  | .union t _ _ => [t]
  | _ => []

/-- The fields of a declaration. -/
def CDecl.fields : CDecl → List CField
  | .struct _ fs => fs
  | .union _ fs _ => fs
  | _ => []

/-- No identifier is in both lists. -/
def Apart (a b : List (List Char)) : Prop := ∀ x ∈ a, x ∉ b

/-- The two declarations can be in one file: they declare different identifiers, or both declare the same
variable with the same type (C11 6.9.2). -/
def Coexist (d d' : CDecl) : Prop :=
  Apart d.tags d'.tags ∧ (Apart d.names d'.names ∨ ∃ t n, d = .object t n ∧ d' = .object t n)

/-- No identifier is declared twice in one scope. -/
def NoClash (ds : List CDecl) : Prop :=
  ds.Pairwise Coexist ∧ ∀ d ∈ ds, d.names.Nodup ∧ (d.fields.map (·.name)).Nodup

/-- The enumerators of a definition. -/
def enumerators : Def → List String
  | .enum _ _ its => its.map (·.key)
  | _ => []

/-- The definition comes with a variable in C: a CHOICE, and for generate-c a SEQUENCE with a clause. -/
def HasObject : Command → Def → Prop
  | _, .choice .. => True
  | .c _, .seq _ _ ms => ∃ k ∈ ms, k.comps ≠ none
  | _, _ => False

/-- The definitions put no identifier twice into one scope of C: the members of a definition have different
keys, all enumerators are different, and no enumerator is called like a variable. -/
def DistinctIdents (cmd : Command) (ds : List Def) : Prop :=
  (∀ d ∈ ds, DistinctKeys d) ∧ (ds.flatMap enumerators).Nodup ∧
  ∀ d ∈ ds, HasObject cmd d → ∀ k ∈ ds.flatMap enumerators, k.toList ≠ lowerFirst d.name.toList

/-- The declarations of the headers of the modules `ms`, as a C compiler reads them. -/
def HeaderDecls (cmd : Command) (fs : Files) (out : List Char) (ms : List Module) (dss : List (List CDecl)) : Prop :=
  All2 (fun m ds => ∃ text dirs, HasText fs (cmd.path out m.name) text ∧ readHeader text = some (dirs, ds)) ms dss

end Apg.Spec
