import Verif.Model.Output
import Verif.Spec.Names

/-!
# Specification of output files
-/

namespace Apg

/-- Path and content of a file that is written as a whole. -/
def FileOp.written : FileOp → Option (Text × Content)
  | .write p c => some (p, c)
  | _ => none

/-- The files written by a run, in order. -/
def Run.writes (r : Run) : List (Text × Content) := r.ops.filterMap FileOp.written

namespace Spec

/-- Path of file `f` in directory `dir`. -/
def inDir (dir f : List Char) : List Char :=
  if dir = [] ∨ dir.getLast? = some '/' then dir ++ f else dir ++ '/' :: f

/-- `t` is wrapped in an include guard for symbol `s`. -/
def Guarded (s t : List Char) : Prop :=
  (s ≠ [] ∧ ∀ c ∈ s, c ≠ ' ' ∧ c ≠ '\n') ∧
  ∃ body, t = "#ifndef ".toList ++ s ++ "\n#define ".toList ++ s ++ '\n' :: body ++
    "#endif // ".toList ++ s ++ ['\n']

/-- A C header file. -/
def IsHeader (path : List Char) : Prop := ∃ stem, path = stem ++ ".h".toList

end Spec
end Apg
