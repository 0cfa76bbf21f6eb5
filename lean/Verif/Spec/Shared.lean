import Verif.Spec.Header
import Verif.Model.Cosmos

/-!
# Specification for several commands on the same input and in the same output folder
-/

namespace Apg.Spec

/-- `q` is a file of the run: it is there after the run on an empty disk. -/
def FileOf (r : Run) (q : List Char) : Prop := r.apply (fun _ => none) q ≠ none

/-- The files of `r` stay as they are when `r'` is run after it. -/
def Keeps (r r' : Run) : Prop := ∀ fs q, FileOf r q → r'.apply (r.apply fs) q = r.apply fs q

/-- It does not matter which of the two is run first. -/
def OrderFree (r r' : Run) : Prop := ∀ fs, r'.apply (r.apply fs) = r.apply (r'.apply fs)

/-- No file belongs to both runs. -/
def NoCommonFile (r r' : Run) : Prop := ∀ q, ¬ (FileOf r q ∧ FileOf r' q)

/-- A definition for which generate-c and generate-binary write the same into the header: it fixes no values and
is no simple definition called Float or Double. -/
def AlikeDef : Def → Prop
  | .simple n _ _ => n ≠ "Float" ∧ n ≠ "Double"
  | .seq _ _ ms => ∀ k ∈ ms, k.comps = none
  | _ => True

/-- Two headers of module `m` have the same parts, except for the guard symbol, the includes and notes before the
types, and the variables after them. The types are those of the definitions of `m`, one each. -/
def SameTypes (m : Module) (h h' : HeaderParts) : Prop :=
  (∃ sorted tss, sorted.Perm m.defs ∧ All2 (Block (fun _ _ _ => True) fun t => (dims t).take 1) sorted tss ∧
    h.blocks = tss.flatten ∧ h'.blocks = tss.flatten) ∧
  h'.doc = h.doc ∧ h'.stdbool = h.stdbool ∧ h'.stdint = h.stdint

end Apg.Spec
