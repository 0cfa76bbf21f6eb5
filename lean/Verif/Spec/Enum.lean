import Verif.Model.Ast

/-!
# Specification of enumeration numbering
-/

namespace Apg.Spec

/-- `0, 1, ..., n - 1` as integers. -/
def numbers (n : Nat) : List Int := (List.range n).map (fun (i : Nat) => (i : Int))

/-- What identifies an enumeration item to the user: its key and its comment. -/
def label (it : EnumItem) : String × Option Comment := (it.key, it.comment)

/-- The positions written are a permutation of `0 .. n-1`. -/
def ValidPositions (items : List EnumItem) : Prop :=
  (items.map (·.pos)).Perm (numbers items.length)

end Apg.Spec
