import Verif.Model.Main

/-!
# The output folder of a command
-/

namespace Apg.Spec

/-- The same command with another output folder. -/
def inFolder : Args → List Char → Args
  | .cosmos m ms target _, out => .cosmos m ms target out
  | .cfs ms _, out => .cfs ms out
  | .c ms _, out => .c ms out
  | .binary ms _ e, out => .binary ms out e

/-- A path from the root. -/
def Absolute (path : List Char) : Prop := path.head? = some '/'

/-- The file name given to generate-cosmos is not a path from the root. -/
def RelativeName : Args → Prop
  | .cosmos _ _ target _ => ¬ Absolute target
  | _ => True

end Apg.Spec
