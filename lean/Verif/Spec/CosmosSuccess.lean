import Verif.Spec.Cosmos
import Verif.Spec.Success

/-!
# When generate-cosmos succeeds

Which members have an item, and which messages can be printed.
-/

namespace Apg.Spec

/-- Ranges that have a number of bits and a COSMOS type. -/
inductive Ranged : AType → Prop
  | unsigned {b e} : 0 ≤ b → b ≤ e → Ranged (intType b e)
  | signed {b e} : -(2 ^ 63) ≤ b → b < 0 → b ≤ e → e < 2 ^ 63 → Ranged (intType b e)
  | real {b e} : NumLE (.flt (-largestFloat)) b → NumLE b e → NumLE e (.flt largestFloat) →
      Ranged (realType b e)

/-- An item can be made for a leaf member of the type: a range (in no array), a BOOLEAN or an array
of them, a string (in no array), an enumeration or an array of it, a type that is defined to be a
range, BOOLEAN or an array of BOOLEAN, or an array of such a type. -/
def Listed (ds : List Def) (t : AType) : Prop :=
  Ranged t ∨ UsesName t "BOOLEAN" ∨ (∃ n len, t = .str n len) ∨
  ∃ n, UsesName t n ∧ ((∃ c its, Def.enum n c its ∈ ds) ∨
    ∃ c st, Def.simple n c st ∈ ds ∧ (Ranged st ∨ UsesName st "BOOLEAN"))

/-- The imports of the module, their imports and so on come to an end. -/
inductive ImportsEnd (ms : List Module) : Module → Prop
  | intro {m} : (∀ m' ∈ ms, Imports m m' → ImportsEnd ms m') → ImportsEnd ms m

/-- The key whose value is printed in hexadecimal digits. -/
def apidKey : String := "application-process-identifier"

/-- The message with the members `l` of the module `m` can be printed: no sequence in it contains
itself, every leaf has an item, application ids are fixed to whole numbers, and if there are defined
types in it, the imports of the module come to an end. -/
def Printable (ms : List Module) (m : Module) (l : List Member) : Prop :=
  (∃ ls, Leaves (defsOf ms) l ls ∧ ∀ path ∈ ls, ∃ k, path.getLast? = some k ∧
    Listed (defsOf ms) k.type ∧
    (k.key = apidKey → (∀ e len, k.type ≠ .arr e len) → ∃ v, FixedTo path v ∧ Whole v)) ∧
  ((∃ k n, Reached (defsOf ms) l k ∧ UsesName k.type n ∧ ∃ d ∈ defsOf ms, d.name = n) →
    ImportsEnd ms m)

/-- At most one clause reaches each application id in the message with the members `l`. -/
def ClearIds (ds : List Def) (l : List Member) : Prop :=
  ∀ ls, Leaves ds l ls → ∀ path ∈ ls, ∀ k, path.getLast? = some k → k.key = apidKey →
    (∀ e len, k.type ≠ .arr e len) → Clear ds path

end Apg.Spec
