import Verif.Model.Text
import Verif.Spec.Grammar
import Verif.Spec.Text

/-!
# What is assumed of the printing of floats
-/

namespace Apg.Spec

/-- What is known of Python's `repr` of floats: the characters used, that it is never empty or the
text of an integer, and that different floats have different texts. -/
structure Faithful (p : Printer) : Prop where
  chars : ∀ x, isFloat x → ∀ c ∈ p.float x, c ∈ "0123456789.e+-inf".toList
  nonempty : ∀ x, isFloat x → p.float x ≠ []
  notInt : ∀ x, isFloat x → readInt (p.float x) = none
  inj : ∀ x y, isFloat x → isFloat y → p.float x = p.float y → x = y

end Apg.Spec
