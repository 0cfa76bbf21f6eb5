/-!
# Lists related entry by entry
-/

namespace Apg

/-- Two lists related entry by entry. -/
inductive All2 {α β} (R : α → β → Prop) : List α → List β → Prop
  | nil : All2 R [] []
  | cons {a b l l'} : R a b → All2 R l l' → All2 R (a :: l) (b :: l')

end Apg
