import Verif.Spec.ApartEither
import Verif.Spec.Agreement

/-!
# Specification of packets that begin with their message id
-/

namespace Apg.Spec

/-- The places of the fields of the message id in the first two bytes. -/
def idPlaces : List (String × Nat × Nat) := [("packet-version-number", 0, 3), ("packet-type-is-cmd", 3, 1),
  ("sec-hdr-flag-is-present", 4, 1), ("application-process-identifier", 5, 11)]

/-- The message begins with the primary header that the member `k` reaches by the keys `ks`: its identification has the
first 16 bits, and its fields have the places of the CCSDS standard. -/
def IdFirst (ds : List Def) (k : Member) (ks : List String) (ls : List (List Member)) : Prop :=
  ∀ x ∈ idPlaces, ∃ rest m, LeafAt ds ls (k :: rest) m x.2.1 x.2.2 ∧
    rest.map (·.key) = ks ++ ["packet-identification", x.1]

/-- The message fixes nothing after the first 16 bits and has no BOOLEAN without fixed value. -/
def FixesOnlyFirst (ds : List Def) (ls : List (List Member)) : Prop :=
  ∀ path m pos w, LeafAt ds ls path m pos w →
    ((∃ v, FixedTo path v) → pos + w ≤ 16) ∧ (IsBoolean ds m.type → ∃ v, FixedTo path v)

/-- The data begin with the number, most significant byte first. -/
def BeginsWith (data : List UInt8) (id : Nat) : Prop :=
  ∃ a b rest, data = a :: b :: rest ∧ id = 256 * a.toNat + b.toNat

end Apg.Spec
