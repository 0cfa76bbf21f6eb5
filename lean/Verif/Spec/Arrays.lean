import Verif.Spec.Sizes

/-!
# Specification of the sizes of arrays as the tool counts them
-/

namespace Apg.Spec

/-- An array is taken for a string of as many characters as the array has elements. -/
def asText : AType → AType
  | .arr _ len => .str "IA5String" len
  | t => t

/-- The same for a member. -/
def Member.asText (m : Member) : Member := { m with type := Spec.asText m.type }

/-- The same for a definition. -/
def Def.asText : Def → Def
  | .seq n c ms => .seq n c (ms.map Member.asText)
  | .choice n c ms => .choice n c (ms.map Member.asText)
  | .enum n c its => .enum n c its
  | .simple n c t => .simple n c (Spec.asText t)

/-- Every array among the members of sequences is empty or has elements of eight bits, and no simple definition is
an array. -/
def ByteArrays (ds : List Def) : Prop :=
  (∀ d ∈ ds, d.isSeq → ∀ m ∈ d.members, ∀ e len, m.type = .arr e len →
    (∃ a, Size ds (.members [{ m with type := e }]) a) ∧
    ∀ a, Size ds (.members [{ m with type := e }]) a → len = 0 ∨ a = 8) ∧
  ∀ d ∈ ds, ∀ n c t, d = .simple n c t → ∀ e len, t ≠ .arr e len

end Apg.Spec
