import Verif.Spec.CScope

/-!
# Specification of the limits of C on array lengths and bit-fields
-/

namespace Apg.Spec

/-- The type, if declared in `ds` or in stdint.h, has at least `w` bits. Whatever integer type a compiler takes for
an enumeration, it holds the values of the enumerators. -/
def HasBits (ds : List CDecl) (type : List (List Char)) (w : Int) : Prop :=
  (∃ n ct, StdUInt n ct ∧ type = [ct] ∧ w ≤ n) ∨
  ∃ name is, CDecl.enum name is ∈ ds ∧ type = [name] ∧
    ∀ n : Nat, (∀ i ∈ is, FitsUnsigned n i.2) → w ≤ n

/-- Array lengths are positive (C11 6.7.6.2), and the width of a bit-field with a name is positive and not above
the width of its type (C11 6.7.2.1). -/
def WithinLimits (ds : List CDecl) (f : CField) : Prop :=
  (∀ n ∈ f.dims, 0 < n) ∧ ∀ w ∈ f.width, 0 < w ∧ HasBits ds f.type w

/-- A type that needs bits: a range that is not negative has a value other than zero, an enumeration has a
position other than zero. -/
def NeedsBits (ds : List Def) (t : AType) : Prop :=
  (∀ b e : Int, t = intType b e → 0 ≤ b → ∃ v, InRange b e v ∧ v ≠ 0) ∧
  ∀ n, t = .plain n none none →
    (∀ c its, Def.enum n c its ∈ ds → ∃ i ∈ its, i.pos ≠ 0) ∧
    ∀ c (b e : Int), Def.simple n c (intType b e) ∈ ds → (∀ ct, ¬ Posix n ct) → 0 ≤ b →
      ∃ v, InRange b e v ∧ v ≠ 0

end Apg.Spec
