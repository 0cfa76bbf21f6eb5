import Verif.Model.Ast

/-!
# Specification of CCSDS primary headers

CCSDS 133.0-B-2, 4.1.3: the first 16 bits of a packet are version (3 bits), type (1),
secondary header flag (1) and application process identifier (11).
-/

namespace Apg.Spec

/-- A component list of fixed values only. -/
def leavesComps : List (String × Leaf) → Comps
  | [] => .nil
  | (k, v) :: r => .leaf k v (leavesComps r)

/-- A clause on a primary header: one or more `packet-identification` clauses of fixed
values. -/
def headerComps : List (List (String × Leaf)) → Comps
  | [] => .nil
  | l :: r => .node "packet-identification" (leavesComps l) (headerComps r)

/-- A fixed value denotes a natural number; TRUE is 1 and FALSE is 0. -/
inductive Denotes : Leaf → Nat → Prop
  | int (n : Nat) : Denotes (.int n) n
  | true : Denotes (.bool true) 1
  | false : Denotes (.bool false) 0

/-- `parts` fixes each of the four header fields once, in any order and grouping. -/
def FixesHeader (parts : List (List (String × Leaf))) (version type flag apid : Nat) : Prop :=
  ∃ v t f a, Denotes v version ∧ Denotes t type ∧ Denotes f flag ∧ Denotes a apid ∧
    parts.flatten.Perm
      [("packet-version-number", v), ("packet-type-is-cmd", t),
       ("sec-hdr-flag-is-present", f), ("application-process-identifier", a)]

/-- Bit `i` of `x` shifted to the left by `k` bits. -/
def HasBit (x k i : Nat) : Prop := k ≤ i ∧ x / 2 ^ (i - k) % 2 = 1

end Apg.Spec
