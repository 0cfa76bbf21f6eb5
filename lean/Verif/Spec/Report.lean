import Verif.Model.Report
import Verif.Spec.Valid

/-!
# What the error messages claim

What a user reads in an error message about the modules read (`raw`) and the modules named on the command line
(`cfg`).
-/

namespace Apg.Spec

/-- `t` is the type `u`, or `u` is an array (of arrays …) of `t`. -/
inductive Within (t : AType) : AType → Prop
  | here : Within t t
  | elem {e len} : Within t e → Within t (.arr e len)

/-- The type of a member or of a simple definition in the modules. -/
def TypeUsed (raw : List Module) (u : AType) : Prop :=
  ∃ m ∈ raw, ∃ d ∈ m.defs, (∃ k ∈ d.members, k.type = u) ∨ ∃ n c, d = .simple n c u

/-- The comment belongs to a member or item with the key `k`. -/
def KeyComment (raw : List Module) (k : String) (c : Comment) : Prop :=
  ∃ m ∈ raw, ∃ d ∈ m.defs, (∃ x ∈ d.members, x.key = k ∧ x.comment = some c) ∨
    ∃ n c' its, d = .enum n c' its ∧ ∃ i ∈ its, i.key = k ∧ i.comment = some c

/-- The comment belongs to a module or a definition. -/
def TopComment (raw : List Module) (c : Comment) : Prop :=
  ∃ m ∈ raw, m.comment = some c ∨ m.commentImport = some c ∨ ∃ d ∈ m.defs, d.comment = some c

/-- The positions of the items are 0 up to their number, each once. -/
def WellNumbered (its : List EnumItem) : Prop :=
  (its.map (·.pos)).Perm ((List.range its.length).map fun (i : Nat) => (i : Int))

/-- The clause fixes something for the key: a value, or an inner clause. -/
inductive HasKey (k : String) : Comps → Prop
  | leaf {v rest} : HasKey k (.leaf k v rest)
  | node {inner rest} : HasKey k (.node k inner rest)
  | afterLeaf {k' v rest} : HasKey k rest → HasKey k (.leaf k' v rest)
  | afterNode {k' inner rest} : HasKey k rest → HasKey k (.node k' inner rest)

/-- The clause has the inner clause `inner` for the key `k`. -/
inductive HasInner (k : String) (inner : Comps) : Comps → Prop
  | node {rest} : HasInner k inner (.node k inner rest)
  | afterLeaf {k' v rest} : HasInner k inner rest → HasInner k inner (.leaf k' v rest)
  | afterNode {k' i rest} : HasInner k inner rest → HasInner k inner (.node k' i rest)

/-- `c'` is the clause `c` on the type `t`, or a clause within it, and `t'` is the type it is about. -/
inductive ClauseIn (ds : List Def) : String → Comps → String → Comps → Prop
  | here {t c} : ClauseIn ds t c t c
  | inner {t c ms k inner n t' c'} : IsSequence ds t ms → k ∈ ms → HasInner k.key inner c → UsesName k.type n →
      ClauseIn ds n inner t' c' → ClauseIn ds t c t' c'

/-- In the SEQUENCE `d` there is a clause `c`, perhaps within another one, about the type `t`. -/
def ClauseOf (ds : List Def) (d t : String) (c : Comps) : Prop :=
  ∃ ms, IsSequence ds d ms ∧ ∃ k ∈ ms, ∃ cs n, k.comps = some cs ∧ UsesName k.type n ∧ ClauseIn ds n cs t c

/-- What the message claims. -/
def Claims (raw : List Module) (cfg : List String) : Message → Prop
  | .inverted lo hi => ∃ u, TypeUsed raw u ∧ ∃ n, Within (.plain n (some lo) (some hi)) u ∧ ¬ NumLE lo hi
  | .notDouble lo hi => ∃ a b u, lo = some a ∧ hi = some b ∧ TypeUsed raw u ∧ Within (realType a b) u ∧
      ¬ (NumLE (.flt (-largestFloat)) a ∧ NumLE b (.flt largestFloat))
  | .standardRange lo hi n => (∃ m ∈ raw, ∃ c t, Def.simple n c t ∈ m.defs ∧ t.lo = lo ∧ t.hi = hi) ∧
      ∃ b e, StandardRange n b e ∧ ¬ ((∃ a, lo = some a ∧ NumLE a b ∧ NumLE b a) ∧ ∃ a, hi = some a ∧ NumLE a e ∧ NumLE e a)
  | .null => ∃ u, TypeUsed raw u ∧ UsesName u "NULL"
  | .comment k s t => ∃ c, KeyComment raw k c ∧ c.text = t ∧ s ∈ [['['], [']'], ['-', '-']] ∧ s <:+: t.toList
  | .noKey => ∃ c, TopComment raw c ∧ ¬ CleanComment c
  | .indices => ∃ m ∈ raw, ∃ n c its, Def.enum n c its ∈ m.defs ∧ ¬ WellNumbered its
  | .indexOut => ∃ m ∈ raw, ∃ n c its, Def.enum n c its ∈ m.defs ∧ ∃ i ∈ its, i.pos < 0 ∨ (its.length : Int) ≤ i.pos
  | .indexTwice p => ∃ m ∈ raw, ∃ n c its, Def.enum n c its ∈ m.defs ∧ 2 ≤ (its.map (·.pos)).count p
  | .undefinedType t n => ∃ m ∈ raw, m.name = n ∧ (∃ d ∈ m.defs, ∃ k ∈ d.members, UsesName k.type t) ∧ ¬ Known m t
  | .readTwice ns => ns ≠ [] ∧ ∀ n, n ∈ ns ↔ 2 ≤ (raw.map (·.name)).count n
  | .namedTwice ns => ns ≠ [] ∧ ∀ n, n ∈ ns ↔ 2 ≤ cfg.count n
  | .dependencies n ns => ∃ m ∈ raw, m.name = n ∧ ns ≠ [] ∧
      ∀ x, x ∈ ns ↔ (∃ i ∈ m.imports, i.module = x) ∧ ∀ r ∈ raw, r.name ≠ x
  | .imports n ns s => ∃ m ∈ raw, m.name = n ∧ ∃ src ∈ raw, src.name = s ∧ ns ≠ [] ∧
      ∀ x, x ∈ ns ↔ ImportedFrom m x src ∧ ∀ d ∈ src.defs, d.name ≠ x
  | .key k d => ∃ t c ms, ClauseOf (defsOf raw) d t c ∧ HasKey k c ∧ IsSequence (defsOf raw) t ms ∧ ∀ x ∈ ms, x.key ≠ k
  | .usedType t d => ∃ c, ClauseOf (defsOf raw) d t c ∧ ∀ x ∈ defsOf raw, x.name ≠ t
  | .typeTwice t a b => ∃ (l₁ l₂ l₃ : List (String × Def)) (d d' : Def),
      (raw.flatMap fun m => m.defs.map fun d => (m.name, d)) = l₁ ++ (a, d) :: l₂ ++ (b, d') :: l₃ ∧
      d.name = t ∧ d'.name = t
  | .notNamed ns => ns ≠ [] ∧ ∀ n, n ∈ ns ↔ n ∈ raw.map (·.name) ∧ n ∉ cfg
  | .notRead ns => ns ≠ [] ∧ ∀ n, n ∈ ns ↔ n ∈ cfg ∧ n ∉ raw.map (·.name)

/-- In Python, -1 is the last of `n` places, and `-n` the first. -/
def StandsFor (n : Nat) (p : Int) (q : Nat) : Prop := p = q ∨ p = (q : Int) - n

/-- The messages that can be wrong, and what is true instead. A clause on a type that is no SEQUENCE, or several of them, is
reported as a clause on a type that is not defined. A negative position stands for one counted from the end. -/
def Misleads (raw : List Module) : Message → Prop
  | .usedType t d => (∃ c, ClauseOf (defsOf raw) d t c) ∧ ¬ BuiltIn t ∧
      ((defsOf raw).filter fun x => x.isSeq && x.name = t).length ≠ 1
  | .indexTwice p => ∃ m ∈ raw, ∃ n c its, Def.enum n c its ∈ m.defs ∧
      ∃ (l₁ l₂ : List EnumItem) (i j : EnumItem), i ∈ l₁ ∧ its = l₁ ++ j :: l₂ ∧ j.pos = p ∧
        ∃ q : Nat, q < its.length ∧ StandsFor its.length i.pos q ∧ StandsFor its.length p q
  | _ => False

end Apg.Spec
