import Verif.Spec.Numbers

/-!
# Specification of sizes in bits
-/

namespace Apg.Spec

/-- Width of a leaf type: the least unsigned width for a non-negative range, the
least standard width for a signed range, 1 for BOOLEAN, 32/64 for reals, eight bits
per character. -/
inductive LeafSize : AType → Int → Prop
  | bool : LeafSize (.plain "BOOLEAN" none none) 1
  | uint {b e : Int} (w : Nat) : 0 ≤ b → b ≤ e →
      (∀ v, InRange b e v → FitsUnsigned w v) →
      (∀ w' : Nat, (∀ v, InRange b e v → FitsUnsigned w' v) → w ≤ w') →
      LeafSize (.plain "INTEGER" (some (.int b)) (some (.int e))) w
  | int {b e : Int} (w : Nat) : b < 0 → b ≤ e → w ∈ [8, 16, 32, 64] →
      (∀ v, InRange b e v → FitsSigned w v) →
      (∀ w' ∈ [8, 16, 32, 64], (∀ v, InRange b e v → FitsSigned w' v) → w ≤ w') →
      LeafSize (.plain "INTEGER" (some (.int b)) (some (.int e))) w
  | single {b e : Num} {lim : Rat} : lim = (8999725064576941 * 2 ^ 75 : Int) →
      NumLE b e → NumLE (.flt (-lim)) b → NumLE e (.flt lim) →
      LeafSize (.plain "REAL" (some b) (some e)) 32
  | double {b e : Num} {lim dlim : Rat} : lim = (8999725064576941 * 2 ^ 75 : Int) →
      dlim = (2 ^ 1024 - 2 ^ 971 : Int) → NumLE b e →
      ¬ (NumLE (.flt (-lim)) b ∧ NumLE e (.flt lim)) →
      NumLE (.flt (-dlim)) b → NumLE e (.flt dlim) →
      LeafSize (.plain "REAL" (some b) (some e)) 64
  | ia5 {len} : LeafSize (.str "IA5String" len) (len * 8)
  | numeric {len} : LeafSize (.str "NumericString" len) (len * 8)
  | floatName : LeafSize (.plain "Float" none none) 32
  | doubleName : LeafSize (.plain "Double" none none) 64

/-- What a size is computed for. -/
inductive Node where
  | def (d : Def)
  | members (ms : List Member)

/-- The size of a definition and of a list of members, following type names
through the definitions `ds`. A CHOICE has no size. -/
inductive Size (ds : List Def) : Node → Int → Prop
  | seq {n c ms v} : Size ds (.members ms) v → Size ds (.def (.seq n c ms)) v
  | enum {n c its} (w : Nat) : its ≠ [] → (∀ it ∈ its, FitsUnsigned w it.pos) →
      (∀ w' : Nat, (∀ it ∈ its, FitsUnsigned w' it.pos) → w ≤ w') →
      Size ds (.def (.enum n c its)) w
  | simple {n c t v} : LeafSize t v → Size ds (.def (.simple n c t)) v
  | nil : Size ds (.members []) 0
  | named {m ms d lo hi a v} : m.type = .plain d.name lo hi → d ∈ ds →
      Size ds (.def d) a → Size ds (.members ms) v → Size ds (.members (m :: ms)) (a + v)
  | leaf {m ms a v} : (∀ n lo hi, m.type = .plain n lo hi → ∀ d ∈ ds, d.name ≠ n) →
      LeafSize m.type a → Size ds (.members ms) v → Size ds (.members (m :: ms)) (a + v)
  | array {m ms e len a v} : m.type = .arr e len →
      Size ds (.members [{ m with type := e }]) a → Size ds (.members ms) v →
      Size ds (.members (m :: ms)) (len * a + v)

/-- No sequence contains itself: a rank decreases from a sequence to the
definitions its members name. -/
def NonRecursive (ds : List Def) (rank : Def → Nat) : Prop :=
  ∀ d ∈ ds, d.isSeq → ∀ m ∈ d.members, ∀ n lo hi, m.type = .plain n lo hi →
    ∀ e ∈ ds, e.name = n → rank e < rank d

end Apg.Spec
