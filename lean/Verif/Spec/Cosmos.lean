import Verif.Model.Cosmos
import Verif.Spec.Header
import Verif.Spec.Printer
import Verif.Spec.Bundle
import Verif.Spec.Sizes
import Verif.Spec.CInit

/-!
# Specification of the COSMOS telemetry file

The file is read line by line, as COSMOS does: blank separated words up to the quoted
description.
-/

namespace Apg.Spec

/-! ### Reading a file -/

/-- The blank separated words of a text. -/
def words : List Char → List (List Char)
  | [] => []
  | c :: t =>
    if c = ' ' then words t
    else if t.head? = none ∨ t.head? = some ' ' then [c] :: words t
    else match words t with
      | [] => [[c]]
      | w :: ws => (c :: w) :: ws

/-- A line of the file that means something. -/
inductive CosmosLine where
  | packet (target name : List Char)
  | item (kind name : List Char) (bits : Option Int) (type : List Char) (value : List (List Char))
      (little : Bool)
  | state (name : List Char) (value : Option Int)
  | limits (args : List (List Char))
  | units (args : List (List Char))
  | other
  deriving DecidableEq

/-- Read a line. -/
def readLine (l : List Char) : CosmosLine :=
  match words (l.takeWhile (· ≠ '"')) with
  | [] => .other
  | w :: ws =>
    if w = "TELEMETRY".toList then
      match ws with
      | target :: name :: _ => .packet target name
      | _ => .other
    else if w = "APPEND_ITEM".toList ∨ w = "APPEND_ID_ITEM".toList ∨ w = "APPEND_ARRAY_ITEM".toList then
      match ws with
      | name :: bits :: type :: value =>
        .item w name (readInt bits) type value ("\" LITTLE_ENDIAN".toList.isSuffixOf l)
      | _ => .other
    else if w = "STATE".toList then
      match ws with
      | [name, value] => .state name (readInt value)
      | _ => .other
    else if w = "LIMITS".toList then .limits ws
    else if w = "UNITS".toList then .units ws
    else .other

/-- An item of a packet with the lines that belong to it. -/
structure CosmosItem where
  kind : List Char
  name : List Char
  bits : Option Int
  type : List Char
  value : List (List Char)
  little : Bool
  states : List (List Char × Option Int)
  limits : List (List (List Char))
  units : List (List (List Char))
  deriving DecidableEq

/-- A packet. -/
structure CosmosPacket where
  target : List Char
  name : List Char
  items : List CosmosItem
  deriving DecidableEq

/-- What has been read from the end of a file: lines that belong to an item not yet seen,
items of a packet not yet seen, packets. -/
structure CosmosRest where
  states : List (List Char × Option Int) := []
  limits : List (List (List Char)) := []
  units : List (List (List Char)) := []
  items : List CosmosItem := []
  packets : List CosmosPacket := []
  deriving DecidableEq

/-- Add the line before. -/
def CosmosRest.add (r : CosmosRest) : CosmosLine → CosmosRest
  | .packet t n => { packets := ⟨t, n, r.items⟩ :: r.packets }
  | .item k n b t v l =>
    { items := ⟨k, n, b, t, v, l, r.states, r.limits, r.units⟩ :: r.items, packets := r.packets }
  | .state n v => { r with states := (n, v) :: r.states }
  | .limits a => { r with limits := a :: r.limits }
  | .units a => { r with units := a :: r.units }
  | .other => r

/-- Read a text from the end. -/
def readRest (t : List Char) : CosmosRest :=
  ((linesOf t).map readLine).foldr (fun l r => r.add l) {}

/-- The packets of a file. -/
def readCosmos (t : List Char) : List CosmosPacket := (readRest t).packets

/-- The file of a target. -/
def cosmosPath (out target : List Char) : List Char := inDir out (target ++ ".txt".toList)

/-- A text that is one word in a COSMOS line. -/
def IsWord (t : List Char) : Prop := t ≠ [] ∧ ∀ c ∈ t, c ≠ ' ' ∧ c ≠ '\n' ∧ c ≠ '"'

/-- What is known of Python's `str` of a list of objects: one line without quotes. -/
def OneLine (p : Printer) : Prop := ∀ c, ∀ x ∈ p.object c, x ≠ '\n' ∧ x ≠ '"'

/-- A target name: one word, not an absolute path. -/
def IsTarget (t : List Char) : Prop := IsWord t ∧ t.head? ≠ some '/'

/-- The files after something differ from those before in that `t` was added to the end of
the file `path`, which was made if there was none. -/
def Adds (fs fs' : Files) (path t : List Char) : Prop :=
  ∀ q, fs' q = if q = path then some ((fs q).getD [] ++ t.map .inl) else fs q

/-- Sources as the grammar builds them that validation accepts as bundle `b` when all modules
are read. -/
structure Sources (raw : List Module) (b : Bundle) : Prop where
  grammar : ∀ m ∈ raw, GrammarModule m
  comments : ∀ m ∈ raw, GrammarComments m
  accepted : buildFromTexts raw = .ok b

/-- The definition of the sequence `n` is one of a module called `module`. -/
def MessageOf (b : Bundle) (module n : String) (ms : List Member) : Prop :=
  ∃ m ∈ b.modules, m.name = module ∧ IsSequence m.defs n ms

/-! ### Messages -/

/-- The leaf members of a list of members in declaration order, depth first, each with the
members it is inside of. A member whose type is or is an array of a sequence is not a leaf. -/
inductive Leaves (ds : List Def) : List Member → List (List Member) → Prop
  | nil : Leaves ds [] []
  | leaf {m ms ps} : (∀ n inner, UsesName m.type n → ¬ IsSequence ds n inner) → Leaves ds ms ps →
      Leaves ds (m :: ms) ([m] :: ps)
  | seq {m ms n inner ps qs} : UsesName m.type n → IsSequence ds n inner → Leaves ds inner ps →
      Leaves ds ms qs → Leaves ds (m :: ms) (ps.map (m :: ·) ++ qs)

/-- The clause fixes the member reached by the keys to the value. -/
inductive CompFixes : Comps → List String → Leaf → Prop
  | here {k v r} : CompFixes (.leaf k v r) [k] v
  | inside {k c r ks v} : CompFixes c ks v → CompFixes (.node k c r) (k :: ks) v
  | afterLeaf {k w r ks v} : CompFixes r ks v → CompFixes (.leaf k w r) ks v
  | afterNode {k c r ks v} : CompFixes r ks v → CompFixes (.node k c r) ks v

/-- A clause of one of the members of the path fixes its last member to the value. -/
def FixedTo (path : List Member) (v : Leaf) : Prop :=
  ∃ pre m post c, path = pre ++ m :: post ∧ m.comps = some c ∧ CompFixes c (post.map (·.key)) v

/-- The keys of a clause. -/
def compKeys : Comps → List String
  | .nil => []
  | .leaf k _ r => k :: compKeys r
  | .node k _ r => k :: compKeys r

/-- The clause on the type `n` fixes no member twice, and reaches only into members that are
sequences and have no clause themselves. -/
def Clean (ds : List Def) : Comps → String → Prop
  | .nil, _ => True
  | .leaf k _ r, n => k ∉ compKeys r ∧ Clean ds r n
  | .node k c r, n => k ∉ compKeys r ∧ Clean ds r n ∧
      ∀ ms, IsSequence ds n ms → ∀ m ∈ ms, m.key = k →
        m.comps = none ∧ ∃ t inner, UsesName m.type t ∧ IsSequence ds t inner ∧ Clean ds c t

/-- All clauses of the sequences are clean. -/
def Separate (ds : List Def) : Prop :=
  ∀ n ms, IsSequence ds n ms → ∀ m ∈ ms, ∀ c, m.comps = some c → ∀ t, UsesName m.type t → Clean ds c t

/-- The clause has an inner clause for the key. -/
inductive HasNode : Comps → String → Comps → Prop
  | here {k c r} : HasNode (.node k c r) k c
  | afterLeaf {k v r k' c'} : HasNode r k' c' → HasNode (.leaf k v r) k' c'
  | afterNode {k c r k' c'} : HasNode r k' c' → HasNode (.node k c r) k' c'

/-- Somewhere in the definitions the clause is given for members of the type: it is the clause of
such a member, or an inner clause that reaches such a member. -/
inductive ClauseOn (ds : List Def) : Comps → String → Prop
  | own {n ms m c t} : IsSequence ds n ms → m ∈ ms → m.comps = some c → UsesName m.type t →
      ClauseOn ds c t
  | inner {c n c' ms m t} : ClauseOn ds c n → IsSequence ds n ms → m ∈ ms → HasNode c m.key c' →
      UsesName m.type t → ClauseOn ds c' t

/-- The member has a clause, and the clause of another member reaches into it too. -/
def Contended (ds : List Def) (m : Member) : Prop :=
  m.comps ≠ none ∧ ∃ n ms c c', IsSequence ds n ms ∧ m ∈ ms ∧ ClauseOn ds c n ∧ HasNode c m.key c'

/-- The clause has at most one entry for each step on the way along the keys, and the last is no
inner clause. -/
def Once : Comps → List String → Prop
  | _, [] => True
  | c, k :: ks => (compKeys c).count k ≤ 1 ∧ ∀ c', HasNode c k c' → ks ≠ [] ∧ Once c' ks

/-- Each member on the way to the leaf is reached by at most one clause. -/
def Clear (ds : List Def) (path : List Member) : Prop :=
  (∀ m ∈ path, ¬ Contended ds m) ∧
  ∀ pre m post c, path = pre ++ m :: post → m.comps = some c → Once c (post.map (·.key))

/-- The built-in type behind a type: itself or the one its name, or the name of its elements,
is defined to be. -/
inductive Behind (ds : List Def) : AType → AType → Prop
  | direct {n lo hi} : (∀ d ∈ ds, d.name ≠ n) → Behind ds (.plain n lo hi) (.plain n lo hi)
  | str {n len} : Behind ds (.str n len) (.str n len)
  | named {t n c t'} : UsesName t n → Def.simple n c t' ∈ ds → Behind ds t t'

/-- A member is in the list or in a sequence that members of the list are of, at any depth. -/
inductive Reached (ds : List Def) : List Member → Member → Prop
  | here {ms m} : m ∈ ms → Reached ds ms m
  | inside {ms m n inner m'} : m ∈ ms → UsesName m.type n → IsSequence ds n inner →
      Reached ds inner m' → Reached ds ms m'

/-- The member is no array, neither directly nor by the definition of its type. -/
def Single (ds : List Def) (m : Member) : Prop :=
  (∀ e len, m.type ≠ .arr e len) ∧
  ∀ n c t, UsesName m.type n → Def.simple n c t ∈ ds → ∀ e len, t ≠ .arr e len

/-- The type of the member is not defined to be an array, and if it is an array, the elements are
no arrays, no sequences and not of type BOOLEAN. -/
structure FlatMember (ds : List Def) (m : Member) : Prop where
  simple : ∀ n c t, UsesName m.type n → Def.simple n c t ∈ ds → ∀ e len, t ≠ .arr e len
  elem : ∀ e len, m.type = .arr e len → ∀ e' len', e ≠ .arr e' len'
  noSeq : ∀ e len, m.type = .arr e len → ∀ n inner, UsesName e n → ¬ IsSequence ds n inner
  noBool : ∀ e len, m.type = .arr e len → ¬ UsesName e "BOOLEAN" ∧
    ∀ n c t, UsesName e n → Def.simple n c t ∈ ds → ¬ UsesName t "BOOLEAN"

/-- The type is an array, possibly of arrays, of strings. -/
def StringArray (t : AType) : Prop :=
  ∃ e len, t = .arr e len ∧ (UsesName e "IA5String" ∨ UsesName e "NumericString")

/-! ### Packets -/

/-- The packets of the file text `t` are one for each message, in order, and `P` holds of the
members of the message and the items of the packet. -/
def Describes (b : Bundle) (module : String) (target : List Char)
    (P : List Member → List CosmosItem → Prop) (messages : List String) (t : List Char) : Prop :=
  All2 (fun n pkt => pkt.target = target ∧ pkt.name = n.toList ∧
    ∃ ms, MessageOf b module n ms ∧ P ms pkt.items) messages (readCosmos t)

/-- `R` relates the leaves of a list of members, in order, to items; it sees the members the leaf
is inside of and the leaf. -/
def LeafWise (ds : List Def) (R : List Member → Member → CosmosItem → Prop) (ms : List Member)
    (items : List CosmosItem) : Prop :=
  ∃ ls, Leaves ds ms ls ∧ All2 (fun path it => ∃ m, path.getLast? = some m ∧ R path m it) ls items

/-- Number of bits of an item; for an array, of all elements. -/
def itemLength (it : CosmosItem) : Option Int :=
  if it.kind = "APPEND_ARRAY_ITEM".toList then
    match it.value with
    | [w] => readInt w
    | _ => none
  else it.bits

/-- Number of bits of all items. -/
def itemsLength : List CosmosItem → Option Int
  | [] => some 0
  | it :: r =>
    match itemLength it, itemsLength r with
    | some a, some v => some (a + v)
    | _, _ => none

/-- The words denote the fixed value: a decimal number, a hexadecimal number for
application ids, 1 and 0 for TRUE and FALSE, or the text of a float. -/
inductive IdText (p : Printer) : List (List Char) → Leaf → Prop
  | dec {w i} : readInt w = some i → IdText p [w] (.int i)
  | hex {w} {n : Nat} : readNat 16 w = some n → IdText p ["0x".toList ++ w] (.int n)
  | true : IdText p [['1']] (.bool true)
  | false : IdText p [['0']] (.bool false)
  | float {x} : IdText p [p.num x] (.flt x)

/-- The range is not the whole range of the type Float, for a range inside it, or of the type
Double, for another range. -/
inductive Restricted : Num → Num → Prop
  | single {b e : Num} {lim : Rat} : lim = (8999725064576941 * 2 ^ 75 : Int) →
      LeafSize (realType b e) 32 → ¬ (NumLE b (.flt (-lim)) ∧ NumLE (.flt lim) e) → Restricted b e
  | double {b e : Num} {lim : Rat} : lim = (2 ^ 1024 - 2 ^ 971 : Int) →
      LeafSize (realType b e) 64 → ¬ (NumLE b (.flt (-lim)) ∧ NumLE (.flt lim) e) → Restricted b e

/-- The words of a LIMITS line: persistence, and lower and upper bounds of the red and the
yellow limits. -/
def limitsOf (p : Printer) (b e : Num) : List (List Char) :=
  ["DEFAULT".toList, ['5'], "ENABLED".toList, p.num b, p.num b, p.num e, p.num e]

/-- The type is BOOLEAN, possibly by definition, or an array of it. -/
def IsBoolean (ds : List Def) (t : AType) : Prop :=
  UsesName t "BOOLEAN" ∨ ∃ n c t', UsesName t n ∧ Def.simple n c t' ∈ ds ∧ UsesName t' "BOOLEAN"

/-- The fixed value is of the kind of the member: TRUE or FALSE for BOOLEAN and only for it, and a
natural number for application ids. -/
def Suits (ds : List Def) (m : Member) (v : Leaf) : Prop :=
  (IsBoolean ds m.type ↔ ∃ b, v = .bool b) ∧
  (m.key = "application-process-identifier" → ∃ n : Nat, v = .int n)

end Apg.Spec
