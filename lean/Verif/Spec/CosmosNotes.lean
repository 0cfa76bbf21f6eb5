import Verif.Spec.Cosmos

/-!
# Specification of the descriptions in a COSMOS telemetry file

COSMOS splits a line by a regular expression. A description is what `"(?:[^\\"]|\\.)*"` finds:
it ends at the first double quote that does not follow a backslash that stands for itself and
the next character.
-/

namespace Apg.Spec

/-- What is between the quotes when the opening one has been read, and what follows the
closing one. -/
def quoted : List Char → Option (List Char × List Char)
  | [] => none
  | '"' :: r => some ([], r)
  | ['\\'] => none
  | '\\' :: c :: r => (quoted r).map fun x => ('\\' :: c :: x.1, x.2)
  | c :: r => (quoted r).map fun x => (c :: x.1, x.2)

/-- The description in a line, and the words after it. -/
def quotedText (l : List Char) : Option (List Char × List (List Char)) :=
  match l.dropWhile (· ≠ '"') with
  | [] => none
  | _ :: r => (quoted r).map fun x => (x.1, words x.2)

/-- A packet or an item of a file: its name, and its description with the words after it. -/
structure CosmosNote where
  packet : Bool
  name : List Char
  text : Option (List Char × List (List Char))
  deriving DecidableEq

/-- Read a line. -/
def readNote (l : List Char) : Option CosmosNote :=
  match readLine l with
  | .packet _ n => some ⟨true, n, quotedText l⟩
  | .item _ n _ _ _ _ => some ⟨false, n, quotedText l⟩
  | _ => none

/-- The packets and items of a file in order. -/
def readNotes (t : List Char) : List CosmosNote := (linesOf t).filterMap readNote

/-- A text that can stand between quotes: every double quote follows a backslash, and every
backslash has a character after it that it belongs to. -/
inductive Quotable : List Char → Prop
  | nil : Quotable []
  | char {c t} : c ≠ '"' → c ≠ '\\' → Quotable t → Quotable (c :: t)
  | escaped {c t} : Quotable t → Quotable ('\\' :: c :: t)

/-- The words of a comment. -/
def noteText : Option Comment → List Char
  | none => []
  | some c => c.text.toList

/-- The comment says that the member is little endian. -/
def IsLittle (c : Option Comment) : Prop := ∃ x, c = some x ∧ x.little = true

/-- The words after the description of a member. -/
inductive EndianWords (c : Option Comment) : List (List Char) → Prop
  | little : IsLittle c → EndianWords c ["LITTLE_ENDIAN".toList]
  | big : ¬ IsLittle c → EndianWords c []

/-- The packets and items of the text `t` are, for each message in order, one packet and then one
item for each leaf of the message; `P` holds of the comment of the message and of the packet, `R`
of each leaf and its item. -/
def Notes (b : Bundle) (module : String) (P : Option Comment → CosmosNote → Prop)
    (R : Member → CosmosNote → Prop) (messages : List String) (t : List Char) : Prop :=
  ∃ gs : List (CosmosNote × List CosmosNote), readNotes t = gs.flatMap (fun g => g.1 :: g.2) ∧
    All2 (fun n g => ∃ c ms, (∃ m ∈ b.modules, m.name = module ∧ Def.seq n c ms ∈ m.defs) ∧
      (g.1.packet = true ∧ g.1.name = n.toList ∧ P c g.1) ∧
      ∃ ls, Leaves b.defs ms ls ∧ All2 (fun path it => ∃ m, path.getLast? = some m ∧
        it.packet = false ∧ it.name = m.key.toList ∧ R m it) ls g.2) messages gs

/-- The packet has the description. -/
def SaysPacket (c : Option Comment) (x : CosmosNote) : Prop := x.text = some (noteText c, [])

/-- The item has the description of the member, and is marked little endian if the member is. -/
def SaysItem (m : Member) (x : CosmosNote) : Prop :=
  ∃ ws, EndianWords m.comment ws ∧ x.text = some (noteText m.comment, ws)

/-- The arguments of the UNITS lines of a member with the comment. -/
inductive UnitsOf (c : Option Comment) : List (List (List Char)) → Prop
  | none : (∀ x, c = some x → x.unit = "") → UnitsOf c []
  | unit {x} : c = some x → x.unit ≠ "" → UnitsOf c [[x.unit.toList, x.unit.toList]]

end Apg.Spec
