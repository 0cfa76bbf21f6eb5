import Verif.Spec.Comments
import Verif.Spec.Cosmos

/-!
# Sources that differ in comments
-/

namespace Apg.Spec

/-- The modules are the same but for comments. -/
def SameButComments (raw raw' : List Module) : Prop := raw.map bare = raw'.map bare

/-- The files of module `m` that have comments of the source in them. -/
def Command.commented (cmd : Command) (out : List Char) (m : String) : List (List Char) :=
  match cmd with
  | .c _ => [cmd.path out m, inDir out (ident m ++ ".c".toList)]
  | _ => [cmd.path out m]

/-- An item without what is said in the comment of a member: byte order and unit. -/
def unsaid (it : CosmosItem) : CosmosItem := { it with little := false, units := [] }

/-- A packet without what is said in comments. -/
def unsaidPacket (x : CosmosPacket) : CosmosPacket := { x with items := x.items.map unsaid }

end Apg.Spec
