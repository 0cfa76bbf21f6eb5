import Verif.Spec.Shared
import Verif.Model.Main

/-!
# Specification of the command line

The documented interface: a command, one group of input paths, and options `--name value` or `--name=value` in any
order. An option may be abbreviated as long as it stays unambiguous.
-/

namespace Apg.Spec

/-- The commands, their options, and which of them are needed. -/
inductive Offers : List Char → List (List Char × Bool) → Prop
  | cosmos : Offers "generate-cosmos".toList [("--asn1-module".toList, true), ("--asn1-messages".toList, true),
      ("--output-file-name".toList, true), ("--output-dir".toList, false)]
  | cfs : Offers "generate-cfs".toList [("--asn1-modules".toList, true), ("--output-dir".toList, false)]
  | c : Offers "generate-c".toList [("--asn1-modules".toList, true), ("--output-dir".toList, false)]
  | binary : Offers "generate-binary".toList [("--asn1-modules".toList, true), ("--output-dir".toList, false),
      ("--endianness".toList, false)]

/-- A word that is no option: it does not begin with a dash. -/
def Ordinary (w : List Char) : Prop := w.head? ≠ some '-'

/-- A word that is ordinary or begins with two dashes, is longer, and has no blank. -/
def Usual (w : List Char) : Prop := Ordinary w ∨ ∃ r, w = "--".toList ++ r ∧ r ≠ [] ∧ ' ' ∉ w

/-- `w` stands for the option `n`: it is `n` or an abbreviation that fits no other option. -/
def Writes (opts : List (List Char × Bool)) (w n : List Char) : Prop :=
  "--".toList <+: w ∧ w <+: n ∧ n ∈ opts.map (·.1) ∧ ∀ n' ∈ "--help".toList :: opts.map (·.1), w <+: n' → n' = n

/-- One part of a command line. -/
inductive Part where
  | paths (ps : List (List Char))
  | spaced (w n v : List Char)
  | joined (w n v : List Char)

/-- Words of a part. -/
def Part.words : Part → List (List Char)
  | .paths ps => ps
  | .spaced w _ v => [w, v]
  | .joined w _ v => [w ++ '=' :: v]

/-- Paths of a part. -/
def Part.inputs : Part → List (List Char)
  | .paths ps => ps
  | _ => []

/-- Value that a part gives to an option. -/
def Part.value : Part → List (List Char × List Char)
  | .paths _ => []
  | .spaced _ n v => [(n, v)]
  | .joined _ n v => [(n, v)]

/-- Parts as they may occur. -/
def Part.Good (opts : List (List Char × Bool)) : Part → Prop
  | .paths ps => ps ≠ [] ∧ ∀ p ∈ ps, Ordinary p
  | .spaced w n v => Writes opts w n ∧ Ordinary v
  | .joined w n _ => Writes opts w n

/-- A part that is a group of paths. -/
def Part.IsPaths : Part → Prop
  | .paths _ => True
  | _ => False

/-- A command line of good parts, exactly one of which is a group of paths. -/
def Invocation (opts : List (List Char × Bool)) (parts : List Part) : Prop :=
  (∀ x ∈ parts, x.Good opts) ∧ ∃ pre ps post, parts = pre ++ .paths ps :: post ∧
    ∀ x ∈ pre ++ post, ¬ x.IsPaths

/-- The last value given to an option. -/
def Last (vs : List (List Char × List Char)) (n v : List Char) : Prop :=
  ∃ pre post, vs = pre ++ (n, v) :: post ∧ n ∉ post.map (·.1)

/-- The last value given to an option, or the default. -/
def LastOr (vs : List (List Char × List Char)) (n d v : List Char) : Prop :=
  Last vs n v ∨ n ∉ vs.map (·.1) ∧ v = d

/-- The names of the byte orders. -/
inductive ByteOrder : List Char → Endian → Prop
  | little : ByteOrder "little-endian".toList .little
  | big : ByteOrder "big-endian".toList .big

/-- What the options of a command say. -/
inductive Means : List Char → List (List Char × List Char) → Args → Prop
  | cosmos {vs m ms target out} : Last vs "--asn1-module".toList m → Last vs "--asn1-messages".toList ms →
      Last vs "--output-file-name".toList target → LastOr vs "--output-dir".toList "output/cosmos".toList out →
      Means "generate-cosmos".toList vs (.cosmos m ms target out)
  | cfs {vs ms out} : Last vs "--asn1-modules".toList ms →
      LastOr vs "--output-dir".toList "output/cfs".toList out → Means "generate-cfs".toList vs (.cfs ms out)
  | c {vs ms out} : Last vs "--asn1-modules".toList ms →
      LastOr vs "--output-dir".toList "output/c".toList out → Means "generate-c".toList vs (.c ms out)
  | binary {vs ms out} {e : Option Endian} : Last vs "--asn1-modules".toList ms →
      LastOr vs "--output-dir".toList "output/binary".toList out →
      (∀ x ∈ vs, x.1 = "--endianness".toList → ∃ e', ByteOrder x.2 e') →
      (∀ e', e = some e' ↔ ∃ v, Last vs "--endianness".toList v ∧ ByteOrder v e') →
      Means "generate-binary".toList vs (.binary ms out e)

/-- The command line `argv` asks for `args` on the files `ps`. -/
def Understood (argv ps : List (List Char)) (args : Args) : Prop :=
  ∃ cmd opts parts, Offers cmd opts ∧ argv = cmd :: parts.flatMap Part.words ∧ Invocation opts parts ∧
    ps = parts.flatMap Part.inputs ∧ Means cmd (parts.flatMap Part.value) args

/-- `t` is the text in the file at `q`, or `none` if there is no file or it is no text. -/
def FileText (fs : List Char → Option Content) (q : List Char) (t : Option (List Char)) : Prop :=
  ∀ u, t = some u ↔ fs q = some (u.map .inl)

/-- The path ends like that of a generated file. -/
def Generated (q : List Char) : Prop :=
  ∃ r, q = r ++ ".h".toList ∨ q = r ++ ".c".toList ∨ q = r ++ ".bin".toList ∨ q = r ++ ".txt".toList

/-- The output folder asked for. -/
def folder : Args → List Char
  | .cosmos _ _ _ out => out
  | .cfs _ out => out
  | .c _ out => out
  | .binary _ out _ => out

/-- The file is directly in the folder. -/
def DirectlyIn (dir q : List Char) : Prop := ∃ f, '/' ∉ f ∧ q = inDir dir f

end Apg.Spec
