import Verif.Spec.Numbers
import Verif.Spec.Enum
import Verif.Spec.Bundle
import Verif.Spec.Syntax

/-!
# Valid input

When a list of modules is valid, stated on the syntax trees only. `Valid` is what the
documentation asks for; `Acceptable` is weaker in the places where the tool is known to look
less closely.
-/

namespace Apg.Spec

/-- The largest floating-point number. -/
def largestFloat : Rat := ((2 ^ 1024 - 2 ^ 971 : Int) : Rat)

/-- The names of the C types that a definition may take, with their ranges. `Float` ends at the
floating-point number nearest to 3.4e38, `Double` at the largest one. -/
inductive StandardRange : String → Num → Num → Prop
  | i8 : StandardRange "Int8-t" (.int (-128)) (.int 127)
  | i16 : StandardRange "Int16-t" (.int (-32768)) (.int 32767)
  | i32 : StandardRange "Int32-t" (.int (-2147483648)) (.int 2147483647)
  | i64 : StandardRange "Int64-t" (.int (-9223372036854775808)) (.int 9223372036854775807)
  | u8 : StandardRange "Uint8-t" (.int 0) (.int 255)
  | u16 : StandardRange "Uint16-t" (.int 0) (.int 65535)
  | u32 : StandardRange "Uint32-t" (.int 0) (.int 4294967295)
  | u64 : StandardRange "Uint64-t" (.int 0) (.int 18446744073709551615)
  | float : StandardRange "Float" (.flt ((-(8999725064576941 * 2 ^ 75) : Int) : Rat))
      (.flt ((8999725064576941 * 2 ^ 75 : Int) : Rat))
  | double : StandardRange "Double" (.flt (-largestFloat)) (.flt largestFloat)

/-- Types that can be used: no NULL, no range from a number to a smaller one, no REAL beyond
the floating-point numbers. -/
inductive SoundType : AType → Prop
  | real : SoundType (.plain "REAL" none none)
  | realRange {b e} : NumLE (.flt (-largestFloat)) b → NumLE b e → NumLE e (.flt largestFloat) →
      SoundType (realType b e)
  | integer : SoundType (.plain "INTEGER" none none)
  | integerRange {b e} : b ≤ e → SoundType (intType b e)
  | boolean : SoundType (.plain "BOOLEAN" none none)
  | ia5 {len} : SoundType (.str "IA5String" len)
  | numeric {len} : SoundType (.str "NumericString" len)
  | arr {e len} : SoundType e → SoundType (.arr e len)
  | named {n} : isNameCapital n → SoundType (.plain n none none)

/-- Every import names a module of the list that defines the types listed. -/
def ImportsSatisfied (mods : List Module) (m : Module) : Prop :=
  ∀ i ∈ m.imports, ∃ m' ∈ mods, m'.name = i.module ∧
    ∀ n ∈ i.defs, ∃ d ∈ m'.defs, d.name = n

/-- A type name that can be used in the module. -/
def Known (m : Module) (n : String) : Prop :=
  BuiltIn n ∨ (∃ d ∈ m.defs, d.name = n) ∨ ∃ i ∈ m.imports, n ∈ i.defs

/-- The comments of a module have none of the signs that are refused. -/
def CleanComments (m : Module) : Prop :=
  (∀ c ∈ m.comment.toList ++ m.commentImport.toList, CleanComment c) ∧
  ∀ d ∈ m.defs, ∀ c ∈ commentsOf d, CleanComment c

/-- The members of a sequence or choice have different keys. -/
def DistinctKeys (d : Def) : Prop := (d.members.map (·.key)).Nodup

/-- A valid definition. The positions of an enumeration are left out (then they are read as
zero) or are `0 .. n-1` in some order. -/
def ValidDef (d : Def) : Prop :=
  (match d with
    | .seq _ _ ms => ∀ m ∈ ms, SoundType m.type
    | .choice _ _ ms => ∀ m ∈ ms, SoundType m.type
    | .enum _ _ its => (∀ i ∈ its, i.pos = 0) ∨ ValidPositions its
    | .simple _ _ t => SoundType t) ∧
  DistinctKeys d ∧
  (∀ b e : Int, StandardRange d.name (.int b) (.int e) → ∃ c, d = .simple d.name c (intType b e)) ∧
  (∀ b e : Rat, StandardRange d.name (.flt b) (.flt e) →
    ∃ c, d = .simple d.name c (realType (.flt b) (.flt e)))

/-- A valid list of modules. -/
structure Valid (ms : List Module) : Prop where
  moduleNames : (ms.map (·.name)).Nodup
  typeNames : ((defsOf ms).map Def.name).Nodup
  comments : ∀ m ∈ ms, CleanComments m
  defs : ∀ d ∈ defsOf ms, ValidDef d
  used : ∀ m ∈ ms, ∀ d ∈ m.defs, ∀ k ∈ d.members, ∀ n, UsesName k.type n → Known m n
  imports : ∀ m ∈ ms, ImportsSatisfied ms m
  components : ∀ d ∈ defsOf ms, ∀ k ∈ d.members, ∀ cs, k.comps = some cs →
    ∀ t, UsesName k.type t → Addresses (fun _ => False) (defsOf ms) t cs

/-! ### What is accepted -/

/-- Equal numbers. -/
def SameNum (a b : Num) : Prop := NumLE a b ∧ NumLE b a

/-- A definition that is accepted: positions may also sum to zero; a standard name on anything
but a simple definition is not looked at, and there only the bounds are. -/
def AcceptableDef : Def → Prop
  | .seq _ _ ms => ∀ m ∈ ms, SoundType m.type
  | .choice _ _ ms => ∀ m ∈ ms, SoundType m.type
  | .enum _ _ its => (its.map (·.pos)).sum = 0 ∨ ValidPositions its
  | .simple n _ t => SoundType t ∧ ∀ b e, StandardRange n b e →
      ∃ x y, (t = realType x y ∨ t = .plain "INTEGER" (some x) (some y)) ∧ SameNum x b ∧ SameNum y e

/-- A list of modules that is accepted: WITH COMPONENTS is looked at in sequences only, and not
on built-in types. -/
structure Acceptable (ms : List Module) : Prop where
  moduleNames : (ms.map (·.name)).Nodup
  typeNames : ((defsOf ms).map Def.name).Nodup
  comments : ∀ m ∈ ms, CleanComments m
  defs : ∀ d ∈ defsOf ms, AcceptableDef d
  used : ∀ m ∈ ms, ∀ d ∈ m.defs, ∀ k ∈ d.members, ∀ n, UsesName k.type n → Known m n
  imports : ∀ m ∈ ms, ImportsSatisfied ms m
  components : ∀ n c l, Def.seq n c l ∈ defsOf ms → ∀ k ∈ l, ∀ cs, k.comps = some cs →
    ∀ t, UsesName k.type t → Addresses BuiltIn (defsOf ms) t cs

end Apg.Spec
