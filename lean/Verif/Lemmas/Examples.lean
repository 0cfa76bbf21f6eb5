import Verif.Model.Builder
import Verif.Spec.Grammar

/-!
# Deciding the grammar predicates, for concrete examples
-/

namespace Apg
open Spec

def grammarTypeB : AType → Bool
  | .plain n none none =>
    n == "REAL" || n == "INTEGER" || n == "NULL" || n == "BOOLEAN" || isNameCapital n
  | .plain n (some b) (some e) =>
    n == "REAL" && isFloat b && isFloat e || n == "INTEGER" && !isFloat b && !isFloat e
  | .plain .. => false
  | .str n _ => n == "IA5String" || n == "NumericString"
  | .arr e _ => grammarTypeB e

theorem grammarTypeB_sound {t : AType} (h : grammarTypeB t = true) : GrammarType t := by
  induction t with
  | plain n lo hi =>
    unfold grammarTypeB at h
    split at h
    · rename_i heq
      cases heq
      simp only [Bool.or_eq_true, beq_iff_eq] at h
      rcases h with (((rfl | rfl) | rfl) | rfl) | h
      · exact .real
      · exact .integer
      · exact .null
      · exact .boolean
      · exact .named h
    · rename_i b e heq
      cases heq
      simp only [Bool.or_eq_true, Bool.and_eq_true, beq_iff_eq, Bool.not_eq_true'] at h
      rcases h with ⟨⟨rfl, h1⟩, h2⟩ | ⟨⟨rfl, h1⟩, h2⟩
      · exact .realRange h1 h2
      · cases b with
        | int b =>
          cases e with
          | int e => exact .integerRange
          | flt q => cases h2
          | inf q => cases h2
        | flt q => cases h1
        | inf q => cases h1
    · cases h
    · rename_i heq; cases heq
    · rename_i heq; cases heq
  | str n len =>
    simp only [grammarTypeB, Bool.or_eq_true, beq_iff_eq] at h
    rcases h with rfl | rfl
    · exact .ia5
    · exact .numeric
  | arr e len ih => exact .arr (ih h)

def grammarCompsB : Comps → Bool
  | .nil => true
  | .leaf k _ r => isNameLower k && grammarCompsB r
  | .node k c r => isNameLower k && (c != .nil) && grammarCompsB c && grammarCompsB r

theorem grammarCompsB_sound {c : Comps} (h : grammarCompsB c = true) : GrammarComps c := by
  induction c with
  | nil => trivial
  | leaf k v r ih =>
    simp only [grammarCompsB, Bool.and_eq_true] at h
    exact ⟨h.1, ih h.2⟩
  | node k c r ih1 ih2 =>
    simp only [grammarCompsB, Bool.and_eq_true, bne_iff_ne] at h
    exact ⟨h.1.1.1, ⟨h.1.1.2, ih1 h.1.2⟩, ih2 h.2⟩

def grammarMemberB (m : Member) : Bool :=
  isNameLower m.key && grammarTypeB m.type &&
    (match m.comps with
      | none => true
      | some cs => cs != .nil && grammarCompsB cs)

theorem grammarMemberB_sound {m : Member} (h : grammarMemberB m = true) : GrammarMember m := by
  simp only [grammarMemberB, Bool.and_eq_true] at h
  refine ⟨h.1.1, grammarTypeB_sound h.1.2, ?_⟩
  intro cs hcs
  have h2 := h.2
  rw [hcs] at h2
  simp only [Bool.and_eq_true, bne_iff_ne] at h2
  exact ⟨h2.1, grammarCompsB_sound h2.2⟩

def grammarDefB : Def → Bool
  | .seq n _ ms => isNameCapital n && ms != [] && ms.all grammarMemberB
  | .choice n _ ms => isNameCapital n && ms != [] && ms.all grammarMemberB
  | .enum n _ its => isNameCapital n && its != [] && its.all (fun it => isNameLower it.key)
  | .simple n _ t => isNameCapital n && grammarTypeB t

theorem grammarDefB_sound {d : Def} (h : grammarDefB d = true) : GrammarDef d := by
  cases d <;>
    simp only [grammarDefB, Bool.and_eq_true, bne_iff_ne, List.all_eq_true] at h
  · exact ⟨h.1.1, h.1.2, fun m hm => grammarMemberB_sound (h.2 m hm)⟩
  · exact ⟨h.1.1, h.1.2, fun m hm => grammarMemberB_sound (h.2 m hm)⟩
  · exact ⟨h.1.1, h.1.2, h.2⟩
  · exact ⟨h.1, grammarTypeB_sound h.2⟩

def grammarModuleB (m : Module) : Bool :=
  isNameLower m.name && m.defs != [] && m.defs.all grammarDefB &&
    m.imports.all (fun i => isNameLower i.module && i.defs != [] && i.defs.all isNameCapital)

/-- Checks every module. -/
def grammarB (raw : List Module) : Bool := raw.all grammarModuleB

theorem grammarB_sound {raw : List Module} (h : grammarB raw = true) : ∀ m ∈ raw, GrammarModule m := by
  intro m hm
  have h := List.all_eq_true.1 h m hm
  simp only [grammarModuleB, Bool.and_eq_true, bne_iff_ne, List.all_eq_true] at h
  exact ⟨h.1.1.1, h.1.1.2, fun d hd => grammarDefB_sound (h.1.2 d hd),
    fun i hi => ⟨(h.2 i hi).1.1, (h.2 i hi).1.2, (h.2 i hi).2⟩⟩

/-- The bundle, when the result is one. -/
def okBundle : Except Err Bundle → Bundle
  | .ok b => b
  | .error _ => ⟨[], []⟩

/-- The result is a bundle. -/
def isOk {ε α} : Except ε α → Bool
  | .ok _ => true
  | .error _ => false

theorem okBundle_eq {x : Except Err Bundle} (h : isOk x = true) : x = .ok (okBundle x) := by
  cases x with
  | ok b => rfl
  | error e => cases h

end Apg
