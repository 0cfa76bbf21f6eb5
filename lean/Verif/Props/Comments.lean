import Verif.Lemmas.Bare
import Verif.Lemmas.Uncomment
import Verif.Props.Parser

/-!
# Property C55: comments
-/

namespace Apg

open Parse Spec

/-- **C55, kept comments.** The comments of an accepted module contain neither brackets nor
`--`. -/
theorem C55_clean {t : Text} {m : Module} (h : readModule t = .ok m) :
    (∀ c ∈ m.comment.toList ++ m.commentImport.toList, CleanComment c) ∧
    ∀ d ∈ m.defs, ∀ c ∈ commentsOf d, CleanComment c := by
  rcases readModule_cases t with ⟨e, h'⟩ | ⟨m0, _, _, _, h'⟩
  · rw [h'] at h; cases h
  · rw [h'] at h
    obtain ⟨h1, h2⟩ := processModule_clean h
    obtain ⟨_, _, ds, k, rfl, _⟩ := processModule_ok.1 h
    refine ⟨h1, fun d hd c hc => ?_⟩
    obtain ⟨d0, hd0, hdd⟩ := all2_mem_right (processDefs_ok.1 k) hd
    exact h2 d0 hd0 c (processDef_comments hdd hc)

/-- **C55, as stated.** Leaving out what follows `--` on each line changes nothing but the
comments of an accepted module. -/
def C55_full : Prop :=
  ∀ t m, readModule t = .ok m → ∃ m', readModule (uncomment t) = .ok m' ∧ bare m' = bare m

/-- A comment with a brace in it. -/
def exBrace : String :=
"Module-m DEFINITIONS AUTOMATIC TAGS ::= BEGIN
Foo ::= SEQUENCE { a BOOLEAN, -- b BOOLEAN } Bar ::= SEQUENCE {
c BOOLEAN }
END
"

/-- The names and the numbers of members of the definitions of an accepted text. -/
def outline (t : Text) : List (String × Nat) :=
  match readModule t with
  | .ok m => m.defs.map fun d => (d.name, d.members.length)
  | .error _ => []

/-- With the brace the comment is read as empty and the rest of its line as definitions. -/
theorem C55_full_false : ¬ C55_full := by
  intro h
  have h1 : outline exBrace.toList = [("Foo", 2), ("Bar", 1)] := by decide +kernel
  have h2 : outline (uncomment exBrace.toList) = [("Foo", 2)] := by decide +kernel
  unfold outline at h1 h2
  cases hm : readModule exBrace.toList with
  | error e => rw [hm] at h1; cases h1
  | ok m =>
    obtain ⟨m', h3, h4⟩ := h _ _ hm
    rw [hm] at h1
    rw [h3] at h2
    have e : ∀ m : Module, (m.defs.map fun d => (d.name, d.members.length)) =
        (bare m).defs.map fun d => (d.name, d.members.length) := by
      intro m
      simp only [bare, List.map_map]
      refine List.map_congr_left fun d _ => ?_
      simp [bareDef_name, bareDef_members]
    simp only at h1 h2
    rw [e] at h1 h2
    rw [h4, h1] at h2
    simp at h2

/-- **C55, partial.** Leaving out the comments of a module in good style, whose comments are
of the characters from blank to `_` and lower-case letters and end with their line, gives
the text of the module without comments, and it is accepted with the same result but for
the comments. -/
theorem C55_uncomment_partial (F : Bool → Nat → Int → Num) (hF : Rounds F) : ∀ m t, ModuleSyntax (.strict F) m t →
    ModuleSyntax (.strict F) (bare m) (uncomment t) ∧
    ∀ r, readModule t = .ok r → readModule (uncomment t) = .ok (bare r) := by
  cases rounds_unique hF
  refine fun m t h => ⟨module_cut h, fun r hr => ?_⟩
  rw [readModule_syntax (module_cut h)]
  rw [readModule_syntax h] at hr
  exact processModule_bare hr

/-- The module of C52 without its comments. -/
example : String.ofList (uncomment exSource.toList) =
"Module-nav DEFINITIONS AUTOMATIC TAGS ::= BEGIN
IMPORTS Header, Footer FROM Module-base;

State ::= SEQUENCE { 
  speed INTEGER(0..255), 
  slope REAL(-1.5 .. 25.0e-1)
}
Flag ::= ENUMERATED { off, on (1) }
END
" := by decide +kernel

end Apg
