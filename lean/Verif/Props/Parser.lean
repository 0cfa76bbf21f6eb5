import Verif.Lemmas.Program
import Verif.Lemmas.Unique
import Verif.Lemmas.Examples
import Verif.Lemmas.Run

/-!
# Properties C52 and C53: from texts to runs
-/

namespace Apg

open Parse Spec

/-! ### C52 -/

/-- **C52, decimals.** There is exactly one meaning of decimals that rounds to the nearest double. -/
theorem C52_decimals : ∃ F, Rounds F ∧ ∀ F', Rounds F' → F' = F :=
  ⟨decimalFloat, decimalFloat_rounds, fun _ h => rounds_unique h⟩

/-- **C52, modules.** If decimals mean the nearest double, every text that writes a module, in
whatever layout, is read as exactly that module: reading the text gives what the validation of a
single module makes of it. -/
theorem C52_read (F : Bool → Nat → Int → Num) (hF : Rounds F) (m : Module) (t : Text)
    (h : ModuleSyntax (.strict F) m t) : readModule t = processModule m := by
  cases rounds_unique hF
  exact readModule_syntax h

/-- **C52, no ambiguity.** A text writes at most one module. -/
theorem C52_unambiguous (F : Bool → Nat → Int → Num) (hF : Rounds F) (m m' : Module) (t : Text)
    (h : ModuleSyntax (.strict F) m t) (h' : ModuleSyntax (.strict F) m' t) : m = m' := by
  cases rounds_unique hF
  obtain ⟨sd, _, h⟩ := parseModule_syntax h
  obtain ⟨sd', _, h'⟩ := parseModule_syntax h'
  rw [h] at h'
  cases h'
  rfl

/-- **C52, runs.** A run of any command on files that write modules, with any kind of line
ends, does what the run on these modules does. In particular the layout of the files makes no
difference. -/
theorem C52_run (F : Bool → Nat → Int → Num) (hF : Rounds F) (fuel : Nat) (p : Printer) (args : Args)
    (ms : List Module) (ts fs : List Text) (h : All2 (ModuleSyntax (.strict F)) ms ts) (hs : All2 Stored ts fs) :
    program fuel p (fs.map some) args = runMain fuel p ms args := by
  cases rounds_unique hF
  exact program_eq fuel p (readFiles_stored hs) (readModules_syntax h) args

/-- A module as text. -/
def exSource : String :=
"Module-nav DEFINITIONS AUTOMATIC TAGS ::= BEGIN
IMPORTS Header, Footer FROM Module-base;

State ::= SEQUENCE { -- State vector
  speed INTEGER(0..255), -- [m/s] Over ground
  slope REAL(-1.5 .. 25.0e-1)
}
Flag ::= ENUMERATED { off, on (1) }
END
"

/-- The module that the text writes, if `F` is the meaning of decimals. -/
def exSourceModule (F : Bool → Nat → Int → Num) : Module where
  name := "nav"
  imports := [⟨["Header", "Footer"], "base"⟩]
  defs := [
    .seq "State" (some ⟨"State vector", "", false⟩) [
      ⟨"speed", .plain "INTEGER" (some (.int 0)) (some (.int 255)), some ⟨"Over ground", "m/s", false⟩, none⟩,
      ⟨"slope", .plain "REAL" (some (F true 15 (-1))) (some (F false 250 (-2))), none, none⟩],
    .enum "Flag" none [⟨"off", 0, none⟩, ⟨"on", 1, none⟩]]

instance (w : Chars) : Decidable (Space w) := inferInstanceAs (Decidable (∀ c ∈ w, _))
instance (w : Chars) : Decidable (Blanks w) := inferInstanceAs (Decidable (∀ c ∈ w, _))
instance (c : Comment) : Decidable (GrammarComment c) :=
  inferInstanceAs (Decidable ((∀ _ ∈ _, _) ∧ ∀ _ ∈ _, _))
instance (c : Comment) : Decidable (Plain c) := inferInstanceAs (Decidable (_ ∧ _ ∧ (_ → _ → ¬ _)))

theorem moduleSyntax_cast {F : Bool → Nat → Int → Num} {m m' : Module} {t t' : Chars}
    (h : ModuleSyntax (.strict F) m t) (hm : m = m') (ht : t = t') : ModuleSyntax (.strict F) m' t' := by
  subst hm ht; exact h

/-- The text writes the module. -/
theorem exSource_syntax (F : Bool → Nat → Int → Num) : ModuleSyntax (.strict F) (exSourceModule F) exSource.toList := by
  have c1 : CommentSyntax ⟨"State vector", "", false⟩ _ :=
    .mk (b₁ := [' ']) (b₂ := [' ']) (b₃ := []) (b₄ := []) (by decide +kernel) (by decide +kernel)
      (by decide) (by decide) (by decide) (by decide) rfl rfl
  have c2 : CommentSyntax ⟨"Over ground", "m/s", false⟩ _ :=
    .mk (b₁ := [' ']) (b₂ := [' ']) (b₃ := []) (b₄ := [' ']) (by decide +kernel) (by decide +kernel)
      (by decide) (by decide) (by decide) (by decide) rfl rfl
  have t1 : TypeSyntax (.strict F) (.plain "INTEGER" (some (.int 0)) (some (.int 255))) _ :=
    .integerRange (.mk (ds := "0".toList) (n := 0) .none (by decide))
      (.mk (ds := "255".toList) (n := 255) .none (by decide))
  have t2 : TypeSyntax (.strict F)
      (.plain "REAL" (some (F true 15 (-1))) (some (F false 250 (-2)))) _ :=
    .realRange (.point (a := "1".toList) (b := "5".toList) .minus (by decide))
      (.pointExp (a := "25".toList) (b := "0".toList) .none (by decide)
        (.mk (.inl rfl) (.mk (ds := "1".toList) (n := 1) .minus (by decide))))
  have d1 : DefSyntax (.strict F) _ _ :=
    .seq (n := "State") (w := ['\n', '\n']) (w' := [' ']) (w'' := ['\n']) (by decide) (by decide +kernel)
      (by decide) (.some c1)
      (.comma (k := "speed") (w := "  ".toList) (w' := []) (by decide) (by decide +kernel) t1
        (by decide) (.some c2)
        (.last (k := "slope") (w := "  ".toList) (by decide) (by decide +kernel) t2 .none))
      (by decide)
  have d2 : DefSyntax (.strict F) _ _ :=
    .enum (n := "Flag") (w := ['\n']) (w' := [' ']) (w'' := [' ']) (by decide) (by decide +kernel)
      (by decide) .none
      (.comma (k := "off") (w := [' ']) (w' := []) (by decide) (by decide +kernel) .none
        (by decide) .none
        (.last (k := "on") (w := [' ']) (by decide) (by decide +kernel)
          (.some (w₁ := [' ']) (w₂ := []) (w₃ := []) (by decide) (by decide) (by decide)
            (.mk (ds := "1".toList) (n := 1) .none (by decide))) .none))
      (by decide)
  have m : ModuleSyntax (.strict F) _ _ :=
    .mk (n := "nav") (w := []) (w₀ := []) (w₁ := [' ']) (w₂ := ['\n']) (w₃ := ['\n'])
      (by decide) (by decide) (by decide +kernel) (by decide) .none
      (.some (w := ['\n']) (w' := []) (by decide)
        (.cons (n := "Header") (m := "base") (w := [' ']) (w' := [' ']) (w'' := []) (by decide)
          (by decide +kernel)
          (.cons (n := "Footer") (w := []) (w' := [' ']) (by decide) (by decide) (by decide +kernel)
            .nil)
          (by decide) (by decide) (by decide +kernel) .none .nil) (by decide) .none)
      (.cons d1 (.one d2)) (by decide) (by decide)
  exact moduleSyntax_cast m rfl (by decide +kernel)

/-- Some decimals as they are read. -/
example : decimalFloat true 15 (-1) = .flt (-3/2) ∧ decimalFloat false 1 (-1) ≠ .flt (1/10) ∧
    decimalFloat false 1 400 = .inf false := by decide +kernel

/-- The text is accepted. -/
example : (readModule exSource.toList).isOk = true := by decide +kernel

/-- Windows line ends. -/
example : All2 Stored ["A\nB\n".toList] ["A\r\nB\r\n".toList] :=
  .cons (.char (by decide) (by decide) (.windows (.char (by decide) (by decide) (.windows .nil)))) .nil

/-! ### C53 -/

/-- **C53.** Whatever the input files hold: either the run ends with an error before it makes
a directory or changes a file, or every file exists and writes a module, in the loose syntax,
and the run is the run on these modules. The modules satisfy the conditions under which the
other theorems are stated. -/
theorem C53_grammatical (F : Bool → Nat → Int → Num) (hF : Rounds F)
    (fuel : Nat) (p : Printer) (files : List (Option Text)) (args : Args) :
    (∃ e, program fuel p files args = ⟨[], .error e⟩) ∨
    ∃ raw ts fs, files = fs.map some ∧ All2 Stored ts fs ∧ All2 (ModuleSyntax (.loose F)) raw ts ∧
      (∀ m ∈ raw, GrammarModule m ∧ GrammarComments m) ∧
      program fuel p files args = runMain fuel p raw args := by
  cases rounds_unique hF
  cases hf : readFiles files with
  | error e => exact .inl ⟨e, program_error fuel p (by rw [hf]; rfl) args⟩
  | ok ts =>
    rcases readModules_cases ts with ⟨e, h⟩ | ⟨ms, hms, h⟩
    · exact .inl ⟨e, program_error fuel p (by rw [hf]; exact h) args⟩
    · obtain ⟨fs, rfl, rfl⟩ := readFiles_ok hf
      exact .inr ⟨ms, _, fs, rfl, stored_all fs, all2_syntax hms, all2_readAs hms,
        program_eq fuel p hf h args⟩

end Apg
