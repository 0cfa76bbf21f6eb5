import Verif.Lemmas.WrittenInv
import Verif.Props.Parser

/-!
# Property C106: which modules can be written
-/

namespace Apg
open Parse Spec

/-- **C106, numbers.** The numbers that decimals can write are the doubles, finite and infinite:
for every double there is a decimal that is read as exactly this double. -/
theorem C106_doubles (F : Bool → Nat → Int → Num) (hF : Rounds F) (x : Num) :
    (∃ s, RealSyntax F x s) ↔ IsDouble x := by
  cases rounds_unique hF
  exact ⟨fun ⟨_, h⟩ => text_real hF h, fun h => (real_text h).imp fun _ h => h.1⟩

/-- **C106, modules.** A module has a text exactly if it is one of the grammar, its reals are
doubles, its comments are not taken for marks or units, and there is no comment on imports without
imports. -/
theorem C106_iff (F : Bool → Nat → Int → Num) (hF : Rounds F) (m : Module) :
    (∃ t, ModuleSyntax (.strict F) m t) ↔ Expressible m := by
  cases rounds_unique hF
  exact ⟨fun ⟨_, h⟩ => text_module hF h, fun h => (module_text h).imp fun _ h => h.1⟩

/-- **C106, reading.** For every such module there is a text that writes it and that is read as
exactly this module: reading it gives what the validation of the module gives. -/
theorem C106_read (F : Bool → Nat → Int → Num) (hF : Rounds F) (m : Module) (h : Expressible m) :
    ∃ t, ModuleSyntax (.strict F) m t ∧ readModule t = processModule m := by
  obtain ⟨t, ht⟩ := (C106_iff F hF m).2 h
  exact ⟨t, ht, C52_read F hF m t ht⟩

/-- **C106, runs.** For every list of such modules there are files on which every command does
what it does on the modules. -/
theorem C106_run (raw : List Module) (h : ∀ m ∈ raw, Expressible m) :
    ∃ fs : List Text, fs.length = raw.length ∧
      ∀ fuel p args, program fuel p (fs.map some) args = runMain fuel p raw args := by
  have : ∃ fs, All2 (ModuleSyntax St) raw fs ∧ All2 Stored fs fs ∧ fs.length = raw.length := by
    induction raw with
    | nil => exact ⟨[], .nil, .nil, rfl⟩
    | cons m raw ih =>
      obtain ⟨fs, h1, h2, h3⟩ := ih fun m hm => h m (by simp [hm])
      obtain ⟨t, ht, hc⟩ := module_text (h m (by simp))
      exact ⟨t :: fs, .cons ht h1, .cons (stored_clean hc) h2, by simp [h3]⟩
  obtain ⟨fs, h1, h2, h3⟩ := this
  exact ⟨fs, h3, fun fuel p args => C52_run _ decimalFloat_rounds fuel p args raw fs fs h1 h2⟩

/-- A module with a range of reals, a unit and a clause. -/
def exWritten : Module where
  name := "nav"
  defs := [
    .simple "Speed" (some ⟨"Over ground", "m/s", true⟩) (.plain "REAL" (some (.flt (-3/2))) (some (.flt (5/2)))),
    .seq "State" none [⟨"speed", .plain "Speed" none none, none, none⟩],
    .seq "Fixed" none [⟨"state", .plain "State" none none, none,
      some (.leaf "speed" (.flt (.flt (1/1024))) .nil)⟩]]

theorem exWritten_expressible : Expressible exWritten where
  grammar := by
    refine ⟨by decide +kernel, by decide, ?_, by simp [exWritten]⟩
    intro d hd
    simp only [exWritten, List.mem_cons, List.not_mem_nil, or_false] at hd
    rcases hd with rfl | rfl | rfl
    · exact ⟨by decide +kernel, .realRange rfl rfl⟩
    · refine ⟨by decide +kernel, by simp, fun m hm => ?_⟩
      rw [List.mem_singleton] at hm
      rw [hm]
      exact ⟨by decide +kernel, .named (by decide +kernel), fun _ h => by cases h⟩
    · refine ⟨by decide +kernel, by simp, fun m hm => ?_⟩
      rw [List.mem_singleton] at hm
      rw [hm]
      refine ⟨by decide +kernel, .named (by decide +kernel), fun _ h => ?_⟩
      cases h
      exact ⟨by simp, by decide +kernel, trivial⟩
  comments := by
    refine ⟨by simp [exWritten], ?_⟩
    intro d hd
    simp only [exWritten, List.mem_cons, List.not_mem_nil, or_false] at hd
    rcases hd with rfl | rfl | rfl <;> simp only [commentsOf] <;> decide +kernel
  plain := by
    refine ⟨by simp [exWritten], ?_⟩
    intro d hd
    simp only [exWritten, List.mem_cons, List.not_mem_nil, or_false] at hd
    rcases hd with rfl | rfl | rfl <;> simp only [commentsOf] <;> decide +kernel
  doubles := by
    intro d hd
    simp only [exWritten, List.mem_cons, List.not_mem_nil, or_false] at hd
    rcases hd with rfl | rfl | rfl
    · intro _ x hx
      simp only [Option.some.injEq] at hx
      rcases hx with rfl | rfl
      · exact ⟨0xBFF8000000000000, by decide +kernel⟩
      · exact ⟨0x4004000000000000, by decide +kernel⟩
    · intro m hm
      rw [List.mem_singleton] at hm
      rw [hm]
      exact ⟨fun _ x hx => by simp at hx, fun _ h => by cases h⟩
    · intro m hm
      rw [List.mem_singleton] at hm
      rw [hm]
      refine ⟨fun _ x hx => by simp at hx, fun _ h => ?_⟩
      cases h
      refine ⟨fun x hx => ?_, trivial⟩
      cases hx
      exact ⟨0x3F50000000000000, by decide +kernel⟩
  imports := fun _ => rfl

/-- The module has a text and is accepted. -/
example : (∃ t, ModuleSyntax (.strict decimalFloat) exWritten t ∧ readModule t = processModule exWritten) ∧
    (processModule exWritten).isOk = true :=
  ⟨C106_read _ decimalFloat_rounds _ exWritten_expressible, by decide +kernel⟩

/-- One third is no double, so no decimal writes it and no text has it as a bound. -/
example : ¬ ∃ s, RealSyntax decimalFloat (.flt (1/3)) s := by
  rw [C106_doubles _ decimalFloat_rounds]
  rintro ⟨n, hn⟩
  obtain ⟨s, b, _, _, h⟩ := ieee_inv binary64_ok hn
  have h0 := mag_nonneg binary64 b
  have h1 : mag binary64 b = 1/3 := by
    cases s
    · exact h.symm
    · have h : (1 : Rat) / 3 = -mag binary64 b := h
      have : (0 : Rat) < 1 / 3 := by decide +kernel
      generalize (1 : Rat) / 3 = v at *
      grind
  have hm : mag binary64 b = ((binary64.units b : Nat) : Rat) / ((2 ^ 1074 : Nat) : Rat) := rfl
  have h2 : ((2 ^ 1074 : Nat) : Rat) ≠ 0 := by decide +kernel
  have h3 : ((binary64.units b : Nat) : Rat) * 3 = ((2 ^ 1074 : Nat) : Rat) := by
    rw [hm] at h1
    generalize ((2 ^ 1074 : Nat) : Rat) = v at *
    grind
  have h5 : 2 ^ 1074 % 3 = 1 := by decide +kernel
  generalize 2 ^ 1074 = v at h3 h5
  have h4 : binary64.units b * 3 = v := by exact_mod_cast h3
  omega

end Apg
