import Verif.Props.Written
import Verif.Props.Comments

/-!
# Property C107: accepted texts have a normal form
-/

namespace Apg
open Parse Spec

/-- What an accepted text writes can be written in good style. -/
theorem loose_expressible {F : Bool → Nat → Int → Num} {m m' : Module} {t : Text}
    (h : ModuleSyntax (.loose F) m t) (hm : processModule m = .ok m') : Expressible m := by
  obtain ⟨h1, h2, h3, h4, h5⟩ := text_parts loose_fits h
  obtain ⟨c1, c2⟩ := processModule_clean hm
  exact ⟨h1, ⟨fun x hx => (h2 x hx).1, fun d hd x hx => (h3 d hd x hx).1⟩,
    ⟨fun x hx => ⟨(h2 x hx).2.1, (c1 x hx).1, (h2 x hx).2.2⟩,
      fun d hd x hx => ⟨(h3 d hd x hx).2.1, (c2 d hd x hx).1, (h3 d hd x hx).2.2⟩⟩, h4, h5⟩

/-- **C107, texts.** For every text that is accepted, in whatever style, there is a text in good style
that is read as the same: both write the same module. -/
theorem C107_normal_form (F : Bool → Nat → Int → Num) (hF : Rounds F) (t : Text) (m' : Module)
    (h : readModule t = .ok m') :
    ∃ m t', ModuleSyntax (.loose F) m t ∧ ModuleSyntax (.strict F) m t' ∧ readModule t' = .ok m' := by
  cases rounds_unique hF
  rcases readModule_cases t with ⟨e, h'⟩ | ⟨m, _, _, hl, h'⟩
  · rw [h'] at h; cases h
  · rw [h'] at h
    obtain ⟨t', h1, h2⟩ := C106_read _ hF m (loose_expressible hl h)
    exact ⟨m, t', hl, h1, h2.trans h⟩

/-- **C107, results.** The modules that come out of the parser are exactly those that validation makes of
modules that can be written. -/
theorem C107_results_iff (m' : Module) :
    (∃ t, readModule t = .ok m') ↔ ∃ m, Expressible m ∧ processModule m = .ok m' := by
  constructor
  · rintro ⟨t, h⟩
    rcases readModule_cases t with ⟨e, h'⟩ | ⟨m, _, _, hl, h'⟩
    · rw [h'] at h; cases h
    · rw [h'] at h; exact ⟨m, loose_expressible hl h, h⟩
  · rintro ⟨m, hm, h⟩
    obtain ⟨t, _, ht⟩ := C106_read _ decimalFloat_rounds m hm
    exact ⟨t, ht.trans h⟩

/-- **C107, runs.** Whatever the input files hold: either every command ends with an error before it makes a
directory or changes a file, or there are as many files in good style on which every command does the
same. -/
theorem C107_run (F : Bool → Nat → Int → Num) (hF : Rounds F) (files : List (Option Text)) :
    (∀ fuel p args, ∃ e, program fuel p files args = ⟨[], .error e⟩) ∨
    ∃ raw fs, fs.length = files.length ∧ All2 (ModuleSyntax (.strict F)) raw fs ∧
      ∀ fuel p args, program fuel p (fs.map some) args = program fuel p files args := by
  cases rounds_unique hF
  cases hf : readFiles files with
  | error e => exact .inl fun fuel p args => ⟨e, program_error fuel p (by rw [hf]; rfl) args⟩
  | ok ts =>
    have herr : ∀ e, readModules ts = .error e →
        ∀ fuel p args, ∃ e, program fuel p files args = ⟨[], .error e⟩ :=
      fun e h fuel p args => ⟨e, program_error fuel p (by rw [hf]; exact h) args⟩
    rcases readModules_cases ts with ⟨e, h⟩ | ⟨ms, hms, h⟩
    · exact .inl (herr e h)
    · cases hp : processModules ms with
      | error e => exact .inl (herr e (h.trans hp))
      | ok ms' =>
        right
        have hex : ∃ fs, All2 (ModuleSyntax St) ms fs ∧ All2 Stored fs fs ∧ fs.length = ts.length := by
          have hall := processModules_ok.1 hp
          clear h hp hf herr
          induction hms generalizing ms' with
          | nil => exact ⟨[], .nil, .nil, rfl⟩
          | cons h1 _ ih =>
            cases hall with
            | cons h2 h3 =>
              obtain ⟨fs, k1, k2, k3⟩ := ih _ h3
              obtain ⟨t, ht, hc⟩ := module_text (loose_expressible h1.2.2.1 h2)
              exact ⟨t :: fs, .cons ht k1, .cons (stored_clean hc) k2, by simp [k3]⟩
        obtain ⟨fs, k1, k2, k3⟩ := hex
        refine ⟨ms, fs, k3.trans (readFiles_length hf), k1, fun fuel p args => ?_⟩
        rw [program_eq fuel p hf h, C52_run _ hF fuel p args ms fs fs k1 k2]

/-- A text in loose style: digits of another script. -/
def exLoose : Text := "Module-nav DEFINITIONS AUTOMATIC TAGS ::= BEGIN
Speed ::= REAL(٠.٥ .. 2.5)
Flag ::= BOOLEAN --
END".toList

example : (readModule exLoose).isOk = true ∧ ∃ c ∈ exLoose, 128 ≤ c.toNat := by
  constructor
  · decide +kernel
  · exact ⟨'٠', by decide +kernel, by decide +kernel⟩

end Apg
