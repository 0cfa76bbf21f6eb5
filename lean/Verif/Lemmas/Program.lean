import Verif.Model.Program
import Verif.Lemmas.Parser
import Verif.Lemmas.SyntaxModule
import Verif.Lemmas.Derive
import Verif.Lemmas.Decimal
import Verif.Spec.Lists
import Verif.Spec.Cosmos

/-!
# Texts and the modules read from them
-/

namespace Apg

open Parse Spec

/-! ### Comments that are refused -/

theorem containsText_iff {n : Text} (hn : n ≠ []) (t : Text) :
    containsText n t = true ↔ n <:+: t := by
  induction t with
  | nil => simp [containsText, hn]
  | cons c t ih =>
    rw [containsText, Bool.or_eq_true, ih, List.isPrefixOf_iff_prefix, List.infix_cons_iff]

theorem singleton_infix {c : Char} {t : Text} : [c] <:+: t ↔ c ∈ t := by
  constructor
  · rintro ⟨a, b, rfl⟩; simp
  · intro h
    obtain ⟨a, b, rfl⟩ := List.append_of_mem h
    exact ⟨a, b, by simp⟩

theorem checkComment_ok {k : Bool} {c : Comment} : checkComment k c = .ok () ↔ CleanComment c := by
  unfold checkComment CleanComment
  have h1 := containsText_iff (n := ['[']) (by simp) c.text.toList
  have h2 := containsText_iff (n := [']']) (by simp) c.text.toList
  have h3 := containsText_iff (n := ['-', '-']) (by simp) c.text.toList
  rw [singleton_infix] at h1 h2
  by_cases he : c.text.toList = []
  · rw [if_pos he, he]; simp
  · rw [if_neg he, ← h1, ← h2, ← h3]
    split
    · rename_i h
      simp only [Bool.or_eq_true] at h
      constructor
      · intro h'; cases k <;> cases h'
      · rintro ⟨a, b, d⟩; rcases h with (h | h) | h <;> contradiction
    · rename_i h
      simp only [Bool.or_eq_true, not_or] at h
      exact ⟨fun _ => ⟨h.1.1, h.1.2, h.2⟩, fun _ => rfl⟩

theorem checkSides_ok {l : List SideComment} : checkSides l = .ok () ↔ CleanSides l := by
  induction l with
  | nil => simp [checkSides, CleanSides]
  | cons x l ih =>
    obtain ⟨k, c⟩ := x
    have hc := checkComment_ok (k := k) (c := c)
    show (checkComment k c >>= fun _ => checkSides l) = _ ↔ _
    simp only [CleanSides, List.mem_cons, forall_eq_or_imp] at ih ⊢
    cases h : checkComment k c with
    | error e =>
      rw [h] at hc
      constructor
      · intro h'; cases h'
      · intro h'; cases hc.mpr h'.1
    | ok u =>
      rw [h] at hc
      exact ⟨fun h' => ⟨hc.mp rfl, ih.mp h'⟩, fun h' => ih.mpr h'.2⟩

/-! ### Texts written in the syntax -/

theorem readModule_syntax {m : Module} {t : Text} (h : ModuleSyntax strictStyle m t) :
    readModule t = processModule m := by
  obtain ⟨sd, hsd, hp⟩ := parseModule_syntax h
  rw [readModule, hp]
  show (checkSides sd >>= fun _ => processModule m) = _
  rw [checkSides_ok.mpr hsd]; rfl

theorem readModules_syntax {ms : List Module} {ts : List Text}
    (h : All2 (ModuleSyntax strictStyle) ms ts) : readModules ts = processModules ms := by
  induction h with
  | nil => rfl
  | cons h _ ih =>
    rw [readModules, readModule_syntax h, ih]; rfl

/-! ### Accepted texts -/

/-- The text writes the module, which the grammar can build, and is read as this module. -/
def ReadAs (m : Module) (t : Text) : Prop :=
  GrammarModule m ∧ GrammarComments m ∧ ModuleSyntax looseStyle m t ∧
    readModule t = processModule m

theorem readModule_cases (t : Text) :
    (∃ e, readModule t = .error e) ∨ ∃ m, ReadAs m t := by
  unfold ReadAs
  cases hp : parseModule t with
  | none => exact .inl ⟨_, by rw [readModule, hp]⟩
  | some r =>
    obtain ⟨h1, h2, _⟩ := parseModule_ok hp
    cases hs : checkSides r.2 with
    | error e => exact .inl ⟨e, by rw [readModule, hp]; show (checkSides r.2 >>= _) = _; rw [hs]; rfl⟩
    | ok u =>
      exact .inr ⟨r.1, h1, h2, parseModule_inv hp (checkSides_ok.mp hs), by rw [readModule, hp]; show (checkSides r.2 >>= _) = _; rw [hs]; rfl⟩

theorem readModules_cases (ts : List Text) :
    (∃ e, readModules ts = .error e) ∨
    ∃ ms, All2 ReadAs ms ts ∧ readModules ts = processModules ms := by
  induction ts with
  | nil => exact .inr ⟨[], .nil, rfl⟩
  | cons t ts ih =>
    rcases readModule_cases t with ⟨e, h⟩ | ⟨m, h⟩
    · exact .inl ⟨e, by rw [readModules, h]; rfl⟩
    · rcases ih with ⟨e, ih⟩ | ⟨ms, hms, ih⟩
      · cases hm : processModule m with
        | error e' => exact .inl ⟨e', by rw [readModules, h.2.2.2, hm]; rfl⟩
        | ok m' => exact .inl ⟨e, by rw [readModules, h.2.2.2, hm, ih]; rfl⟩
      · exact .inr ⟨m :: ms, .cons h hms, by rw [readModules, h.2.2.2, ih]; rfl⟩

theorem all2_syntax {ms : List Module} {ts : List Text} (h : All2 ReadAs ms ts) :
    All2 (ModuleSyntax looseStyle) ms ts := by
  induction h with
  | nil => exact .nil
  | cons h _ ih => exact .cons h.2.2.1 ih

theorem all2_readAs {ms : List Module} {ts : List Text} (h : All2 ReadAs ms ts) :
    ∀ m ∈ ms, GrammarModule m ∧ GrammarComments m := by
  induction h with
  | nil => simp
  | cons h _ ih =>
    intro m hm
    rcases List.mem_cons.1 hm with rfl | hm
    · exact ⟨h.1, h.2.1⟩
    · exact ih m hm

theorem buildConfig_of {ts : List Text} {ms : List Module}
    (h : readModules ts = processModules ms) (cfg : List String) :
    buildConfig ts cfg = buildFromConfig ms cfg := by
  rw [buildConfig, buildFromConfig, h]

theorem buildTexts_of {ts : List Text} {ms : List Module}
    (h : readModules ts = processModules ms) : buildTexts ts = buildFromTexts ms := by
  rw [buildTexts, buildFromTexts, h]

/-! ### Runs -/

theorem program_eq (fuel : Nat) (p : Printer) {fs : List (Option Text)} {ts : List Text}
    {ms : List Module} (hf : readFiles fs = .ok ts) (h : readModules ts = processModules ms)
    (a : Args) : program fuel p fs a = runMain fuel p ms a := by
  cases a <;>
    simp only [program, runMain, runCosmos, runCfs, runC, runBinary, runCommand, hf, runBuilt,
      ← buildTexts_of h, ← buildConfig_of h] <;> rfl

theorem program_error (fuel : Nat) (p : Printer) {fs : List (Option Text)} {e : Err}
    (h : (readFiles fs >>= readModules) = .error e) (a : Args) :
    program fuel p fs a = ⟨[], .error e⟩ := by
  have hb : ∀ (f : List Text → Except Err Bundle), (∀ ts e, readModules ts = .error e → f ts = .error e) →
      (readFiles fs >>= f) = .error e := by
    intro f hf
    cases hr : readFiles fs with
    | error e' => rw [hr] at h; cases h; rfl
    | ok ts =>
      rw [hr] at h
      exact hf ts e h
  have h1 := hb buildTexts (fun ts e h => by rw [buildTexts, h]; rfl)
  have h2 := fun cfg => hb (fun ts => buildConfig ts cfg) (fun ts e h => by rw [buildConfig, h]; rfl)
  cases a <;> simp only [program, h1, h2, runBuilt]

/-! ### Line ends -/

theorem readFiles_length {fs : List (Option Text)} {ts : List Text} (h : readFiles fs = .ok ts) :
    ts.length = fs.length := by
  induction fs generalizing ts with
  | nil => cases h; rfl
  | cons f fs ih =>
    cases f with
    | none => cases h
    | some t =>
      rw [readFiles] at h
      cases hr : readFiles fs with
      | error e => rw [hr] at h; cases h
      | ok ts' =>
        rw [hr] at h
        cases h
        rw [List.length_cons, List.length_cons, ih hr]

theorem readFiles_ok {fs : List (Option Text)} {ts : List Text} (h : readFiles fs = .ok ts) :
    ∃ gs : List Text, fs = gs.map some ∧ ts = gs.map universalNewlines := by
  induction fs generalizing ts with
  | nil => cases h; exact ⟨[], rfl, rfl⟩
  | cons f fs ih =>
    cases f with
    | none => cases h
    | some t =>
      rw [readFiles] at h
      cases hr : readFiles fs with
      | error e => rw [hr] at h; cases h
      | ok ts' =>
        rw [hr] at h
        cases h
        obtain ⟨gs, rfl, rfl⟩ := ih hr
        exact ⟨t :: gs, rfl, rfl⟩

theorem universalNewlines_cons {c : Char} (h : c ≠ '\r') (t : Text) :
    universalNewlines (c :: t) = c :: universalNewlines t := by
  rw [universalNewlines.eq_def]
  split
  · rename_i h'; cases h'; exact absurd rfl h
  · rename_i h'; cases h'; rw [if_neg h]
  · rename_i h'; cases h'

theorem universalNewlines_return {t : Text} (h : t.head? ≠ some '\n') :
    universalNewlines ('\r' :: t) = '\n' :: universalNewlines t := by
  rw [universalNewlines.eq_def]
  split
  · rename_i h'; cases h'; simp at h
  · rename_i h'; cases h'; rfl
  · rename_i h'; cases h'

theorem stored_newlines (f : Text) : Stored (universalNewlines f) f := by
  induction f using universalNewlines.induct with
  | case1 t ih => rw [universalNewlines]; exact .windows ih
  | case2 c t h ih =>
    by_cases hc : c = '\r'
    · subst hc
      have hh : t.head? ≠ some '\n' := by
        cases t with
        | nil => simp
        | cons d t => intro e; simp at e; subst e; exact h t rfl rfl
      rw [universalNewlines_return hh]; exact .mac hh ih
    · rw [universalNewlines_cons hc]
      by_cases hn : c = '\n'
      · subst hn; exact .unix ih
      · exact .char hn hc ih
  | case3 => rw [universalNewlines]; exact .nil

theorem stored_all (fs : List Text) : All2 Stored (fs.map universalNewlines) fs := by
  induction fs with
  | nil => exact .nil
  | cons f fs ih => exact .cons (stored_newlines f) ih

theorem newlines_stored {t f : Text} (h : Stored t f) : universalNewlines f = t := by
  induction h with
  | nil => rw [universalNewlines]
  | char _ h _ ih => rw [universalNewlines_cons h, ih]
  | unix _ ih => rw [universalNewlines_cons (by decide), ih]
  | mac h _ ih => rw [universalNewlines_return h, ih]
  | windows _ ih => rw [universalNewlines, ih]

theorem readFiles_stored {ts fs : List Text} (h : All2 Stored ts fs) :
    readFiles (fs.map some) = .ok ts := by
  induction h with
  | nil => rfl
  | cons h _ ih =>
    rw [List.map_cons, readFiles, ih, newlines_stored h]; rfl

end Apg
