import Verif.Lemmas.CommandLine
import Verif.Props.Shared
import Verif.Props.Parser

/-!
# C75 to C77: the command line, sources and output folder

Specification: `Spec.CommandLine`.
-/

namespace Apg
open Spec

/-! ### C75 -/

/-- **C75.** On words that are ordinary or begin with two dashes, the command line is accepted exactly if it is a
command followed by one group of paths and by options of the command, all needed ones among them; it is understood as
these paths and the last value of every option, with the documented defaults. Otherwise the program ends before it
does anything. -/
theorem C75_command_line (argv : List Text) (hu : ∀ w ∈ argv, Usual w) (ps : List Text) (a : Args) :
    parseArgs argv = some (ps, a) ↔ Understood argv ps a := by
  constructor
  · intro h
    obtain ⟨cmd, opts, ws, rfl, ho⟩ := parseArgs_offers h
    obtain ⟨vs, h1, h2⟩ := (parseArgs_iff ho _ _ _).1 h
    obtain ⟨parts, g1, g2, g3, g4⟩ := scan_sound (offers_table ho) ws.length ws [] _ (Nat.le_refl _)
      (fun t ht => hu t (by simp [ht])) h1
    simp only [List.nil_append] at g3 g4
    subst g3 g4
    exact ⟨cmd, opts, parts, ho, by rw [g2], g1, rfl, h2⟩
  · rintro ⟨cmd, opts, parts, ho, rfl, g1, rfl, h2⟩
    exact (parseArgs_iff ho _ _ _).2 ⟨_, scan_complete (offers_table ho) g1, h2⟩

theorem commandLine_understood {argv ps : List Text} {a : Args} (h : Understood argv ps a) (fuel : Nat) (p : Printer)
    (fs : Files) : commandLine fuel p fs argv = some (program fuel p (ps.map fun q => (fs q).bind textOf) a) := by
  obtain ⟨cmd, opts, parts, ho, rfl, g1, rfl, h2⟩ := h
  rw [commandLine, (parseArgs_iff ho _ _ _).2 ⟨_, scan_complete (offers_table ho) g1, h2⟩]
  rfl

theorem textOf_some {c : Content} {u : Text} : textOf c = some u ↔ c = u.map .inl := by
  unfold textOf
  induction c generalizing u with
  | nil => cases u <;> simp
  | cons x c ih =>
    cases x with
    | inl ch =>
      cases u with
      | nil => simp [Option.bind_eq_some_iff]
      | cons d u =>
        simp only [List.mapM_cons, Option.pure_def, Option.bind_eq_bind, Option.bind_some, Option.bind_eq_some_iff, ih,
          Option.some.injEq, List.cons.injEq, List.map_cons, Sum.inl.injEq]
        constructor
        · rintro ⟨a, h, rfl, rfl⟩; exact ⟨rfl, h⟩
        · rintro ⟨rfl, h⟩; exact ⟨u, h, rfl, rfl⟩
    | inr b => cases u <;> simp

theorem fileText_bind {fs : Files} {q : Text} {t : Option Text} (h : FileText fs q t) : (fs q).bind textOf = t := by
  apply Option.ext
  intro u
  rw [h u, Option.bind_eq_some_iff]
  constructor
  · rintro ⟨c, hc, ht⟩; rw [hc, textOf_some.1 ht]
  · intro hc; exact ⟨_, hc, textOf_some.2 rfl⟩

/-- **C75, use.** A command line of this form is understood whatever the words are: the command runs on the texts of
the files at the paths. -/
theorem C75_understood {argv ps : List Text} {a : Args} (h : Understood argv ps a) (fuel : Nat) (p : Printer)
    (fs : Files) (ts : List (Option Text)) (ht : All2 (FileText fs) ps ts) :
    commandLine fuel p fs argv = some (program fuel p ts a) := by
  rw [commandLine_understood h]
  have : (ps.map fun q => (fs q).bind textOf) = ts := by
    clear h
    induction ht with
    | nil => rfl
    | cons h _ ih => rw [List.map_cons, ih, fileText_bind h]
  rw [this]

/-- A folder with one text and one binary file. -/
example : FileText (fun q => if q = "a".toList then some ["x".toList.map Sum.inl].flatten else
    if q = "b".toList then some [.inr 1] else none) "a".toList (some "x".toList) ∧
    FileText (fun q => if q = "a".toList then some ["x".toList.map Sum.inl].flatten else
    if q = "b".toList then some [.inr 1] else none) "b".toList none := by
  constructor
  · intro u
    constructor
    · rintro ⟨⟩; rfl
    · intro h
      have := textOf_some.2 (Option.some.inj h)
      rw [← this]; rfl
  · intro u
    constructor
    · intro h; cases h
    · intro h
      have := textOf_some.2 (Option.some.inj h)
      cases this

/-- **C75, order.** The group of paths and the options may stand in any order, if no option is given twice. -/
theorem C75_order {cmd : Text} {opts : List (Text × Bool)} (ho : Offers cmd opts) {parts parts' : List Part}
    (h : Invocation opts parts) (hn : ((parts.flatMap Part.value).map (·.1)).Nodup) (hp : parts.Perm parts') :
    parseArgs (cmd :: parts.flatMap Part.words) = parseArgs (cmd :: parts'.flatMap Part.words) := by
  obtain ⟨h', hi⟩ := inputs_perm hp h
  have hv : (parts.flatMap Part.value).Perm (parts'.flatMap Part.value) := hp.flatMap_right _
  apply Option.ext
  rintro ⟨ps, a⟩
  rw [parseArgs_iff ho, parseArgs_iff ho, scan_complete (offers_table ho) h, scan_complete (offers_table ho) h', hi]
  constructor
  · rintro ⟨vs, h1, h2⟩
    rw [Option.some.injEq, Prod.mk.injEq] at h1
    obtain ⟨rfl, rfl⟩ := h1
    exact ⟨_, rfl, means_perm hv hn h2⟩
  · rintro ⟨vs, h1, h2⟩
    rw [Option.some.injEq, Prod.mk.injEq] at h1
    obtain ⟨rfl, rfl⟩ := h1
    exact ⟨_, rfl, means_perm hv.symm ((hv.map _).nodup_iff.1 hn) h2⟩

/-- An option in full or abbreviated. -/
theorem exWrites : Writes [("--asn1-modules".toList, true), ("--output-dir".toList, false)] "--out".toList
    "--output-dir".toList ∧
    Writes [("--asn1-modules".toList, true), ("--output-dir".toList, false)] "--asn1-modules".toList
    "--asn1-modules".toList := by
  refine ⟨⟨⟨"out".toList, rfl⟩, ⟨"put-dir".toList, rfl⟩, List.Mem.tail _ (List.Mem.head _), ?_⟩,
    ⟨⟨"asn1-modules".toList, rfl⟩, List.prefix_refl _, List.Mem.head _, ?_⟩⟩
  all_goals
    intro n hn hp
    rcases List.mem_cons.1 hn with rfl | hn
    · exact absurd (List.isPrefixOf_iff_prefix.2 hp) (by decide)
    · rcases List.mem_cons.1 hn with rfl | hn
      · first | rfl | exact absurd (List.isPrefixOf_iff_prefix.2 hp) (by decide)
      · rcases List.mem_cons.1 hn with rfl | hn
        · first | rfl | exact absurd (List.isPrefixOf_iff_prefix.2 hp) (by decide)
        · cases hn

/-- `generate-c --out=gen a.asn b.asn --asn1-modules base,geo`. -/
def exArgv : List Text := ["generate-c".toList, "--out=gen".toList, "a.asn".toList, "b.asn".toList,
  "--asn1-modules".toList, "base,geo".toList]

theorem exArgv_understood :
    Understood exArgv ["a.asn".toList, "b.asn".toList] (.c "base,geo".toList "gen".toList) := by
  refine ⟨_, _, [.joined "--out".toList "--output-dir".toList "gen".toList,
    .paths ["a.asn".toList, "b.asn".toList],
    .spaced "--asn1-modules".toList "--asn1-modules".toList "base,geo".toList], .c, rfl, ⟨?_, ?_⟩, rfl, ?_⟩
  · intro x hx
    rcases List.mem_cons.1 hx with rfl | hx
    · exact exWrites.1
    · rcases List.mem_cons.1 hx with rfl | hx
      · refine ⟨by simp, fun p hp => ?_⟩
        rcases List.mem_cons.1 hp with rfl | hp
        · unfold Ordinary; decide
        · rcases List.mem_cons.1 hp with rfl | hp
          · unfold Ordinary; decide
          · cases hp
      · rcases List.mem_cons.1 hx with rfl | hx
        · exact ⟨exWrites.2, by unfold Ordinary; decide⟩
        · cases hx
  · refine ⟨[_], _, [_], rfl, fun x hx => ?_⟩
    rcases List.mem_cons.1 hx with rfl | hx
    · exact fun h => h
    · rcases List.mem_cons.1 hx with rfl | hx
      · exact fun h => h
      · cases hx
  · exact .c (ms := "base,geo".toList) (out := "gen".toList) ⟨[("--output-dir".toList, "gen".toList)], [], rfl, by simp⟩
      (Or.inl ⟨[], [("--asn1-modules".toList, "base,geo".toList)], rfl, by
        show _ ∉ ["--asn1-modules".toList]
        decide⟩)

example : ∀ w ∈ exArgv, Usual w := by
  intro w hw
  rcases List.mem_cons.1 hw with rfl | hw
  · exact Or.inl (by unfold Ordinary; decide)
  rcases List.mem_cons.1 hw with rfl | hw
  · exact Or.inr ⟨"out=gen".toList, rfl, by decide, by decide⟩
  rcases List.mem_cons.1 hw with rfl | hw
  · exact Or.inl (by unfold Ordinary; decide)
  rcases List.mem_cons.1 hw with rfl | hw
  · exact Or.inl (by unfold Ordinary; decide)
  rcases List.mem_cons.1 hw with rfl | hw
  · exact Or.inr ⟨"asn1-modules".toList, rfl, by decide, by decide⟩
  rcases List.mem_cons.1 hw with rfl | hw
  · exact Or.inl (by unfold Ordinary; decide)
  cases hw

/-- Without a needed option, with an ambiguous abbreviation, or with two groups of paths the program ends. -/
example : parseArgs ["generate-c".toList, "a.asn".toList] = none ∧
    parseArgs ["generate-cosmos".toList, "--asn1-m".toList, "x".toList, "a.asn".toList] = none ∧
    parseArgs ["generate-c".toList, "a.asn".toList, "--asn1-modules".toList, "m".toList, "b.asn".toList] = none := by
  decide +kernel

/-! ### C76 -/

/-- The run of a command line, as one of the four commands on parsed modules. -/
theorem commandLine_cases {fuel : Nat} {p : Printer} {fs : Files} {argv : List Text} {r : Run}
    (h : commandLine fuel p fs argv = some r) : ∃ ps a, parseArgs argv = some (ps, a) ∧
      ((∃ e, r = ⟨[], .error e⟩) ∨ ∃ raw, (∀ m ∈ raw, GrammarModule m) ∧ r = runMain fuel p raw a) := by
  unfold commandLine at h
  obtain ⟨⟨ps, a⟩, h1, h2⟩ := Option.map_eq_some_iff.1 h
  have key := C53_grammatical _ decimalFloat_rounds
  refine ⟨ps, a, h1, ?_⟩
  rcases key fuel p (ps.map fun path => (fs path).bind textOf) a with ⟨e, he⟩ | ⟨raw, _, _, _, _, _, hg, he⟩
  · exact Or.inl ⟨e, by rw [← h2, ← he]⟩
  · exact Or.inr ⟨raw, fun m hm => (hg m hm).1, by rw [← h2, ← he]⟩

theorem commandLine_endings {fuel : Nat} {p : Printer} {fs : Files} {argv : List Text} {r : Run}
    (h : commandLine fuel p fs argv = some r) {q : Text} (hf : FileOf r q) : Generated q := by
  obtain ⟨ps, a, _, ⟨e, rfl⟩ | ⟨raw, _, rfl⟩⟩ := commandLine_cases h
  · exact absurd rfl hf
  · cases a with
    | cosmos m ms target out =>
      have := cosmos_files hf
      obtain ⟨r, hr⟩ := joinPath_ends out target ".txt".toList
      exact ⟨r, Or.inr (Or.inr (Or.inr (by rw [this, hr])))⟩
    | cfs ms out =>
      obtain ⟨r, h | ⟨_, h⟩ | ⟨_, h⟩⟩ := command_endings (cmd := .cfs p) hf
      · exact ⟨r, Or.inl h⟩
      · exact ⟨r, Or.inr (Or.inl h)⟩
      · exact ⟨r, Or.inr (Or.inr (Or.inl h))⟩
    | c ms out =>
      obtain ⟨r, h | ⟨_, h⟩ | ⟨_, h⟩⟩ := command_endings (cmd := .c p) hf
      · exact ⟨r, Or.inl h⟩
      · exact ⟨r, Or.inr (Or.inl h)⟩
      · exact ⟨r, Or.inr (Or.inr (Or.inl h))⟩
    | binary ms out e =>
      obtain ⟨r, h | ⟨_, h⟩ | ⟨_, h⟩⟩ := command_endings (cmd := .binary e) hf
      · exact ⟨r, Or.inl h⟩
      · exact ⟨r, Or.inr (Or.inl h)⟩
      · exact ⟨r, Or.inr (Or.inr (Or.inl h))⟩

/-- **C76.** Whatever the command line and the input files are: a file that differs after the run has a path that
ends in `.h`, `.c`, `.bin` or `.txt`. So sources with other endings are as before. -/
theorem C76_sources_kept {fuel : Nat} {p : Printer} {fs : Files} {argv : List Text} {r : Run}
    (h : commandLine fuel p fs argv = some r) (q : Text) (hq : ¬ Generated q) : r.apply fs q = fs q :=
  not_fileOf (fun hf => hq (commandLine_endings h hf)) fs

/-- **C76, again.** If no input path has such an ending, the same command line can be given again, and any number of
other command lines can be given in between: it does the same as the first time. -/
theorem C76_again {fuel : Nat} {p : Printer} {fs : Files} {argv ps : List Text} {a : Args}
    (hu : Understood argv ps a) (hps : ∀ q ∈ ps, ¬ Generated q) {rs : List Run}
    (hrs : ∀ r ∈ rs, ∃ fuel' p' fs' argv', commandLine fuel' p' fs' argv' = some r) :
    commandLine fuel p (rs.foldl (fun fs r => r.apply fs) fs) argv = commandLine fuel p fs argv := by
  have hsame : ∀ q ∈ ps, (rs.foldl (fun fs r => r.apply fs) fs) q = fs q := by
    intro q hq
    clear hu
    induction rs generalizing fs with
    | nil => rfl
    | cons r rs ih =>
      rw [List.foldl_cons, ih fun r hr => hrs r (by simp [hr])]
      obtain ⟨_, _, fs', _, h⟩ := hrs r (List.mem_cons_self ..)
      exact not_fileOf (fun hf => hps q hq (commandLine_endings h hf)) fs
  rw [commandLine_understood hu, commandLine_understood hu]
  congr 2
  refine List.map_congr_left fun q hq => ?_
  rw [hsame q hq]

theorem asn_kept (a : Text) : ¬ Generated (a ++ ".asn".toList) := by
  rintro ⟨r, h | h | h | h⟩
  · exact ends_ne (n := 1) (by decide) (by decide) (by decide) h
  · exact ends_ne (n := 1) (by decide) (by decide) (by decide) h
  · exact ends_ne (n := 2) (by decide) (by decide) (by decide) h
  · exact ends_ne (n := 1) (by decide) (by decide) (by decide) h

/-- The example command line reads files that no command writes, and it is run. -/
example : (∀ q ∈ ["a.asn".toList, "b.asn".toList], ¬ Generated q) ∧
    (∃ r, commandLine 20 exPrinter (fun _ => none) exArgv = some r) := by
  refine ⟨fun q hq => ?_, ⟨_, commandLine_understood exArgv_understood _ _ _⟩⟩
  rcases List.mem_cons.1 hq with rfl | hq
  · exact asn_kept "a".toList
  · rcases List.mem_cons.1 hq with rfl | hq
    · exact asn_kept "b".toList
    · cases hq

/-! ### C77 -/

/-- **C77, in full.** Every file that a command line changes is directly in the output folder asked for. -/
def C77_full : Prop :=
  ∀ (fuel : Nat) (p : Printer) (fs : Files) (argv ps : List Text) (a : Args) (r : Run) (q : Text),
    Understood argv ps a → commandLine fuel p fs argv = some r → r.apply fs q ≠ fs q → DirectlyIn (folder a) q

theorem slash_ident {s : String} (h : isNameLower s = true ∨ isNameCapital s = true) : '/' ∉ ident s := fun hm => by
  have := ident_wordChar h _ hm
  revert this
  decide

theorem slash_lowered {s : String} (h : isNameCapital s = true) : '/' ∉ lowerize (ident s) := by
  obtain ⟨c, r, h1, _, h3⟩ := lowerize_ident h
  have hh := lowerize_ident_head h []
  have hs := slash_ident (Or.inr h)
  rw [h1] at hs
  rw [h3] at hh ⊢
  intro hm
  rcases List.mem_cons.1 hm with hm | hm
  · exact hh (by rw [← hm]; rfl)
  · exact hs (List.mem_cons_of_mem _ hm)

theorem directly_of {out a x : Text} (ha : '/' ∉ a) (hx : '/' ∉ x) : DirectlyIn out (inDir out (a ++ x)) :=
  ⟨a ++ x, by simp [ha, hx], rfl⟩

theorem command_folder {cmd : Command} {fuel : Nat} {raw : List Module} (hg : ∀ m ∈ raw, GrammarModule m)
    {cfg : List String} {out q : Text} (h : FileOf (cmd.run fuel raw cfg out) q) : DirectlyIn out q := by
  rw [fileOf_writes (command_noAppend _ _ _ _ _)] at h
  obtain ⟨w, hw, rfl⟩ := List.mem_map.1 h
  have hrun : cmd.run fuel raw cfg out = runCommand fuel (fun b => cmd.backend fuel out b) raw cfg out := by
    cases cmd <;> rfl
  rw [hrun] at hw
  rcases run_writes fuel (fun b => cmd.backend fuel out b) raw cfg out with ⟨h, _⟩ | ⟨b, hb, done, cds, hi, h, _⟩
  · rw [h] at hw; cases hw
  · rw [h] at hw
    obtain ⟨x, hx, hw⟩ := List.mem_flatMap.1 hw
    have hbt := buildFromTexts_of_config hb
    have hl : isNameLower x.1.mod.name = true :=
      accepted_names hg hbt _ (List.mem_map.2 ⟨x.1, hi.sub _ (List.of_mem_zip hx).1, rfl⟩)
    have hs := slash_ident (Or.inl hl)
    cases cmd with
    | cfs p =>
      simp only [Command.backend] at hw
      rw [printed_cfs _ _ _ _ _ hl] at hw
      rcases List.mem_cons.1 hw with rfl | hw
      · exact directly_of hs (by decide)
      · rcases List.mem_cons.1 hw with rfl | hw
        · exact directly_of hs (by decide)
        · cases hw
    | c p =>
      simp only [Command.backend] at hw
      rw [printed_c _ _ _ _ _ hl] at hw
      rcases List.mem_cons.1 hw with rfl | hw
      · exact directly_of hs (by decide)
      · rcases List.mem_cons.1 hw with rfl | hw
        · exact directly_of hs (by decide)
        · cases hw
    | binary e =>
      simp only [Command.backend] at hw
      rw [printed_bin _ _ _ _ _ _ hl] at hw
      rcases List.mem_cons.1 hw with rfl | hw
      · exact directly_of hs (by decide)
      · obtain ⟨y, hy, rfl⟩ := List.mem_map.1 hw
        obtain ⟨_, h2⟩ := moduleData_keys (binHandler_keys _ _ _) (hi.len.zip_mem hx)
        obtain ⟨n, c, ms, h3, h4⟩ := h2 y.1 (List.mem_map.2 ⟨y, hy, rfl⟩)
        have hd' : Def.seq n c ms ∈ b.defs := by
          rw [← defsOf_eq]
          exact List.mem_flatMap.2 ⟨x.1.mod, List.mem_map.2 ⟨x.1, hi.sub _ (List.of_mem_zip hx).1, rfl⟩, h3⟩
        have hn : isNameCapital n = true := (accepted_grammar hg hbt _ hd').1.1
        show DirectlyIn out (joinPath out (y.1 ++ ".bin".toList))
        rw [h4, cName_eq (s := n) (Or.inr hn), joinPath_eq _ (lowerize_ident_head hn _)]
        exact directly_of (slash_lowered hn) (by decide)

/-- **C77, partial.** generate-cfs, generate-c and generate-binary change only files directly in the output folder.
generate-cosmos changes at most one file: its name with `.txt` appended, in the output folder if the name has no slash.
Missing: names with slashes, which can lead out of the folder. -/
theorem C77_folder_partial {fuel : Nat} {p : Printer} {fs : Files} {argv ps : List Text} {a : Args} {r : Run} {q : Text}
    (hu : Understood argv ps a) (h : commandLine fuel p fs argv = some r) (hq : r.apply fs q ≠ fs q) :
    match a with
    | .cosmos _ _ target out => ('/' ∉ target → q = inDir out (target ++ ".txt".toList) ∧ DirectlyIn out q) ∧
        (target.head? = some '/' → q = target ++ ".txt".toList)
    | _ => DirectlyIn (folder a) q := by
  have hf : FileOf r q := Classical.byContradiction fun hn => hq (not_fileOf hn fs)
  rw [commandLine_understood hu] at h
  have key := C53_grammatical _ decimalFloat_rounds
  rcases key fuel p (ps.map fun path => (fs path).bind textOf) a with ⟨e, he⟩ | ⟨raw, _, _, _, _, _, hg, he⟩
  · rw [he] at h
    cases h
    exact absurd rfl hf
  · rw [he] at h
    cases h
    have hg := fun m hm => (hg m hm).1
    cases a with
    | cosmos m ms target out =>
      have hc := cosmos_files hf
      refine ⟨fun ht => ?_, fun ht => ?_⟩
      · have hh : (target ++ ".txt".toList).head? ≠ some '/' := by
          cases target with
          | nil => decide
          | cons c t => exact fun he => ht (by rw [← Option.some.inj he]; simp)
        rw [joinPath_eq _ hh] at hc
        exact ⟨hc, target ++ ".txt".toList, by simp [ht], hc⟩
      · rw [hc, joinPath, if_pos]
        cases target with
        | nil => cases ht
        | cons c t => exact ht
    | cfs ms out => exact command_folder (cmd := .cfs p) hg hf
    | c ms out => exact command_folder (cmd := .c p) hg hf
    | binary ms out e => exact command_folder (cmd := .binary e) hg hf

deriving instance DecidableEq for Args

/-- A folder with one source. -/
def exDisk : Files := fun q =>
  if q = "a.asn".toList then
    some (textContent "Module-base DEFINITIONS AUTOMATIC TAGS ::= BEGIN\nPoint ::= SEQUENCE {\n  x INTEGER(0..255)\n}\nEND\n".toList)
  else none

/-- `generate-cosmos a.asn --asn1-module base --asn1-messages Point --output-file-name /t`. -/
def exArgvCosmos : List Text := ["generate-cosmos".toList, "a.asn".toList, "--asn1-module".toList, "base".toList,
  "--asn1-messages".toList, "Point".toList, "--output-file-name".toList, "/t".toList]

theorem usual_of {w : Text} (h : (w.head? ≠ some '-' || ("--".toList.isPrefixOf w && w.drop 2 ≠ [] && !w.contains ' ')) = true) :
    Usual w := by
  rcases Bool.or_eq_true_iff.1 h with h | h
  · exact Or.inl (by simpa [Ordinary] using h)
  · simp only [Bool.and_eq_true, decide_eq_true_eq, Bool.not_eq_true'] at h
    obtain ⟨⟨h1, h2⟩, h3⟩ := h
    obtain ⟨r, rfl⟩ := List.isPrefixOf_iff_prefix.1 h1
    refine Or.inr ⟨r, rfl, fun e => h2 (by rw [e]; rfl), fun hm => ?_⟩
    rw [List.contains_iff_mem.2 hm] at h3
    cases h3

theorem exArgvCosmos_understood : Understood exArgvCosmos ["a.asn".toList]
    (.cosmos "base".toList "Point".toList "/t".toList "output/cosmos".toList) := by
  refine (C75_command_line _ (fun w hw => usual_of ?_) _ _).1 (by decide +kernel)
  have : exArgvCosmos.all (fun w => w.head? ≠ some '-' || ("--".toList.isPrefixOf w && w.drop 2 ≠ [] && !w.contains ' ')) = true := by
    decide +kernel
  exact List.all_eq_true.1 this w hw

/-- A file that a run of the example disk writes. -/
theorem written_of {o : Option Run} {q : Text} (h : (o.any fun r => (r.apply exDisk q).isSome) = true)
    (hq : (exDisk q).isNone = true) : ∃ r, o = some r ∧ r.apply exDisk q ≠ exDisk q := by
  cases o with
  | none => cases h
  | some r =>
    refine ⟨r, rfl, fun he => ?_⟩
    have h' : (r.apply exDisk q).isSome = true := h
    rw [he] at h'
    revert h' hq
    generalize exDisk q = x
    cases x <;> simp

/-- It fails for generate-cosmos: `--output-file-name /t` writes `/t.txt`, whatever the output folder is. -/
theorem C77_full_false : ¬ C77_full := by
  intro h
  obtain ⟨r, hr, hq⟩ := written_of (o := commandLine 30 exPrinter exDisk exArgvCosmos) (q := "/t.txt".toList)
    (by decide +kernel) (by decide +kernel)
  obtain ⟨f, _, hf⟩ := h 30 exPrinter exDisk _ _ _ _ _ exArgvCosmos_understood hr hq
  have h2 : inDir "output/cosmos".toList f = "output/cosmos".toList ++ '/' :: f := by
    unfold inDir; rw [if_neg (by decide)]
  have h3 := congrArg List.head? (hf.trans h2)
  rw [List.head?_append] at h3
  exact absurd h3 (by
    rw [show "output/cosmos".toList.head? = some 'o' by decide]
    show ¬ (some '/' = some 'o')
    decide)

/-- The source of the example is read and a file in the output folder is written. -/
example : ∃ r, commandLine 30 exPrinter exDisk
      ["generate-c".toList, "--asn1-modules=base".toList, "a.asn".toList] = some r ∧
      r.apply exDisk "output/c/base.h".toList ≠ exDisk "output/c/base.h".toList :=
  written_of (by decide +kernel) (by decide +kernel)

end Apg
