import Verif.Lemmas.Shared
import Verif.Props.Success
import Verif.Props.CInit

/-!
# Properties C73 and C74: several commands on the same input and in the same folder; C40 for generate-cosmos
-/

namespace Apg
open Spec

/-! ### C73 -/

/-- **C73.** Two commands that run on the same modules write the same types: in the headers they write for a
module, the blocks for its definitions, the documentation and the includes of system headers are the same text. -/
theorem C73_same_types (cmd cmd' : Command) (fuel fuel' : Nat) (raw : List Module) (cfg : List String) (out out' : Text)
    (b : Bundle) (fs fs' : Files) (hin : Input raw cfg b) (hr : (cmd.run fuel raw cfg out).result = .ok ())
    (hr' : (cmd'.run fuel' raw cfg out').result = .ok ()) (m : Module) (hm : m ∈ b.modules) :
    ∃ h h' : HeaderParts, HasText ((cmd.run fuel raw cfg out).apply fs) (cmd.path out m.name) h.text ∧
      HasText ((cmd'.run fuel' raw cfg out').apply fs') (cmd'.path out' m.name) h'.text ∧ SameTypes m h h' := by
  obtain ⟨bm, hbm, rfl⟩ := List.mem_map.1 hm
  have hbt := buildFromTexts_of_config hin.accepted
  obtain ⟨cd, h1, h2⟩ := header_written hin hr hbm
  obtain ⟨cd', h1', h2'⟩ := header_written hin hr' hbm
  have hk : ∀ cmd : Command, cmd.kind ≠ .msgids := by intro cmd; cases cmd <;> exact fun h => by cases h
  obtain ⟨e1, e2, e3, e4⟩ := moduleData_same (command_quiet _ _ _ _) (command_quiet _ _ _ _) h1 h1'
  obtain ⟨sorted, tss, _, k2, k3, k4, _⟩ := moduleData_blocks (command_quiet cmd fuel out b) h1
    (fun d hd => (accepted_grammar hin.grammar hbt d (mem_defs_of_module hm hd)).1)
    (accepted_comments hin.comments hbt _ hm).2
  refine ⟨partsOf cmd.kind (cmd.header bm.mod.name) cd, partsOf cmd'.kind (cmd'.header bm.mod.name) cd', ?_, ?_,
    ⟨sorted, tss, k2, k3.imp fun d ts hb => block_mono (fun _ _ _ _ _ => trivial) hb, k4, e1.trans k4⟩, e4, e2, e3⟩
  · rw [← headerText_parts (hk cmd)]
    exact header_after hin fs h2
  · rw [← headerText_parts (hk cmd')]
    exact header_after hin fs' h2'

example : Input exInit ["m"] (okBundle (buildFromConfig exInit ["m"])) ∧
    (Command.run 20 exInit ["m"] exOut (.c exPrinter)).result = .ok () ∧
    (Command.run 20 exInit ["m"] exOut (.cfs exPrinter)).result = .ok () :=
  ⟨input_of (by decide +kernel) (by decide +kernel) (by decide +kernel), by decide +kernel, by decide +kernel⟩

/-! ### C74 -/

/-- **C74, generate-cosmos.** generate-cosmos and the other commands have no file in common, whatever their
inputs; so each keeps the files of the other, and their order does not matter. -/
theorem C74_cosmos (cmd : Command) (fuel fuel' : Nat) (p : Printer) (raw raw' : List Module) (cfg : List String)
    (out out' : Text) (module : String) (messages : List String) (target : Text) :
    NoCommonFile (cmd.run fuel raw cfg out) (runCosmos fuel' p raw' module messages target out') ∧
    Keeps (cmd.run fuel raw cfg out) (runCosmos fuel' p raw' module messages target out') ∧
    Keeps (runCosmos fuel' p raw' module messages target out') (cmd.run fuel raw cfg out) ∧
    OrderFree (cmd.run fuel raw cfg out) (runCosmos fuel' p raw' module messages target out') := by
  have h : NoCommonFile (cmd.run fuel raw cfg out) (runCosmos fuel' p raw' module messages target out') := by
    rintro q ⟨h1, h2⟩
    obtain ⟨r, hr⟩ := command_endings h1
    have h3 := cosmos_files h2
    obtain ⟨r', hr'⟩ := joinPath_ends out' target ".txt".toList
    rw [hr'] at h3
    rcases hr with hr | ⟨_, hr⟩ | ⟨_, hr⟩ <;> rw [hr] at h3 <;>
      exact ends_ne (n := 1) (by decide) (by decide) (by decide) h3
  exact ⟨h, keeps_of_apart h, keeps_of_apart (noCommonFile_symm h), orderFree_of_apart h⟩

theorem ident_append (s : String) (t : String) : ident (s ++ t) = ident s ++ ident t := by
  unfold ident; rw [String.toList_append, List.map_append]

theorem ident_suffix {s s' : String} (h : isNameLower s = true) (h' : isNameLower s' = true) (t : String)
    (ht : '_' ∉ t.toList) : ident s ++ ident t = ident s' ↔ s' = s ++ t := by
  rw [← ident_append]
  constructor
  · intro he
    refine (String.toList_inj.1 (map_dash_inj ?_ (underscore_not_mem (Or.inl h')) he)).symm
    rw [String.toList_append, List.mem_append]
    exact fun hc => hc.elim (underscore_not_mem (Or.inl h)) ht
  · rintro rfl; rfl

/-- The headers of generate-cfs. -/
theorem cfs_paths {fuel : Nat} {p : Printer} {raw : List Module} {cfg : List String} {out : Text} {b : Bundle}
    (hin : Input raw cfg b) (hr : (runCfs fuel p raw cfg out).result = .ok ()) (q : Text) :
    FileOf (runCfs fuel p raw cfg out) q ↔ ∃ m ∈ b.modules, q = inDir out (ident m.name ++ "_msg.h".toList) ∨
      q = inDir out (ident m.name ++ "_msgids.h".toList) := by
  rw [fileOf_writes (cfs_noAppend _ _ _ _ _)]
  have hbt := buildFromTexts_of_config hin.accepted
  have hl : ∀ bm ∈ b.mods, isNameLower bm.mod.name = true := fun bm hbm =>
    accepted_names hin.grammar hbt _ (List.mem_map.2 ⟨bm, hbm, rfl⟩)
  rcases run_writes fuel (cfsBackend p out) raw cfg out with ⟨_, hw⟩ | ⟨b', hb', done, cds, hi, hw, hp⟩
  · exact absurd hr hw
  · cases hin.accepted.symm.trans hb'
    have hperm := (hp hr).1
    rw [runCfs, hw]
    constructor
    · intro h
      obtain ⟨w, hwm, rfl⟩ := List.mem_map.1 h
      obtain ⟨x, hx, hwx⟩ := List.mem_flatMap.1 hwm
      have hb := hi.sub _ (List.of_mem_zip hx).1
      rw [printed_cfs _ _ _ _ _ (hl _ hb)] at hwx
      refine ⟨x.1.mod, List.mem_map.2 ⟨_, hb, rfl⟩, ?_⟩
      simp only [List.mem_cons, List.not_mem_nil, or_false] at hwx
      rcases hwx with rfl | rfl
      · exact Or.inl rfl
      · exact Or.inr rfl
    · rintro ⟨m, hm, hq⟩
      obtain ⟨bm, hbm, rfl⟩ := List.mem_map.1 hm
      obtain ⟨cd, hz, _⟩ := hi.len.zip_mem_left (hperm.mem_iff.2 hbm)
      have : ∀ w ∈ printed ((cfsBackend p out b).print bm.mod cd), w.1 ∈
          ((done.zip cds).flatMap fun x => printed ((cfsBackend p out b).print x.1.mod x.2)).map (·.1) :=
        fun w hw => List.mem_map.2 ⟨w, List.mem_flatMap.2 ⟨_, hz, hw⟩, rfl⟩
      rw [printed_cfs _ _ _ _ _ (hl _ hbm)] at this
      rcases hq with rfl | rfl
      · exact this _ (List.Mem.head _)
      · exact this _ (List.Mem.tail _ (List.Mem.head _))

/-- Files of generate-c and generate-binary that end in `.h`: one for each module. -/
theorem header_paths {cmd : Command} (hcmd : ∀ p, cmd ≠ .cfs p) {fuel : Nat} {raw : List Module} {cfg : List String}
    {out : Text} {b : Bundle} (hin : Input raw cfg b) (hr : (cmd.run fuel raw cfg out).result = .ok ()) (r : Text) :
    FileOf (cmd.run fuel raw cfg out) (r ++ ".h".toList) ↔
      ∃ m ∈ b.modules, r ++ ".h".toList = inDir out (ident m.name ++ ".h".toList) := by
  rw [fileOf_writes (command_noAppend _ _ _ _ _)]
  have hbt := buildFromTexts_of_config hin.accepted
  have hl : ∀ bm ∈ b.mods, isNameLower bm.mod.name = true := fun bm hbm =>
    accepted_names hin.grammar hbt _ (List.mem_map.2 ⟨bm, hbm, rfl⟩)
  have hrun : cmd.run fuel raw cfg out = runCommand fuel (fun b => cmd.backend fuel out b) raw cfg out := by
    cases cmd <;> rfl
  have hpr : ∀ (bm : BMod) (cd : CData), bm ∈ b.mods → ∀ w ∈ printed ((cmd.backend fuel out b).print bm.mod cd),
      w.1 = r ++ ".h".toList → w.1 = inDir out (ident bm.mod.name ++ ".h".toList) := by
    intro bm cd hbm w hw he
    cases cmd with
    | cfs p => exact absurd rfl (hcmd p)
    | c p =>
      simp only [Command.backend, printed_c _ _ _ _ _ (hl _ hbm), List.mem_cons, List.not_mem_nil, or_false] at hw
      rcases hw with rfl | rfl
      · rfl
      · obtain ⟨r', hr'⟩ := inDir_file (out := out) (f := ident bm.mod.name ++ ".c".toList)
        rw [hr', ← List.append_assoc] at he
        exact absurd he (ends_ne (n := 1) (by decide) (by decide) (by decide))
    | binary e =>
      simp only [Command.backend, printed_bin _ _ _ _ _ _ (hl _ hbm), List.mem_cons, List.mem_map] at hw
      rcases hw with rfl | ⟨x, _, rfl⟩
      · rfl
      · obtain ⟨r', hr'⟩ := joinPath_ends out x.1 ".bin".toList
        simp only [hr'] at he
        exact absurd he (ends_ne (n := 1) (by decide) (by decide) (by decide))
  constructor
  · intro h
    obtain ⟨w, hwm, he⟩ := List.mem_map.1 h
    rcases run_writes fuel (fun b => cmd.backend fuel out b) raw cfg out with ⟨_, hw⟩ | ⟨b', hb', done, cds, hi, hw, hp⟩
    · exact absurd (hrun ▸ hr) hw
    · cases hin.accepted.symm.trans hb'
      rw [hrun, hw] at hwm
      obtain ⟨x, hx, hwx⟩ := List.mem_flatMap.1 hwm
      have hb := hi.sub _ (List.of_mem_zip hx).1
      exact ⟨x.1.mod, List.mem_map.2 ⟨_, hb, rfl⟩, by rw [← hpr x.1 x.2 hb w hwx he]; exact he.symm⟩
  · rintro ⟨m, hm, hq⟩
    obtain ⟨bm, hbm, rfl⟩ := List.mem_map.1 hm
    obtain ⟨cd, _, hw⟩ := header_written hin hr hbm
    refine List.mem_map.2 ⟨_, hw, ?_⟩
    rw [hq]
    cases cmd with
    | cfs p => exact absurd rfl (hcmd p)
    | c p => rfl
    | binary e => rfl

/-- Full statement of C74: two commands on the same input and in the same folder keep each other's files. -/
def C74_full : Prop :=
  ∀ (cmd cmd' : Command) fuel raw cfg out b, Input raw cfg b → (cmd.run fuel raw cfg out).result = .ok () →
    (cmd'.run fuel raw cfg out).result = .ok () → Keeps (cmd.run fuel raw cfg out) (cmd'.run fuel raw cfg out)

/-- **C74, generate-cfs, partial.** The files of generate-cfs and of generate-c or generate-binary in the same
folder, perhaps for other modules, are different exactly if no module of the latter has the name of a module of
the former with `-msg` or `-msgids` added. Then each command keeps the files of the other and their order does
not matter. -/
theorem C74_cfs_partial (cmd : Command) (hcmd : ∀ p, cmd ≠ .cfs p) (fuel fuel' : Nat) (p : Printer)
    (raw raw' : List Module) (cfg cfg' : List String) (out : Text) (b b' : Bundle) (hin : Input raw cfg b)
    (hin' : Input raw' cfg' b') (hr : (runCfs fuel p raw cfg out).result = .ok ())
    (hr' : (cmd.run fuel' raw' cfg' out).result = .ok ()) :
    (NoCommonFile (runCfs fuel p raw cfg out) (cmd.run fuel' raw' cfg' out) ↔
      ∀ m ∈ b.modules, ∀ m' ∈ b'.modules, m'.name ≠ m.name ++ "-msg" ∧ m'.name ≠ m.name ++ "-msgids") ∧
    (NoCommonFile (runCfs fuel p raw cfg out) (cmd.run fuel' raw' cfg' out) →
      Keeps (runCfs fuel p raw cfg out) (cmd.run fuel' raw' cfg' out) ∧
      Keeps (cmd.run fuel' raw' cfg' out) (runCfs fuel p raw cfg out) ∧
      OrderFree (runCfs fuel p raw cfg out) (cmd.run fuel' raw' cfg' out)) := by
  refine ⟨?_, fun h => ⟨keeps_of_apart h, keeps_of_apart (noCommonFile_symm h), orderFree_of_apart h⟩⟩
  have hl : ∀ m ∈ b.modules, isNameLower m.name = true := accepted_names hin.grammar (buildFromTexts_of_config hin.accepted)
  have hl' : ∀ m ∈ b'.modules, isNameLower m.name = true :=
    accepted_names hin'.grammar (buildFromTexts_of_config hin'.accepted)
  have hsame : ∀ (m m' : Module) (t : String), m ∈ b.modules → m' ∈ b'.modules → '_' ∉ t.toList →
      (inDir out (ident m.name ++ (ident t ++ ".h".toList)) = inDir out (ident m'.name ++ ".h".toList) ↔
        m'.name = m.name ++ t) := by
    intro m m' t hm hm' ht
    rw [← ident_suffix (hl m hm) (hl' m' hm') t ht]
    constructor
    · intro he
      have := inDir_inj he
      rw [← List.append_assoc] at this
      exact List.append_cancel_right this
    · intro he
      rw [← List.append_assoc, he]
  have e1 : ("_msg.h".toList : Text) = ident "-msg" ++ ".h".toList := by decide +kernel
  have e2 : ("_msgids.h".toList : Text) = ident "-msgids" ++ ".h".toList := by decide +kernel
  constructor
  · intro h m hm m' hm'
    have hf' : FileOf (cmd.run fuel' raw' cfg' out) (inDir out (ident m'.name ++ ".h".toList)) := by
      obtain ⟨r, hrr⟩ := inDir_file (out := out) (f := ident m'.name ++ ".h".toList)
      rw [hrr, ← List.append_assoc]
      exact (header_paths hcmd hin' hr' _).2 ⟨m', hm', by rw [hrr, List.append_assoc]⟩
    constructor
    · intro he
      refine h _ ⟨(cfs_paths hin hr _).2 ⟨m, hm, Or.inl rfl⟩, ?_⟩
      rw [e1, (hsame m m' "-msg" hm hm' (by decide)).2 he]
      exact hf'
    · intro he
      refine h _ ⟨(cfs_paths hin hr _).2 ⟨m, hm, Or.inr rfl⟩, ?_⟩
      rw [e2, (hsame m m' "-msgids" hm hm' (by decide)).2 he]
      exact hf'
  · rintro h q ⟨h1, h2⟩
    obtain ⟨m, hm, hq⟩ := (cfs_paths hin hr q).1 h1
    have hend : ∃ r, q = r ++ ".h".toList := by
      rcases hq with rfl | rfl
      · obtain ⟨r, hrr⟩ := inDir_file (out := out) (f := ident m.name ++ "_msg.h".toList)
        exact ⟨r ++ ident m.name ++ ident "-msg", by rw [hrr, e1]; simp only [List.append_assoc]⟩
      · obtain ⟨r, hrr⟩ := inDir_file (out := out) (f := ident m.name ++ "_msgids.h".toList)
        exact ⟨r ++ ident m.name ++ ident "-msgids", by rw [hrr, e2]; simp only [List.append_assoc]⟩
    obtain ⟨r, rfl⟩ := hend
    obtain ⟨m', hm', hq'⟩ := (header_paths hcmd hin' hr' r).1 h2
    rw [hq'] at hq
    rcases hq with hq | hq
    · rw [e1] at hq
      exact (h m hm m' hm').1 ((hsame m m' "-msg" hm hm' (by decide)).1 hq.symm)
    · rw [e2] at hq
      exact (h m hm m' hm').2 ((hsame m m' "-msgids" hm hm' (by decide)).1 hq.symm)

theorem notes_length {be be' : Backend} {p : Printer} {fuel : Nat} {e : Option Endian} {out : Text} {b : Bundle}
    (hbe : be = cBackend p out b) (hbe' : be' = binBackend fuel e out b) {ds simple : List Def}
    {mod : Module} {L : List Def} (hg : ∀ d ∈ L, GrammarDef d) (hgc : ∀ d ∈ L, ∀ c ∈ commentsOf d, GrammarComment c)
    {ps ps' : List CData} (h : All2 (fun d p => defPart be ds simple mod d = .ok p) L ps)
    (h' : All2 (fun d p => defPart be' ds simple mod d = .ok p) L ps') :
    ((∀ d ∈ L, AlikeDef d) → ps.flatMap (·.includes) = ps'.flatMap (·.includes) ∧ ps.flatMap (·.predefs) = []) ∧
    ((ps'.flatMap (·.includes)).flatMap (· ++ ['\n'])).length ≤ ((ps.flatMap (·.includes)).flatMap (· ++ ['\n'])).length ∧
    (((ps.flatMap (·.includes)).flatMap (· ++ ['\n'])).length ≤ ((ps'.flatMap (·.includes)).flatMap (· ++ ['\n'])).length →
      ps.flatMap (·.predefs) = [] → ∀ d ∈ L, AlikeDef d) := by
  subst hbe hbe'
  induction h generalizing ps' with
  | nil => cases h'; exact ⟨fun _ => ⟨rfl, rfl⟩, Nat.le_refl _, fun _ _ d hd => by cases hd⟩
  | @cons d q L ps hd _ ih =>
    cases h' with
    | @cons _ q' _ ps' hd' h'' =>
      obtain ⟨a1, a2, a3⟩ := ih (fun d hd => hg d (by simp [hd])) (fun d hd => hgc d (by simp [hd])) h''
      have hpre := defPart_predefs (hg d (by simp)) hd
      have key : (AlikeDef d → q.includes = q'.includes ∧ q.predefs = []) ∧
          (q'.includes.flatMap (· ++ ['\n'])).length ≤ (q.includes.flatMap (· ++ ['\n'])).length ∧
          ((q.includes.flatMap (· ++ ['\n'])).length ≤ (q'.includes.flatMap (· ++ ['\n'])).length →
            q.predefs = [] → AlikeDef d) := by
        cases d with
        | simple n c t =>
          simp only [defPart, bind_ok, Except.ok.injEq, cBackend, cNote, exists_eq_left'] at hd
          simp only [defPart, bind_ok, Except.ok.injEq, binBackend, binNote] at hd'
          subst hd
          obtain ⟨notes, hn, rfl⟩ := hd'
          split at hn
          · rename_i hfd
            cases hn
            refine ⟨fun ha => ?_, Nat.zero_le _, fun hle _ => ?_⟩
            · exact absurd hfd (by rintro (h | h); exact ha.1 h; exact ha.2 h)
            · simp only [List.flatMap_cons, List.flatMap_nil, List.append_nil, List.length_append, List.length_nil,
                List.length_singleton] at hle
              omega
          · rename_i hfd
            cases hn
            exact ⟨fun _ => ⟨rfl, rfl⟩, Nat.le_refl _, fun _ _ => ⟨fun h => hfd (.inl h), fun h => hfd (.inr h)⟩⟩
        | enum n c its =>
          simp only [defPart, Except.ok.injEq] at hd hd'
          subst hd hd'
          exact ⟨fun _ => ⟨rfl, rfl⟩, Nat.le_refl _, fun _ _ => trivial⟩
        | choice n c ms =>
          simp only [defPart, Except.ok.injEq] at hd hd'
          subst hd hd'
          exact ⟨fun _ => ⟨rfl, rfl⟩, Nat.le_refl _, fun _ _ => trivial⟩
        | seq n c ms =>
          have h1 := (convertSequence_block (c_quiet p) (hg _ (by simp)) (hgc _ (by simp)) hd).2.2
          have h2 := (convertSequence_block (bin_quiet _ _ _) (hg _ (by simp)) (hgc _ (by simp)) hd').2.2
          have h3 : q.predefs = [] ↔ AlikeDef (.seq n c ms) := by
            rw [hpre, List.map_eq_nil_iff, clausesOf_nil, List.all_eq_true]
            exact forall_congr' fun k => forall_congr' fun _ => Option.isNone_iff_eq_none
          rw [h1, h2]
          exact ⟨fun ha => ⟨rfl, h3.2 ha⟩, Nat.le_refl _, fun _ hp => h3.1 hp⟩
      obtain ⟨k1, k2, k3⟩ := key
      simp only [List.flatMap_cons, List.flatMap_append, List.length_append]
      refine ⟨fun ha => ?_, by omega, fun hle hp => ?_⟩
      · obtain ⟨c1, c2⟩ := k1 (ha d (by simp))
        obtain ⟨c3, c4⟩ := a1 fun d hd => ha d (by simp [hd])
        exact ⟨by rw [c1, c3], by rw [c2, c4]; rfl⟩
      · have hp1 : q.predefs = [] := (List.append_eq_nil_iff.1 hp).1
        have hp2 := (List.append_eq_nil_iff.1 hp).2
        intro d' hd'
        rcases List.mem_cons.1 hd' with rfl | hd'
        · exact k3 (by omega) hp1
        · exact a3 (by omega) hp2 d' hd'

/-- The headers of generate-c and generate-binary for a module are the same exactly if its definitions are alike. -/
theorem header_alike {p : Printer} {fuel fuel' : Nat} {e : Option Endian} {out : Text} {raw : List Module}
    {cfg : List String} {b : Bundle} (hin : Input raw cfg b) {bm : BMod} (hm : bm ∈ b.mods) {cd cd' : CData}
    (h : moduleData fuel (cBackend p out b) b.defs bm = .ok cd)
    (h' : moduleData fuel' (binBackend fuel' e out b) b.defs bm = .ok cd') (f : Text) :
    headerText .stored f cd = headerText .storedBinary f cd' ↔ ∀ d ∈ bm.mod.defs, AlikeDef d := by
  have hbt := buildFromTexts_of_config hin.accepted
  have hmm : bm.mod ∈ b.modules := List.mem_map.2 ⟨bm, hm, rfl⟩
  obtain ⟨e1, e2, e3, e4⟩ := moduleData_same (c_quiet p) (bin_quiet _ _ _) h h'
  obtain ⟨sorted, s1, s2, ps, s3, cd1, hj, _, hcd⟩ := moduleData_ok h
  obtain ⟨sorted', s1', _, ps', s3', cd1', hj', _, hcd'⟩ := moduleData_ok h'
  cases sortDefs_fuel s1 s1'
  have hmem : ∀ d ∈ sorted, d ∈ bm.mod.defs := fun d hd => s2.mem_iff.1 hd
  obtain ⟨k1, k2, k3⟩ := notes_length rfl rfl
    (fun d hd => (accepted_grammar hin.grammar hbt d (mem_defs_of_module hmm (hmem d hd))).1)
    (fun d hd => (accepted_comments hin.comments hbt _ hmm).2 d (hmem d hd)) s3 s3'
  have i1 : cd.includes = importIncludes cFilename bm.mod ++ ps.flatMap (·.includes) := by rw [hcd]; exact hj.includes
  have i2 : cd'.includes = importIncludes cFilename bm.mod ++ ps'.flatMap (·.includes) := by rw [hcd']; exact hj'.includes
  have i3 : cd.predefs = ps.flatMap (·.predefs) := by rw [hcd]; exact hj.predefs
  rw [headerText_parts (by decide), headerText_parts (by decide)]
  constructor
  · intro he d hd
    have hl := congrArg List.length he
    unfold HeaderParts.text at hl
    simp only [partsOf, e1, e2, e3, e4, i1, i2, i3, if_true, reduceCtorEq, if_false, List.length_append, List.flatMap_append,
      List.length_nil] at hl
    dsimp only [Text] at hl k2 k3
    have hp : ps.flatMap (·.predefs) = [] := by
      by_cases hp : ps.flatMap (·.predefs) = []
      · exact hp
      · rw [if_neg hp] at hl
        simp only [List.length_append, List.length_singleton] at hl
        omega
    rw [if_pos hp] at hl
    simp only [List.length_nil] at hl
    exact k3 (by omega) hp d (s2.mem_iff.2 hd)
  · intro ha
    obtain ⟨c1, c2⟩ := k1 fun d hd => ha d (hmem d hd)
    unfold HeaderParts.text
    simp only [partsOf, e1, e2, e3, e4, i1, i2, i3, c1, c2, if_true, reduceCtorEq, if_false]

/-- **C74, generate-c and generate-binary, partial.** On the same input and in the same folder, generate-c and
generate-binary keep each other's files, and their order does not matter, exactly if no sequence fixes values and
there is no simple definition called Float or Double. In any case they keep each other's files except the
headers, which they share. -/
theorem C74_binary_partial (fuel fuel' : Nat) (p : Printer) (e : Option Endian) (raw : List Module)
    (cfg : List String) (out : Text) (b : Bundle) (hin : Input raw cfg b)
    (hr : (runC fuel p raw cfg out).result = .ok ()) (hr' : (runBinary fuel' e raw cfg out).result = .ok ()) :
    (Keeps (runC fuel p raw cfg out) (runBinary fuel' e raw cfg out) ↔ ∀ m ∈ b.modules, ∀ d ∈ m.defs, AlikeDef d) ∧
    (Keeps (runBinary fuel' e raw cfg out) (runC fuel p raw cfg out) ↔ ∀ m ∈ b.modules, ∀ d ∈ m.defs, AlikeDef d) ∧
    (OrderFree (runC fuel p raw cfg out) (runBinary fuel' e raw cfg out) ↔
      ∀ m ∈ b.modules, ∀ d ∈ m.defs, AlikeDef d) ∧
    ∀ q, FileOf (runC fuel p raw cfg out) q ∧ FileOf (runBinary fuel' e raw cfg out) q ↔
      ∃ m ∈ b.modules, q = inDir out (ident m.name ++ ".h".toList) := by
  have hhead : ∀ m ∈ b.modules, ∃ c c' : Content,
      (∀ fs, (runC fuel p raw cfg out).apply fs (inDir out (ident m.name ++ ".h".toList)) = some c) ∧
      (∀ fs, (runBinary fuel' e raw cfg out).apply fs (inDir out (ident m.name ++ ".h".toList)) = some c') ∧
      (c = c' ↔ ∀ d ∈ m.defs, AlikeDef d) := by
    intro m hm
    obtain ⟨bm, hbm, rfl⟩ := List.mem_map.1 hm
    obtain ⟨cd, h1, h2⟩ := header_written (cmd := .c p) hin hr hbm
    obtain ⟨cd', h1', h2'⟩ := header_written (cmd := .binary e) hin hr' hbm
    refine ⟨_, _, fun fs => header_after hin fs h2, fun fs => header_after hin fs h2', ?_⟩
    rw [← header_alike hin hbm h1 h1' (ident bm.mod.name ++ ".h".toList)]
    exact ⟨textContent_inj, fun h => congrArg textContent h⟩
  have hcommon : ∀ q, FileOf (runC fuel p raw cfg out) q ∧ FileOf (runBinary fuel' e raw cfg out) q ↔
      ∃ m ∈ b.modules, q = inDir out (ident m.name ++ ".h".toList) := by
    intro q
    constructor
    · rintro ⟨h1, h2⟩
      have : ∃ r, q = r ++ ".h".toList := by
        obtain ⟨r, hrr⟩ := command_endings (cmd := .c p) h1
        obtain ⟨r', hrr'⟩ := command_endings (cmd := .binary e) h2
        rcases hrr with hrr | ⟨_, hrr⟩ | ⟨h, _⟩
        · exact ⟨r, hrr⟩
        · rcases hrr' with hrr' | ⟨h, _⟩ | ⟨_, hrr'⟩
          · exact ⟨r', hrr'⟩
          · cases h
          · exact absurd (hrr.symm.trans hrr') (ends_ne (n := 1) (by decide) (by decide) (by decide))
        · cases h
      obtain ⟨r, rfl⟩ := this
      exact (header_paths (cmd := .c p) (fun _ h => by cases h) hin hr r).1 h1
    · rintro ⟨m, hm, rfl⟩
      obtain ⟨c, c', h1, h2, _⟩ := hhead m hm
      exact ⟨by unfold FileOf; rw [h1]; simp, by unfold FileOf; rw [h2]; simp⟩
  refine ⟨?_, ?_, ?_, hcommon⟩
  · constructor
    · intro h m hm
      obtain ⟨c, c', h1, h2, h3⟩ := hhead m hm
      have := h (fun _ => none) _ ((hcommon _).2 ⟨m, hm, rfl⟩).1
      rw [h1, h2] at this
      exact h3.1 (Option.some.inj this).symm
    · intro h fs q hq
      by_cases hq' : FileOf (runBinary fuel' e raw cfg out) q
      · obtain ⟨m, hm, rfl⟩ := (hcommon q).1 ⟨hq, hq'⟩
        obtain ⟨c, c', h1, h2, h3⟩ := hhead m hm
        rw [h1, h2, h3.2 (h m hm)]
      · exact not_fileOf hq' _
  · constructor
    · intro h m hm
      obtain ⟨c, c', h1, h2, h3⟩ := hhead m hm
      have := h (fun _ => none) _ ((hcommon _).2 ⟨m, hm, rfl⟩).2
      rw [h1, h2] at this
      exact h3.1 (Option.some.inj this)
    · intro h fs q hq
      by_cases hq' : FileOf (runC fuel p raw cfg out) q
      · obtain ⟨m, hm, rfl⟩ := (hcommon q).1 ⟨hq', hq⟩
        obtain ⟨c, c', h1, h2, h3⟩ := hhead m hm
        rw [h1, h2, h3.2 (h m hm)]
      · exact not_fileOf hq' _
  · constructor
    · intro h m hm
      obtain ⟨c, c', h1, h2, h3⟩ := hhead m hm
      have := congrFun (h fun _ => none) (inDir out (ident m.name ++ ".h".toList))
      rw [h1, h2] at this
      exact h3.1 (Option.some.inj this).symm
    · intro h fs
      funext q
      by_cases hq : FileOf (runC fuel p raw cfg out) q
      · by_cases hq' : FileOf (runBinary fuel' e raw cfg out) q
        · obtain ⟨m, hm, rfl⟩ := (hcommon q).1 ⟨hq, hq'⟩
          obtain ⟨c, c', h1, h2, h3⟩ := hhead m hm
          rw [h1, h2, h3.2 (h m hm)]
        · rw [not_fileOf hq', apply_local (not_fileOf hq' fs)]
      · rw [not_fileOf hq, apply_local (not_fileOf hq fs)]

/-- A module without fixed values. -/
def exPlain : List Module :=
  [{ exBase with defs := exBase.defs ++ [.seq "Point" none [⟨"lat", .plain "Angle" none none, none, none⟩]] }]

example : Input exPlain ["base"] (okBundle (buildFromConfig exPlain ["base"])) ∧
    (runC 20 exPrinter exPlain ["base"] exOut).result = .ok () ∧
    (runBinary 20 (some .big) exPlain ["base"] exOut).result = .ok () ∧ (∀ m ∈ (okBundle (buildFromConfig exPlain ["base"])).modules, ∀ d ∈ m.defs, AlikeDef d) := by
  refine ⟨input_of (by decide +kernel) (by decide +kernel) (by decide +kernel), by decide +kernel, by decide +kernel, ?_⟩
  have h : (okBundle (buildFromConfig exPlain ["base"])).modules = exPlain := by decide +kernel
  rw [h]
  intro m hm d hd
  rw [exPlain, List.mem_singleton] at hm
  subst hm
  simp only [exBase, List.cons_append, List.nil_append, List.mem_cons, List.not_mem_nil, or_false] at hd
  rcases hd with rfl | rfl
  · exact ⟨by decide, by decide⟩
  · intro k hk
    rw [List.mem_singleton] at hk
    subst hk
    rfl

/-- It fails: the headers of generate-c declare variables, those of generate-binary do not. -/
theorem C74_full_false : ¬ C74_full := by
  intro h
  have hin : Input exPackets ["geo", "base"] (okBundle (buildFromConfig exPackets ["geo", "base"])) :=
    input_of (by decide +kernel) (by decide +kernel) (by decide +kernel)
  have hc : (runC 20 exPrinter exPackets ["geo", "base"] exOut).result = .ok () := by decide +kernel
  have hb : (runBinary 20 (some .big) exPackets ["geo", "base"] exOut).result = .ok () := by decide +kernel
  have := ((C74_binary_partial 20 20 exPrinter (some .big) _ _ _ _ hin hc hb).1.1
    (h (.c exPrinter) (.binary (some .big)) 20 _ _ _ _ hin hc hb))
  have h2 : ∀ m ∈ (okBundle (buildFromConfig exPackets ["geo", "base"])).modules, m.defs.all (fun d => (clausesOf d).isEmpty) = true := by
    intro m hm
    rw [List.all_eq_true]
    intro d hd
    have := this m hm d hd
    cases d with
    | seq n c ms =>
      rw [List.isEmpty_iff, clausesOf_nil, List.all_eq_true]
      exact fun k hk => Option.isNone_iff_eq_none.2 (this k hk)
    | _ => rfl
  revert h2
  decide +kernel

/-! ### C40 -/

/-- **C40, generate-cosmos, partial.** Each run appends the same text: after `n + 1` runs the file has its old
content and `n + 1` times the text that one run leaves on an empty disk; other files are as before. -/
theorem C40_cosmos_partial (fuel : Nat) (p : Printer) (raw : List Module) (module : String) (messages : List String)
    (target out : Text) (n : Nat) (fs : Files) (q : Text) :
    Nat.repeat (runCosmos fuel p raw module messages target out).apply (n + 1) fs q =
      match (runCosmos fuel p raw module messages target out).apply (fun _ => none) q with
      | none => fs q
      | some t => some ((fs q).getD [] ++ (List.replicate (n + 1) t).flatten) := by
  have hops : (runCosmos fuel p raw module messages target out).ops = [] ∨
      ∃ d f c, (runCosmos fuel p raw module messages target out).ops = [.mkdir d, .append f c] := by
    unfold runCosmos
    split
    · exact Or.inl rfl
    · unfold generateCosmos
      simp only
      split
      · exact Or.inl rfl
      · split
        · split
          · exact Or.inr ⟨_, _, _, rfl⟩
          · exact Or.inl rfl
        · split
          · exact Or.inl rfl
          · split
            · exact Or.inl rfl
            · exact Or.inr ⟨_, _, _, rfl⟩
  generalize runCosmos fuel p raw module messages target out = r at hops ⊢
  rcases hops with h | ⟨d, f, c, h⟩
  · have hid : r.apply = id := by
      funext fs; unfold Run.apply; rw [h]; rfl
    rw [hid]
    have : ∀ k, Nat.repeat id k fs = fs := by
      intro k
      induction k with
      | zero => rfl
      | succ k ih => exact ih
    rw [this]
    rfl
  · have hap : ∀ fs : Files, r.apply fs = fun q => if q = f then some ((fs f).getD [] ++ c) else fs q := by
      intro fs; unfold Run.apply; rw [h]; rfl
    by_cases hq : q = f
    · subst hq
      rw [show r.apply (fun _ => none) q = some c by rw [hap]; simp]
      simp only
      induction n with
      | zero => rw [Nat.repeat, Nat.repeat, hap]; simp
      | succ n ih =>
        rw [Nat.repeat, hap]
        simp only [if_true]
        rw [ih, List.replicate_succ' (n := n + 1), List.flatten_append, ← List.append_assoc]
        simp
    · rw [show r.apply (fun _ => none) q = none by rw [hap]; simp [hq]]
      simp only
      induction n with
      | zero => rw [Nat.repeat, Nat.repeat, hap]; simp [hq]
      | succ n ih => rw [Nat.repeat, hap]; simp only [if_neg hq, ih]

example : (runCosmos 20 exPrinter exPackets "base" ["Point"] "t".toList exOut).result = .ok () ∧
    ((runCosmos 20 exPrinter exPackets "base" ["Point"] "t".toList exOut).apply (fun _ => none)
      "gen/t.txt".toList).isSome = true := by decide +kernel

end Apg
