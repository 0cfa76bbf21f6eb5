import Verif.Props.Header
import Verif.Lemmas.FaithfulType

/-!
# Properties C08, C43 and C54: the types of struct fields
-/

namespace Apg
open Spec

/-! ### C43 -/

theorem posix_iff_mem (t : Text) : StdIntType t ↔ posixCTypes.contains t = true := by
  rw [List.contains_iff_mem]
  constructor
  · rintro ⟨n, h⟩
    cases h <;> decide
  · intro h
    simp only [posixCTypes, List.mem_cons, List.not_mem_nil, or_false] at h
    rcases h with rfl | rfl | rfl | rfl | rfl | rfl | rfl | rfl
    · exact ⟨_, .i8⟩
    · exact ⟨_, .i16⟩
    · exact ⟨_, .i32⟩
    · exact ⟨_, .i64⟩
    · exact ⟨_, .u8⟩
    · exact ⟨_, .u16⟩
    · exact ⟨_, .u32⟩
    · exact ⟨_, .u64⟩

theorem mapNumeric_stdint {t : AType} {f : Mapped} (h : mapNumeric t = .ok f)
    (hp : posixCTypes.contains f.ctype = true) : f.stdint = true := by
  unfold mapNumeric at h
  split at h
  · cases h
  · rename_i c _
    simp only [bind_ok] at h
    obtain ⟨size, _, h⟩ := h
    split at h
    · cases h
    · split at h
      · cases h
      · split at h
        · split at h
          · cases h; rfl
          · cases h
            revert hp
            simp only
            decide
        · cases h
          revert hp
          simp only
          cases c <;> decide

theorem mapNumeric_lower {t : AType} {f : Mapped} (h : mapNumeric t = .ok f) :
    ∀ c ∈ f.ctype.head?, reLower c = true := by
  unfold mapNumeric at h
  split at h
  · cases h
  · rename_i c _
    simp only [bind_ok] at h
    obtain ⟨size, _, h⟩ := h
    split at h
    · cases h
    · split at h
      · cases h
      · split at h
        · split at h
          · cases h
            have e : "uint".toList = ['u', 'i', 'n', 't'] := rfl
            rw [e]
            simp only [List.cons_append, List.head?_cons, Option.mem_def, Option.some.injEq]
            rintro _ rfl
            decide
          · cases h
            simp only
            decide
        · cases h
          simp only
          cases c <;> decide

theorem fieldType_stdint {ds simple : List Def} {t : AType} {f : Mapped}
    (h : fieldType ds simple t = .ok f) (hp : posixCTypes.contains f.ctype = true) :
    f.stdint = true := by
  unfold fieldType at h
  simp only [bind_ok] at h
  obtain ⟨m, hm, h⟩ := h
  split at h
  · simp only [bind_ok, Except.ok.injEq] at h
    obtain ⟨m', hm', rfl⟩ := h
    simp [mapNumeric_stdint hm' hp]
  · cases h
    simp only at hp ⊢
    cases hs : posixCTypes.contains (lowerize m.ctype) with
    | true => simp
    | false =>
      rw [hs] at hp
      simp only [Bool.false_eq_true, if_false] at hp
      have hl : ∀ t ∈ posixCTypes, lowerize t = t := by decide
      rw [hl _ (List.contains_iff_mem.1 hp), hp] at hs
      cases hs

/-- Full statement of C43: a header with a field of a type of stdint.h includes stdint.h,
and a header with a field of type bool includes stdbool.h. -/
def C43_full : Prop :=
  ∀ (cmd : Command) fuel raw cfg out b fs, Input raw cfg b →
    (cmd.run fuel raw cfg out).result = .ok () → ∀ m ∈ b.modules,
      ∃ t, HasText ((cmd.run fuel raw cfg out).apply fs) (cmd.path out m.name) t ∧
        ∀ n c ms, Def.seq n c ms ∈ m.defs → ∀ k ∈ ms, ∀ ct sfx,
          fieldLineText ct (ident k.key) sfx ∈ linesOf t →
          (StdIntType ct → "#include <stdint.h>".toList ∈ linesOf t) ∧
          (ct = "bool".toList → "#include <stdbool.h>".toList ∈ linesOf t)

/-- **C43, partial.** If a struct in the header of a module has a field of a type of
stdint.h, the header has the line including stdint.h. Missing: bool. -/
theorem C43_stdint_partial (cmd : Command) (fuel : Nat) (raw : List Module) (cfg : List String)
    (out : Text) (b : Bundle) (fs : Files) (hin : Input raw cfg b)
    (hr : (cmd.run fuel raw cfg out).result = .ok ()) (m : Module) (hm : m ∈ b.modules) :
    ∃ h : HeaderParts, HasText ((cmd.run fuel raw cfg out).apply fs) (cmd.path out m.name) h.text ∧
      HasBlocks (fun _ ct _ => StdIntType ct → h.stdint = true) (fun t => (dims t).take 1) m h := by
  obtain ⟨bm, hbm, rfl⟩ := List.mem_map.1 hm
  obtain ⟨h, sorted, tss, h1, _, h3, h4, h5, _⟩ :=
    header_file hin.grammar hin.comments hin.accepted hr hbm fs
  refine ⟨h, h1, sorted, tss, h3, h4.imp (fun d ts hb => block_mono ?_ hb), h5⟩
  rintro k _ ct sfx ⟨f, k1, rfl, rfl, k4⟩ hs
  exact k4 (fieldType_stdint k1 ((posix_iff_mem _).1 hs))

example : Input exStruct ["m"] (okBundle (buildFromConfig exStruct ["m"])) ∧
    ((Command.c exPrinter).run 20 exStruct ["m"] exOut).result = .ok () ∧
    StdIntType "uint16_t".toList ∧
    fieldLineText "uint16_t".toList "level".toList " : 9".toList ∈
      linesOf (fileText (((Command.c exPrinter).run 20 exStruct ["m"] exOut).apply fun _ => none)
        "gen/m.h".toList) :=
  ⟨exStruct_input, exStruct_run, ⟨_, .u16⟩, by decide +kernel⟩

/-- A module with a boolean type. -/
def exFlagModule : Module :=
  { name := "m", defs := [
      .simple "Flag" none (.plain "BOOLEAN" none none),
      .seq "Rec" none [⟨"f", .plain "Flag" none none, none, none⟩]] }

def exFlag : List Module := [exFlagModule]

/-- It fails: a member of a type defined as BOOLEAN becomes a `bool`, and stdbool.h is never
included. -/
theorem C43_full_false : ¬ C43_full := by
  intro hf
  obtain ⟨t, h1, h2⟩ := hf (.cfs exPrinter) 20 exFlag ["m"] exOut _ (fun _ => none)
    (input_of (by decide +kernel) (by decide +kernel) (by decide +kernel)) (by decide +kernel)
    exFlagModule (by decide +kernel)
  have h3 := h2 "Rec" none [⟨"f", .plain "Flag" none none, none, none⟩] (by decide +kernel)
    _ (List.Mem.head _) "bool".toList []
  rw [← fileText_eq h1] at h3
  have h4 := (h3 (by decide +kernel)).2 rfl
  revert h4
  decide +kernel

/-! ### C08 -/

/-- `k` is declared with the range `lo..hi`, directly or by the name of a simple definition
that is not called like a type of stdint.h. -/
def RangeMember (ds : List Def) (k : Member) (lo hi : Int) : Prop :=
  k.type = intType lo hi ∨
  ∃ n c, k.type = .plain n none none ∧ Def.simple n c (intType lo hi) ∈ ds ∧ ∀ ct, ¬ Posix n ct

/-- Full statement of C08. -/
def C08_full : Prop :=
  ∀ (cmd : Command) fuel raw cfg out b fs, Input raw cfg b →
    (cmd.run fuel raw cfg out).result = .ok () → ∀ m ∈ b.modules,
      ∃ t, HasText ((cmd.run fuel raw cfg out).apply fs) (cmd.path out m.name) t ∧
        ∀ n c ms, Def.seq n c ms ∈ m.defs → ∀ k ∈ ms, ∀ lo hi, 0 ≤ lo → lo ≤ hi →
          RangeMember b.defs k lo hi → ∃ w ct sfx, LeastUnsigned w lo hi ∧ UnsignedField w ct sfx ∧
            fieldLineText ct (ident k.key) sfx ∈ linesOf t

theorem mem_linesOf {l x y : Text} (h : '\n' ∉ l) : l ∈ linesOf (x ++ '\n' :: (l ++ '\n' :: y)) := by
  rw [linesOf_append, linesOf_append, linesOf_single h]
  simp

/-- The text ends with a line break. -/
def EndsNl (t : Text) : Prop := ∃ r, t = r ++ ['\n']

theorem endsNl_append {a b : Text} (hb : EndsNl b) : EndsNl (a ++ b) := by
  obtain ⟨r, rfl⟩ := hb
  exact ⟨a ++ r, by simp⟩

theorem endsNl_flatten {a : Text} {l : List Text} (ha : EndsNl a) (hl : ∀ t ∈ l, EndsNl t) :
    EndsNl (a ++ l.flatten) := by
  induction l generalizing a with
  | nil => simpa using ha
  | cons t l ih =>
    have := ih (a := a ++ t) (endsNl_append (hl t (by simp))) (fun x hx => hl x (by simp [hx]))
    simpa using this

theorem brackets_newline {ns : List Int} {t : Text} (h : Brackets ns t) : '\n' ∉ t := by
  induction h with
  | nil => simp
  | @cons n ns d r h1 _ ih =>
    intro hm
    have hd : '\n' ∉ d := by
      intro hc
      rcases readInt_chars h1 _ hc with h | h <;> revert h <;> decide
    simp only [List.cons_append, List.mem_cons, List.mem_append] at hm
    rcases hm with hm | hm | hm | hm
    · revert hm; decide
    · exact hd hm
    · revert hm; decide
    · exact ih hm

theorem fieldText_split {k : Member} (hk : isNameLower k.key = true) {ct sfx : Text} {ns : List Int}
    {f : Text} (h : FieldText k ct sfx ns f) :
    ∃ pre br, f = pre ++ ("  ".toList ++ ct ++ ' ' :: ident k.key ++ sfx ++ br ++ [';']) ++ ['\n'] ∧
      (pre = [] ∨ EndsNl pre) ∧ Brackets ns br ∧
      '\n' ∉ ("  ".toList ++ ct ++ ' ' :: ident k.key ++ sfx ++ br ++ [';']) ∧ EndsNl f := by
  obtain ⟨cmt, br, h1, h2, _, h5, h6⟩ := h
  have hl : '\n' ∉ ("  ".toList ++ ct ++ ' ' :: ident k.key ++ sfx ++ br ++ [';']) := by
    intro hm
    have e : "  ".toList = [' ', ' '] := rfl
    rw [e] at hm
    simp only [List.mem_append, List.mem_cons, List.not_mem_nil, or_false, List.cons_append,
      List.nil_append] at hm
    rcases hm with hm | hm | ((hm | hm) | hm) | hm
    · revert hm; decide
    · revert hm; decide
    · rcases hm with hm | hm | hm
      · exact absurd (h5.2 _ hm) (by decide)
      · revert hm; decide
      · exact not_mem_ident (Or.inl hk) '\n' (by decide +kernel) hm
    · rcases h6 with rfl | ⟨d, i, rfl, hd⟩
      · cases hm
      · rcases List.mem_append.1 hm with hm | hm
        · revert hm; decide
        · exact absurd (readInt_wordChar hd _ hm) (by decide)
    · exact brackets_newline h2 hm
    · revert hm; decide
  refine ⟨cmt ++ (if cmt = [] then [] else ['\n']), br, ?_, ?_, h2, hl, ?_⟩
  · rw [h1]
    have e : ";\n".toList = [';'] ++ ['\n'] := rfl
    rw [e]
    simp only [List.append_assoc]
  · by_cases hc : cmt = []
    · left; simp [hc]
    · right; rw [if_neg hc]; exact ⟨cmt, rfl⟩
  · rw [h1]
    have e : ";\n".toList = [';'] ++ ['\n'] := rfl
    rw [e, ← List.append_assoc]
    exact ⟨_, rfl⟩

/-- The line of a field is a line of the header. -/
theorem field_line {T : TypeMap} {D : AType → List Int} {m : Module} {h : HeaderParts}
    (hb : HasBlocks T D m h) {n : String} {c : Option Comment} {ms : List Member}
    (hd : Def.seq n c ms ∈ m.defs) (hg : ∀ k ∈ ms, isNameLower k.key = true) {k : Member} (hk : k ∈ ms) :
    ∃ ct sfx br, T k.type ct sfx ∧ Brackets (D k.type) br ∧
      "  ".toList ++ ct ++ ' ' :: ident k.key ++ sfx ++ br ++ [';'] ∈ linesOf h.text := by
  obtain ⟨sorted, tss, h1, h2, h3⟩ := hb
  obtain ⟨ts, hts, t, rfl, fields, k1, k2⟩ := all2_mem_left h2 (h1.mem_iff.2 hd)
  have hends : ∀ f ∈ fields, EndsNl f := by
    intro f hf
    obtain ⟨k', hk', ct, sfx, _, h5⟩ := all2_mem_right k2 hf
    obtain ⟨_, _, _, _, _, _, h6⟩ := fieldText_split (hg k' hk') h5
    exact h6
  obtain ⟨f, hf, ct, sfx, h4, h5⟩ := all2_mem_left k2 hk
  obtain ⟨pre, br, rfl, hpre, hbr, hnl, _⟩ := fieldText_split (hg k hk) h5
  refine ⟨ct, sfx, br, h4, hbr, ?_⟩
  obtain ⟨l1, l2, hl⟩ := List.append_of_mem hf
  have h6 : t ∈ h.blocks := by rw [h3]; exact List.mem_flatten.2 ⟨_, hts, by simp⟩
  obtain ⟨x, y, hxy⟩ := infix_parts h6
  rw [← hxy, k1, hl]
  generalize "  ".toList ++ ct ++ ' ' :: ident k.key ++ sfx ++ br ++ [';'] = line at *
  have hA : EndsNl (x ++ (defCommentText c ++ "typedef struct\n{\n".toList) ++ l1.flatten ++ pre) := by
    have h7 : EndsNl (x ++ (defCommentText c ++ "typedef struct\n{\n".toList) ++ l1.flatten) := by
      refine endsNl_flatten (endsNl_append (endsNl_append ?_)) (fun f hf => hends f (by rw [hl]; simp [hf]))
      exact ⟨"typedef struct\n{".toList, rfl⟩
    rcases hpre with rfl | hpre
    · simpa using h7
    · exact endsNl_append hpre
  obtain ⟨A, hA⟩ := hA
  generalize "} __attribute__((packed)) ".toList = z
  have e : x ++ (defCommentText c ++ "typedef struct\n{\n".toList ++
      (l1 ++ (pre ++ line ++ ['\n']) :: l2).flatten ++ z ++ ident n ++ [';']) ++ y =
      A ++ '\n' :: (line ++ '\n' :: (l2.flatten ++ z ++ ident n ++ [';'] ++ y)) := by
    have : x ++ (defCommentText c ++ "typedef struct\n{\n".toList ++
        (l1 ++ (pre ++ line ++ ['\n']) :: l2).flatten ++ z ++ ident n ++ [';']) ++ y =
        (x ++ (defCommentText c ++ "typedef struct\n{\n".toList) ++ l1.flatten ++ pre) ++
        (line ++ '\n' :: (l2.flatten ++ z ++ ident n ++ [';'] ++ y)) := by
      generalize "typedef struct\n{\n".toList = q
      simp only [List.flatten_append, List.flatten_cons, List.append_assoc, List.cons_append,
        List.nil_append]
    rw [this, hA]
    simp
  rw [e]
  exact mem_linesOf hnl

/-- `fieldType` when the mapped type starts with a lower-case letter. -/
theorem fieldType_lower_of {ds simple : List Def} (hs : ∀ d ∈ simple, isNameCapital d.name = true)
    {t : AType} {m : Mapped} (hm : mapMember ds t = .ok m)
    (hl : ∀ c ∈ m.ctype.head?, reLower c = true) :
    fieldType ds simple t =
      .ok ⟨m.bits, m.ctype, m.stdbool, m.stdint || posixCTypes.contains m.ctype⟩ := by
  unfold fieldType
  rw [hm]
  simp only [bind, Except.bind, lowerize_head hl, ite_self]
  rw [find_simple_none hs (fun c hc => not_upper_of_lower (hl c hc))]

/-- `fieldType` on a name defined as a simple type. -/
theorem fieldType_alias {ds simple : List Def} (hcap : ∀ d ∈ simple, isNameCapital d.name = true)
    (hsub : ∀ d ∈ simple, d ∈ ds) (hnd : (ds.map Def.name).Nodup) {n : String} {c : Option Comment}
    {t : AType} (hn : isNameCapital n = true) (hnp : ∀ ct, ¬ Posix n ct)
    (hd : Def.simple n c t ∈ simple) {f : Mapped}
    (h : fieldType ds simple (.plain n none none) = .ok f) :
    ∃ m', mapNumeric t = .ok m' ∧ f.ctype = m'.ctype ∧ f.bits = m'.bits := by
  obtain ⟨b1, b2, b3⟩ := cName_not_builtin hn
  have hl : lastDef ds n = some (.simple n c t) := lastDef_of_mem hnd (hsub _ hd)
  unfold fieldType mapMember at h
  simp only [AType.name, b1, b2, b3, or_self, if_false, resolveType, hl] at h
  have hp : posixCTypes.contains (lowerize (cName n)) = false := by
    cases hp : posixCTypes.contains (lowerize (cName n)) with
    | false => rfl
    | true => exact absurd (lowerize_posix hn hp) (hnp _)
  simp only [bind, Except.bind, hp, Bool.false_eq_true, if_false] at h
  cases hf : simple.find? (fun d => d.isSimple && cName d.name == cName n) with
  | none => exact absurd rfl (find_simple_named_none hf _ hd rfl)
  | some d =>
    obtain ⟨h1, h2, h3⟩ := find_simple_named hcap hn hf
    have : d = .simple n c t := mem_unique_of_nodup_map hnd (hsub _ h1) (hsub _ hd) h3
    subst this
    rw [hf] at h
    simp only [mapSimpleDef] at h
    cases hm : mapNumeric t with
    | error e => rw [hm] at h; cases h
    | ok m' =>
      rw [hm] at h
      cases h
      exact ⟨m', rfl, rfl, rfl⟩

/-- Simple definitions a module uses are known to the type mapping. -/
theorem used_simple {raw : List Module} {cfg : List String} {b : Bundle}
    (hb : buildFromConfig raw cfg = .ok b) {bm : BMod} (hm : bm ∈ b.mods) {d : Def} (hd : d ∈ bm.mod.defs)
    {k : Member} (hk : k ∈ d.members) {n : String} (hu : UsesName k.type n) (hn : ¬ BuiltIn n) :
    (∃ d' ∈ b.defs, d'.name = n) ∧
    ∀ d' ∈ b.defs, d'.isSimple = true → d'.name = n → d' ∈ simpleList bm := by
  have hmm : bm.mod ∈ b.modules := List.mem_map.2 ⟨bm, hm, rfl⟩
  have hnd := accepted_nodup (buildFromTexts_of_config hb)
  rcases C14_used_types raw cfg b hb bm.mod hmm d hd k hk n hu with h | ⟨_, m', hm', hi, d1, hd1, hn1⟩
  · exact absurd h hn
  have h1 : d1 ∈ b.defs := by rw [← defsOf_eq]; exact List.mem_flatMap.2 ⟨m', hm', hd1⟩
  refine ⟨⟨d1, h1, hn1⟩, ?_⟩
  intro d' hd' hs hn'
  have : d' = d1 := mem_unique_of_nodup_map hnd hd' h1 (hn'.trans hn1.symm)
  subst this
  unfold simpleList simpleDefs
  simp only [List.mem_append, List.mem_filter, List.mem_flatMap]
  rcases hi with rfl | ⟨i, hi1, hi2, _⟩
  · exact Or.inl ⟨hd1, hs⟩
  · right
    obtain ⟨ms, q1, q2, _, q4, _⟩ := buildFromConfig_ok.1 hb
    have hmods := build_modules q4
    obtain ⟨q5, q6⟩ := (resolveDeps_nodup q2).1 (build_ok.1 q4).1
    refine ⟨m', ?_, hd1, hs⟩
    rw [q6] at hm
    obtain ⟨mm, hmm', rfl⟩ := List.mem_map.1 hm
    simp only [List.mem_filterMap]
    refine ⟨i, hi1, ?_⟩
    rw [hmods] at hm'
    exact (lastNamed_eq_some_iff q2 _ _).2 ⟨hm', hi2.symm⟩

theorem simpleList_sub {raw : List Module} {cfg : List String} {b : Bundle}
    (hb : buildFromConfig raw cfg = .ok b) {bm : BMod} (hm : bm ∈ b.mods) :
    ∀ d ∈ simpleList bm, d ∈ b.defs ∧ d.isSimple = true := by
  obtain ⟨ms, q1, q2, _, q4, _⟩ := buildFromConfig_ok.1 hb
  have hmods := build_modules q4
  obtain ⟨q5, q6⟩ := (resolveDeps_nodup q2).1 (build_ok.1 q4).1
  have hmm : bm.mod ∈ b.modules := List.mem_map.2 ⟨bm, hm, rfl⟩
  intro d hd
  unfold simpleList simpleDefs at hd
  simp only [List.mem_append, List.mem_filter, List.mem_flatMap] at hd
  rcases hd with ⟨h1, h2⟩ | ⟨m', hm', h1, h2⟩
  · exact ⟨mem_defs_of_module hmm h1, h2⟩
  · refine ⟨mem_defs_of_module (m := m') ?_ h1, h2⟩
    rw [q6] at hm
    obtain ⟨mm, hmm', rfl⟩ := List.mem_map.1 hm
    simp only [List.mem_filterMap] at hm'
    obtain ⟨i, _, hi⟩ := hm'
    rw [hmods]
    exact (lastNamed_some hi).1

theorem capital_not_builtIn {n : String} (h : isNameCapital n = true) : ¬ BuiltIn n := by
  rintro (rfl | rfl | rfl | rfl | rfl) <;> revert h <;> decide +kernel

/-- `fieldType` on a member with an unsigned range. -/
theorem fieldType_range {raw : List Module} {cfg : List String} {b : Bundle} (hin : Input raw cfg b)
    {bm : BMod} (hm : bm ∈ b.mods) {d : Def} (hd : d ∈ bm.mod.defs) {k : Member} (hk : k ∈ d.members)
    {lo hi : Int} (hrg : RangeMember b.defs k lo hi) {f : Mapped}
    (h : fieldType b.defs (simpleList bm) k.type = .ok f) :
    ∃ m', mapNumeric (intType lo hi) = .ok m' ∧ f.ctype = m'.ctype ∧ f.bits = m'.bits := by
  have hb := hin.accepted
  have hbt := buildFromTexts_of_config hb
  have hsub := simpleList_sub hb hm
  have hcapd : ∀ d ∈ b.defs, isNameCapital d.name = true := by
    intro d hd
    have := (accepted_grammar hin.grammar hbt d hd).1
    cases d <;> exact this.1
  have hcap : ∀ d ∈ simpleList bm, isNameCapital d.name = true := fun d hd => hcapd d (hsub d hd).1
  rcases hrg with ht | ⟨n, c, ht, hsd, hnp⟩
  · rw [ht] at h
    have hmn : mapMember b.defs (intType lo hi) = mapNumeric (intType lo hi) := by
      have : cName "INTEGER" = "INTEGER".toList := by decide +kernel
      simp [mapMember, intType, AType.name, this]
    have h' := h
    unfold fieldType at h'
    simp only [bind_ok] at h'
    obtain ⟨m', hm', _⟩ := h'
    have hml := hm'
    rw [hmn] at hml
    have hlow : ∀ c ∈ m'.ctype.head?, reLower c = true := by
      have hg := mapNumeric_lower hml
      exact hg
    rw [fieldType_lower_of hcap hm' hlow] at h
    cases h
    exact ⟨m', hml, rfl, rfl⟩
  · have hn := hcapd _ hsd
    simp only [Def.name] at hn
    have hu : UsesName k.type n := by rw [ht]; exact .plain
    have hvis := used_simple hb hm hd hk hu (capital_not_builtIn hn)
    rw [ht] at h
    exact fieldType_alias hcap (fun d hd => (hsub d hd).1) (accepted_nodup hbt) hn hnp
      (hvis.2 _ hsd rfl rfl) h

/-- **C08, partial.** After a successful run each member with an unsigned range whose upper
bound is positive and below 2^64 has a struct line with the smallest standard type, with a
bit-field suffix of the least width exactly when no standard type has that width. Missing:
ranges with the upper bound 0, for which the run fails (`C08_zero_fails`), and upper bounds of
2^64 or more, for which a too narrow type is printed. -/
theorem C08_storage_partial (cmd : Command) (fuel : Nat) (raw : List Module) (cfg : List String)
    (out : Text) (b : Bundle) (fs : Files) (hin : Input raw cfg b)
    (hr : (cmd.run fuel raw cfg out).result = .ok ()) (m : Module) (hm : m ∈ b.modules) :
    ∃ t, HasText ((cmd.run fuel raw cfg out).apply fs) (cmd.path out m.name) t ∧
      ∀ n c ms, Def.seq n c ms ∈ m.defs → ∀ k ∈ ms, ∀ lo hi, 0 ≤ lo → lo ≤ hi → hi < 2 ^ 64 →
        RangeMember b.defs k lo hi → ∃ w ct sfx, LeastUnsigned w lo hi ∧ UnsignedField w ct sfx ∧
          fieldLineText ct (ident k.key) sfx ∈ linesOf t := by
  obtain ⟨bm, hbm, rfl⟩ := List.mem_map.1 hm
  obtain ⟨h, sorted, tss, h1, _, h3, h4, h5, _⟩ :=
    header_file hin.grammar hin.comments hin.accepted hr hbm fs
  refine ⟨h.text, h1, ?_⟩
  intro n c ms hd k hk lo hi hlo hle hhi hrg
  have hg := (accepted_grammar hin.grammar (buildFromTexts_of_config hin.accepted) _
    (mem_defs_of_module hm hd)).1
  obtain ⟨ct, sfx, br, ⟨f, k1, rfl, rfl, _⟩, hbr, hl⟩ := field_line ⟨sorted, tss, h3, h4, h5⟩ hd
    (fun k hk => (hg.2.2 k hk).1) hk
  obtain ⟨m', hm', e1, e2⟩ := fieldType_range hin hbm hd hk hrg k1
  have hpos : 1 ≤ hi := by
    rcases Int.lt_or_le hi 1 with h | h
    · exfalso
      have : hi = 0 := by omega
      subst this
      rw [mapNumeric_uint hlo hle, if_pos (by decide)] at hm'
      cases hm'
    · exact h
  obtain ⟨ct', q1, q2, q3, _⟩ := mapNumeric_uint_ok hlo hle hpos hhi
  rw [q1] at hm'
  cases hm'
  simp only at e1 e2
  refine ⟨_, _, _, q2, q3, ?_⟩
  have hdim : firstDim k.type = [] := by
    rcases hrg with ht | ⟨n, c, ht, _⟩ <;> rw [ht] <;> rfl
  rw [hdim] at hbr
  cases hbr
  rw [List.append_nil, e1, e2] at hl
  exact hl

/-- **C08, which fields are right.** The field of a member with an unsigned range has the smallest standard type and
the right bit-field suffix exactly if the upper bound is below 2^64. Beyond, it is an `unsigned long long` with a
bit-field suffix of more than 64 bits. -/
theorem C08_exact_partial (cmd : Command) (fuel : Nat) (raw : List Module) (cfg : List String)
    (out : Text) (b : Bundle) (fs : Files) (hin : Input raw cfg b)
    (hr : (cmd.run fuel raw cfg out).result = .ok ()) (m : Module) (hm : m ∈ b.modules) :
    ∃ h : HeaderParts, HasText ((cmd.run fuel raw cfg out).apply fs) (cmd.path out m.name) h.text ∧
      HasBlocks (fun t ct sfx => ∀ lo hi, 0 ≤ lo → lo ≤ hi → RangeMember b.defs ⟨"x", t, none, none⟩ lo hi →
        ((∃ w, LeastUnsigned w lo hi ∧ UnsignedField w ct sfx) ↔ hi < 2 ^ 64) ∧
        (2 ^ 64 ≤ hi → ct = "unsigned long long".toList ∧ ∃ w, LeastUnsigned w lo hi ∧ 64 < w ∧ BitSuffix w sfx))
      (fun t => (dims t).take 1) m h := by
  obtain ⟨bm, hbm, rfl⟩ := List.mem_map.1 hm
  obtain ⟨h, sorted, tss, h1, _, h3, h4, h5, _⟩ := header_file hin.grammar hin.comments hin.accepted hr hbm fs
  refine ⟨h, h1, sorted, tss, h3, h4.imp_mem (fun d hd ts hbl => block_mono ?_ hbl), h5⟩
  rintro k hk ct sfx ⟨f, k1, rfl, rfl, _⟩ lo hi hlo hle hrg
  have hd' := h3.mem_iff.1 hd
  obtain ⟨m', hm', e1, e2⟩ := fieldType_range hin hbm hd' hk hrg k1
  rcases Int.lt_or_le hi (2 ^ 64) with hhi | hhi
  · have hpos : 1 ≤ hi := by
      rcases Int.lt_or_le hi 1 with h | h
      · exfalso
        have : hi = 0 := by omega
        subst this
        rw [mapNumeric_uint hlo hle, if_pos (by decide)] at hm'
        cases hm'
      · exact h
    obtain ⟨ct', q1, q2, q3, _⟩ := mapNumeric_uint_ok hlo hle hpos hhi
    rw [q1] at hm'
    cases hm'
    simp only at e1 e2
    rw [e1, e2]
    exact ⟨⟨fun _ => hhi, fun _ => ⟨_, q2, q3⟩⟩, fun h => by omega⟩
  · have hbig : 64 < bitLength hi := Nat.lt_of_not_le fun hc => by
      have := (lt_two_pow_64 (by omega)).1 hc
      omega
    rw [mapNumeric_big hlo hle hbig hm'] at e1 e2
    simp only at e1 e2
    rw [e1, e2]
    refine ⟨⟨?_, fun h => by omega⟩, fun _ => ⟨rfl, _, uint_least lo hi hlo hle, hbig, ?_⟩⟩
    · rintro ⟨w, _, n, hn, _⟩
      exfalso
      generalize hc : "unsigned long long".toList = ct at hn
      cases hn <;> exact absurd hc (by decide)
    · unfold widthSuffix
      rw [if_neg (by omega)]
      exact bitSuffix_int _

/-- **C01 (C headers).** The fields of members with a range `lo .. hi` without negative numbers are bit-fields of
the least width that holds the range, or have a standard type of this width. -/
theorem C01_fields (cmd : Command) (fuel : Nat) (raw : List Module) (cfg : List String)
    (out : Text) (b : Bundle) (fs : Files) (hin : Input raw cfg b)
    (hr : (cmd.run fuel raw cfg out).result = .ok ()) (m : Module) (hm : m ∈ b.modules) :
    ∃ h : HeaderParts, HasText ((cmd.run fuel raw cfg out).apply fs) (cmd.path out m.name) h.text ∧
      HasBlocks (fun t ct sfx => ∀ lo hi, 0 ≤ lo → lo ≤ hi → RangeMember b.defs ⟨"x", t, none, none⟩ lo hi →
        ∃ w, LeastUnsigned w lo hi ∧ (BitSuffix w sfx ∨ sfx = [] ∧ StdUInt w ct))
      (fun t => (dims t).take 1) m h := by
  obtain ⟨h, h1, sorted, tss, h3, h4, h5⟩ := C08_exact_partial cmd fuel raw cfg out b fs hin hr m hm
  refine ⟨h, h1, sorted, tss, h3, h4.imp_mem (fun d _ ts hbl => block_mono ?_ hbl), h5⟩
  intro k _ ct sfx hf lo hi hlo hle hrg
  obtain ⟨q1, q2⟩ := hf lo hi hlo hle hrg
  rcases Int.lt_or_le hi (2 ^ 64) with hhi | hhi
  · obtain ⟨w, hw, n, hn, h6, h7, h8⟩ := q1.2 hhi
    refine ⟨w, hw, ?_⟩
    rcases h8 with ⟨⟨ct', hct⟩, rfl⟩ | ⟨_, h8⟩
    · have : n = w := Nat.le_antisymm (h7 w ct' hct (Nat.le_refl _)) h6
      subst this
      exact .inr ⟨rfl, hn⟩
    · exact .inl h8
  · obtain ⟨_, w, hw, _, h8⟩ := q2 hhi
    exact ⟨w, hw, .inl h8⟩

/-- No command succeeds on a member whose only value is 0. -/
theorem C08_zero_fails (cmd : Command) (fuel : Nat) (raw : List Module) (cfg : List String)
    (out : Text) (b : Bundle) (hin : Input raw cfg b) (m : Module) (hm : m ∈ b.modules) (n : String)
    (c : Option Comment) (ms : List Member) (hd : Def.seq n c ms ∈ m.defs) (k : Member) (hk : k ∈ ms)
    (hrg : RangeMember b.defs k 0 0) : (cmd.run fuel raw cfg out).result ≠ .ok () := by
  intro hr
  obtain ⟨bm, hbm, rfl⟩ := List.mem_map.1 hm
  obtain ⟨h, sorted, tss, h1, _, h3, h4, h5, _⟩ :=
    header_file hin.grammar hin.comments hin.accepted hr hbm (fun _ => none)
  have hg := (accepted_grammar hin.grammar (buildFromTexts_of_config hin.accepted) _
    (mem_defs_of_module hm hd)).1
  obtain ⟨ct, sfx, br, ⟨f, k1, _⟩, _⟩ := field_line ⟨sorted, tss, h3, h4, h5⟩ hd
    (fun k hk => (hg.2.2 k hk).1) hk
  obtain ⟨m', hm', _⟩ := fieldType_range hin hbm hd hk hrg k1
  rw [mapNumeric_uint (by omega) (by omega), if_pos (by decide)] at hm'
  cases hm'

/-- A module with a range of 65 bits. -/
def exWideModule : Module :=
  { name := "m", defs := [
      .seq "Rec" none [⟨"x", intType 0 (2 ^ 64), none, none⟩]] }

def exWide : List Module := [exWideModule]

/-- A module with a range of one value. -/
def exZero : List Module :=
  [{ name := "m", defs := [.seq "Rec" none [⟨"x", intType 0 0, none, none⟩]] }]

example : Input exZero ["m"] (okBundle (buildFromConfig exZero ["m"])) :=
  input_of (by decide +kernel) (by decide +kernel) (by decide +kernel)

example : RangeMember [Def.simple "Small" none (intType 0 5)]
    ⟨"small", .plain "Small" none none, none, none⟩ 0 5 :=
  Or.inr ⟨"Small", none, rfl, by simp, by intro ct h; generalize hs : "Small" = s at h; cases h <;> revert hs <;> decide⟩

/-- It fails: a range up to 2^64 gives `unsigned long long x : 65;`. -/
theorem C08_full_false : ¬ C08_full := by
  intro hf
  obtain ⟨t, h1, h2⟩ := hf (.c exPrinter) 20 exWide ["m"] exOut _ (fun _ => none)
    (input_of (by decide +kernel) (by decide +kernel) (by decide +kernel)) (by decide +kernel)
    exWideModule (by decide +kernel)
  obtain ⟨w, ct, sfx, _, ⟨n, hct, _⟩, hl⟩ := h2 "Rec" none [⟨"x", intType 0 (2 ^ 64), none, none⟩]
    (by decide +kernel) _ (List.Mem.head _) 0 (2 ^ 64) (by decide) (by decide) (Or.inl rfl)
  have hpre : "  uint".toList.isPrefixOf (fieldLineText ct (ident "x") sfx) = true := by
    unfold fieldLineText
    cases hct <;> rfl
  have hno : ∀ l ∈ linesOf (fileText (((Command.c exPrinter).run 20 exWide ["m"] exOut).apply
      fun _ => none) ((Command.c exPrinter).path exOut exWideModule.name)),
      "  uint".toList.isPrefixOf l = false := by
    decide +kernel
  rw [← fileText_eq h1] at hl
  rw [hno _ hl] at hpre
  cases hpre

/-! ### C54 -/

/-- Full statement of C54: the line of every struct field has the C counterpart of the type
of its member. -/
def C54_full : Prop :=
  ∀ (cmd : Command) fuel raw cfg out b fs, Input raw cfg b →
    (cmd.run fuel raw cfg out).result = .ok () → ∀ m ∈ b.modules,
      ∃ h : HeaderParts, HasText ((cmd.run fuel raw cfg out).apply fs) (cmd.path out m.name) h.text ∧
        HasBlocks (FieldType b.defs) (fun t => (dims t).take 1) m h

/-- Definitions without the cases in which the generators print another type: names of
stdint.h are simple definitions, simple definitions are no arrays, unsigned ranges are below
2^64, and arrays are arrays of a named type; if that is a simple definition it has the name of a
type of stdint.h or needs no bit-field. -/
structure Regular (ds : List Def) : Prop where
  posix : ∀ d ∈ ds, ∀ ct, Posix d.name ct → d.isSimple = true
  simple : ∀ n c t, Def.simple n c t ∈ ds → (∀ e len, t ≠ .arr e len) ∧
    ∀ b e : Int, t = intType b e → 0 ≤ b → e < 2 ^ 64
  range : ∀ d ∈ ds, ∀ k ∈ d.members, ∀ b e : Int, k.type = intType b e → 0 ≤ b → e < 2 ^ 64
  array : ∀ d ∈ ds, ∀ k ∈ d.members, ∀ e len, k.type = .arr e len →
    ∃ n, e = .plain n none none ∧ ¬ BuiltIn n ∧ ∀ c t, Def.simple n c t ∈ ds → (∃ ct, Posix n ct) ∨ WholeWidth t

theorem grammar_capital {n : String} (h : GrammarType (.plain n none none)) (hb : ¬ BuiltIn n)
    (h0 : n ≠ "NULL") : isNameCapital n = true := by
  generalize ht : AType.plain n none none = t at h
  cases h <;> cases ht
  · exact absurd (by simp [BuiltIn]) hb
  · exact absurd (by simp [BuiltIn]) hb
  · exact absurd rfl h0
  · exact absurd (by simp [BuiltIn]) hb
  · assumption

theorem usesName_name (t : AType) : UsesName t t.name := by
  induction t with
  | plain n lo hi => exact .plain
  | str n len => exact .str
  | arr e len ih => exact .arr ih

theorem bundle_env {raw : List Module} {cfg : List String} {b : Bundle} (hin : Input raw cfg b) {bm : BMod}
    (hbm : bm ∈ b.mods) : TypeEnv b.defs (simpleList bm) := by
  have hbt := buildFromTexts_of_config hin.accepted
  have hgr := accepted_grammar hin.grammar hbt
  refine ⟨?_, accepted_nodup hbt, simpleList_sub hin.accepted hbm, ?_, ?_⟩
  · intro d hd
    have := (hgr d hd).1
    cases d <;> exact this.1
  · intro n c t hd
    exact (hgr _ hd).1.2
  · intro n c its hd
    exact ⟨(hgr _ hd).1.2.1, (hgr _ hd).2 n c its rfl⟩

/-- The field of a member has the specified type exactly if the type of the member is right. -/
theorem member_faithful {raw : List Module} {cfg : List String} {b : Bundle} (hin : Input raw cfg b) {bm : BMod}
    (hbm : bm ∈ b.mods) {d : Def} (hd : d ∈ bm.mod.defs) {k : Member} (hk : k ∈ d.members) {f : Mapped}
    (h : fieldType b.defs (simpleList bm) k.type = .ok f) :
    FieldType b.defs k.type f.ctype f.bits ↔ RightType b.defs k.type := by
  have hm : bm.mod ∈ b.modules := List.mem_map.2 ⟨bm, hbm, rfl⟩
  have hb := hin.accepted
  have hbt := buildFromTexts_of_config hb
  have hdb := mem_defs_of_module hm hd
  have henv := bundle_env hin hbm
  have hgk : GrammarMember k := by
    have := (accepted_grammar hin.grammar hbt d hdb).1
    cases d with
    | seq => exact this.2.2 k hk
    | choice => exact this.2.2 k hk
    | enum => cases hk
    | simple => cases hk
  have hvis : Visible b.defs (simpleList bm) k.type := by
    rintro n rfl hcap
    exact used_simple hb hbm hd hk (usesName_name _) (capital_not_builtIn hcap)
  refine ⟨fieldType_faithful henv hgk.2.1 hvis h, fun hF => ?_⟩
  have hnull := (C16_no_null raw b hbt d hdb).1 k hk
  by_cases ha : ∃ e len, k.type = .arr e len
  · obtain ⟨e, len, ht⟩ := ha
    rw [ht] at hF h hvis ⊢
    cases e with
    | str => exact hF.elim
    | arr => exact hF.elim
    | plain n lo hi =>
      cases lo with
      | some => exact hF.elim
      | none =>
        cases hi with
        | some => exact hF.elim
        | none =>
          obtain ⟨⟨d', hd', rfl⟩, h1, h2⟩ := hF
          have hn := henv.cap d' hd'
          exact (fieldType_array henv h1 hn (hvis _ rfl hn) h2 h).1
  · have hna : ∀ e len, k.type ≠ .arr e len := fun e len h => ha ⟨e, len, h⟩
    refine (fieldType_sound henv ?_ hgk.2.1 ?_ hvis hna ?_ h).1
    · intro n hn
      rw [hn] at hF
      exact hF.2
    · refine smallRange_iff.2 ?_
      cases ht : k.type with
      | plain n lo hi => rw [ht] at hF; exact hF.1
      | str => rintro ⟨b, e, hh, _⟩; simp [intType] at hh
      | arr e len => exact absurd ht (hna e len)
    · intro hn
      apply hnull
      cases ht : k.type with
      | plain n' lo hi => rw [ht] at hn; cases hn; exact .here
      | str n' len =>
        have hg := hgk.2.1
        rw [ht] at hg hn
        simp only [AType.name] at hn
        subst hn
        generalize hx : AType.str "NULL" len = x at hg
        cases hg <;> simp at hx
      | arr e len => exact absurd ht (hna e len)

/-- In regular definitions all members are right. -/
theorem regular_faithful {raw : List Module} {cfg : List String} {b : Bundle} (hin : Input raw cfg b)
    (hreg : Regular b.defs) {bm : BMod} (hbm : bm ∈ b.mods) {d : Def} (hd : d ∈ bm.mod.defs) {k : Member}
    (hk : k ∈ d.members) : RightType b.defs k.type := by
  have hm : bm.mod ∈ b.modules := List.mem_map.2 ⟨bm, hbm, rfl⟩
  have hdb := mem_defs_of_module hm hd
  have hname : ∀ n, RightName b.defs n := by
    intro n
    refine ⟨?_, fun c t hs _ => ⟨(hreg.simple n c t hs).1, smallRange_iff.1 (hreg.simple n c t hs).2⟩⟩
    rintro d' hd' rfl ⟨ct, hc⟩
    exact hreg.posix d' hd' ct hc
  cases ht : k.type with
  | plain n lo hi =>
    refine ⟨smallRange_iff.1 ?_, hname n⟩
    rw [← ht]
    exact hreg.range d hdb k hk
  | str => trivial
  | arr e len =>
    obtain ⟨n, rfl, hnb, hpx⟩ := hreg.array d hdb k hk e len ht
    exact ⟨(used_simple hin.accepted hbm hd hk (by rw [ht]; exact .arr .plain) hnb).1, hname n,
      fun c t hs hp => (hpx c t hs).resolve_left hp⟩

/-- The header of a module, with the types of its fields. -/
theorem header_faithful_data {cmd : Command} {fuel : Nat} {raw : List Module} {cfg : List String}
    {out : Text} {b : Bundle} (fs : Files) (hin : Input raw cfg b)
    (hr : (cmd.run fuel raw cfg out).result = .ok ()) {bm : BMod}
    (hbm : bm ∈ b.mods) :
    ∃ (h : HeaderParts) (sorted : List Def) (tss : List (List (List Char))),
      (∃ cd, moduleData fuel (cmd.backend fuel out b) b.defs bm = .ok cd ∧ h.stdint = cd.stdint) ∧
      HasText ((cmd.run fuel raw cfg out).apply fs) (cmd.path out bm.mod.name) h.text ∧
      sortDefs fuel bm.mod = some sorted ∧ sorted.Perm bm.mod.defs ∧
      All2 (Block (fun t ct sfx => ModelType b.defs (simpleList bm) h.stdint t ct sfx ∧
          (FieldType b.defs t ct sfx ↔ RightType b.defs t) ∧ (StdIntType ct → h.stdint = true))
        fun t => (dims t).take 1) sorted tss ∧
      h.blocks = tss.flatten ∧ h.stdbool = false ∧
      ((∀ c ∈ h.symbol, wordChar c = true) ∧ h.symbol = cmd.guard bm.mod.name) ∧ h.doc = headerDoc bm.mod ∧ h.decls = cmd.objects sorted ∧
      ∃ pre post, h.includes = pre ++
          (bm.mod.imports.map fun i => "#include \"".toList ++ cmd.included i.module ++ ['"']) ++ post ∧
        pre = importNote bm.mod.commentImport ∧ (∀ l ∈ pre, IsNote l) ∧ ∀ l ∈ post, SafeNote l := by
  obtain ⟨h, sorted, tss, h0, h1, h2, h3, h4, h5, h6⟩ :=
    header_file_data hin.grammar hin.comments hin.accepted hr hbm fs
  refine ⟨h, sorted, tss, h0, h1, h2, h3, h4.imp_mem (fun d hd ts hbl => block_mono ?_ hbl), h5, h6⟩
  rintro k hk ct sfx ⟨f, k1, rfl, rfl, k4⟩
  exact ⟨⟨f, k1, rfl, rfl, k4⟩, member_faithful hin hbm (h3.mem_iff.1 hd) hk k1,
    fun hs => k4 (fieldType_stdint k1 ((posix_iff_mem _).1 hs))⟩

/-- The header of a module with regular definitions. -/
theorem header_typed_data {cmd : Command} {fuel : Nat} {raw : List Module} {cfg : List String}
    {out : Text} {b : Bundle} (fs : Files) (hin : Input raw cfg b)
    (hr : (cmd.run fuel raw cfg out).result = .ok ()) (hreg : Regular b.defs) {bm : BMod}
    (hbm : bm ∈ b.mods) :
    ∃ (h : HeaderParts) (sorted : List Def) (tss : List (List (List Char))),
      (∃ cd, moduleData fuel (cmd.backend fuel out b) b.defs bm = .ok cd ∧ h.stdint = cd.stdint) ∧
      HasText ((cmd.run fuel raw cfg out).apply fs) (cmd.path out bm.mod.name) h.text ∧
      sortDefs fuel bm.mod = some sorted ∧ sorted.Perm bm.mod.defs ∧
      All2 (Block (fun t ct sfx => ModelType b.defs (simpleList bm) h.stdint t ct sfx ∧ FieldType b.defs t ct sfx ∧
          (StdIntType ct → h.stdint = true))
        fun t => (dims t).take 1) sorted tss ∧
      h.blocks = tss.flatten ∧ h.stdbool = false ∧
      ((∀ c ∈ h.symbol, wordChar c = true) ∧ h.symbol = cmd.guard bm.mod.name) ∧ h.doc = headerDoc bm.mod ∧ h.decls = cmd.objects sorted ∧
      ∃ pre post, h.includes = pre ++
          (bm.mod.imports.map fun i => "#include \"".toList ++ cmd.included i.module ++ ['"']) ++ post ∧
        pre = importNote bm.mod.commentImport ∧ (∀ l ∈ pre, IsNote l) ∧ ∀ l ∈ post, SafeNote l := by
  obtain ⟨h, sorted, tss, h0, h1, h2, h3, h4, h5, h6⟩ := header_faithful_data fs hin hr hbm
  refine ⟨h, sorted, tss, h0, h1, h2, h3, h4.imp_mem (fun d hd ts hbl => block_mono ?_ hbl), h5, h6⟩
  rintro k hk ct sfx ⟨k1, k2, k3⟩
  exact ⟨k1, k2.2 (regular_faithful hin hreg hbm (h3.mem_iff.1 hd) hk), k3⟩

/-- The header of a module with regular definitions. -/
theorem header_typed {cmd : Command} {fuel : Nat} {raw : List Module} {cfg : List String}
    {out : Text} {b : Bundle} (fs : Files) (hin : Input raw cfg b)
    (hr : (cmd.run fuel raw cfg out).result = .ok ()) (hreg : Regular b.defs) {m : Module}
    (hm : m ∈ b.modules) :
    ∃ (h : HeaderParts) (sorted : List Def) (tss : List (List (List Char))),
      HasText ((cmd.run fuel raw cfg out).apply fs) (cmd.path out m.name) h.text ∧
      sortDefs fuel m = some sorted ∧ sorted.Perm m.defs ∧
      All2 (Block (fun t ct sfx => FieldType b.defs t ct sfx ∧ (StdIntType ct → h.stdint = true))
        fun t => (dims t).take 1) sorted tss ∧
      h.blocks = tss.flatten ∧ h.stdbool = false ∧
      ((∀ c ∈ h.symbol, wordChar c = true) ∧ h.symbol = cmd.guard m.name) ∧ h.doc = headerDoc m ∧ h.decls = cmd.objects sorted ∧
      ∃ pre post, h.includes = pre ++
          (m.imports.map fun i => "#include \"".toList ++ cmd.included i.module ++ ['"']) ++ post ∧
        pre = importNote m.commentImport ∧ (∀ l ∈ pre, IsNote l) ∧ ∀ l ∈ post, SafeNote l := by
  obtain ⟨bm, hbm, rfl⟩ := List.mem_map.1 hm
  obtain ⟨h, sorted, tss, _, h1, h2, h3, h4, r⟩ := header_typed_data fs hin hr hreg hbm
  exact ⟨h, sorted, tss, h1, h2, h3, h4.imp fun d ts hb => block_mono (fun _ _ _ _ h => h.2) hb, r⟩

/-- **C54, partial.** After a successful run every struct field has the C counterpart of the
type of its member: the least standard unsigned type with a bit-field width, int, float,
double, the type of stdint.h of that name, char, or the generated type of that name. Missing:
definitions that are not `Regular`. -/
theorem C54_field_types_partial (cmd : Command) (fuel : Nat) (raw : List Module) (cfg : List String)
    (out : Text) (b : Bundle) (fs : Files) (hin : Input raw cfg b)
    (hr : (cmd.run fuel raw cfg out).result = .ok ()) (hreg : Regular b.defs) (m : Module)
    (hm : m ∈ b.modules) :
    ∃ h : HeaderParts, HasText ((cmd.run fuel raw cfg out).apply fs) (cmd.path out m.name) h.text ∧
      HasBlocks (FieldType b.defs) (fun t => (dims t).take 1) m h := by
  obtain ⟨h, sorted, tss, h1, _, h3, h4, h5, _⟩ := header_typed fs hin hr hreg hm
  exact ⟨h, h1, sorted, tss, h3, h4.imp (fun d ts hb => block_mono (fun _ _ _ _ h => h.1) hb), h5⟩

/-- **C54, exact.** After a successful run the field of a member has the C counterpart of the type of the member
exactly if that type is right. The full statement is false, so this does not prove it: missing are the types that
are not right, and for these the theorem says that the field has another type. -/
theorem C54_exact_partial (cmd : Command) (fuel : Nat) (raw : List Module) (cfg : List String)
    (out : Text) (b : Bundle) (fs : Files) (hin : Input raw cfg b)
    (hr : (cmd.run fuel raw cfg out).result = .ok ()) (m : Module) (hm : m ∈ b.modules) :
    ∃ h : HeaderParts, HasText ((cmd.run fuel raw cfg out).apply fs) (cmd.path out m.name) h.text ∧
      HasBlocks (fun t ct sfx => FieldType b.defs t ct sfx ↔ RightType b.defs t) (fun t => (dims t).take 1) m h := by
  obtain ⟨bm, hbm, rfl⟩ := List.mem_map.1 hm
  obtain ⟨h, sorted, tss, _, h1, _, h3, h4, h5, _⟩ := header_faithful_data fs hin hr hbm
  exact ⟨h, h1, sorted, tss, h3, h4.imp (fun d ts hb => block_mono (fun _ _ _ _ h => h.2.1) hb), h5⟩

/-- An array of bytes is right, an array of numbers of three bits is not, and neither are arrays of arrays. -/
example : RightType [Def.simple "Byte" none (intType 0 255)] (.arr (.plain "Byte" none none) 4) ∧
    ¬ RightType [Def.simple "Small" none (intType 0 5)] (.arr (.plain "Small" none none) 4) ∧
    ¬ RightType [Def.simple "Byte" none (intType 0 255)] (.arr (.arr (.plain "Byte" none none) 2) 4) := by
  have hp : ∀ n : String, n ∈ ["Byte", "Small"] → ¬ ∃ ct, Posix n ct := by
    rintro n hn ⟨ct, h⟩
    cases h <;> revert hn <;> decide
  refine ⟨⟨⟨_, List.Mem.head _, rfl⟩, ⟨fun d hd _ _ => by simp at hd; rw [hd]; rfl, fun c t h _ => ?_⟩, fun c t h _ => ?_⟩,
    fun h => ?_, fun h => h⟩
  · simp at h
    obtain ⟨rfl, rfl⟩ := h
    refine ⟨by simp [intType], ?_⟩
    rintro ⟨b, e, h, _, h2⟩
    simp [intType] at h
    omega
  · simp at h
    obtain ⟨rfl, rfl⟩ := h
    rintro b e h _
    simp [intType] at h
    obtain ⟨rfl, rfl⟩ := h
    exact ⟨8, _, .w8, (mapNumeric_uint_ok (b := 0) (e := 255) (by decide) (by decide) (by decide) (by decide)).choose_spec.2.1⟩
  · obtain ⟨w, ct, h1, h2⟩ := h.2.2 none _ (List.Mem.head _) (hp _ (by decide)) 0 5 rfl (by decide)
    have h3 := h2.2 3 (fun v hv => ⟨hv.1, by have := hv.2; omega⟩)
    cases h1 <;> omega

/-- Whether a range is as wide as a type of stdint.h. -/
def wholeB : AType → Bool
  | .plain _ (some (.int b)) (some (.int e)) => decide (b < 0) || (decide (b ≤ e) && [8, 16, 32, 64].contains (bitLength e))
  | _ => true

theorem wholeB_sound {t : AType} (h : wholeB t = true) : WholeWidth t := by
  rintro b e rfl hb
  simp only [wholeB, intType, Bool.or_eq_true, Bool.and_eq_true, decide_eq_true_eq, List.contains_iff_mem, List.mem_cons,
    List.not_mem_nil, or_false] at h
  rcases h with h | ⟨h1, h2⟩
  · omega
  · refine ⟨bitLength e, ?_⟩
    have h3 : LeastUnsigned (bitLength e) b e := by
      refine (mapNumeric_uint_ok hb h1 ?_ ((lt_two_pow_64 (by omega)).1 (by omega))).choose_spec.2.1
      have := bitLength_zero (e := e) (by omega)
      omega
    rcases h2 with h2 | h2 | h2 | h2 <;> rw [h2] at h3 ⊢
    · exact ⟨_, .w8, h3⟩
    · exact ⟨_, .w16, h3⟩
    · exact ⟨_, .w32, h3⟩
    · exact ⟨_, .w64, h3⟩

theorem regular_of {ds : List Def}
    (h1 : ds.all (fun d => d.isSimple || !posixCTypes.contains (lowerize (cName d.name))) = true)
    (h2 : ds.all (fun d => match d with
      | .simple _ _ (.arr ..) => false
      | .simple _ _ (.plain _ _ (some (.int e))) => decide (e < 2 ^ 64)
      | _ => true) = true)
    (h3 : ds.all (fun d => d.members.all fun k => match k.type with
      | .plain _ _ (some (.int e)) => decide (e < 2 ^ 64)
      | .arr (.plain n none none) _ => decide (isNameCapital n = true) &&
        ds.all (fun d => !d.isSimple || !(d.name == n) ||
          (decide (n ∈ ["Int8-t", "Int16-t", "Int32-t", "Int64-t", "Uint8-t", "Uint16-t", "Uint32-t", "Uint64-t"]) ||
            match d with | .simple _ _ t => wholeB t | _ => true))
      | .arr .. => false
      | _ => true) = true) : Regular ds := by
  rw [List.all_eq_true] at h1 h2 h3
  refine ⟨?_, ?_, ?_, ?_⟩
  · intro d hd ct hp
    have := h1 d hd
    obtain ⟨q1, q2, _⟩ := posix_lower hp
    rw [q1, q2] at this
    simpa using this
  · intro n c t hd
    have := h2 _ hd
    refine ⟨?_, ?_⟩
    · rintro e len rfl
      cases this
    · rintro b e rfl _
      exact of_decide_eq_true this
  · intro d hd k hk b e ht _
    have := List.all_eq_true.1 (h3 d hd) k hk
    rw [ht] at this
    exact of_decide_eq_true this
  · intro d hd k hk e len ht
    have := List.all_eq_true.1 (h3 d hd) k hk
    rw [ht] at this
    cases e with
    | arr => cases this
    | str => cases this
    | plain n lo hi =>
      cases lo with
      | some => cases this
      | none =>
        cases hi with
        | some => cases this
        | none =>
          simp only [Bool.and_eq_true, decide_eq_true_eq] at this
          refine ⟨n, rfl, capital_not_builtIn this.1, ?_⟩
          intro c t hs
          have h4 := List.all_eq_true.1 this.2 _ hs
          simp only [Def.isSimple, Def.name, beq_self_eq_true, Bool.not_true, Bool.or_self,
            Bool.false_or, Bool.or_eq_true, decide_eq_true_eq, List.mem_cons, List.not_mem_nil, or_false] at h4
          refine h4.imp (fun h4 => ?_) wholeB_sound
          rcases h4 with rfl | rfl | rfl | rfl | rfl | rfl | rfl | rfl
          · exact ⟨_, .i8⟩
          · exact ⟨_, .i16⟩
          · exact ⟨_, .i32⟩
          · exact ⟨_, .i64⟩
          · exact ⟨_, .u8⟩
          · exact ⟨_, .u16⟩
          · exact ⟨_, .u32⟩
          · exact ⟨_, .u64⟩

example : Input exStruct ["m"] (okBundle (buildFromConfig exStruct ["m"])) ∧
    ((Command.c exPrinter).run 20 exStruct ["m"] exOut).result = .ok () ∧
    Regular (okBundle (buildFromConfig exStruct ["m"])).defs :=
  ⟨exStruct_input, exStruct_run, regular_of (by decide +kernel) (by decide +kernel) (by decide +kernel)⟩

/-- A module that defines `Uint8-t` as a sequence. -/
def exShadowModule : Module :=
  { name := "m", defs := [
      .seq "Uint8-t" none [⟨"a", .plain "BOOLEAN" none none, none, none⟩],
      .seq "Rec" none [⟨"x", .plain "Uint8-t" none none, none, none⟩]] }

def exShadow : List Module := [exShadowModule]

/-- It fails: a sequence may be called `Uint8-t`; its struct is `Uint8_t`, and members of that
type become `uint8_t`. -/
theorem C54_full_false : ¬ C54_full := by
  intro hf
  obtain ⟨h, h1, h2⟩ := hf (.cfs exPrinter) 20 exShadow ["m"] exOut _ (fun _ => none)
    (input_of (by decide +kernel) (by decide +kernel) (by decide +kernel)) (by decide +kernel)
    exShadowModule (by decide +kernel)
  obtain ⟨ct, sfx, br, hT, hbr, hl⟩ := field_line h2 (n := "Rec") (c := none)
    (ms := [⟨"x", .plain "Uint8-t" none none, none, none⟩]) (by decide +kernel) (by decide +kernel)
    (List.Mem.head _)
  have hdefs : (okBundle (buildFromConfig exShadow ["m"])).defs = exShadowModule.defs := by
    decide +kernel
  rw [hdefs] at hT
  have hct : ct = ident "Uint8-t" := by
    simp only at hT
    generalize hn : "Uint8-t" = n at hT ⊢
    have hns : ∀ c t, Def.simple n c t ∉ exShadowModule.defs := by
      intro c t hm
      simp [exShadowModule] at hm
    cases hT with
    | scalar hs =>
      generalize ht : AType.plain n none none = t at hs
      cases hs <;> cases ht
    | bool => revert hn; decide
    | named h =>
      cases h with
      | posix q => exact absurd q (hns _ _)
      | struct => rfl
      | union => rfl
      | alias q => exact absurd q (hns _ _)
      | aliasBool q => exact absurd q (hns _ _)
      | aliasFloat q => exact absurd q (hns _ _)
      | aliasDouble q => exact absurd q (hns _ _)
    | enum => rfl
  subst hct
  have hno : ∀ l ∈ linesOf (fileText (((Command.cfs exPrinter).run 20 exShadow ["m"] exOut).apply
      fun _ => none) ((Command.cfs exPrinter).path exOut exShadowModule.name)),
      "  Uint8_t ".toList.isPrefixOf l = false := by
    decide +kernel
  have e : "  ".toList ++ ident "Uint8-t" = "  Uint8_t".toList := by decide +kernel
  rw [e] at hl
  rw [← fileText_eq h1] at hl
  have := hno _ hl
  rw [← Bool.not_eq_true, List.isPrefixOf_iff_prefix] at this
  apply this
  have e2 : "  Uint8_t ".toList = "  Uint8_t".toList ++ [' '] := rfl
  rw [e2]
  generalize "  Uint8_t".toList = z
  simp only [List.append_assoc, List.cons_append, List.prefix_append_right_inj]
  exact ⟨_, rfl⟩

end Apg
