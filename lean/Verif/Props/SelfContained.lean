import Verif.Props.FieldTypes
import Verif.Props.Order
import Verif.Spec.SelfContained

/-!
# Property C59: headers declare what they use
-/

namespace Apg
open Spec

/-- Full statement of C59: in the headers of a successful run every struct field has a type that is known
where it is used. -/
def C59_full : Prop :=
  ∀ (cmd : Command) fuel raw cfg out b fs, Input raw cfg b → (cmd.run fuel raw cfg out).result = .ok () →
    ∀ m ∈ b.modules, ∃ h, SelfContained cmd ((cmd.run fuel raw cfg out).apply fs) out b.modules m h

/-- What a struct or enumeration block declares. -/
theorem block_declares {T : TypeMap} {D : AType → List Int} {d : Def} {ts : List Text} (hb : Block T D d ts)
    (hd : (∃ n c ms, d = .seq n c ms) ∨ ∃ n c its, d = .enum n c its) : ∃ t ∈ ts, Declares t (ident d.name) := by
  rcases hd with ⟨n, c, ms, rfl⟩ | ⟨n, c, its, rfl⟩
  · obtain ⟨t, rfl, fields, h1, _⟩ := hb
    refine ⟨t, List.mem_singleton.2 rfl, defCommentText c, "struct\n{\n".toList ++ fields.flatten, ?_⟩
    rw [h1]
    have e : "typedef struct\n{\n".toList = "typedef ".toList ++ "struct\n{\n".toList := rfl
    rw [e]
    generalize "typedef ".toList = a
    generalize "struct\n{\n".toList = a'
    generalize "} __attribute__((packed)) ".toList = a''
    simp only [Def.name, List.append_assoc]
  · obtain ⟨t, rfl, lines, h1, _⟩ := hb
    refine ⟨t, List.mem_singleton.2 rfl, defCommentText c, "enum {\n".toList ++ lines.flatten, ?_⟩
    rw [h1]
    have e : "typedef enum {\n".toList = "typedef ".toList ++ "enum {\n".toList := rfl
    rw [e]
    generalize "typedef ".toList = a
    generalize "enum {\n".toList = a'
    generalize "} __attribute__((packed)) ".toList = a''
    simp only [Def.name, List.append_assoc]

theorem all2_getElem {α β} {R : α → β → Prop} {l : List α} {r : List β} (h : All2 R l r) :
    ∀ {i : Nat} {a b}, l[i]? = some a → r[i]? = some b → R a b := by
  induction h with
  | nil => intro i a b h; simp at h
  | cons h _ ih =>
    intro i a b h1 h2
    cases i with
    | zero => simp only [List.getElem?_cons_zero, Option.some.injEq] at h1 h2; subst h1; subst h2; exact h
    | succ i => exact ih h1 h2

/-- The general case: imported types that are not simple are found if the include lines name headers. -/
theorem self_contained {cmd : Command} {fuel : Nat} {raw : List Module} {cfg : List String} {out : Text} {b : Bundle}
    (fs : Files) (hin : Input raw cfg b) (hr : (cmd.run fuel raw cfg out).result = .ok ()) (hreg : Regular b.defs)
    (hdc : Declarable b.defs) {m : Module} (hm : m ∈ b.modules)
    (hinc : ∀ i ∈ m.imports, ∀ n ∈ i.defs, ∀ d ∈ b.defs, d.name = n → d.isSimple = false →
      cmd.included i.module = cmd.header i.module) :
    ∃ h, SelfContained cmd ((cmd.run fuel raw cfg out).apply fs) out b.modules m h := by
  obtain ⟨h, sorted, tss, h1, h2, h3, h4, h5, h6, _, _, _, pre, post, h7, _⟩ := header_typed fs hin hr hreg hm
  have hb := hin.accepted
  have hbt := buildFromTexts_of_config hb
  have hnd := accepted_nodup hbt
  have hlen : tss.length = sorted.length := h4.length_eq.symm
  refine ⟨h, h1, sorted, tss, h3, h5, hlen, ?_⟩
  intro i d ts hd hts
  refine block_mono ?_ (all2_getElem h4 hd hts)
  rintro k hk ct sfx ⟨hT, hstd⟩
  have hdm : d ∈ m.defs := h3.mem_iff.1 (List.mem_of_getElem? hd)
  have hdb := mem_defs_of_module hm hdm
  -- a struct or enumeration used by the member
  have generated : ∀ n e, e ∈ b.defs → e.name = n → UsesName k.type n →
      ((∃ n c ms, e = .seq n c ms) ∨ ∃ n c its, e = .enum n c its) →
      KnownType cmd ((cmd.run fuel raw cfg out).apply fs) out b.modules h (tss.take i).flatten (ident n) := by
    intro n e he hn hu hkind
    have hgr := (accepted_grammar hin.grammar hbt e he).1
    have hcap : isNameCapital n = true := by
      rw [← hn]
      rcases hkind with ⟨_, _, _, rfl⟩ | ⟨_, _, _, rfl⟩ <;> exact hgr.1
    have hseq : (∃ nm c ms, d = .seq nm c ms) ∨ (∃ nm c ms, d = .choice nm c ms) := by
      cases d with
      | seq n c ms => exact .inl ⟨_, _, _, rfl⟩
      | choice n c ms => exact .inr ⟨_, _, _, rfl⟩
      | enum => cases hk
      | simple => cases hk
    rcases (C19_dependency_order_partial m fuel sorted h2).2.1 i d hd n ⟨hseq, k, hk, hu⟩ with
      (hbi | ⟨it, hit, hni⟩) | ⟨j, hj, e', he', hn'⟩
    · exact absurd hbi (capital_not_builtIn hcap)
    · obtain ⟨m', hm', hmn, hdefs⟩ := C13_imports raw cfg b hb m hm it hit
      obtain ⟨e', he', hn'⟩ := hdefs n hni
      have he'b := mem_defs_of_module hm' he'
      have : e' = e := mem_unique_of_nodup_map hnd he'b he (hn'.trans hn.symm)
      subst this
      obtain ⟨h', s', tss', q1, _, q3, q4, q5, _⟩ := header_typed fs hin hr hreg hm'
      obtain ⟨ts', hts', hbl⟩ := all2_mem_left q4 (q3.mem_iff.2 he')
      obtain ⟨t, ht, hdecl⟩ := block_declares hbl hkind
      rw [hn] at hdecl
      have hf : cmd.included it.module = cmd.header m'.name := by
        rw [hmn]
        refine hinc it hit n hni e' he hn ?_
        rcases hkind with ⟨_, _, _, rfl⟩ | ⟨_, _, _, rfl⟩ <;> rfl
      refine .header (f := cmd.header m'.name) ?_ ⟨m', hm', rfl, h', q1,
        ⟨s', tss', q3, q4.imp (fun d ts hb => block_mono (fun _ _ _ _ _ => trivial) hb), q5⟩,
        t, by rw [q5]; exact List.mem_flatten.2 ⟨ts', hts', ht⟩, hdecl⟩
      rw [h7, ← hf]
      simp only [List.mem_append, List.mem_map]
      exact .inl (.inr ⟨it, hit, rfl⟩)
    · have he'm := h3.mem_iff.1 (List.mem_of_getElem? he')
      have : e' = e := mem_unique_of_nodup_map hnd (mem_defs_of_module hm he'm) he (hn'.trans hn.symm)
      subst this
      have hjl : j < tss.length := by
        rw [hlen]; exact (List.getElem?_eq_some_iff.1 he').1
      have hget : tss[j]? = some tss[j] := List.getElem?_eq_getElem hjl
      obtain ⟨t, ht, hdecl⟩ := block_declares (all2_getElem h4 he' hget) hkind
      rw [hn] at hdecl
      refine .block (b := t) (List.mem_flatten.2 ⟨tss[j], ?_, ht⟩) hdecl
      rw [List.mem_take_iff_getElem]
      exact ⟨j, by omega, rfl⟩
  have scalar : ∀ {t ct sfx}, ScalarC t ct sfx → (StdIntType ct → h.stdint = true) →
      KnownType cmd ((cmd.run fuel raw cfg out).apply fs) out b.modules h (tss.take i).flatten ct := by
    intro t ct sfx hs hstd
    cases hs with
    | uint _ _ hu =>
      obtain ⟨w, hw, _⟩ := hu
      have : StdIntType ct := by
        cases hw
        · exact ⟨_, .u8⟩
        · exact ⟨_, .u16⟩
        · exact ⟨_, .u32⟩
        · exact ⟨_, .u64⟩
      exact .stdint this (hstd this)
    | sint => exact .keyword .int
    | single => exact .keyword .float
    | double => exact .keyword .double
  have named : ∀ {n ct sfx}, NamedC b.defs n ct sfx → UsesName k.type n → (StdIntType ct → h.stdint = true) →
      KnownType cmd ((cmd.run fuel raw cfg out).apply fs) out b.modules h (tss.take i).flatten ct := by
    intro n ct sfx hN hu hstd
    cases hN with
    | posix _ hp => exact .stdint ⟨_, hp⟩ (hstd ⟨_, hp⟩)
    | struct he => exact generated n _ he rfl hu (.inl ⟨_, _, _, rfl⟩)
    | union he => exact absurd hu (hdc.choice _ _ _ he d hdb k hk)
    | alias _ _ hs => exact scalar hs hstd
    | aliasBool he => exact absurd hu (hdc.bool _ _ he d hdb k hk)
    | aliasFloat => exact .keyword .float
    | aliasDouble => exact .keyword .double
  generalize ht : k.type = t at hT
  cases hT with
  | scalar hs => exact scalar hs hstd
  | bool => exact .stdint ⟨_, .u8⟩ (hstd ⟨_, .u8⟩)
  | chars => exact .keyword .char
  | named hN => exact named hN (by rw [ht]; exact .plain) hstd
  | enum he => exact generated _ _ he rfl (by rw [ht]; exact .plain) (.inr ⟨_, _, _, rfl⟩)
  | array hN => exact named hN (by rw [ht]; exact .arr .plain) hstd
  | arrayEnum he => exact generated _ _ he rfl (by rw [ht]; exact .arr .plain) (.inr ⟨_, _, _, rfl⟩)

/-- **C59, partial**, generate-cfs. Missing: definitions that are not regular or declarable, and the other
commands, see below. -/
theorem C59_generate_cfs_partial (p : Printer) (fuel : Nat) (raw : List Module) (cfg : List String) (out : Text)
    (b : Bundle) (fs : Files) (hin : Input raw cfg b) (hr : (runCfs fuel p raw cfg out).result = .ok ())
    (hreg : Regular b.defs) (hdc : Declarable b.defs) (m : Module) (hm : m ∈ b.modules) :
    ∃ h, SelfContained (.cfs p) ((runCfs fuel p raw cfg out).apply fs) out b.modules m h :=
  self_contained (cmd := .cfs p) fs hin hr hreg hdc hm fun _ _ _ _ _ _ _ _ => rfl

/-- **C59, partial**, all commands, for modules that import only simple types. Missing: generate-c and
generate-binary for modules that import structures, as their include lines do not name files of the run. -/
theorem C59_local_partial (cmd : Command) (fuel : Nat) (raw : List Module) (cfg : List String) (out : Text)
    (b : Bundle) (fs : Files) (hin : Input raw cfg b) (hr : (cmd.run fuel raw cfg out).result = .ok ())
    (hreg : Regular b.defs) (hdc : Declarable b.defs) (m : Module) (hm : m ∈ b.modules)
    (himp : ∀ i ∈ m.imports, ∀ n ∈ i.defs, ∀ d ∈ b.defs, d.name = n → d.isSimple = true) :
    ∃ h, SelfContained cmd ((cmd.run fuel raw cfg out).apply fs) out b.modules m h :=
  self_contained fs hin hr hreg hdc hm fun i hi n hn d hd he hs => by rw [himp i hi n hn d hd he] at hs; cases hs

/-- **C59**, include lines of generate-cfs: the lines before the blocks of a header are comments and one
include line per import, which names the header of the imported module, a file that the run has written. -/
theorem C59_include_lines (p : Printer) (fuel : Nat) (raw : List Module) (cfg : List String) (out : Text)
    (b : Bundle) (fs : Files) (hin : Input raw cfg b) (hr : (runCfs fuel p raw cfg out).result = .ok ())
    (m : Module) (hm : m ∈ b.modules) :
    ∃ h : HeaderParts, HasText ((runCfs fuel p raw cfg out).apply fs) ((Command.cfs p).path out m.name) h.text ∧
      HasBlocks (fun _ _ _ => True) (fun t => (dims t).take 1) m h ∧
      (∃ is, h.includes.filter (fun l => "#include".toList.isPrefixOf l) = is ∧
        All2 (fun (i : ImportItem) l => ∃ f, l = includeLine f ∧ ∃ m' ∈ b.modules, m'.name = i.module ∧
          ∃ h' : HeaderParts, HasText ((runCfs fuel p raw cfg out).apply fs) (inDir out f) h'.text ∧
            HasBlocks (fun _ _ _ => True) (fun t => (dims t).take 1) m' h') m.imports is) ∧
      ∀ l ∈ h.includes, "#include".toList.isPrefixOf l = true ∨ IsNote l := by
  have key : ∀ m ∈ b.modules, ∃ (h : HeaderParts), HasText ((runCfs fuel p raw cfg out).apply fs)
      ((Command.cfs p).path out m.name) h.text ∧ HasBlocks (fun _ _ _ => True) (fun t => (dims t).take 1) m h ∧
      ∃ pre post, h.includes = pre ++
          (m.imports.map fun i => "#include \"".toList ++ (Command.cfs p).included i.module ++ ['"']) ++ post ∧
        (∀ l ∈ pre, IsNote l) ∧ ∀ l ∈ post, IsNote l := by
    intro m hm
    obtain ⟨bm, hbm, rfl⟩ := List.mem_map.1 hm
    obtain ⟨h, sorted, tss, h1, _, h3, h4, h5, _, _, _, _, pre, post, h6, _, h7, h8⟩ :=
      header_file (cmd := .cfs p) hin.grammar hin.comments hin.accepted hr hbm fs
    exact ⟨h, h1, ⟨sorted, tss, h3, h4.imp (fun d ts hb => block_mono (fun _ _ _ _ _ => trivial) hb), h5⟩,
      pre, post, h6, h7, fun l hl => SafeNote.isNote (h8 l hl)⟩
  obtain ⟨h, h1, h2, pre, post, h3, h4, h5⟩ := key m hm
  have hnote : ∀ {l}, IsNote l → "#include".toList.isPrefixOf l = false := by
    rintro l ⟨t, rfl | rfl, _⟩ <;> rfl
  have hline : ∀ f : Text, "#include".toList.isPrefixOf ("#include \"".toList ++ f ++ ['"']) = true := by
    intro f
    rw [List.isPrefixOf_iff_prefix]
    exact ⟨" \"".toList ++ (f ++ ['"']), rfl⟩
  refine ⟨h, h1, h2, ⟨_, rfl, ?_⟩, ?_⟩
  · rw [h3, List.filter_append, List.filter_append, List.filter_eq_nil_iff.2, List.filter_eq_self.2,
      List.filter_eq_nil_iff.2, List.nil_append, List.append_nil]
    · refine all2_map_self fun i hi => ⟨_, rfl, ?_⟩
      obtain ⟨m', q1, q2, _⟩ := C13_imports raw cfg b hin.accepted m hm i hi
      obtain ⟨h', r1, r2, _⟩ := key m' q1
      refine ⟨m', q1, q2, h', ?_, r2⟩
      rw [← q2]
      exact r1
    · intro l hl; rw [hnote (h5 l hl)]; simp
    · intro l hl
      obtain ⟨i, _, rfl⟩ := List.mem_map.1 hl
      exact hline _
    · intro l hl; rw [hnote (h4 l hl)]; simp
  · intro l hl
    rw [h3] at hl
    rcases List.mem_append.1 hl with hl | hl
    · rcases List.mem_append.1 hl with hl | hl
      · exact .inr (h4 l hl)
      · obtain ⟨i, _, rfl⟩ := List.mem_map.1 hl
        exact .inl (hline _)
    · exact .inr (h5 l hl)

/-! ### What goes wrong -/

/-- `s` occurs in `t`. -/
def occurs (s : Text) : Text → Bool
  | [] => s.isPrefixOf []
  | c :: t => s.isPrefixOf (c :: t) || occurs s t

theorem occurs_of_infix {s t : Text} (h : s <:+: t) : occurs s t = true := by
  obtain ⟨a, b, rfl⟩ := h
  induction a with
  | nil =>
    have : s.isPrefixOf (s ++ b) = true := by rw [List.isPrefixOf_iff_prefix]; exact ⟨b, rfl⟩
    cases hs : s ++ b with
    | nil => rw [List.nil_append, hs]; rw [hs] at this; exact this
    | cons c t => rw [List.nil_append, hs]; rw [hs] at this; simp only [occurs, this, Bool.true_or]
  | cons x a ih => simp only [List.cons_append, occurs, ih, Bool.or_true]

theorem infix_includes {h : HeaderParts} {t : Text} (ht : t ∈ h.includes) : t <:+: h.text := by
  have h1 : t <:+: h.includes.flatMap (· ++ ['\n']) :=
    List.IsInfix.trans ⟨[], _, rfl⟩ (infix_flatMap (f := (· ++ ['\n'])) ht)
  refine h1.trans ?_
  unfold HeaderParts.text
  simp only [List.append_assoc]
  generalize "#ifndef ".toList = a1
  generalize "\n#define ".toList = a2
  generalize "\n\n/*\nThis file was autogenerated from ASN.1 model.".toList = a3
  refine List.IsInfix.trans ?_ (List.suffix_append _ _).isInfix
  refine List.IsInfix.trans ?_ (List.suffix_append _ _).isInfix
  refine List.IsInfix.trans ?_ (List.suffix_append _ _).isInfix
  refine List.IsInfix.trans ?_ (List.suffix_append _ _).isInfix
  refine List.IsInfix.trans ?_ (List.suffix_append _ _).isInfix
  refine List.IsInfix.trans ?_ (List.suffix_append _ _).isInfix
  refine List.IsInfix.trans ?_ (List.suffix_append _ _).isInfix
  refine List.IsInfix.trans ?_ (List.suffix_append _ _).isInfix
  refine List.IsInfix.trans ?_ (List.suffix_append _ _).isInfix
  exact (List.prefix_append _ _).isInfix

/-- What can be seen in the text of a self-contained header. -/
theorem selfContained_text {cmd : Command} {fs : Files} {out : Text} {ms : List Module} {m : Module} {h : HeaderParts}
    (hs : SelfContained cmd fs out ms m h) {n : String} {c : Option Comment} {ks : List Member}
    (hd : Def.seq n c ks ∈ m.defs) (hg : ∀ k ∈ ks, isNameLower k.key = true) {k : Member} (hk : k ∈ ks) :
    ∃ ct sfx br, "  ".toList ++ ct ++ ' ' :: ident k.key ++ sfx ++ br ++ [';'] ∈ linesOf (fileText fs (cmd.path out m.name)) ∧
      (Keyword ct ∨ StdIntType ct ∨ ct = "bool".toList ∨
        occurs ("} __attribute__((packed)) ".toList ++ ct ++ [';']) (fileText fs (cmd.path out m.name)) = true ∨
        ∃ m' ∈ ms, occurs (includeLine (cmd.header m'.name)) (fileText fs (cmd.path out m.name)) = true) := by
  obtain ⟨h1, sorted, tss, h2, h3, h4, h5⟩ := hs
  rw [fileText_eq h1]
  have hb : HasBlocks (fun _ ct _ => KnownType cmd fs out ms h h.blocks ct) (fun t => (dims t).take 1) m h := by
    refine ⟨sorted, tss, h2, ?_, h3⟩
    have : ∀ (l : List Def) (r : List (List Text)), r.length = l.length → (∀ (i : Nat) d ts, l[i]? = some d → r[i]? = some ts →
        Block (fun _ ct _ => KnownType cmd fs out ms h h.blocks ct) (fun t => (dims t).take 1) d ts) →
        All2 (Block (fun _ ct _ => KnownType cmd fs out ms h h.blocks ct) fun t => (dims t).take 1) l r := by
      intro l
      induction l with
      | nil => intro r hr _; cases r with | nil => exact .nil | cons => cases hr
      | cons d l ih =>
        intro r hr hi
        cases r with
        | nil => cases hr
        | cons ts r =>
          exact .cons (hi 0 d ts rfl rfl) (ih r (by simpa using hr) fun i d' ts' q1 q2 => hi (i + 1) d' ts' q1 q2)
    refine this _ _ h4 fun i d ts q1 q2 => block_mono ?_ (h5 i d ts q1 q2)
    intro k _ ct _ hkn
    cases hkn with
    | keyword q => exact .keyword q
    | stdint q q' => exact .stdint q q'
    | stdbool q q' => exact .stdbool q q'
    | block q q' =>
      refine .block ?_ q'
      rw [h3]
      obtain ⟨l, hl, hbl⟩ := List.mem_flatten.1 q
      exact List.mem_flatten.2 ⟨l, List.mem_of_mem_take hl, hbl⟩
    | header q q' => exact .header q q'
  obtain ⟨ct, sfx, br, hT, _, hl⟩ := field_line hb hd hg hk
  refine ⟨ct, sfx, br, hl, ?_⟩
  cases hT with
  | keyword q => exact .inl q
  | stdint q => exact .inr (.inl q)
  | stdbool q => exact .inr (.inr (.inl q))
  | block q q' =>
    refine .inr (.inr (.inr (.inl (occurs_of_infix (List.IsInfix.trans ?_ (infix_parts q))))))
    obtain ⟨cmt, body, rfl⟩ := q'
    exact ⟨cmt ++ "typedef ".toList ++ body, [], by simp only [List.append_assoc, List.append_nil]⟩
  | header q q' =>
    obtain ⟨m', hm', hp, _⟩ := q'
    rw [Command.path] at hp
    rw [inDir_inj hp] at q
    exact .inr (.inr (.inr (.inr ⟨m', hm', occurs_of_infix (infix_includes q)⟩)))

/-- A structure used by another module. -/
def exPartModule : Module :=
  { name := "b", defs := [.seq "Part" none [⟨"y", .plain "BOOLEAN" none none, none, none⟩]] }

def exWholeModule : Module :=
  { name := "a", imports := [⟨["Part"], "b"⟩]
    defs := [.seq "Whole" none [⟨"x", .plain "Part" none none, none, none⟩]] }

def exWhole : List Module := [exWholeModule, exPartModule]

/-- A test on a line of a header: no reading of it as a field `k` has a type for which `known` holds. -/
def noKnown (known : Text → Bool) (k l : Text) : Bool :=
  (List.range (l.length + 1)).all fun i =>
    !((' ' :: k).isPrefixOf ((l.drop 2).drop i) && known ((l.drop 2).take i))

/-- What can be seen of a known type in a text. -/
def seen (incs : List Text) (t ct : Text) : Bool :=
  ["char".toList, "int".toList, "float".toList, "double".toList, "bool".toList].contains ct ||
  "int".toList.isPrefixOf ct || "uint".toList.isPrefixOf ct ||
  occurs ("} __attribute__((packed)) ".toList ++ ct ++ [';']) t || incs.any fun f => occurs (includeLine f) t

theorem not_selfContained {cmd : Command} {fs : Files} {out : Text} {ms : List Module} {m : Module} {h : HeaderParts}
    {n : String} {c : Option Comment} {ks : List Member}
    (hd : Def.seq n c ks ∈ m.defs) (hg : ∀ k ∈ ks, isNameLower k.key = true) {k : Member} (hk : k ∈ ks)
    (ht : (linesOf (fileText fs (cmd.path out m.name))).all (noKnown (seen (ms.map fun m' => cmd.header m'.name)
      (fileText fs (cmd.path out m.name))) (ident k.key)) = true) : ¬ SelfContained cmd fs out ms m h := by
  intro hs
  obtain ⟨ct, sfx, br, hl, hct⟩ := selfContained_text hs hd hg hk
  generalize fileText fs (cmd.path out m.name) = t at *
  have h1 := List.all_eq_true.1 ht _ hl
  have e : "  ".toList = [' ', ' '] := rfl
  have e1 : ("  ".toList ++ ct ++ ' ' :: ident k.key ++ sfx ++ br ++ [';']).drop 2 =
      ct ++ (' ' :: ident k.key ++ (sfx ++ (br ++ [';']))) := by
    rw [e]
    simp only [List.append_assoc, List.cons_append, List.nil_append, List.drop_succ_cons, List.drop_zero]
  have h2 := List.all_eq_true.1 h1 ct.length (by rw [List.mem_range, e]; simp; omega)
  rw [e1, List.drop_left, List.take_left] at h2
  have h3 : (' ' :: ident k.key).isPrefixOf (' ' :: ident k.key ++ (sfx ++ (br ++ [';']))) = true := by
    rw [List.isPrefixOf_iff_prefix]; exact ⟨_, rfl⟩
  rw [h3, Bool.true_and] at h2
  have h4 : seen (ms.map fun m' => cmd.header m'.name) t ct = true := by
    rcases hct with q | q | rfl | q | ⟨m', hm', q⟩
    · cases q <;> rfl
    · obtain ⟨_, q⟩ := q
      have : ("int".toList.isPrefixOf ct || "uint".toList.isPrefixOf ct) = true := by cases q <;> rfl
      simp only [seen, Bool.or_assoc] at this ⊢
      rw [← Bool.or_assoc ("int".toList.isPrefixOf ct), this, Bool.true_or, Bool.or_true]
    · rfl
    · simp only [seen, q, Bool.or_true, Bool.true_or]
    · have : (ms.map fun m' => cmd.header m'.name).any (fun f => occurs (includeLine f) t) = true :=
        List.any_eq_true.2 ⟨_, List.mem_map.2 ⟨m', hm', rfl⟩, q⟩
      simp only [seen, this, Bool.or_true]
  rw [h4] at h2
  cases h2

/-- generate-c: the header of `a` has the line `#include "b"`, but the file is called `b.h`. -/
theorem C59_full_false : ¬ C59_full := by
  intro hf
  obtain ⟨h, hs⟩ := hf (.c exPrinter) 20 exWhole ["a", "b"] exOut _ (fun _ => none)
    (input_of (by decide +kernel) (by decide +kernel) (by decide +kernel)) (by decide +kernel)
    exWholeModule (by decide +kernel)
  exact not_selfContained (n := "Whole") (c := none) (ks := [⟨"x", .plain "Part" none none, none, none⟩])
    (by decide +kernel) (by decide +kernel) (List.Mem.head _) (by decide +kernel) hs

/-- Full statement of C59 for generate-cfs only. -/
def C59_cfs_full : Prop :=
  ∀ (p : Printer) fuel raw cfg out b fs, Input raw cfg b → (runCfs fuel p raw cfg out).result = .ok () →
    ∀ m ∈ b.modules, ∃ h, SelfContained (.cfs p) ((runCfs fuel p raw cfg out).apply fs) out b.modules m h

def exUnionModule : Module :=
  { name := "m"
    defs := [.choice "Either" none [⟨"y", .plain "BOOLEAN" none none, none, none⟩],
      .seq "Rec" none [⟨"x", .plain "Either" none none, none, none⟩]] }

/-- The header has the union `Either` with an object of that type, and a field of the type name `Either`. -/
theorem C59_cfs_full_false : ¬ C59_cfs_full := by
  intro hf
  obtain ⟨h, hs⟩ := hf exPrinter 20 [exUnionModule] ["m"] exOut _ (fun _ => none)
    (input_of (by decide +kernel) (by decide +kernel) (by decide +kernel)) (by decide +kernel)
    exUnionModule (by decide +kernel)
  exact not_selfContained (n := "Rec") (c := none) (ks := [⟨"x", .plain "Either" none none, none, none⟩])
    (by decide +kernel) (by decide +kernel) (List.Mem.head _) (by decide +kernel) hs

/-! ### Examples -/

theorem declarable_of {ds : List Def} (h : ds.all (fun d => match d with
    | .choice n _ _ | .simple n _ (.plain "BOOLEAN" none none) => ds.all fun d => d.members.all fun k => match k.type with
      | .plain m _ _ | .str m _ | .arr (.plain m _ _) _ => m != n
      | _ => false
    | _ => true) = true) : Declarable ds := by
  have key : ∀ n d, d ∈ ds → ∀ k ∈ d.members, (ds.all fun d => d.members.all fun k => match k.type with
      | .plain m _ _ | .str m _ | .arr (.plain m _ _) _ => m != n
      | _ => false) = true → ¬ UsesName k.type n := by
    intro n d hd k hk h hu
    have := List.all_eq_true.1 (List.all_eq_true.1 h d hd) k hk
    generalize k.type = t at hu this
    cases hu with
    | plain => simp at this
    | str => simp at this
    | arr hu => cases hu <;> simp at this
  refine ⟨fun n c ms hc d hd k hk => key n d hd k hk (List.all_eq_true.1 h _ hc), fun n c hc d hd k hk => ?_⟩
  exact key n d hd k hk (List.all_eq_true.1 h _ hc)

/-- The hypotheses of the theorem for generate-cfs are met by `exWhole`, whose header of `a` includes
the header of `b`. -/
example : ∃ h, SelfContained (.cfs exPrinter) ((runCfs 20 exPrinter exWhole ["a", "b"] exOut).apply fun _ => none) exOut
    (okBundle (buildFromConfig exWhole ["a", "b"])).modules exWholeModule h :=
  C59_generate_cfs_partial exPrinter 20 exWhole ["a", "b"] exOut _ (fun _ => none)
    (input_of (by decide +kernel) (by decide +kernel) (by decide +kernel)) (by decide +kernel)
    (regular_of (by decide +kernel) (by decide +kernel) (by decide +kernel))
    (declarable_of (by decide +kernel)) exWholeModule (by decide +kernel)

example : occurs "#include \"b_msg.h\"\n".toList (fileText ((runCfs 20 exPrinter exWhole ["a", "b"] exOut).apply fun _ => none)
    "gen/a_msg.h".toList) = true := by decide +kernel

/-- The hypotheses of the theorem on one module are met by `exStruct`. -/
example : ∃ h, SelfContained (.c exPrinter) (((Command.c exPrinter).run 20 exStruct ["m"] exOut).apply fun _ => none) exOut
    (okBundle (buildFromConfig exStruct ["m"])).modules (exStruct.head (by decide)) h :=
  C59_local_partial _ _ _ _ _ _ _ exStruct_input exStruct_run
    (regular_of (by decide +kernel) (by decide +kernel) (by decide +kernel))
    (declarable_of (by decide +kernel)) (exStruct.head (by decide)) (by decide +kernel) (by decide +kernel)

end Apg
