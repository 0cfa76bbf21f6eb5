import Verif.Props.SelfContained
import Verif.Lemmas.CHeader

/-!
# C60: what a C compiler reads in a header
-/

namespace Apg
open Spec

theorem sees_hash {l : Text} (h : Plain1 l) (hd : isDirective l = true) : Sees (l ++ ['\n']) [l] [] :=
  sees_directive (h.reads.append (reads_char (by decide) (by decide))) h.newline hd

theorem sees_empty : Sees ['\n'] [] [] := by
  have := sees_lit (l := []) (by decide) (by decide)
  rwa [tokens_nil] at this

theorem sees_flatMap {ls : List Text} {ds : Text → List Text} (h : ∀ l ∈ ls, Sees (l ++ ['\n']) (ds l) []) :
    Sees (ls.flatMap (· ++ ['\n'])) (ls.flatMap ds) [] := by
  induction ls with
  | nil => exact .nil
  | cons l ls ih =>
    have := (h l (by simp)).before (ih fun l hl => h l (by simp [hl]))
    exact this

theorem sees_safeNote {l : Text} (h : SafeNote l) : Sees (l ++ ['\n']) [] [] := by
  obtain ⟨t, hl, h1, h2⟩ := h
  have hs := sees_noted (l := []) (plain1_lit (by decide)) (by decide) h1 h2
  rw [tokens_nil, List.nil_append] at hs
  rcases hl with rfl | rfl
  · exact hs
  · exact sees_empty.append hs

theorem readPieces_directives (dl : List Text) (n : Nat) (r : List (Text ⊕ Text)) :
    readPieces (dl.length + n) (dl.map .inl ++ r) = (readPieces n r).map (dl.map .directive ++ ·) := by
  induction dl with
  | nil => simp
  | cons d dl ih =>
    rw [List.length_cons, Nat.add_right_comm, List.map_cons, List.cons_append, readPieces, ih, Option.map_map]
    rfl

theorem readPieces_code {ts : List Text} (hts : ts ≠ []) (n : Nat) (e : Text) (r : List (Text ⊕ Text)) :
    readPieces (n + 1) (ts.map .inr ++ .inl e :: r) = (readDecls ts.length ts).bind fun ds =>
      (readPieces n (.inl e :: r)).map (ds.map .decl ++ ·) := by
  have h1 : ∀ ts : List Text, (ts.map Sum.inr ++ Sum.inl e :: r).takeWhile Sum.isRight = ts.map .inr := by
    intro ts
    induction ts with
    | nil => simp
    | cons t ts ih => exact congrArg (Sum.inr t :: ·) ih
  have h2 : ∀ ts : List Text, (ts.map Sum.inr ++ Sum.inl e :: r).dropWhile Sum.isRight = .inl e :: r := by
    intro ts
    induction ts with
    | nil => simp
    | cons t ts ih => exact ih
  have h3 : ∀ ts : List Text, (ts.map (Sum.inr (α := Text))).filterMap Sum.getRight? = ts := by
    intro ts
    induction ts with
    | nil => rfl
    | cons t ts ih => exact congrArg (t :: ·) ih
  obtain ⟨t, ts', rfl⟩ := List.exists_cons_of_ne_nil hts
  have e0 : readPieces (n + 1) ((t :: ts').map .inr ++ .inl e :: r) = (do
    let code := (((t :: ts').map Sum.inr ++ Sum.inl e :: r).takeWhile Sum.isRight).filterMap Sum.getRight?
    let ds ← readDecls code.length code
    let ps ← readPieces n (((t :: ts').map Sum.inr ++ Sum.inl e :: r).dropWhile Sum.isRight)
    pure (ds.map CPiece.decl ++ ps)) := by
    rfl
  rw [e0, h1, h2, h3]
  simp only [Option.bind_eq_bind, Option.pure_def]
  cases readDecls (t :: ts').length (t :: ts') with
  | none => rfl
  | some ds =>
    simp only [Option.bind_some]
    cases readPieces n (.inl e :: r) <;> rfl

theorem readFile_of {t : Text} {dl : List Text} {tks : List (List Text)} {ds : List CDecl} {e : Text}
    (h1 : cItems t = dl.map .inl ++ tks.flatten.map .inr ++ [.inl e]) (h3 : All2 Declaration tks ds) :
    readFile t = some (dl.map .directive ++ ds.map .decl ++ [.directive e]) := by
  have hlen : tks.length ≤ tks.flatten.length := by
    clear h1
    induction h3 with
    | nil => simp
    | cons h _ ih =>
      have := List.length_pos_iff.2 h.1
      simp only [List.length_cons, List.flatten_cons, List.length_append]
      omega
  have hr := readDecls_all h3 hlen
  unfold readFile
  rw [h1]
  have hl : (dl.map Sum.inl ++ tks.flatten.map Sum.inr ++ [Sum.inl e]).length = dl.length + (tks.flatten.length + 1) := by
    rw [List.length_append, List.length_append, List.length_map, List.length_map, Nat.add_assoc]
    rfl
  rw [hl, List.append_assoc, readPieces_directives, List.append_assoc]
  by_cases h0 : tks.flatten = []
  · rw [h0] at hr ⊢
    have : ds = [] := by
      simp only [List.length_nil, readDecls, Option.some.injEq] at hr
      exact hr.symm
    subst this
    rfl
  · rw [readPieces_code h0, hr, Option.bind_some]
    obtain ⟨k, hk⟩ : ∃ k, tks.flatten.length = k + 1 := ⟨tks.flatten.length - 1, by
      have := List.length_pos_iff.2 h0
      omega⟩
    rw [hk]
    cases k <;> rfl

theorem readHeader_of {t : Text} {dl : List Text} {ds : List CDecl} {e : Text}
    (h : readFile t = some (dl.map .directive ++ ds.map .decl ++ [.directive e])) :
    readHeader t = some (dl ++ [e], ds) := by
  have h1 : ∀ dl : List Text, directivesOf (dl.map .directive) = dl ∧ declsOf (dl.map .directive) = [] := by
    intro dl
    induction dl with
    | nil => exact ⟨rfl, rfl⟩
    | cons d dl ih => exact ⟨congrArg (d :: ·) ih.1, ih.2⟩
  have h2 : ∀ ds : List CDecl, directivesOf (ds.map .decl) = [] ∧ declsOf (ds.map .decl) = ds := by
    intro ds
    induction ds with
    | nil => exact ⟨rfl, rfl⟩
    | cons d ds ih => exact ⟨ih.1, congrArg (d :: ·) ih.2⟩
  unfold readHeader
  rw [h, Option.map_some]
  unfold directivesOf declsOf at *
  simp only [List.filterMap_append, (h1 _).1, (h1 _).2, (h2 _).1, (h2 _).2]
  simp

theorem header_pieces {h : HeaderParts} (h4 : h.stdbool = false) :
    h.text = ("#ifndef ".toList ++ h.symbol ++ ['\n']) ++ ("#define ".toList ++ h.symbol ++ ['\n']) ++ ['\n'] ++
      ("/*\nThis file was autogenerated from ASN.1 model.".toList ++
        (if h.doc = [] then [] else "\n\n".toList ++ h.doc) ++ "\n*/\n".toList) ++ ['\n'] ++
      (if h.stdint then "#include <stdint.h>\n".toList else []) ++ h.includes.flatMap (· ++ ['\n']) ++ ['\n'] ++
      h.blocks.flatMap (· ++ "\n\n".toList) ++ ((if h.decls = [] then [] else h.decls.flatMap (· ++ ['\n']) ++ ['\n']) ++
      ("#endif // ".toList ++ h.symbol ++ ['\n'])) := by
  unfold HeaderParts.text
  have e1 : "\n#define ".toList = ['\n'] ++ "#define ".toList := by decide
  have e2 : "\n\n/*\nThis file was autogenerated from ASN.1 model.".toList =
        ['\n'] ++ ['\n'] ++ "/*\nThis file was autogenerated from ASN.1 model.".toList := by decide
  have e3 : "\n*/\n\n".toList = "\n*/\n".toList ++ ['\n'] := by decide
  rw [e1, e2, e3, h4]
  generalize "#ifndef ".toList = q1
  generalize "#define ".toList = q2
  generalize "/*\nThis file was autogenerated from ASN.1 model.".toList = q3
  generalize "\n*/\n".toList = q4
  generalize "#endif // ".toList = q5
  simp only [List.append_assoc, Bool.false_eq_true, if_false, List.nil_append]

/-- The items of the pieces of a header. -/
theorem items_pieces {x1 x2 x3 x4 x5 x6 x7 x8 d1 d2 e : Text} {d4 d5 ts ts' : List Text} (s1 : Sees x1 [d1] [])
    (s2 : Sees x2 [d2] []) (s3 : Sees x3 [] []) (s4 : Sees x4 d4 []) (s5 : Sees x5 d5 []) (s6 : Sees x6 [] ts)
    (s7 : Sees x7 [] ts') (s8 : Sees x8 [e] []) :
    cItems (x1 ++ x2 ++ ['\n'] ++ x3 ++ ['\n'] ++ x4 ++ x5 ++ ['\n'] ++ x6 ++ (x7 ++ x8)) =
      ([d1, d2] ++ d4 ++ d5).map .inl ++ (ts ++ ts').map .inr ++ [.inl e] := by
  have all := (((((((s1.before s2).append sees_empty).append s3).append sees_empty).before s4).before s5).append
    sees_empty).append (s6.append s7)
  have hall := all x8
  have hend := s8 []
  rw [List.append_nil, sees_end] at hend
  rw [hend] at hall
  simp only [List.append_assoc] at hall ⊢
  rw [hall]
  simp

/-- The parts of a header. -/
theorem header_says {T : Bool → TypeMap} {cmd : Command} {m : Module} {h : HeaderParts} {sorted : List Def}
    {tss : List (List Text)} (hT : GoodMap (T h.stdint)) (hg : ∀ d ∈ m.defs, GrammarDef d)
    (hgc : GrammarComments m) (hi : ∀ i ∈ m.imports, isNameLower i.module = true) (ht : Tame m)
    (h1 : sorted.Perm m.defs) (h2 : All2 (Block (T h.stdint) fun t => (dims t).take 1) sorted tss)
    (h3 : h.blocks = tss.flatten) (h4 : h.stdbool = false) 
    (h5' : (∀ c ∈ h.symbol, wordChar c = true) ∧ h.symbol = cmd.guard m.name)
    (h6 : h.doc = headerDoc m) (h7 : h.decls = cmd.objects sorted)
    (h8 : ∃ pre post, h.includes = pre ++
        (m.imports.map fun i => "#include \"".toList ++ cmd.included i.module ++ ['"']) ++ post ∧
      pre = importNote m.commentImport ∧ (∀ l ∈ pre, IsNote l) ∧ ∀ l ∈ post, SafeNote l) :
    ∃ decls, HeaderReads cmd T m sorted h.stdint decls h.text := by
  obtain ⟨h5, hsym⟩ := h5'
  have hsm : ∀ d ∈ sorted, d ∈ m.defs := fun d hd => h1.mem_iff.1 hd
  obtain ⟨tks, decls, b1, b2, b3⟩ := blocks_see hT h2 (fun d hd => hg d (hsm d hd))
    (fun d hd => hgc.2 d (hsm d hd)) fun d hd => ht.defs d (hsm d hd)
  refine ⟨decls, b3, ?_⟩
  rw [← hsym]
  -- the guard
  have hps := plain1_word h5
  have s1 := sees_hash (l := "#ifndef ".toList ++ h.symbol) ((plain1_lit (by decide)).append hps)
    (isDirective_cons (by decide) _)
  have s2 := sees_hash (l := "#define ".toList ++ h.symbol) ((plain1_lit (by decide)).append hps)
    (isDirective_cons (by decide) _)
  have s3 : Sees ("/*\nThis file was autogenerated from ASN.1 model.".toList ++
      (if h.doc = [] then [] else "\n\n".toList ++ h.doc) ++ "\n*/\n".toList) [] [] := by
    refine sees_code (l := [' ']) (reads_doc ?_ ?_) (by decide) (by decide)
    · rw [h6]
      unfold headerDoc
      split
      · simp
      · rename_i c hc
        exact comment_newline (hgc.1 c (by simp [hc]))
    · rw [h6]
      unfold headerDoc
      split
      · decide
      · rename_i c hc
        exact ht.doc c hc
  have s4 : Sees (if h.stdint then "#include <stdint.h>\n".toList else [])
      (if h.stdint then ["#include <stdint.h>".toList] else []) [] := by
    split
    · exact sees_hash (l := "#include <stdint.h>".toList) (plain1_lit (by decide)) (by decide)
    · exact .nil
  have s5 : Sees (h.includes.flatMap (· ++ ['\n'])) (includeLines cmd m) [] := by
    obtain ⟨pre, post, k1, k2, _, k4⟩ := h8
    rw [k1, List.flatMap_append, List.flatMap_append]
    have p1 : Sees (pre.flatMap (· ++ ['\n'])) [] [] := by
      rw [k2]
      unfold importNote
      split
      · exact .nil
      · rename_i c hc
        have hcn := comment_newline (hgc.1 c (by simp [hc]))
        have := sees_safeNote (l := "//".toList ++ trimRight (' ' :: c.text.toList)) ⟨_, .inl rfl, ?_,
          import_last (ht.imports c hc)⟩
        · simpa using this
        · intro hm
          have : '\n' ∈ ' ' :: c.text.toList := by
            have := List.dropWhile_subset _ (List.mem_reverse.1 hm)
            exact List.mem_reverse.1 this
          simp at this
          exact hcn this
    have p2 : Sees ((m.imports.map fun i => "#include \"".toList ++ cmd.included i.module ++ ['"']).flatMap (· ++ ['\n']))
        (includeLines cmd m) [] := by
      have := sees_flatMap (ls := includeLines cmd m) (ds := fun l => [l]) ?_
      · rw [List.flatMap_singleton'] at this
        exact this
      · intro l hl
        obtain ⟨i, hi', rfl⟩ := List.mem_map.1 hl
        refine sees_hash (((plain1_lit (by decide)).append ?_).append (plain1_lit (by decide))) ?_
        · have := plain1_word (ident_wordChar (Or.inl (hi i hi')))
          cases cmd with
          | cfs p => exact this.append (plain1_lit (by decide))
          | c p => exact this
          | binary e => exact this
        · exact isDirective_cons (by decide) _
    have p3 : Sees (post.flatMap (· ++ ['\n'])) [] [] := by
      have := sees_flatMap (ls := post) (ds := fun _ => []) fun l hl => sees_safeNote (k4 l hl)
      have e : post.flatMap (fun _ => ([] : List Text)) = [] := by simp
      rwa [e] at this
    simpa using (p1.before p2).append p3
  -- the variables
  obtain ⟨oks, o1, o2⟩ : ∃ oks : List (List Text),
      Sees (if h.decls = [] then [] else h.decls.flatMap (· ++ ['\n']) ++ ['\n']) [] oks.flatten ∧
      All2 Declaration oks (objectsOf cmd sorted) := by
    cases cmd with
    | cfs p => exact ⟨[], by rw [if_pos (show h.decls = [] from h7)]; exact .nil, .nil⟩
    | binary e => exact ⟨[], by rw [if_pos (show h.decls = [] from h7)]; exact .nil, .nil⟩
    | c p =>
      have hx : ∀ x ∈ sorted.flatMap clausesOf, isName (ident x.1) = true ∧ isName (lowerFirst (ident x.1)) = true := by
        intro x hx
        obtain ⟨d, hd, hx⟩ := List.mem_flatMap.1 hx
        cases d with
        | seq n c ms =>
          simp only [clausesOf, List.mem_filterMap, Option.map_eq_some_iff] at hx
          obtain ⟨k, hk, cs, hcs, rfl⟩ := hx
          have hcap := (hg _ (hsm _ hd)).1
          exact ⟨name_capital hcap, name_lowered hcap ((ht.defs _ (hsm _ hd)).2.2 ⟨k, hk, by simp [hcs]⟩)⟩
        | _ => cases hx
      simp only [Command.objects] at h7
      simp only [objectsOf]
      have main : ∀ xs : List (String × String × Comps),
          (∀ x ∈ xs, isName (ident x.1) = true ∧ isName (lowerFirst (ident x.1)) = true) → ∃ oks : List (List Text), Sees ((xs.map fun x => ident x.1 ++ ' ' :: lowerFirst (ident x.1) ++ [';']).flatMap
          (· ++ ['\n'])) [] oks.flatten ∧
          All2 Declaration oks (xs.map fun x => .object (ident x.1) (lowerFirst (ident x.1))) := by
        intro xs hx
        induction xs with
        | nil => exact ⟨[], .nil, .nil⟩
        | cons x xs ih =>
          obtain ⟨oks, i1, i2⟩ := ih fun y hy => hx y (by simp [hy])
          obtain ⟨n1, n2⟩ := hx x (by simp)
          have w1 := isName_word n1
          have w2 := isName_word n2
          have s := sees_plain (l := ident x.1 ++ ' ' :: lowerFirst (ident x.1) ++ [';'])
            (((plain1_word w1.2).append (.cons (by decide) (plain1_word w2.2))).append (plain1_lit (by decide)))
            (by rw [List.append_assoc]; exact isDirective_word w1.1 w1.2 _)
          have e : tokens (ident x.1 ++ ' ' :: lowerFirst (ident x.1) ++ [';']) =
              [ident x.1, lowerFirst (ident x.1), [';']] := by
            rw [List.append_assoc, List.cons_append, tokens_blank, tokens_symbol _ (by decide),
              tokens_word w1.1 w1.2, tokens_word w2.1 w2.2, tokens_nil]
            rfl
          rw [e] at s
          refine ⟨[ident x.1, lowerFirst (ident x.1), [';']] :: oks, ?_, .cons (declaration_object n1 n2) i2⟩
          exact s.append i1
      obtain ⟨oks, m1, m2⟩ := main _ hx
      refine ⟨oks, ?_, m2⟩
      rw [← h7] at m1
      split
      · rename_i h0
        rw [h0] at m1
        exact m1
      · have := m1.append sees_empty
        simpa using this
  -- the end
  have s9 : Sees ("#endif // ".toList ++ h.symbol ++ ['\n']) ["#endif ".toList] [] := by
    have e : "#endif // ".toList ++ h.symbol ++ ['\n'] = "#endif ".toList ++ ("//".toList ++ (' ' :: h.symbol) ++ ['\n']) := by
      simp
    rw [e]
    refine sees_directive (l := "#endif ".toList) ((reads_lit (by decide)).append (reads_note ?_ ?_)) (by decide) (by decide)
    · have := hps.newline
      simpa using this
    · cases hl : h.symbol.getLast? with
      | none =>
        rw [List.getLast?_eq_none_iff.1 hl]
        decide
      | some c =>
        have hc := wordChar_ne (h5 c (List.mem_of_getLast? hl)) (show wordChar '\\' = false by decide)
        rw [List.getLast?_cons, hl]
        simpa using hc
  rw [← h3] at b1
  have htext := header_pieces h4
  have hitems := items_pieces s1 s2 s3 s4 s5 b1 o1 s9
  rw [← htext, ← List.flatten_append] at hitems
  exact readFile_of (tks := tks ++ oks) hitems (b2.append o2)

/-- Types of fields as expected, with stdint.h where it is needed. -/
def Typed (ds : List Def) (std : Bool) : TypeMap := fun t ct sfx =>
  FieldType ds t ct sfx ∧ (StdIntType ct → std = true)

theorem goodMap_typed {ds : List Def} (hd : ∀ d ∈ ds, isNameCapital d.name = true) (std : Bool) :
    GoodMap (Typed ds std) := by
  rintro t ct sfx hg ⟨h, _⟩
  have word : ∀ {n}, isNameCapital n = true → isType [ident n] = true := fun hn => by
    simp only [isType, name_capital hn, Bool.true_or]
  have scalar : ∀ {t ct sfx}, ScalarC t ct sfx → isType [ct] = true ∧ dims t = [] := by
    intro t ct sfx h
    cases h with
    | uint _ _ h =>
      obtain ⟨n, hn, _⟩ := h
      refine ⟨?_, rfl⟩
      cases hn <;> decide +kernel
    | sint => exact ⟨by decide +kernel, rfl⟩
    | single => exact ⟨by decide +kernel, rfl⟩
    | double => exact ⟨by decide +kernel, rfl⟩
  have named : ∀ {n ct sfx}, NamedC ds n ct sfx → isType [ct] = true := by
    intro n ct sfx h
    cases h with
    | posix _ hp => cases hp <;> decide +kernel
    | struct hm => exact word (hd _ hm)
    | union hm => exact word (hd _ hm)
    | alias _ _ hs => exact (scalar hs).1
    | aliasBool => decide +kernel
    | aliasFloat => decide +kernel
    | aliasDouble => decide +kernel
  cases h with
  | scalar hs => exact ⟨(scalar hs).1, .inr (scalar hs).2⟩
  | bool => exact ⟨by decide +kernel, .inr rfl⟩
  | chars => exact ⟨by decide +kernel, .inl rfl⟩
  | named hn => exact ⟨named hn, .inr rfl⟩
  | enum he => exact ⟨word (hd _ he), .inr rfl⟩
  | array hn => exact ⟨named hn, .inl rfl⟩
  | arrayEnum he => exact ⟨word (hd _ he), .inl rfl⟩

/-- Full statement of C60: every header says what its module says. -/
def C60_full : Prop :=
  ∀ (cmd : Command) fuel raw cfg out b fs, Input raw cfg b → (cmd.run fuel raw cfg out).result = .ok () →
    Regular b.defs → ∀ m ∈ b.modules, ∃ text,
      HasText ((cmd.run fuel raw cfg out).apply fs) (cmd.path out m.name) text ∧
      HeaderSays cmd (Typed b.defs) m text

/-- **C60, partial.** A C compiler reads in the header of a module an include guard, the includes of the imports
and exactly the declarations of the module, with the names, types, widths, dimensions and values of its
definitions; no comment hides or adds one. Missing: comments that end in a backslash or contain the end of a C
comment, comments in a CHOICE, names that are reserved in C, and definitions that are not regular. -/
theorem C60_reads_partial (cmd : Command) (fuel : Nat) (raw : List Module) (cfg : List String) (out : Text)
    (b : Bundle) (fs : Files) (hin : Input raw cfg b) (hr : (cmd.run fuel raw cfg out).result = .ok ())
    (hreg : Regular b.defs) (m : Module) (hm : m ∈ b.modules) (ht : Tame m) :
    ∃ text, HasText ((cmd.run fuel raw cfg out).apply fs) (cmd.path out m.name) text ∧
      HeaderSays cmd (Typed b.defs) m text := by
  have hbt := buildFromTexts_of_config hin.accepted
  have hgr := accepted_grammar hin.grammar hbt
  obtain ⟨h, sorted, tss, h1, _, h3, h4, h5, h6, h7, h8, h9, h10⟩ := header_typed fs hin hr hreg hm
  refine ⟨h.text, h1, sorted, h.stdint, (header_says (goodMap_typed ?_ _) (fun d hd => (hgr d (mem_defs_of_module hm hd)).1)
    (accepted_comments hin.comments hbt m hm) ?_ ht h3 h4 h5 h6 h7 h8 h9 h10).imp
    fun _ hx => ⟨h3, hx⟩⟩
  · intro d hd
    have := (hgr d hd).1
    cases d <;> exact this.1
  · intro i hi
    obtain ⟨m', q1, q2, _⟩ := C13_imports raw cfg b hin.accepted m hm i hi
    rw [← q2]
    exact accepted_names hin.grammar hbt m' q1

/-! ### What goes wrong -/

/-- Number of fields or enumerators of a declaration. -/
def CDecl.parts : CDecl → Nat
  | .struct _ fs => fs.length
  | .enum _ is => is.length
  | .union _ fs _ => fs.length
  | .object .. => 0

/-- Number of members or items of a definition. -/
def Def.parts : Def → Nat
  | .seq _ _ ms => ms.length
  | .choice _ _ ms => ms.length
  | .enum _ _ its => its.length
  | .simple .. => 0

theorem says_parts {cmd : Command} {T : Bool → TypeMap} {m : Module} {text : Text} (h : HeaderSays cmd T m text) :
    (readHeader text).map (fun x => (x.2.map CDecl.parts).sum) = some ((m.defs.map Def.parts).sum) := by
  obtain ⟨sorted, std, decls, h1, h2, h3⟩ := h
  rw [readHeader_of h3, Option.map_some, ← (h1.map Def.parts).sum_nat, List.map_append, List.sum_append]
  have hobj : ((objectsOf cmd sorted).map CDecl.parts).sum = 0 := by
    cases cmd with
    | c p =>
      simp only [objectsOf, List.map_map]
      induction sorted.flatMap clausesOf with
      | nil => rfl
      | cons x xs ih => simp only [List.map_cons, List.sum_cons, ih]; rfl
    | _ => rfl
  rw [hobj, Nat.add_zero]
  clear h3 hobj h1
  congr 1
  induction sorted generalizing decls with
  | nil => cases h2; rfl
  | cons d sorted ih =>
    cases d with
    | simple n c t =>
      rw [List.filter_cons_of_neg (by simp [Def.isSimple])] at h2
      simpa [Def.parts] using ih decls h2
    | seq n c ms =>
      rw [List.filter_cons_of_pos (by simp [Def.isSimple])] at h2
      cases h2 with
      | cons k1 k2 =>
        obtain ⟨fs, rfl, hf⟩ := k1
        simp only [List.map_cons, List.sum_cons, ih _ k2, CDecl.parts, Def.parts, hf.length_eq]
    | choice n c ms =>
      rw [List.filter_cons_of_pos (by simp [Def.isSimple])] at h2
      cases h2 with
      | cons k1 k2 =>
        cases k1
        simp only [List.map_cons, List.sum_cons, ih _ k2, CDecl.parts, Def.parts, List.length_map]
    | enum n c its =>
      rw [List.filter_cons_of_pos (by simp [Def.isSimple])] at h2
      cases h2 with
      | cons k1 k2 =>
        cases k1
        simp only [List.map_cons, List.sum_cons, ih _ k2, CDecl.parts, Def.parts, List.length_map]

theorem c60_false {m : Module} {cmd : Command} (h1 : grammarB [m] = true)
    (h2 : [m].all (fun m => decide (GrammarComments m)) = true) (h3 : isOk (buildFromConfig [m] [m.name]) = true)
    (hr : (cmd.run 20 [m] [m.name] exOut).result = .ok ())
    (hreg : Regular (okBundle (buildFromConfig [m] [m.name])).defs)
    (hm : m ∈ (okBundle (buildFromConfig [m] [m.name])).modules)
    (ht : (readHeader (fileText ((cmd.run 20 [m] [m.name] exOut).apply fun _ => none) (cmd.path exOut m.name))).map
      (fun x => (x.2.map CDecl.parts).sum) ≠ some ((m.defs.map Def.parts).sum)) : ¬ C60_full := by
  intro hf
  obtain ⟨text, k1, k2⟩ := hf cmd 20 [m] [m.name] exOut _ (fun _ => none) (input_of h1 h2 h3) hr hreg m hm
  rw [fileText_eq k1] at ht
  exact ht (says_parts k2)

/-- The comment of the member `x` ends in a backslash. -/
def exBackslash : Module :=
  { name := "m"
    defs := [.seq "Pair" none [⟨"x", .plain "BOOLEAN" none none, some { text := "root is c:\\", unit := "", little := false }, none⟩,
      ⟨"y", .plain "BOOLEAN" none none, none, none⟩]] }

/-- The field after a comment that ends in a backslash is part of the comment. -/
theorem C60_full_false : ¬ C60_full :=
  c60_false (m := exBackslash) (cmd := .cfs exPrinter) (by decide +kernel) (by decide +kernel) (by decide +kernel)
    (by decide +kernel) (regular_of (by decide +kernel) (by decide +kernel) (by decide +kernel)) (by decide +kernel)
    (by decide +kernel)

/-- The comment of the CHOICE hides the rest of the line. -/
def exChoiceNote : Module :=
  { name := "m"
    defs := [.choice "Either" none [⟨"x", .plain "Uint8-t" none none, some { text := "first", unit := "", little := false }, none⟩,
      ⟨"y", .plain "Uint8-t" none none, none, none⟩], .simple "Uint8-t" none (.plain "INTEGER" (some (.int 0)) (some (.int 255)))] }

/-- A comment in a CHOICE hides all that follows in the union, even its closing brace. -/
theorem C60_full_false_choice : ¬ C60_full :=
  c60_false (m := exChoiceNote) (cmd := .cfs exPrinter) (by decide +kernel) (by decide +kernel) (by decide +kernel)
    (by decide +kernel) (regular_of (by decide +kernel) (by decide +kernel) (by decide +kernel)) (by decide +kernel)
    (by decide +kernel)

/-- The comment of the definition has the end of a C comment. -/
def exClose : Module :=
  { name := "m"
    defs := [.seq "Pair" (some { text := "files in /tmp/*/pair", unit := "", little := false }) [⟨"x", .plain "BOOLEAN" none none, none, none⟩]] }

/-- The text after the end of the comment is not C. -/
theorem C60_full_false_close : ¬ C60_full :=
  c60_false (m := exClose) (cmd := .cfs exPrinter) (by decide +kernel) (by decide +kernel) (by decide +kernel)
    (by decide +kernel) (regular_of (by decide +kernel) (by decide +kernel) (by decide +kernel)) (by decide +kernel)
    (by decide +kernel)

/-- The name of the member is reserved. -/
def exReserved : Module :=
  { name := "m", defs := [.seq "Pair" none [⟨"default", .plain "BOOLEAN" none none, none, none⟩]] }

theorem C60_full_false_reserved : ¬ C60_full :=
  c60_false (m := exReserved) (cmd := .cfs exPrinter) (by decide +kernel) (by decide +kernel) (by decide +kernel)
    (by decide +kernel) (regular_of (by decide +kernel) (by decide +kernel) (by decide +kernel)) (by decide +kernel)
    (by decide +kernel)

/-! ### Example -/

/-- A module with comments that look like C. -/
def exTame : Module :=
  { name := "m"
    comment := some { text := "see // and /* here", unit := "", little := false }
    defs := [.enum "Mode" (some { text := "a \\ b", unit := "", little := false })
        [⟨"off", 0, some { text := "on = 0, // no", unit := "", little := false }⟩, ⟨"on", 1, none⟩],
      .choice "Either" none [⟨"x", .plain "Mode" none none, none, none⟩],
      .seq "Rec" none [⟨"mode", .plain "Mode" none none, some { text := "*/ int x;", unit := "m", little := false }, none⟩,
        ⟨"level", .plain "INTEGER" (some (.int 0)) (some (.int 9)), none, none⟩,
        ⟨"name", .str "IA5String" 8, none, none⟩]] }

theorem exTame_tame : Tame exTame := by
  have hne : ∀ {t : Text}, occurs "*/".toList t = false → ¬ "*/".toList <:+: t := by
    intro t h hi
    rw [occurs_of_infix hi] at h; cases h
  refine ⟨?_, ?_, ?_⟩
  · intro c hc
    cases hc
    exact hne (by decide +kernel)
  · intro c hc; cases hc
  · intro d hd
    simp only [exTame, List.mem_cons, List.not_mem_nil, or_false] at hd
    rcases hd with rfl | rfl | rfl
    · refine ⟨?_, ?_⟩
      · intro x hx
        cases hx
        exact hne (by decide +kernel)
      · unfold NoBackslash NotReserved; decide +kernel
    · refine ⟨(by intro x hx; cases hx), ?_⟩
      unfold NotReserved; decide +kernel
    · refine ⟨(by intro x hx; cases hx), ?_⟩
      unfold NoBackslash NotReserved; decide +kernel

/-- The hypotheses are met. -/
example : ∃ text, HasText (((Command.cfs exPrinter).run 20 [exTame] ["m"] exOut).apply fun _ => none)
      ((Command.cfs exPrinter).path exOut "m") text ∧
    HeaderSays (.cfs exPrinter) (Typed (okBundle (buildFromConfig [exTame] ["m"])).defs) exTame text :=
  C60_reads_partial (.cfs exPrinter) 20 [exTame] ["m"] exOut _ (fun _ => none)
    (input_of (by decide +kernel) (by decide +kernel) (by decide +kernel)) (by decide +kernel)
    (regular_of (by decide +kernel) (by decide +kernel) (by decide +kernel)) exTame (by decide +kernel) exTame_tame

/-- What the reader sees in this header. -/
example : (readHeader (fileText (((Command.cfs exPrinter).run 20 [exTame] ["m"] exOut).apply fun _ => none)
      ((Command.cfs exPrinter).path exOut "m"))).map (·.2) = some
    [.enum "Mode".toList [("off".toList, 0), ("on".toList, 1)],
      .union "Either".toList [⟨["Mode".toList], "x".toList, none, []⟩] "either".toList,
      .struct "Rec".toList [⟨["Mode".toList], "mode".toList, some 1, []⟩,
        ⟨["uint8_t".toList], "level".toList, some 4, []⟩, ⟨["char".toList], "name".toList, none, [8]⟩]] := by
  decide +kernel

end Apg
