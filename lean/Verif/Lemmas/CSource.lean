import Verif.Spec.CSource
import Verif.Lemmas.CDecls
import Verif.Lemmas.CScope
import Verif.Lemmas.CInit

/-!
# Lemmas on reading the C files of generate-c
-/

namespace Apg
open Spec

/-! ### Lines -/

/-- The directives `ds` and then the tokens `ts` of `a` do not depend on the text after it. -/
def Shows (a : Text) (ds ts : List Text) : Prop :=
  ∀ t, sourceItems (a ++ t) = ds.map .inl ++ ts.map .inr ++ sourceItems t

theorem Shows.nil : Shows [] [] [] := fun _ => rfl

theorem Shows.append {a b : Text} {ds ts ts' : List Text} (h : Shows a ds ts) (h' : Shows b [] ts') :
    Shows (a ++ b) ds (ts ++ ts') := by
  intro t
  rw [List.append_assoc, h, h']
  simp

theorem Shows.before {a b : Text} {ds ds' ts : List Text} (h : Shows a ds []) (h' : Shows b ds' ts) :
    Shows (a ++ b) (ds ++ ds') ts := by
  intro t
  rw [List.append_assoc, h, h']
  simp

theorem shows_code {a l : Text} (h : Reads a (l ++ ['\n'])) (hl : '\n' ∉ l) (hd : isDirective l = false) :
    Shows a [] (lexNumbers [] l) := by
  intro t
  unfold sourceItems
  rw [cLines_line h hl, List.flatMap_cons, if_neg (by simp [hd])]
  simp

theorem shows_directive {a l : Text} (h : Reads a (l ++ ['\n'])) (hl : '\n' ∉ l) (hd : isDirective l = true) :
    Shows a [l] [] := by
  intro t
  unfold sourceItems
  rw [cLines_line h hl, List.flatMap_cons, if_pos hd]
  simp

theorem shows_plain {l : Text} (h : Plain1 l) (hd : isDirective l = false) : Shows (l ++ ['\n']) [] (lexNumbers [] l) :=
  shows_code (h.reads.append (reads_char (by decide) (by decide))) h.newline hd

theorem shows_end : sourceItems [] = [] := by decide +kernel

/-! ### Tokens -/

theorem numberChar_dot {w : Text} {c : Char} (h : numberChar w c = true) : c = '.' ∨ c = '+' ∨ c = '-' := by
  unfold numberChar at h
  split at h
  · cases h
  · simp only [Bool.and_eq_true, Bool.or_eq_true, beq_iff_eq] at h
    rcases h.2 with h | h
    · exact .inl h
    · exact .inr h.1

/-- Where a symbol ends a word. -/
theorem lexNumbers_split (w a : Text) {c : Char} (hc : wordChar c = false) (hn : c ≠ '.' ∧ c ≠ '+' ∧ c ≠ '-') (t : Text) :
    lexNumbers w (a ++ c :: t) = lexNumbers w a ++ ((if c = ' ' ∨ c = '\n' ∨ c = '\t' then [] else [[c]]) ++
      lexNumbers [] t) := by
  induction a generalizing w with
  | nil =>
    have : numberChar w c = false := by
      cases h : numberChar w c with
      | false => rfl
      | true =>
        rcases numberChar_dot h with h | h | h
        · exact absurd h hn.1
        · exact absurd h hn.2.1
        · exact absurd h hn.2.2
    simp only [List.nil_append, lexNumbers, hc, this, Bool.or_self, Bool.false_eq_true, if_false, List.append_assoc]
  | cons d a ih =>
    rw [List.cons_append, lexNumbers, lexNumbers]
    split
    · exact ih _
    · rw [ih]
      simp

theorem lexNumbers_word (w : Text) {a : Text} (h : ∀ c ∈ a, wordChar c = true) (t : Text) :
    lexNumbers w (a ++ t) = lexNumbers (w ++ a) t := by
  induction a generalizing w with
  | nil => simp
  | cons c a ih =>
    rw [List.cons_append, lexNumbers, if_pos (by simp [h c (by simp)]), ih _ fun c hc => h c (by simp [hc])]
    simp

theorem lexNumbers_nil {w : Text} (h : w ≠ []) : lexNumbers w [] = [w] := by rw [lexNumbers, if_neg h]

theorem lexNumbers_one {a : Text} (hne : a ≠ []) (h : ∀ c ∈ a, wordChar c = true) : lexNumbers [] a = [a] := by
  have := lexNumbers_word [] h []
  rw [List.append_nil, List.nil_append, lexNumbers_nil hne] at this
  exact this

theorem lexNumbers_blank (t : Text) : lexNumbers [] (' ' :: t) = lexNumbers [] t := by
  rw [lexNumbers, if_neg (by decide)]
  simp

theorem lexNumbers_symbol {c : Char} (h : (!wordChar c && c != ' ' && c != '\n' && c != '\t') = true) (t : Text) :
    lexNumbers [] (c :: t) = [c] :: lexNumbers [] t := by
  simp only [Bool.and_eq_true, Bool.not_eq_true', bne_iff_ne] at h
  rw [lexNumbers, if_neg (by simp [h.1.1.1, numberChar])]
  simp [h.1.1.2, h.1.2, h.2]

theorem lexNumbers_chars {w a : Text} : ∀ x ∈ lexNumbers w a, ∀ c ∈ x, c ∈ w ++ a := by
  induction a generalizing w with
  | nil =>
    intro x hx c hc
    rw [lexNumbers] at hx
    split at hx
    · cases hx
    · rw [List.mem_singleton.1 hx] at hc
      simp [hc]
  | cons d a ih =>
    intro x hx c hc
    rw [lexNumbers] at hx
    split at hx
    · have := ih x hx c hc
      simpa using this
    · simp only [List.mem_append] at hx
      rcases hx with (hx | hx) | hx
      · split at hx
        · cases hx
        · rw [List.mem_singleton.1 hx] at hc
          simp [hc]
      · split at hx
        · cases hx
        · rw [List.mem_singleton.1 hx] at hc
          rw [List.mem_singleton.1 hc]
          simp
      · have := ih x hx c hc
        rw [List.nil_append] at this
        simp [this]

theorem lexNumbers_indent (n : Nat) (t : Text) : lexNumbers [] (indent n ++ t) = lexNumbers [] t := by
  unfold indent
  generalize 2 * n = k
  induction k with
  | zero => rfl
  | succ k ih => rw [List.replicate_succ, List.cons_append, lexNumbers_blank, ih]

theorem isDirective_indents (n : Nat) (t : Text) : isDirective (indent n ++ t) = isDirective t := by
  unfold indent
  generalize 2 * n = k
  induction k with
  | zero => rfl
  | succ k ih => rw [List.replicate_succ, List.cons_append, isDirective_blank, ih]

theorem plain1_indent (n : Nat) : Plain1 (indent n) := by
  intro c hc
  unfold indent at hc
  rw [(List.mem_replicate.1 hc).2]
  decide

/-! ### Entries -/

/-- The tokens of a value. -/
def valueTokens (p : Printer) (v : Leaf) : List Text := lexNumbers [] (cValue p v)

/-- The tokens of a clause. -/
def clauseTokens (p : Printer) : Comps → List Text
  | .nil => []
  | .leaf k v r => ['.'] :: ident k :: ['='] :: (valueTokens p v ++ [','] :: clauseTokens p r)
  | .node k c r => ['.'] :: ident k :: ['='] :: ['{'] :: (clauseTokens p c ++ ['}'] :: [','] :: clauseTokens p r)

/-- The entries of a clause. -/
def entriesOf (p : Printer) : Comps → Entries
  | .nil => .nil
  | .leaf k v r => .value (ident k) (valueTokens p v) (entriesOf p r)
  | .node k c r => .group (ident k) (entriesOf p c) (entriesOf p r)

theorem lower_word {k : String} (h : isNameLower k = true) : ident k ≠ [] ∧ ∀ c ∈ ident k, wordChar c = true := by
  refine ⟨?_, ident_wordChar (.inl h)⟩
  obtain ⟨c, r, hc, _⟩ := ident_lower_head h
  rw [hc]
  simp

theorem value_plain {p : Printer} (hp : Faithful p) (v : Leaf) : Plain1 (cValue p v) := by
  have hv := cValue_text p v
  intro c hc
  refine ⟨?_, ?_, ?_⟩ <;> rintro rfl
  · exact cValueText_not hp hv '/' (by decide) hc
  · exact cValueText_not hp hv '\\' (by decide) hc
  · exact cValueText_not hp hv '\n' (by decide) hc

theorem valueTokens_not {p : Printer} (hp : Faithful p) (v : Leaf) {c : Char}
    (hc : (c == '-' || (digitVal c).isSome || "0123456789.e+-inf".toList.contains c) = false) :
    [c] ∉ valueTokens p v := by
  intro h
  have := lexNumbers_chars _ h c (by simp)
  rw [List.nil_append] at this
  exact cValueText_not hp (cValue_text p v) c hc this

theorem shows_leaf {p : Printer} (hp : Faithful p) {k : String} (hk : isNameLower k = true) (v : Leaf) (n : Nat) :
    Shows (indent n ++ '.' :: ident k ++ " = ".toList ++ cValue p v ++ ",\n".toList) []
      (['.'] :: ident k :: ['='] :: (valueTokens p v ++ [[',']])) := by
  have hw := lower_word hk
  have e1 : " = ".toList = [' ', '=', ' '] := rfl
  have e2 : ",\n".toList = [','] ++ ['\n'] := rfl
  have h := shows_plain (l := indent n ++ '.' :: ident k ++ [' ', '=', ' '] ++ cValue p v ++ [','])
    (((((plain1_indent n).append (.cons (by decide) (plain1_word hw.2))).append (plain1_lit (by decide))).append
      (value_plain hp v)).append (plain1_lit (by decide))) (by
      simp only [List.append_assoc]
      rw [isDirective_indents]
      exact isDirective_cons (by decide) _)
  have e : lexNumbers [] (indent n ++ '.' :: ident k ++ [' ', '=', ' '] ++ cValue p v ++ [',']) =
      ['.'] :: ident k :: ['='] :: (valueTokens p v ++ [[',']]) := by
    have e3 : indent n ++ '.' :: ident k ++ [' ', '=', ' '] ++ cValue p v ++ [','] =
        indent n ++ '.' :: (ident k ++ ' ' :: ('=' :: ' ' :: (cValue p v ++ ',' :: []))) := by simp
    rw [e3, lexNumbers_indent, lexNumbers_symbol (by decide), lexNumbers_split _ _ (by decide) (by decide),
      lexNumbers_one hw.1 hw.2, lexNumbers_symbol (by decide), lexNumbers_blank,
      lexNumbers_split _ _ (by decide) (by decide)]
    simp [valueTokens, lexNumbers]
  rw [e] at h
  rw [e1, e2, ← List.append_assoc]
  exact h

theorem shows_open {k : String} (hk : isNameLower k = true) (n : Nat) :
    Shows (indent n ++ '.' :: ident k ++ " = {\n".toList) [] [['.'], ident k, ['='], ['{']] := by
  have hw := lower_word hk
  have e2 : " = {\n".toList = [' ', '=', ' ', '{'] ++ ['\n'] := rfl
  have h := shows_plain (l := indent n ++ '.' :: ident k ++ [' ', '=', ' ', '{'])
    (((plain1_indent n).append (.cons (by decide) (plain1_word hw.2))).append (plain1_lit (by decide))) (by
      simp only [List.append_assoc]
      rw [isDirective_indents]
      exact isDirective_cons (by decide) _)
  have e : lexNumbers [] (indent n ++ '.' :: ident k ++ [' ', '=', ' ', '{']) = [['.'], ident k, ['='], ['{']] := by
    have e3 : indent n ++ '.' :: ident k ++ [' ', '=', ' ', '{'] =
        indent n ++ '.' :: (ident k ++ ' ' :: ('=' :: ' ' :: '{' :: [])) := by simp
    rw [e3, lexNumbers_indent, lexNumbers_symbol (by decide), lexNumbers_split _ _ (by decide) (by decide),
      lexNumbers_one hw.1 hw.2, lexNumbers_symbol (by decide), lexNumbers_blank, lexNumbers_symbol (by decide)]
    simp [lexNumbers]
  rw [e] at h
  rw [e2, ← List.append_assoc]
  exact h

theorem shows_shut (n : Nat) : Shows (indent n ++ "},\n".toList) [] [['}'], [',']] := by
  have e2 : "},\n".toList = ['}', ','] ++ ['\n'] := rfl
  have h := shows_plain (l := indent n ++ ['}', ',']) ((plain1_indent n).append (plain1_lit (by decide))) (by
      rw [isDirective_indents]
      exact isDirective_cons (by decide) _)
  have e : lexNumbers [] (indent n ++ ['}', ',']) = [['}'], [',']] := by
    rw [lexNumbers_indent, lexNumbers_symbol (by decide), lexNumbers_symbol (by decide)]
    simp [lexNumbers]
  rw [e] at h
  rw [e2, ← List.append_assoc]
  exact h

theorem shows_clause {p : Printer} (hp : Faithful p) : ∀ (c : Comps), GrammarComps c → ∀ n,
    Shows (cInit p n c) [] (clauseTokens p c)
  | .nil, _, _ => .nil
  | .leaf k v r, hg, n => by
    have h := (shows_leaf hp hg.1 v n).append (shows_clause hp r hg.2 n)
    rw [cInit, cName_eq (Or.inl hg.1), clauseTokens]
    simpa only [List.cons_append, List.append_assoc, List.nil_append] using h
  | .node k c r, hg, n => by
    have h := (((shows_open hg.1 n).append (shows_clause hp c hg.2.1.2 (n + 1))).append (shows_shut n)).append
      (shows_clause hp r hg.2.2 n)
    rw [cInit, cName_eq (Or.inl hg.1), clauseTokens]
    simpa only [List.cons_append, List.append_assoc, List.nil_append] using h

theorem readValues_end {n : Nat} {ts : List Text} (h : ts.head? ≠ some ['.']) :
    readValues (n + 1) ts = some (.nil, ts) := by
  rw [readValues]
  · rintro k r rfl; exact h rfl
  · rintro k r rfl; exact h rfl

theorem readValues_group {n : Nat} {k : Text} {r : List Text} : readValues (n + 1) (['.'] :: k :: ['='] :: ['{'] :: r) =
    (readValues n r).bind fun x => (after [['}'], [',']] x.2).bind fun r => (readValues n r).bind fun y =>
      some (.group k x.1 y.1, y.2) := rfl

theorem readValues_value {n : Nat} {k : Text} {r : List Text} (h : r.head? ≠ some ['{']) :
    readValues (n + 1) (['.'] :: k :: ['='] :: r) =
    (upTo ',' r).bind fun x => (readValues n x.2).bind fun y => some (.value k x.1 y.1, y.2) := by
  rw [readValues]
  · rfl
  · rintro r rfl; exact h rfl

theorem readValues_clause {p : Printer} (hp : Faithful p) : ∀ (c : Comps) (n : Nat) (r : List Text), steps c ≤ n →
    r.head? ≠ some ['.'] → readValues n (clauseTokens p c ++ r) = some (entriesOf p c, r)
  | .nil, n, r, hf, hr => by
    obtain ⟨n, rfl⟩ : ∃ m, n = m + 1 := ⟨n - 1, by simp only [steps] at hf; omega⟩
    exact readValues_end hr
  | .leaf k v c, n, r, hf, hr => by
    obtain ⟨n, rfl⟩ : ∃ m, n = m + 1 := ⟨n - 1, by simp only [steps] at hf; omega⟩
    have ih := readValues_clause hp c n r (by simp only [steps] at hf; omega) hr
    have hb := valueTokens_not hp v (c := '{') (by decide)
    have hc := valueTokens_not hp v (c := ',') (by decide)
    simp only [clauseTokens, List.cons_append, List.append_assoc]
    rw [readValues_value, upTo_mid hc]
    · simp only [Option.bind_some, ih]
      rfl
    · cases hv : valueTokens p v with
      | nil => simp
      | cons x xs =>
        rw [hv] at hb
        simp only [List.cons_append, List.head?_cons, ne_eq, Option.some.injEq]
        rintro rfl
        exact hb (by simp)
  | .node k d c, n, r, hf, hr => by
    obtain ⟨n, rfl⟩ : ∃ m, n = m + 1 := ⟨n - 1, by simp only [steps] at hf; omega⟩
    have ih := readValues_clause hp c n r (by simp only [steps] at hf; omega) hr
    have ih2 := readValues_clause hp d n (['}'] :: [','] :: (clauseTokens p c ++ r)) (by simp only [steps] at hf; omega)
      (by simp)
    simp only [clauseTokens, List.cons_append, List.append_assoc]
    rw [readValues_group, ih2]
    have ha : after [['}'], [',']] (['}'] :: [','] :: (clauseTokens p c ++ r)) = some (clauseTokens p c ++ r) :=
      after_append [['}'], [',']] _
    simp only [Option.bind_some, ha, ih]
    rfl

theorem steps_tokens (p : Printer) : ∀ c, steps c ≤ (clauseTokens p c).length + 1
  | .nil => by simp [steps, clauseTokens]
  | .leaf k v r => by
    have := steps_tokens p r
    simp only [steps, clauseTokens, List.length_append, List.length_cons]
    omega
  | .node k c r => by
    have := steps_tokens p c
    have := steps_tokens p r
    simp only [steps, clauseTokens, List.length_append, List.length_cons]
    omega

/-! ### Variables -/

/-- The tokens of the variable for a clause. -/
def varTokens (p : Printer) (x : String × String × Comps) : List Text :=
  ident x.1 :: lowerFirst (ident x.1) :: ['='] :: ['{'] :: (clauseTokens p (.node x.2.1 x.2.2 .nil) ++ [['}'], [';']])

/-- The variable for a clause. -/
def varOf (p : Printer) (x : String × String × Comps) : CVar :=
  ⟨ident x.1, lowerFirst (ident x.1), entriesOf p (.node x.2.1 x.2.2 .nil)⟩

/-- The clause comes from definitions as the grammar builds them, and no name is reserved. -/
structure GoodClause (x : String × String × Comps) : Prop where
  capital : isNameCapital x.1 = true
  type : isName (ident x.1) = true
  name : isName (lowerFirst (ident x.1)) = true
  comps : GrammarComps (.node x.2.1 x.2.2 .nil)

theorem shows_var {p : Printer} (hp : Faithful p) {x : String × String × Comps} (hx : GoodClause x) :
    Shows (clauseText p x) [] (varTokens p x) := by
  have w1 := isName_word hx.type
  have w2 := isName_word hx.name
  have s1 := shows_plain (l := ident x.1 ++ ' ' :: lowerFirst (ident x.1) ++ [' ', '=', ' ', '{'])
    (((plain1_word w1.2).append (.cons (by decide) (plain1_word w2.2))).append (plain1_lit (by decide)))
    (by rw [List.append_assoc]; exact isDirective_word w1.1 w1.2 _)
  have e1 : lexNumbers [] (ident x.1 ++ ' ' :: lowerFirst (ident x.1) ++ [' ', '=', ' ', '{']) =
      [ident x.1, lowerFirst (ident x.1), ['='], ['{']] := by
    rw [List.append_assoc, List.cons_append, lexNumbers_split _ _ (by decide) (by decide), lexNumbers_one w1.1 w1.2,
      lexNumbers_split _ _ (by decide) (by decide), lexNumbers_one w2.1 w2.2, lexNumbers_symbol (by decide),
      lexNumbers_blank, lexNumbers_symbol (by decide)]
    simp [lexNumbers]
  have s3 := shows_plain (l := ['}', ';']) (plain1_lit (by decide)) (by decide)
  have e3 : lexNumbers [] ['}', ';'] = [['}'], [';']] := by decide +kernel
  rw [e1] at s1
  rw [e3] at s3
  have h := (s1.append (shows_clause hp _ hx.comps 1)).append s3
  have e4 : clauseText p x = ident x.1 ++ ' ' :: lowerFirst (ident x.1) ++ [' ', '=', ' ', '{'] ++ ['\n'] ++
      cInit p 1 (.node x.2.1 x.2.2 .nil) ++ (['}', ';'] ++ ['\n']) := by
    have e5 : " = {\n".toList = [' ', '=', ' ', '{', '\n'] := rfl
    have e6 : "};\n".toList = ['}', ';', '\n'] := rfl
    have e7 : lowerFirst (ident x.1) = lowerize (ident x.1) := rfl
    unfold clauseText cInitStart
    rw [cName_eq (Or.inr hx.capital), e5, e6, e7]
    simp only [cInit, e5, List.append_assoc, List.cons_append, List.nil_append]
  rw [e4]
  exact h

theorem readVar_var {p : Printer} (hp : Faithful p) {x : String × String × Comps} (hx : GoodClause x) (r : List Text) :
    readVar (varTokens p x ++ r) = some (varOf p x, r) := by
  have h2 := readValues_clause hp (.node x.2.1 x.2.2 .nil)
    ((clauseTokens p (.node x.2.1 x.2.2 .nil) ++ ['}'] :: [';'] :: r).length + 1) (['}'] :: [';'] :: r) (by
      have := steps_tokens p (.node x.2.1 x.2.2 .nil)
      simp only [List.length_append, List.length_cons]
      omega) (by simp)
  unfold readVar varTokens
  simp only [List.cons_append, List.append_assoc, List.nil_append, nextName_cons hx.type, nextName_cons hx.name, bind,
    Option.bind]
  have ha : ∀ q : List Text, after [['='], ['{']] (['='] :: ['{'] :: q) = some q := fun q => after_append [['='], ['{']] q
  have hb : after [['}'], [';']] (['}'] :: [';'] :: r) = some r := after_append [['}'], [';']] r
  simp only [ha, h2, hb]
  rfl

theorem shows_vars {p : Printer} (hp : Faithful p) {xs : List (String × String × Comps)} (hx : ∀ x ∈ xs, GoodClause x) :
    Shows (xs.map (clauseText p)).flatten [] (xs.flatMap (varTokens p)) := by
  induction xs with
  | nil => exact .nil
  | cons x xs ih =>
    exact (shows_var hp (hx x (by simp))).append (ih fun y hy => hx y (by simp [hy]))

theorem readVars_vars {p : Printer} (hp : Faithful p) {xs : List (String × String × Comps)} (hx : ∀ x ∈ xs, GoodClause x) :
    ∀ n, xs.length ≤ n → readVars n (xs.flatMap (varTokens p)) = some (xs.map (varOf p)) := by
  induction xs with
  | nil => intro n _; cases n <;> rfl
  | cons x xs ih =>
    intro n hn
    obtain ⟨n, rfl⟩ : ∃ m, n = m + 1 := ⟨n - 1, by simp only [List.length_cons] at hn; omega⟩
    have h1 := ih (fun y hy => hx y (by simp [hy])) n (by simp only [List.length_cons] at hn; omega)
    have h2 := readVar_var hp (hx x (by simp)) (xs.flatMap (varTokens p))
    rw [List.flatMap_cons]
    have e : varTokens p x ++ xs.flatMap (varTokens p) ≠ [] := by simp [varTokens]
    generalize varTokens p x ++ xs.flatMap (varTokens p) = ts at h2 e
    cases ts with
    | nil => exact absurd rfl e
    | cons t ts =>
      simp only [readVars, h2, h1, bind, Option.bind]
      rfl

theorem readSource_of {t : Text} {ds ts : List Text} {vs : List CVar} (h : sourceItems t = ds.map .inl ++ ts.map .inr)
    (hv : readVars ts.length ts = some vs) : readSource t = some (ds, vs) := by
  have h1 : ∀ ds : List Text, (ds.map .inl ++ ts.map .inr : List (Text ⊕ Text)).dropWhile (·.isLeft) = ts.map .inr := by
    intro ds
    induction ds with
    | nil => cases ts <;> simp
    | cons d ds ih => rw [List.map_cons, List.cons_append, List.dropWhile_cons_of_pos rfl, ih]
  have h2 : ∀ ds : List Text, (ds.map .inl ++ ts.map .inr : List (Text ⊕ Text)).takeWhile (·.isLeft) = ds.map .inl := by
    intro ds
    induction ds with
    | nil => cases ts <;> simp
    | cons d ds ih => rw [List.map_cons, List.cons_append, List.takeWhile_cons_of_pos rfl, ih]
  have h3 : (ts.map .inr : List (Text ⊕ Text)).filterMap Sum.getRight? = ts := by
    clear h hv h1 h2
    induction ts with
    | nil => rfl
    | cons t ts ih => rw [List.map_cons, List.filterMap_cons, ih]; rfl
  have h4 : ∀ ds : List Text, (ds.map .inl : List (Text ⊕ Text)).filterMap Sum.getLeft? = ds := by
    intro ds
    induction ds with
    | nil => rfl
    | cons t ts ih => rw [List.map_cons, List.filterMap_cons, ih]; rfl
  unfold readSource
  simp only [h, h1, h2, h3, h4]
  rw [if_pos (by simp), List.length_map, hv]
  rfl

theorem items_source {x1 x2 x3 : Text} {ds ts : List Text} (s1 : Shows x1 [] []) (s2 : Shows x2 ds [])
    (s3 : Shows x3 [] ts) : sourceItems (x1 ++ ['\n'] ++ x2 ++ x3) = ds.map .inl ++ ts.map .inr := by
  have s0 : Shows ['\n'] [] [] := shows_plain (l := []) (by intro c hc; cases hc) (by decide)
  have h := (((s1.append s0).before s2).append s3) []
  rw [List.append_nil, shows_end, List.append_nil] at h
  exact h

theorem shows_include {f : Text} (h : Plain1 f) : Shows ("#include \"".toList ++ f ++ "\"\n\n".toList) [includeLine f] [] := by
  have s0 : Shows ['\n'] [] [] := shows_plain (l := []) (by intro c hc; cases hc) (by decide)
  have hp1 : Plain1 (includeLine f) := ((plain1_lit (by decide)).append h).append (plain1_lit (by decide))
  have := (shows_directive (l := includeLine f) (hp1.reads.append (reads_char (by decide) (by decide))) hp1.newline
    (isDirective_cons (by decide) _)).append s0
  have e : "#include \"".toList ++ f ++ "\"\n\n".toList = includeLine f ++ ['\n'] ++ ['\n'] := by
    have e : "\"\n\n".toList = ['"', '\n', '\n'] := rfl
    rw [e]
    unfold includeLine
    generalize "#include \"".toList = q
    simp
  rw [e]
  exact this

/-- The include line of a C file. -/
def inclText : Option Text → Text
  | none => []
  | some h => "#include \"".toList ++ h ++ "\"\n\n".toList

theorem sourceFile_eq (doc : Text) (incl : Option Text) (vars : List Text) : sourceFile doc incl vars =
    ("/*\nThis file was autogenerated from ASN.1 model.".toList ++
      (if doc = [] then [] else "\n\n".toList ++ doc) ++ "\n*/\n".toList) ++ ['\n'] ++ inclText incl ++ vars.flatten := by
  have e0 : "\n*/\n\n".toList = "\n*/\n".toList ++ ['\n'] := by decide
  unfold sourceFile inclText
  rw [e0]
  generalize "/*\nThis file was autogenerated from ASN.1 model.".toList = q1
  generalize "\n*/\n".toList = q2
  generalize "#include \"".toList = q3
  generalize "\"\n\n".toList = q5
  generalize (if doc = [] then [] else "\n\n".toList ++ doc) = q4
  cases incl
  · simp only [List.append_assoc, List.nil_append]
  · simp only [List.append_assoc]

theorem shows_doc {doc : Text} (hn : '\n' ∉ doc) (hd : ¬ "*/".toList <:+: doc) :
    Shows ("/*\nThis file was autogenerated from ASN.1 model.".toList ++
      (if doc = [] then [] else "\n\n".toList ++ doc) ++ "\n*/\n".toList) [] [] := by
  have := shows_code (l := [' ']) (reads_doc hn hd) (by decide) (by decide)
  have e : lexNumbers [] [' '] = [] := by decide +kernel
  rwa [e] at this

/-- The reader on the C file of a module. -/
theorem readSource_file {p : Printer} (hp : Faithful p) {doc : Text} (hn : '\n' ∉ doc) (hd : ¬ "*/".toList <:+: doc)
    {incl : Option Text} (hi : ∀ f ∈ incl, Plain1 f) {xs : List (String × String × Comps)} (hx : ∀ x ∈ xs, GoodClause x) :
    readSource (sourceFile doc incl (xs.map (clauseText p))) =
      some (incl.toList.map includeLine, xs.map (varOf p)) := by
  have s2 : Shows (inclText incl)
      (incl.toList.map includeLine) [] := by
    cases incl with
    | none => exact .nil
    | some f => exact shows_include (hi f rfl)
  rw [sourceFile_eq]
  refine readSource_of (items_source (shows_doc hn hd) s2 (shows_vars hp hx)) (readVars_vars hp hx _ ?_)
  clear s2 hi hx
  induction xs with
  | nil => simp
  | cons x xs ih =>
    simp only [List.flatMap_cons, List.length_append, List.length_cons, varTokens] at ih ⊢
    omega

end Apg
