import Verif.Spec.CInit
import Verif.Lemmas.Header

/-!
# Lemmas on the C files of generate-c
-/

namespace Apg
open Spec

/-- Blanks and line breaks removed. -/
def squeeze (t : Text) : Text := t.filter fun c => c ≠ ' ' ∧ c ≠ '\n'

theorem squeeze_append (a b : Text) : squeeze (a ++ b) = squeeze a ++ squeeze b :=
  List.filter_append ..

theorem squeeze_id {t : Text} (h1 : ' ' ∉ t) (h2 : '\n' ∉ t) : squeeze t = t := by
  unfold squeeze
  rw [List.filter_eq_self]
  intro c hc
  have : c ≠ ' ' := by rintro rfl; exact h1 hc
  have : c ≠ '\n' := by rintro rfl; exact h2 hc
  simp [*]

theorem squeeze_indent (n : Nat) : squeeze (indent n) = [] := by
  unfold squeeze indent
  rw [List.filter_eq_nil_iff]
  intro c hc
  rw [List.mem_replicate] at hc
  rw [hc.2]
  decide

theorem dropWhile_stop {x : Char} {a b : Text} (h : x ∉ a) :
    (a ++ x :: b).dropWhile (fun c => decide (c ≠ x)) = x :: b := by
  induction a with
  | nil => simp
  | cons c a ih =>
    have hc : c ≠ x := by rintro rfl; exact h (by simp)
    rw [List.cons_append, List.dropWhile_cons_of_pos (by simp [hc])]
    exact ih (fun hm => h (by simp [hm]))

theorem takeWhile_until {x : Char} {a b : Text} (h : x ∉ a) :
    (a ++ x :: b).takeWhile (fun c => decide (c ≠ x)) = a := by
  induction a with
  | nil => simp
  | cons c a ih =>
    have hc : c ≠ x := by rintro rfl; exact h (by simp)
    rw [List.cons_append, List.takeWhile_cons_of_pos (by simp [hc]), ih (fun hm => h (by simp [hm]))]

theorem cValue_text (p : Printer) (v : Leaf) : CValueText p v (cValue p v) := by
  cases v with
  | int i => exact readInt_intText i
  | bool b =>
    cases b
    · show readInt ['0'] = some 0
      decide +kernel
    · show readInt ['1'] = some 1
      decide +kernel
  | flt x =>
    cases x with
    | int i => exact readInt_intText i
    | flt q => rfl
    | inf b => rfl

theorem cValueText_not {p : Printer} (hp : Faithful p) {v : Leaf} {t : Text} (h : CValueText p v t)
    (c : Char)
    (hc : (c == '-' || (digitVal c).isSome || "0123456789.e+-inf".toList.contains c) = false) :
    c ∉ t := by
  simp only [Bool.or_eq_false_iff, beq_eq_false_iff_ne] at hc
  intro hm
  have hr : ∀ i : Int, readInt t = some i → False := by
    intro i hi
    rcases readInt_chars hi _ hm with h | h
    · exact hc.1.1 h
    · rw [hc.1.2] at h; cases h
  have hf : ∀ x, isFloat x = true → t = p.float x → False := by
    intro x hx ht
    rw [ht] at hm
    have := List.contains_iff_mem.2 (hp.chars x hx _ hm)
    rw [hc.2] at this; cases this
  cases v with
  | int i => exact hr i h
  | bool b => exact hr _ h
  | flt x =>
    cases x with
    | int i => exact hr i h
    | flt q => exact hf _ rfl h
    | inf b => exact hf _ rfl h

/-- The initialiser of a clause without blanks. -/
def compact (p : Printer) : Comps → Text
  | .nil => []
  | .leaf k v r => '.' :: ident k ++ '=' :: cValue p v ++ ',' :: compact p r
  | .node k c r => '.' :: ident k ++ '=' :: '{' :: compact p c ++ '}' :: ',' :: compact p r

theorem squeeze_ident {k : String} (h : isNameLower k = true) : squeeze (ident k) = ident k :=
  squeeze_id (not_mem_ident (Or.inl h) ' ' (by decide +kernel))
    (not_mem_ident (Or.inl h) '\n' (by decide +kernel))

theorem squeeze_cons {c : Char} (h : c ≠ ' ' ∧ c ≠ '\n') (t : Text) : squeeze (c :: t) = c :: squeeze t := by
  unfold squeeze
  rw [List.filter_cons_of_pos (by simp [h])]

theorem squeeze_cInit {p : Printer} (hp : Faithful p) : ∀ (c : Comps), GrammarComps c → ∀ l,
    squeeze (cInit p l c) = compact p c
  | .nil, _, _ => rfl
  | .leaf k v r, hg, l => by
    have e1 : squeeze " = ".toList = ['='] := by decide
    have e2 : squeeze ",\n".toList = [','] := by decide
    have hv := cValue_text p v
    rw [cInit, compact, cName_eq (Or.inl hg.1)]
    simp only [squeeze_append, squeeze_indent, squeeze_cons (c := '.') (by decide), squeeze_ident hg.1,
      List.cons_append, e1, e2, squeeze_cInit hp r hg.2,
      squeeze_id (cValueText_not hp hv ' ' (by decide)) (cValueText_not hp hv '\n' (by decide))]
    simp
  | .node k c r, hg, l => by
    have e1 : squeeze " = {\n".toList = ['=', '{'] := by decide
    have e2 : squeeze "},\n".toList = ['}', ','] := by decide
    rw [cInit, compact, cName_eq (Or.inl hg.1)]
    simp only [squeeze_append, squeeze_indent, squeeze_cons (c := '.') (by decide), squeeze_ident hg.1,
      List.cons_append, e1, e2, squeeze_cInit hp r hg.2.2, squeeze_cInit hp c hg.2.1.2]
    simp

/-- The entries printed for a clause. -/
def initOf (p : Printer) : Comps → Init
  | .nil => .nil
  | .leaf k v r => .value (ident k) (cValue p v) (initOf p r)
  | .node k c r => .group (ident k) (initOf p c) (initOf p r)

theorem says_initOf (p : Printer) : ∀ c, Says p c (initOf p c)
  | .nil => .nil
  | .leaf _ v r => .leaf (cValue_text p v) (says_initOf p r)
  | .node _ c r => .node (says_initOf p c) (says_initOf p r)

theorem readEntries_end {fuel : Nat} {t : Text} (h : t.head? ≠ some '.') :
    readEntries (fuel + 1) t = some (.nil, t) := by
  cases t with
  | nil => rfl
  | cons c t =>
    rw [readEntries]
    intro t' ht
    cases ht
    exact h rfl

/-- Steps the reader needs for a clause. -/
def steps : Comps → Nat
  | .nil => 1
  | .leaf _ _ r => 1 + steps r
  | .node _ c r => 1 + steps c + steps r

theorem steps_compact (p : Printer) : ∀ c, steps c ≤ (compact p c).length + 1
  | .nil => by simp [steps, compact]
  | .leaf k v r => by
    have := steps_compact p r
    simp only [steps, compact, List.length_append, List.length_cons]
    omega
  | .node k c r => by
    have := steps_compact p c
    have := steps_compact p r
    simp only [steps, compact, List.length_append, List.length_cons]
    omega

theorem readEntries_compact {p : Printer} (hp : Faithful p) : ∀ (c : Comps), GrammarComps c →
    ∀ (fuel : Nat) (r : Text), steps c ≤ fuel → r.head? ≠ some '.' →
    readEntries fuel (compact p c ++ r) = some (initOf p c, r)
  | .nil, _, fuel, r, hf, hr => by
    obtain ⟨n, rfl⟩ : ∃ n, fuel = n + 1 := ⟨fuel - 1, by simp only [steps] at hf; omega⟩
    exact readEntries_end hr
  | .leaf k v c, hg, fuel, r, hf, hr => by
    obtain ⟨n, rfl⟩ : ∃ n, fuel = n + 1 := ⟨fuel - 1, by simp only [steps] at hf; omega⟩
    have ih := readEntries_compact hp c hg.2 n r (by simp only [steps] at hf; omega) hr
    have hk := not_mem_ident (Or.inl hg.1) '=' (by decide +kernel)
    have hv := cValue_text p v
    have hc := cValueText_not hp hv ',' (by decide)
    have hb := cValueText_not hp hv '{' (by decide)
    have e : compact p (.leaf k v c) ++ r =
        '.' :: (ident k ++ '=' :: (cValue p v ++ ',' :: (compact p c ++ r))) := by
      simp [compact]
    rw [e, readEntries, dropWhile_stop hk, takeWhile_until hk]
    split
    · rename_i r' heq
      simp only [List.cons.injEq, true_and] at heq
      exfalso
      cases hv' : cValue p v with
      | nil => rw [hv'] at heq; simp at heq
      | cons x xs =>
        rw [hv'] at heq hb
        simp only [List.cons_append, List.cons.injEq] at heq
        exact hb (by rw [heq.1]; simp)
    · rename_i r' _ heq
      simp only [List.cons.injEq, true_and] at heq
      subst heq
      rw [dropWhile_stop hc, takeWhile_until hc]
      simp only [ih]
      rfl
    · rename_i h1 h2
      exact absurd rfl (h2 _)
  | .node k d c, hg, fuel, r, hf, hr => by
    obtain ⟨n, rfl⟩ : ∃ n, fuel = n + 1 := ⟨fuel - 1, by simp only [steps] at hf; omega⟩
    have ih := readEntries_compact hp c hg.2.2 n r (by simp only [steps] at hf; omega) hr
    have ih2 := readEntries_compact hp d hg.2.1.2 n ('}' :: ',' :: (compact p c ++ r))
      (by simp only [steps] at hf; omega) (by simp)
    have hk := not_mem_ident (Or.inl hg.1) '=' (by decide +kernel)
    have e : compact p (.node k d c) ++ r =
        '.' :: (ident k ++ '=' :: ('{' :: (compact p d ++ '}' :: ',' :: (compact p c ++ r)))) := by
      simp [compact]
    rw [e, readEntries, dropWhile_stop hk, takeWhile_until hk]
    simp only [ih2, ih]
    rfl

/-- The variable printed for a clause. -/
theorem cInitStart_initialiser {p : Printer} (hp : Faithful p) {n key : String}
    (hn : isNameCapital n = true) (hk : isNameLower key = true) {c : Comps} (hg : GrammarComps c) :
    Initialiser p (n, key, c) (cInitStart p (cName n) key c) := by
  refine ⟨'\n' :: cInit p 1 (.node key c .nil), initOf p c, ?_, ?_, says_initOf p c⟩
  · rw [cInitStart, cName_eq (Or.inr hn)]
    have e1 : " = {\n".toList = " = {".toList ++ ['\n'] := by decide
    have e2 : lowerFirst (ident n) = lowerize (ident n) := rfl
    simp only [cInit, e1, e2, List.append_assoc, List.cons_append, List.nil_append, List.append_nil]
  · have h1 : ('\n' :: cInit p 1 (.node key c .nil)).filter (fun c => decide (c ≠ ' ' ∧ c ≠ '\n')) =
        compact p (.node key c .nil) := by
      have : squeeze ('\n' :: cInit p 1 (.node key c .nil)) = squeeze (cInit p 1 (.node key c .nil)) := by
        unfold squeeze
        rw [List.filter_cons_of_neg (by decide)]
      refine Eq.trans this ?_
      by_cases hc : c = .nil
      · subst hc
        have e1 : squeeze " = {\n".toList = ['=', '{'] := by decide
        have e2 : squeeze "},\n".toList = ['}', ','] := by decide
        rw [cInit, compact, cName_eq (Or.inl hk)]
        simp only [squeeze_append, squeeze_indent, squeeze_cons (c := '.') (by decide), squeeze_ident hk,
          List.cons_append, e1, e2, cInit, compact]
        simp [squeeze]
      · exact squeeze_cInit hp (.node key c .nil) ⟨hk, ⟨hc, hg⟩, trivial⟩ 1
    have h2 : ∀ fuel, steps (.node key c .nil) ≤ fuel →
        readEntries fuel (compact p (.node key c .nil)) = some (initOf p (.node key c .nil), []) := by
      intro fuel hf
      obtain ⟨m, rfl⟩ : ∃ m, fuel = m + 1 := ⟨fuel - 1, by simp only [steps] at hf; omega⟩
      have ih2 := readEntries_compact hp c hg m ['}', ','] (by simp only [steps] at hf; omega) (by simp)
      have ih1 := readEntries_compact hp .nil trivial m [] (by simp only [steps] at hf ⊢; omega) (by simp)
      have hk := not_mem_ident (Or.inl hk) '=' (by decide +kernel)
      have e : compact p (.node key c .nil) = '.' :: (ident key ++ '=' :: ('{' :: (compact p c ++ ['}', ',']))) := by
        simp [compact]
      rw [e, readEntries, dropWhile_stop hk, takeWhile_until hk]
      simp only [ih2]
      have ih1' : readEntries m [] = some (.nil, []) := ih1
      rw [ih1']
      rfl
    unfold readInit
    simp only
    rw [h1, h2 _ (steps_compact p _)]
    rfl

/-! ### Reading back -/

theorem cValueText_num {p : Printer} (hp : Faithful p) {v w : Leaf} {t : Text} (h : CValueText p v t)
    (h' : CValueText p w t) : leafNum v = leafNum w := by
  have key : ∀ (u : Leaf) , CValueText p u t →
      (∃ i, leafNum u = .int i ∧ readInt t = some i) ∨
      (isFloat (leafNum u) = true ∧ t = p.float (leafNum u)) := by
    intro u hu
    cases u with
    | int i => exact Or.inl ⟨i, rfl, hu⟩
    | bool b => exact Or.inl ⟨_, rfl, hu⟩
    | flt x =>
      cases x with
      | int i => exact Or.inl ⟨i, rfl, hu⟩
      | flt q => exact Or.inr ⟨rfl, hu⟩
      | inf b => exact Or.inr ⟨rfl, hu⟩
  rcases key v h with ⟨i, e1, e2⟩ | ⟨e1, e2⟩ <;> rcases key w h' with ⟨j, e3, e4⟩ | ⟨e3, e4⟩
  · rw [e2] at e4
    cases e4
    rw [e1, e3]
  · rw [e4, hp.notInt _ e3] at e2
    cases e2
  · rw [e2, hp.notInt _ e1] at e4
    cases e4
  · exact hp.inj _ _ e1 e3 (e2.symm.trans e4)

theorem says_same {p : Printer} (hp : Faithful p) {c : Comps} {i : Init} (h : Says p c i) :
    ∀ {d : Comps}, GrammarComps c → GrammarComps d → Says p d i → SameClause c d := by
  induction h with
  | nil => intro d _ _ h'; cases h'; exact .nil
  | @leaf k v r t i hv _ ih =>
    intro d hc hd h'
    generalize hk : ident k = nk at h'
    cases h' with
    | @leaf k' w r' _ _ hw h2 =>
      have hkk : k = k' := ident_inj (Or.inl hc.1) (Or.inl hd.1) hk
      subst hkk
      exact .leaf (cValueText_num hp hv hw) (ih hc.2 hd.2 h2)
  | @node k c r i j _ _ ih1 ih2 =>
    intro d hc hd h'
    generalize hk : ident k = nk at h'
    cases h' with
    | @node k' c' r' _ _ h1 h2 =>
      have hkk : k = k' := ident_inj (Or.inl hc.1) (Or.inl hd.1) hk
      subst hkk
      exact .node (ih1 hc.2.1.2 hd.2.1.2 h1) (ih2 hc.2.2 hd.2.2 h2)

/-! ### The C file of a module -/

/-- The include line of a module. -/
def ownInclude (mod : Module) : Text := "#include \"".toList ++ cFilename mod.name ++ ".h\"".toList

theorem convertMembers_include {p : Printer} {ds simple : List Def} {mod : Module} {cn : Text}
    {ms : List Member} : ∀ {cd : CData} {r : List CLine × CData},
    convertMembers (cHandler p) ds simple mod cn ms cd = .ok r →
    r.2.initInclude = if ms.all (·.comps.isNone) then cd.initInclude else ownInclude mod := by
  induction ms with
  | nil =>
    intro cd r h
    simp only [convertMembers, Except.ok.injEq] at h
    subst h
    rfl
  | cons m ms ih =>
    intro cd r h
    simp only [convertMembers, bind_ok] at h
    obtain ⟨f, hf, cd1, hc, r1, hr1, hr2⟩ := h
    simp only [Except.ok.injEq] at hr2
    subst hr2
    have := ih hr1
    simp only
    rw [this]
    cases hm : m.comps with
    | none =>
      rw [hm] at hc
      simp only [Except.ok.injEq] at hc
      subst hc
      simp [hm]
    | some c =>
      rw [hm] at hc
      simp only [bind_ok, Except.ok.injEq] at hc
      obtain ⟨e, he, rfl⟩ := hc
      have hi : e.initInclude = ownInclude mod := by
        unfold cHandler at he
        rw [hm] at he
        cases he
        rfl
      rw [List.all_cons, hm]
      simp only [Option.isNone_some, Bool.false_and, CData.extend, hi, ite_self, Bool.false_eq_true, if_false]

theorem clausesOf_nil {n : String} {c : Option Comment} {ms : List Member} :
    clausesOf (.seq n c ms) = [] ↔ ms.all (·.comps.isNone) = true := by
  simp only [clausesOf, List.filterMap_eq_nil_iff, List.all_eq_true, Option.map_eq_none_iff,
    Option.isNone_iff_eq_none]

/-- The last definition of a list that is not a simple one. -/
def lastBlock (l : List Def) : Option Def := (l.filter (fun d => !d.isSimple)).getLast?

theorem convertDefs_include {p : Printer} {out : Text} {b : Bundle} {ds simple : List Def} {mod : Module}
    {l : List Def} : ∀ {cd cd' : CData}, convertDefs (cBackend p out b) ds simple mod cd l = .ok cd' →
    cd'.initInclude = match lastBlock l with
      | none => cd.initInclude
      | some d => if clausesOf d = [] then [] else ownInclude mod := by
  induction l with
  | nil =>
    intro cd cd' h
    simp only [convertDefs, Except.ok.injEq] at h
    subst h
    rfl
  | cons d l ih =>
    intro cd cd' h
    simp only [convertDefs, bind_ok] at h
    obtain ⟨c1, h1, h2⟩ := h
    rw [ih h2]
    have hstep : d.isSimple = false → c1.initInclude = if clausesOf d = [] then [] else ownInclude mod := by
      intro hs
      cases d with
      | simple => cases hs
      | enum =>
        simp only [convertDef, Except.ok.injEq] at h1
        subst h1
        rfl
      | choice =>
        simp only [convertDef, Except.ok.injEq] at h1
        subst h1
        rfl
      | seq n c ms =>
        simp only [convertDef, convertSequence, bind_ok, Except.ok.injEq] at h1
        obtain ⟨e, ⟨r, hr, rfl⟩, rfl⟩ := h1
        have := convertMembers_include hr
        simp only [CData.extend, this]
        by_cases hc : ms.all (·.comps.isNone) = true
        · rw [if_pos hc, if_pos (clausesOf_nil.2 hc)]
        · rw [if_neg hc, if_neg (fun h => hc (clausesOf_nil.1 h))]
    unfold lastBlock
    by_cases hs : d.isSimple = true
    · rw [List.filter_cons_of_neg (by simp [hs])]
      have : c1.initInclude = cd.initInclude := by
        cases d with
        | simple =>
          simp only [convertDef, bind_ok, Except.ok.injEq] at h1
          obtain ⟨_, _, rfl⟩ := h1
          rfl
        | enum => cases hs
        | choice => cases hs
        | seq => cases hs
      rw [this]
    · have hs' : d.isSimple = false := by simpa using hs
      rw [List.filter_cons_of_pos (by simp [hs'])]
      cases hl : l.filter (fun d => !d.isSimple) with
      | nil => simp only [List.getLast?_nil, List.getLast?_singleton]; exact hstep hs'
      | cons x xs =>
        rw [List.getLast?_cons_cons]
        cases hx : (x :: xs).getLast? with
        | none => simp at hx
        | some y => rfl

/-- The text of the variable for a clause. -/
def clauseText (p : Printer) (x : String × String × Comps) : Text := cInitStart p (cName x.1) x.2.1 x.2.2

/-- The variables contributed by one definition. -/
theorem defPart_inits {p : Printer} {out : Text} {b : Bundle} {ds simple : List Def}
    {mod : Module} {d : Def} {q : CData} (h : defPart (cBackend p out b) ds simple mod d = .ok q) :
    q.inits = (clausesOf d).map (clauseText p) := by
  cases d with
  | simple n c t =>
    simp only [defPart, bind_ok, Except.ok.injEq] at h
    obtain ⟨_, _, rfl⟩ := h
    rfl
  | enum n c its =>
    simp only [defPart, convertEnum, Except.ok.injEq] at h
    subst h
    rfl
  | choice n c ms =>
    simp only [defPart, convertChoice, Except.ok.injEq] at h
    subst h
    rfl
  | seq n c ms =>
    simp only [defPart, convertSequence, bind_ok, Except.ok.injEq] at h
    obtain ⟨r, hr, rfl⟩ := h
    obtain ⟨rs, h1, h1', h3⟩ := convertMembers_ok hr
    simp only [h3.inits, List.nil_append, clausesOf, List.flatMap_map]
    clear h1' h3 hr
    induction h1 with
    | nil => rfl
    | @cons m x ms rs hx _ ih =>
      rw [List.flatMap_cons, ih, List.filterMap_cons]
      have h2 := hx.2
      unfold memberPart at h2
      cases hc : m.comps with
      | none =>
        rw [hc] at h2
        simp only [Except.ok.injEq] at h2
        rw [← h2]
        rfl
      | some cs =>
        rw [hc] at h2
        simp only [cBackend, cHandler, hc, Except.ok.injEq] at h2
        rw [← h2]
        rfl

theorem clauses_initialisers {p : Printer} (hp : Faithful p) {l : List Def} (hg : ∀ d ∈ l, GrammarDef d) :
    All2 (Initialiser p) (l.flatMap clausesOf) ((l.flatMap clausesOf).map (clauseText p)) := by
  refine all2_map_self fun x hx => ?_
  obtain ⟨d, hd, hxd⟩ := List.mem_flatMap.1 hx
  have hg := hg d hd
  cases d with
  | seq n c ms =>
    simp only [clausesOf, List.mem_filterMap, Option.map_eq_some_iff] at hxd
    obtain ⟨m, hm, cs, hc, rfl⟩ := hxd
    exact cInitStart_initialiser hp hg.1 (hg.2.2 m hm).1 ((hg.2.2 m hm).2.2 cs hc).2
  | _ => cases hxd

/-- The C file of a module. -/
theorem source_file {fuel : Nat} {p : Printer} {raw : List Module} {cfg : List String}
    {out : Text} (hg : ∀ m ∈ raw, GrammarModule m) {b : Bundle} (hb : buildFromConfig raw cfg = .ok b)
    (hr : (runC fuel p raw cfg out).result = .ok ()) {bm : BMod} (hm : bm ∈ b.mods) (fs : Files) :
    ∃ sorted, sortDefs fuel bm.mod = some sorted ∧ sorted.Perm bm.mod.defs ∧
      HasText ((runC fuel p raw cfg out).apply fs) (inDir out (ident bm.mod.name ++ ".c".toList))
        (sourceFile (headerDoc bm.mod)
          (match lastBlock sorted with
            | none => none
            | some d => if clausesOf d = [] then none else some (ident bm.mod.name ++ ".h".toList))
          ((sorted.flatMap clausesOf).map (clauseText p))) := by
  have hbt := buildFromTexts_of_config hb
  have hmm : bm.mod ∈ b.modules := List.mem_map.2 ⟨bm, hm, rfl⟩
  have hn := accepted_names hg hbt _ hmm
  obtain ⟨cd, h1, h2⟩ := run_module hr hb hm
  obtain ⟨sorted, hs, hpm, ps, h3, cd1, hj, hcv, rfl⟩ := moduleData_ok h1
  refine ⟨sorted, hs, hpm, ?_⟩
  · have hin : cd1.inits = (sorted.flatMap clausesOf).map (clauseText p) := by
      simp only [hj.inits, List.nil_append]
      clear hcv hj hpm hs h1
      induction h3 with
      | nil => rfl
      | cons hq _ ih => rw [List.flatMap_cons, List.flatMap_cons, List.map_append, ih, defPart_inits hq]
    rw [← hin]
    have hw := apply_get (c_noAppend fuel p raw cfg out) (C27_c fuel p raw hg cfg out) fs
      (h2 _ (by rw [printed_c _ _ _ _ _ hn]; exact List.Mem.tail _ (List.Mem.head _)))
    have hi := convertDefs_include hcv
    have e : sourceText { cd1 with headerComment := headerDoc bm.mod } = sourceFile (headerDoc bm.mod)
          (match lastBlock sorted with
            | none => none
            | some d => if clausesOf d = [] then none else some (ident bm.mod.name ++ ".h".toList))
          cd1.inits := by
      unfold sourceText sourceFile fileHeader
      simp only [hi]
      have e0 : "\n*/\n\n".toList = "\n*/\n".toList ++ ['\n'] := by decide
      rw [e0]
      have hne : ownInclude bm.mod ≠ [] := by
        unfold ownInclude
        have : "#include \"".toList ≠ [] := by decide
        generalize "#include \"".toList = a at this ⊢
        generalize ".h\"".toList = a2
        simp [this]
      have ho : ownInclude bm.mod ++ "\n\n".toList =
          "#include \"".toList ++ (ident bm.mod.name ++ ".h".toList) ++ "\"\n\n".toList := by
        have e3 : ".h\"".toList = ".h".toList ++ ['"'] := by decide
        have e4 : "\"\n\n".toList = '"' :: "\n\n".toList := by decide
        unfold ownInclude cFilename
        rw [e3, e4, cName_eq (Or.inl hn)]
        generalize "#include \"".toList = a
        generalize ".h".toList = a2
        generalize "\n\n".toList = a3
        simp
      generalize "/*\nThis file was autogenerated from ASN.1 model.".toList = a
      generalize "\n*/\n".toList = a2
      generalize (if headerDoc bm.mod = [] then [] else "\n\n".toList ++ headerDoc bm.mod) = a3
      cases lastBlock sorted with
      | none => simp
      | some d =>
        simp only
        by_cases hc : clausesOf d = []
        · simp [hc]
        · rw [if_neg hc, if_neg hc, if_neg hne, ho]
          simp
    unfold HasText
    rw [hw, e]
    rfl

end Apg
