import Verif.Lemmas.SyntaxBlock

/-!
# Definitions and modules as written in the syntax are read
-/

namespace Apg

open Parse Spec

/-! ### Enumerations -/

theorem posOpt_syntax {i : Int} {s t : Text} (h : PosSyntax i s) (ht : After (· ≠ '(') t) :
    posOpt (s ++ t) = (i, t) := by
  unfold posOpt
  cases h with
  | none =>
    have : inParens intLit t = none := by
      unfold inParens; rw [tok_none ht]; rfl
    rw [List.nil_append, this]; rfl
  | some h₁ h₂ h₃ hi =>
    rw [inParens_some h₁ h₂ h₃ (intSyntax_noWs hi) (intLit_syntax hi
      (space_cons_head (P := fun c => asciiDigit c = none) h₃ (by decide) (by decide) (by decide)
        (by decide) (by decide)))]
    rfl

theorem pos_nameEnd {i : Int} {s t : Text} (h : PosSyntax i s) (ht : NameEnd t) :
    NameEnd (s ++ t) := by
  cases h with
  | none => exact ht
  | some h₁ _ _ _ =>
    simp only [List.append_assoc, List.cons_append]
    exact nameEnd_after (After.mk h₁ (by decide) (by decide +kernel) _)

theorem enum_after {its : List EnumItem} {s : Text} (h : EnumSyntax strictStyle its s) (t : Text) :
    After (fun c => ('a' ≤ c && c ≤ 'z') = true) (s ++ t) := by
  cases h with
  | last hw hk _ _ => simp only [List.append_assoc]; exact after_lower hk hw
  | comma hw hk _ _ _ _ => simp only [List.append_assoc]; exact after_lower hk hw

theorem nameEnd_brace {t : Text} (h : After (· = '}') t) : NameEnd t :=
  nameEnd_after (h.imp fun c h => by subst h; decide +kernel)

theorem enum_syntax {its : List EnumItem} {s : Text} (h : EnumSyntax strictStyle its s) :
    ∀ n x t, s.length ≤ n → Space x → After (· = '}') t →
      ∃ y, Space y ∧
        itemsN enumItemNotLast enumItemLast n (x ++ (s ++ t)) = some (its, y ++ t) := by
  induction h with
  | @last k i w s c sc hw hk hs hc =>
    intro n x t hn hx ht
    obtain ⟨z, hz, hcm⟩ := optComment_syntax hc (ht.imp fun c h => by subst h; decide)
    have hN := nameLower_syntax (t := s ++ (sc ++ t)) hk (space_append hx hw)
      (pos_nameEnd hs (optComment_nameEnd hc (nameEnd_brace ht)))
    have hP := posOpt_syntax (t := sc ++ t) hs
      (optComment_after hc (by decide) (ht.imp fun c h => by subst h; decide))
    have hco : tok [','] (sc ++ t) = none :=
      tok_none (optComment_after hc (by decide) (ht.imp fun c h => by subst h; decide))
    refine ⟨z, hz, ?_⟩
    simp only [List.append_assoc] at hN ⊢
    refine itemsN_last ?_ ?_
    · unfold enumItemNotLast
      simp only [Option.bind_eq_bind, Option.bind_some, hN, hP, hco, Option.bind_none]
    · unfold enumItemLast
      simp only [Option.bind_eq_bind, Option.bind_some, hN, hP, hcm, Option.pure_def]
  | @comma k i w s w' c sc its u hw hk hs hw' hc hms ih =>
    intro n x t hn hx ht
    cases n with
    | zero => have := name_ne_nil hk; simp at hn
    | succ n =>
      have hl : u.length ≤ n := by have := name_ne_nil hk; simp at hn; omega
      obtain ⟨z, hz, hcm⟩ := optComment_syntax (t := u ++ t) hc
        ((enum_after hms t).imp fun c h => lower_ne h (by decide))
      have hA : After (· = ',') (w' ++ ([','] ++ (sc ++ (u ++ t)))) :=
        After.mk (P := (· = ',')) (c := ',') hw' (by decide) rfl _
      have hN := nameLower_syntax (t := s ++ (w' ++ ([','] ++ (sc ++ (u ++ t))))) hk
        (space_append hx hw)
        (pos_nameEnd hs (nameEnd_after (hA.imp fun c h => by subst h; decide +kernel)))
      have hP := posOpt_syntax (t := w' ++ ([','] ++ (sc ++ (u ++ t)))) hs
        (hA.imp fun c h => by subst h; decide)
      obtain ⟨v, hv, h3⟩ := ih n z t hl hz ht
      refine ⟨v, hv, ?_⟩
      simp only [List.append_assoc] at hN ⊢
      refine itemsN_cons ?_ h3
      unfold enumItemNotLast
      simp only [Option.bind_eq_bind, Option.bind_some, hN, hP, hcm,
        tok_lit hw' (show isWs ',' = false by decide), Option.pure_def]

/-! ### Definitions -/

theorem tok_pre_none {w pre k t : Text} {p a b : Char} (hw : Space w) (hp : isWs p = false)
    (h : a ≠ b) : tok (p :: (pre ++ a :: k)) (w ++ (p :: (pre ++ b :: t))) = none := by
  unfold tok
  rw [skipWs_space hw, skipWs_cons hp]
  have : ∀ pre : Text, lit (pre ++ a :: k) (pre ++ b :: t) = none := by
    intro pre
    induction pre with
    | nil => exact lit_cons_ne h _ _
    | cons c pre ih =>
      show lit (c :: _) (c :: _) = none
      unfold lit; rw [if_pos rfl]; exact ih
  exact this (p :: pre)

theorem memberBlock_some {o : Text} {n : String} {w w' sc s w'' t : Text} {c : Option Comment}
    {ms : List Member} {a : Char} {k : Text} (ho : o = a :: k) (ha : isWs a = false)
    (ha' : isNameChar a = false ∧ a ≠ '-') (hw : Space w)
    (hn : isNameCapital n = true) (hw' : Space w') (hc : OptComment strictStyle c sc)
    (hm : MembersSyntax strictStyle ms s) (hw'' : Space w'') :
    ∃ l, l.map (·.1) = ms ∧ CleanSides (memberSides l) ∧
      memberBlock o (w ++ (n.toList ++ (w' ++ (o ++ (sc ++ (s ++ (w'' ++ (['}'] ++ t)))))))) =
        some ((n, c, l), t) := by
  have hB : After (· = '}') (w'' ++ (['}'] ++ t)) :=
    After.mk (P := (· = '}')) (c := '}') hw'' (by decide) rfl _
  obtain ⟨z, hz, hcm⟩ := optComment_syntax (t := s ++ (w'' ++ (['}'] ++ t))) hc
    ((members_after hm _).imp fun c h => lower_ne h (by decide))
  obtain ⟨l, y, hy, h1, h2, h3⟩ := members_syntax hm
    (z ++ (s ++ (w'' ++ (['}'] ++ t)))).length z (w'' ++ (['}'] ++ t))
    (by simp only [List.length_append]; omega) hz hB
  refine ⟨l, h1, h2, ?_⟩
  have hN := nameCapital_syntax (t := w' ++ (o ++ (sc ++ (s ++ (w'' ++ (['}'] ++ t)))))) hn hw
    (by rw [ho]; exact nameEnd_after (After.mk hw' ha ha' _))
  have hO : tok o (w' ++ (o ++ (sc ++ (s ++ (w'' ++ (['}'] ++ t)))))) =
      some (sc ++ (s ++ (w'' ++ (['}'] ++ t)))) := by
    rw [ho]; exact tok_lit hw' ha k _
  have hE : tok ['}'] (y ++ (w'' ++ (['}'] ++ t))) = some t := by
    rw [← List.append_assoc]; exact tok_lit (space_append hy hw'') (by decide) [] _
  unfold memberBlock
  simp only [Option.bind_eq_bind, Option.bind_some, hN, hO, hcm, items_eq, h3, hE, Option.pure_def]

/-- A block is not read when the words after the name are others. -/
theorem memberBlock_none {o : Text} {n : String} {w u : Text} (hw : Space w)
    (hn : isNameCapital n = true) (hu : NameEnd u) (ho : tok o u = none) :
    memberBlock o (w ++ (n.toList ++ u)) = none := by
  unfold memberBlock
  rw [nameCapital_syntax hn hw hu]
  simp only [Option.bind_eq_bind, Option.bind_some, ho, Option.bind_none]

theorem enumeratedDef_none {n : String} {w u : Text} (hw : Space w)
    (hn : isNameCapital n = true) (hu : NameEnd u) (ho : tok "::= ENUMERATED {".toList u = none) :
    enumeratedDef (w ++ (n.toList ++ u)) = none := by
  unfold enumeratedDef
  rw [nameCapital_syntax hn hw hu]
  simp only [Option.bind_eq_bind, Option.bind_some, ho, Option.bind_none]

/-- The words of the blocks are not the beginning of a type. -/
theorem type_not_open {y : AType} {s t : Text} (h : TypeSyntax strictStyle y s) (ht : TypeEnd t) :
    lit [' ', 'C', 'H', 'O', 'I', 'C', 'E', ' ', '{'] (s ++ t) = none ∧
    lit [' ', 'E', 'N', 'U', 'M', 'E', 'R', 'A', 'T', 'E', 'D', ' ', '{'] (s ++ t) = none ∧
    lit [' ', 'S', 'E', 'Q', 'U', 'E', 'N', 'C', 'E', ' ', '{'] (s ++ t) = none := by
  cases h
  case real => rw [lReal]; exact ⟨lit_ne2 (by decide), lit_ne2 (by decide), lit_ne2 (by decide)⟩
  case realRange => rw [lRealP]; exact ⟨lit_ne2 (by decide), lit_ne2 (by decide), lit_ne2 (by decide)⟩
  case integer => rw [lInteger]; exact ⟨lit_ne2 (by decide), lit_ne2 (by decide), lit_ne2 (by decide)⟩
  case integerRange =>
    rw [lIntegerP]; exact ⟨lit_ne2 (by decide), lit_ne2 (by decide), lit_ne2 (by decide)⟩
  case null => rw [lNull]; exact ⟨lit_ne2 (by decide), lit_ne2 (by decide), lit_ne2 (by decide)⟩
  case boolean => rw [lBoolean]; exact ⟨lit_ne2 (by decide), lit_ne2 (by decide), lit_ne2 (by decide)⟩
  case ia5 => rw [lIa5]; exact ⟨lit_ne2 (by decide), lit_ne2 (by decide), lit_ne2 (by decide)⟩
  case numeric => rw [lNumeric]; exact ⟨lit_ne2 (by decide), lit_ne2 (by decide), lit_ne2 (by decide)⟩
  case arr =>
    rw [lArray]
    refine ⟨lit_ne2 (by decide), lit_ne2 (by decide), ?_⟩
    simp [lit]
  case named n hn =>
    have w : ∀ {k l : Text} {b u : Char}, k = b :: ([] ++ u :: l) → isUp u = true →
        lit (' ' :: k) (' ' :: n.toList ++ t) = none := fun hk hu => by
      show lit (' ' :: _) (' ' :: (n.toList ++ t)) = none
      rw [lit_blank]
      exact lit_word hk (fun c hc => by cases hc) hu hn (typeEnd_wordEnd ht)
    exact ⟨w rfl (by decide), w rfl (by decide), w rfl (by decide)⟩

/-- The text goes on with a capital letter. -/
def Capital (t : Text) : Prop := After (fun c => isUp c = true) t

theorem capital_head_ne {c d : Char} (h : isUp c = true) (hd : isUp d = false) : c ≠ d := fun e => by
  subst e; rw [hd] at h; cases h

theorem def_after {d : Def} {s : Text} (h : DefSyntax strictStyle d s) (t : Text) :
    Capital (s ++ t) := by
  cases h with
  | seq hw hk => simp only [List.append_assoc]; exact after_capital hk hw
  | choice hw hk => simp only [List.append_assoc]; exact after_capital hk hw
  | enum hw hk => simp only [List.append_assoc]; exact after_capital hk hw
  | simple hw hk => simp only [List.append_assoc]; exact after_capital hk hw

theorem nameEnd_colon {w t : Text} (hw : Space w) : NameEnd (w ++ (':' :: t)) :=
  nameEnd_after (After.mk hw (by decide) (by decide +kernel) _)

theorem tok_open_none {w k s : Text} (hw : Space w) (h : lit k s = none) :
    tok (':' :: ':' :: '=' :: k) (w ++ (':' :: ':' :: '=' :: s)) = none := by
  unfold tok
  rw [skipWs_space hw, skipWs_cons (by decide)]
  show lit (':' :: _) _ = none
  unfold lit; rw [if_pos rfl]
  unfold lit; rw [if_pos rfl]
  unfold lit; rw [if_pos rfl]
  exact h

theorem def_syntax {d : Def} {s : Text} (h : DefSyntax strictStyle d s) {x t : Text} (hx : Space x)
    (ht : Capital t) : ∃ sd y, Space y ∧ CleanSides sd ∧
      definition (x ++ (s ++ t)) = some ((d, sd), y ++ t) := by
  cases h with
  | @seq n w w' c sc ms s w'' hw hn hw' hc hm hw'' =>
    obtain ⟨l, h1, h2, h3⟩ := memberBlock_some (t := t) (o := "::= SEQUENCE {".toList) lSequence
      (by decide) (by decide +kernel) (space_append hx hw) hn hw' hc hm hw''
    refine ⟨memberSides l, [], space_nil, h2, ?_⟩
    generalize hR : sc ++ (s ++ (w'' ++ (['}'] ++ t))) = R at h3
    have e : x ++ (w ++ n.toList ++ w' ++ "::= SEQUENCE {".toList ++ sc ++ s ++ w'' ++ ['}'] ++ t) =
        (x ++ w) ++ (n.toList ++ (w' ++ ("::= SEQUENCE {".toList ++ R))) := by
      rw [← hR]; simp only [List.append_assoc]
    have hE : NameEnd (w' ++ ("::= SEQUENCE {".toList ++ R)) := by
      rw [lSequence]; exact nameEnd_colon hw'
    have hS : w' ++ ("::= SEQUENCE {".toList ++ R) = w' ++ (':' :: ([':', '=', ' '] ++ 'S' ::
        (['E', 'Q', 'U', 'E', 'N', 'C', 'E', ' ', '{'] ++ R))) := by rw [lSequence]; rfl
    rw [e]
    unfold definition choiceDef sequenceDef
    rw [memberBlock_none (space_append hx hw) hn hE (by
        rw [lChoice, hS]
        exact tok_pre_none (pre := [':', '=', ' ']) hw' (by decide) (by decide)),
      enumeratedDef_none (space_append hx hw) hn hE (by
        rw [lEnumerated, hS]
        exact tok_pre_none (pre := [':', '=', ' ']) hw' (by decide) (by decide)), h3, ← h1]
    rfl
  | @choice n w w' c sc ms s w'' hw hn hw' hc hm hw'' =>
    obtain ⟨l, h1, h2, h3⟩ := memberBlock_some (t := t) (o := "::= CHOICE {".toList) lChoice
      (by decide) (by decide +kernel) (space_append hx hw) hn hw' hc hm hw''
    refine ⟨memberSides l, [], space_nil, h2, ?_⟩
    have e : x ++ (w ++ n.toList ++ w' ++ "::= CHOICE {".toList ++ sc ++ s ++ w'' ++ ['}'] ++ t) =
        (x ++ w) ++ (n.toList ++ (w' ++ ("::= CHOICE {".toList ++ (sc ++ (s ++ (w'' ++ (['}'] ++ t))))))) := by
      simp only [List.append_assoc]
    rw [e]
    unfold definition choiceDef
    rw [h3, ← h1]
    rfl
  | @enum n w w' c sc its s w'' hw hn hw' hc hm hw'' =>
    have hB : After (· = '}') (w'' ++ (['}'] ++ t)) :=
      After.mk (P := (· = '}')) (c := '}') hw'' (by decide) rfl _
    obtain ⟨z, hz, hcm⟩ := optComment_syntax (t := s ++ (w'' ++ (['}'] ++ t))) hc
      ((enum_after hm _).imp fun c h => lower_ne h (by decide))
    obtain ⟨y, hy, h3⟩ := enum_syntax hm
      (z ++ (s ++ (w'' ++ (['}'] ++ t)))).length z (w'' ++ (['}'] ++ t))
      (by simp only [List.length_append]; omega) hz hB
    refine ⟨[], [], space_nil, (fun _ h => by cases h), ?_⟩
    generalize hR : sc ++ (s ++ (w'' ++ (['}'] ++ t))) = R at hcm
    have e : x ++ (w ++ n.toList ++ w' ++ "::= ENUMERATED {".toList ++ sc ++ s ++ w'' ++ ['}'] ++ t) =
        (x ++ w) ++ (n.toList ++ (w' ++ ("::= ENUMERATED {".toList ++ R))) := by
      rw [← hR]; simp only [List.append_assoc]
    have hE : NameEnd (w' ++ ("::= ENUMERATED {".toList ++ R)) := by
      rw [lEnumerated]; exact nameEnd_colon hw'
    have hN := nameCapital_syntax hn (space_append hx hw) hE
    have hS : w' ++ ("::= ENUMERATED {".toList ++ R) = w' ++ (':' :: ([':', '=', ' '] ++ 'E' ::
        (['N', 'U', 'M', 'E', 'R', 'A', 'T', 'E', 'D', ' ', '{'] ++ R))) := by
      rw [lEnumerated]; rfl
    have hO : tok "::= ENUMERATED {".toList (w' ++ ("::= ENUMERATED {".toList ++ R)) = some R := by
      rw [lEnumerated]; exact tok_lit hw' (by decide) _ R
    have hC : tok ['}'] (y ++ (w'' ++ (['}'] ++ t))) = some t := by
      rw [← List.append_assoc]; exact tok_lit (space_append hy hw'') (by decide) [] _
    rw [e]
    have hEn : enumeratedDef (x ++ w ++ (n.toList ++ (w' ++ ("::= ENUMERATED {".toList ++ R)))) =
        some ((.enum n c its, []), t) := by
      unfold enumeratedDef
      simp only [Option.bind_eq_bind, Option.bind_some, hN, hO, hcm, items_eq, h3, hC, Option.pure_def]
    unfold definition choiceDef
    rw [memberBlock_none (space_append hx hw) hn hE (by
        rw [lChoice, hS]
        exact tok_pre_none (pre := [':', '=', ' ']) hw' (by decide) (by decide)), hEn]
    rfl
  | @simple n w w' y s c sc w'' hw hn hw' hs hc hw'' hne =>
    have htE : TypeEnd (sc ++ (w'' ++ t)) := by
      cases hc with
      | none =>
        rw [List.nil_append]
        have := hne trivial rfl
        cases w'' with
        | nil => exact absurd rfl this
        | cons d w'' =>
          exact .inr ⟨d, _, rfl, .inl ((isWs_iff d).mpr (hw'' d (List.Mem.head _)))⟩
      | some h =>
        obtain ⟨b, r, hb, e⟩ := comment_after h (w'' ++ t)
        rw [e]
        cases b with
        | nil => exact .inr ⟨'-', _, rfl, .inr (.inr (.inr (.inl ⟨rfl, _, rfl⟩)))⟩
        | cons d b => exact .inr ⟨d, _, rfl, .inl ((isWs_iff d).mpr (.inl (hb d (List.Mem.head _))))⟩
    have hA : After (· ≠ '-') (w'' ++ t) :=
      After.space (ht.imp fun c h => capital_head_ne h (by decide)) hw''
    obtain ⟨z, hz, hcm⟩ := optComment_syntax hc hA
    have hT := typeOf_syntax hs htE
    obtain ⟨o1, o2, o3⟩ := type_not_open hs htE
    generalize hR : s ++ (sc ++ (w'' ++ t)) = R at hT o1 o2 o3
    have e : x ++ (w ++ n.toList ++ w' ++ "::=".toList ++ s ++ sc ++ w'' ++ t) =
        (x ++ w) ++ (n.toList ++ (w' ++ (':' :: ':' :: '=' :: R))) := by
      rw [← hR, lAssign]; simp
    have hE : NameEnd (w' ++ (':' :: ':' :: '=' :: R)) := nameEnd_colon hw'
    have hN := nameCapital_syntax hn (space_append hx hw) hE
    have hO : tok "::=".toList (w' ++ (':' :: ':' :: '=' :: R)) = some R := by
      rw [lAssign]; exact tok_lit hw' (by decide) [':', '='] R
    refine ⟨[], z ++ w'', space_append hz hw'', (fun _ h => by cases h), ?_⟩
    rw [e]
    have hSi : simpleDef (x ++ w ++ (n.toList ++ (w' ++ (':' :: ':' :: '=' :: R)))) =
        some ((.simple n c y, []), z ++ (w'' ++ t)) := by
      unfold simpleDef
      simp only [Option.bind_eq_bind, Option.bind_some, hN, hO, hT, hcm, Option.pure_def]
    unfold definition choiceDef sequenceDef
    rw [memberBlock_none (space_append hx hw) hn hE (by rw [lChoice]; exact tok_open_none hw' o1),
      enumeratedDef_none (space_append hx hw) hn hE
        (by rw [lEnumerated]; exact tok_open_none hw' o2),
      memberBlock_none (space_append hx hw) hn hE (by rw [lSequence]; exact tok_open_none hw' o3),
      hSi, List.append_assoc]
    rfl

/-! ### Lists of definitions -/

theorem plus_eq {α : Type} (p : Text → Option (α × Text)) {t u : Text} {a : α}
    (h : p t = some (a, u)) : plus p t = some (a :: (many p u.length u).1, (many p u.length u).2) := by
  show (p t).bind _ = _
  rw [h]; rfl

theorem definition_end {x r : Text} (hx : Space x) : definition (x ++ ("END".toList ++ r)) = none := by
  have hn : nameCapital (skipWs (x ++ ("END".toList ++ r))) = some ("E", 'N' :: 'D' :: r) := by
    rw [skipWs_space hx, lEnd]
    show nameCapital (skipWs ('E' :: 'N' :: 'D' :: r)) = _
    rw [skipWs_cons (by decide), nameCapital_cons, if_pos (by decide)]
    have : nameRest ('N' :: 'D' :: r) = ([], 'N' :: 'D' :: r) :=
      nameEnd_cons (by decide +kernel) (by decide) _
    rw [this]
  have ho : ∀ k, tok (':' :: k) ('N' :: 'D' :: r) = none := fun k =>
    tok_none (After.mk (w := []) space_nil (by decide) (by decide) _)
  unfold definition choiceDef sequenceDef memberBlock enumeratedDef simpleDef
  rw [hn, lChoice, lEnumerated, lSequence, lAssign]
  simp only [Option.bind_eq_bind, Option.bind_some, ho, Option.bind_none, Option.map_none,
    Option.none_or]

theorem defs_after {ds : List Def} {s : Text} (h : DefsSyntax strictStyle ds s) (t : Text) :
    Capital (s ++ t) := by
  cases h with
  | one h => exact def_after h t
  | cons h _ => rw [List.append_assoc]; exact def_after h _

theorem end_capital {w r : Text} (hw : Space w) : Capital (w ++ ("END".toList ++ r)) := by
  rw [lEnd]; exact After.mk (c := 'E') hw (by decide) (by decide) _

theorem defs_syntax {ds : List Def} {s : Text} (h : DefsSyntax strictStyle ds s) {w r : Text}
    (hw : Space w) : ∀ n x, s.length ≤ n → Space x →
      ∃ l y, Space y ∧ l.map (·.1) = ds ∧ CleanSides (l.flatMap (·.2)) ∧
        many definition n (x ++ (s ++ (w ++ ("END".toList ++ r)))) =
          (l, y ++ (w ++ ("END".toList ++ r))) := by
  induction h with
  | @one d s h =>
    intro n x hn hx
    obtain ⟨sd, y, hy, hsd, h1⟩ := def_syntax h (t := w ++ ("END".toList ++ r)) hx (end_capital hw)
    cases n with
    | zero =>
      have := def_after h []
      have : s = [] := List.length_eq_zero_iff.mp (by omega)
      subst this
      obtain ⟨c, r, h, _⟩ := def_after h []
      cases h
    | succ n =>
      refine ⟨[(d, sd)], y, hy, rfl, by simpa using hsd, ?_⟩
      rw [many_some h1, many_none]
      rw [← List.append_assoc]; exact definition_end (space_append hy hw)
  | @cons d s ds u h hds ih =>
    intro n x hn hx
    obtain ⟨sd, y, hy, hsd, h1⟩ := def_syntax h (t := u ++ (w ++ ("END".toList ++ r))) hx
      (defs_after hds _)
    have hpos : 1 ≤ s.length := by
      cases s with
      | nil =>
        obtain ⟨c, r, h, _⟩ := def_after h []
        cases h
      | cons => simp
    cases n with
    | zero => simp only [List.length_append] at hn; omega
    | succ n =>
      obtain ⟨l, z, hz, h2, h3, h4⟩ := ih n y (by simp at hn; omega) hy
      refine ⟨(d, sd) :: l, z, hz, by rw [← h2]; rfl, ?_, ?_⟩
      · rw [List.flatMap_cons]; exact cleanSides_append hsd h3
      · rw [List.append_assoc, many_some h1, h4]

/-! ### Imports -/

theorem names_syntax {ns : List String} {s : Text} (h : NamesSyntax ns s) {t : Text}
    (ht : After (· = 'F') t) : NameEnd (s ++ t) ∧ ∀ n, s.length ≤ n →
      many commaCapital n (s ++ t) = (ns, t) := by
  induction h with
  | nil =>
    refine ⟨nameEnd_after (ht.imp fun c h => by subst h; decide +kernel), fun n _ => many_none ?_⟩
    unfold commaCapital
    rw [List.nil_append, tok_none (ht.imp fun c h => by subst h; decide)]; rfl
  | @cons k w w' ns u hw hw' hk hns ih =>
    simp only [List.append_assoc, List.cons_append]
    refine ⟨nameEnd_after (After.mk hw (by decide) (by decide +kernel) _), fun n hn => ?_⟩
    cases n with
    | zero => simp at hn
    | succ n =>
      have h1 : commaCapital (w ++ (',' :: (w' ++ (k.toList ++ (u ++ t))))) = some (k, u ++ t) := by
        unfold commaCapital
        have : tok [','] (w ++ (',' :: (w' ++ (k.toList ++ (u ++ t))))) =
          some (w' ++ (k.toList ++ (u ++ t))) := tok_lit hw (by decide) [] _
        rw [this]
        exact nameCapital_syntax hk hw' ih.1
      rw [many_some h1, ih.2 n (by simp at hn; omega)]

theorem imports_end {is : List ImportItem} {s t : Text} (h : ImportsSyntax strictStyle is s)
    (ht : After (· = ';') t) : After (fun c => c = ';' ∨ isUp c = true) (s ++ t) := by
  cases h with
  | nil => exact ht.imp fun c h => .inl h
  | cons hw hn _ _ _ _ _ =>
    simp only [List.append_assoc]; exact (after_capital hn hw).imp fun c h => .inr h

theorem importItem_end {t : Text} (ht : After (· = ';') t) : importItem t = none := by
  unfold importItem
  rw [nameCapital_none (ht.imp fun c h => by subst h; decide)]; rfl

theorem importItem_syntax {k m : String} {ns : List String} {w s w' w'' c x t : Text} (hx : Space x)
    (hw : Space w) (hk : isNameCapital k = true) (hns : NamesSyntax ns s) (hw' : Space w')
    (hw'' : Space w'')
    (hm : isNameLower m = true) (hc : SideSyntax strictStyle c)
    (hEnd : After (fun c => c = ';' ∨ isUp c = true) t) :
    ∃ sd z, Space z ∧ CleanSides sd ∧
      importItem (x ++ (w ++ (k.toList ++ (s ++ (w' ++ ("FROM Module-".toList ++
        (w'' ++ (m.toList ++ (c ++ t))))))))) = some ((⟨k :: ns, m⟩, sd), z ++ t) := by
  obtain ⟨oc, ho, hcl⟩ := hc.opt
  obtain ⟨z, hz, hcm⟩ := optComment_syntax (t := t) ho (hEnd.imp fun c h => by
    rcases h with h | h
    · subst h; decide
    · exact capital_head_ne h (by decide))
  have hF : After (· = 'F') (w' ++ ("FROM Module-".toList ++ (w'' ++ (m.toList ++ (c ++ t))))) := by
    rw [lFrom]; exact After.mk (P := (· = 'F')) (c := 'F') hw' (by decide) rfl _
  obtain ⟨hN, hL⟩ := names_syntax hns hF
  have h1 := nameCapital_syntax hk (space_append hx hw) hN
  have h2 : tok "FROM Module-".toList (w' ++ ("FROM Module-".toList ++ (w'' ++ (m.toList ++ (c ++ t))))) =
      some (w'' ++ (m.toList ++ (c ++ t))) := by
    generalize w'' ++ (m.toList ++ (c ++ t)) = R
    rw [lFrom]; exact tok_lit hw' (by decide) _ R
  have hne : ∀ c, isUp c = true → isNameChar c = false := fun c h => by
    cases hb : isNameChar c with
    | false => rfl
    | true => rw [nameChar_not_up hb] at h; cases h
  have h3 := nameLower_syntax (t := c ++ t) hm hw''
    (optComment_nameEnd ho (nameEnd_after (hEnd.imp fun c h => by
      rcases h with h | h
      · subst h; decide +kernel
      · exact ⟨hne c h, capital_head_ne h (by decide)⟩)))
  refine ⟨sides false oc, z, hz, cleanSides_sides hcl false, ?_⟩
  rw [List.append_assoc] at h1
  unfold importItem star
  simp only [Option.bind_eq_bind, Option.bind_some, h1,
    hL _ (by simp only [List.length_append]; omega : s.length ≤ (s ++ (w' ++ ("FROM Module-".toList ++
    (w'' ++ (m.toList ++ (c ++ t)))))).length), h2, h3, hcm, Option.pure_def]

theorem imports_syntax {is : List ImportItem} {s : Text} (h : ImportsSyntax strictStyle is s) {t : Text}
    (ht : After (· = ';') t) : ∀ n x, s.length ≤ n → Space x →
      ∃ l y, Space y ∧ l.map (·.1) = is ∧ CleanSides (l.flatMap (·.2)) ∧
        many importItem n (x ++ (s ++ t)) = (l, y ++ t) := by
  induction h with
  | nil =>
    intro n x _ hx
    exact ⟨[], x, hx, rfl, (fun _ h => by cases h), many_none (importItem_end (ht.space hx))⟩
  | @cons k m w ns s w' w'' c is u hw hk hns hw' hw'' hm hc his ih =>
    intro n x hn hx
    cases n with
    | zero => rw [lFrom] at hn; simp at hn
    | succ n =>
      obtain ⟨sd, z, hz, hsd, h7⟩ := importItem_syntax hx hw hk hns hw' hw'' hm hc (imports_end his ht)
      obtain ⟨l, y, hy, h4, h5, h6⟩ := ih n z
        (by rw [lFrom] at hn; simp at hn; omega) hz
      refine ⟨(⟨k :: ns, m⟩, sd) :: l, y, hy, by rw [← h4]; rfl, ?_, ?_⟩
      · rw [List.flatMap_cons]; exact cleanSides_append hsd h5
      · simp only [List.append_assoc]
        rw [many_some h7, h6]

theorem plus_imports {i : ImportItem} {is : List ImportItem} {s t x : Text}
    (h : ImportsSyntax strictStyle (i :: is) s) (ht : After (· = ';') t) (hx : Space x) :
    ∃ l y, Space y ∧ l.map (·.1) = i :: is ∧ CleanSides (l.flatMap (·.2)) ∧
      plus importItem (x ++ (s ++ t)) = some (l, y ++ t) := by
  cases h with
  | @cons k m w ns s w' w'' c _ u hw hk hns hw' hw'' hm hc his =>
    obtain ⟨sd, z, hz, hsd, h7⟩ := importItem_syntax hx hw hk hns hw' hw'' hm hc (imports_end his ht)
    obtain ⟨l, y, hy, h4, h5, h6⟩ := imports_syntax his ht (z ++ (u ++ t)).length z
      (by simp only [List.length_append]; omega) hz
    refine ⟨(⟨k :: ns, m⟩, sd) :: l, y, hy, by rw [← h4]; rfl, ?_, ?_⟩
    · rw [List.flatMap_cons]; exact cleanSides_append hsd h5
    · simp only [List.append_assoc]
      rw [plus_eq _ h7, h6]

theorem wordEnd_after {t : Text} (h : After (fun c => isNameChar c = false ∧ isUp c = false) t) :
    WordEnd t := by
  obtain ⟨c, r, h1, h2⟩ := h
  obtain ⟨d, t', rfl, hd | ⟨rfl, rfl⟩⟩ := head_of_skipWs h1
  · intro c r e
    cases e
    exact ⟨(isNameChar_ws hd).1, by rcases (isWs_iff _).mp hd with rfl | rfl | rfl | rfl <;> decide⟩
  · intro c r e; cases e; exact h2

/-- A definition is not taken for an import clause. -/
theorem def_not_import {d : Def} {s : Text} (h : DefSyntax strictStyle d s) {x t : Text}
    (hx : Space x) : importClause (x ++ (s ++ t)) = none := by
  have key : ∀ {w w' r : Text} {n : String}, Space w → Space w' → isNameCapital n = true →
      importClause (x ++ (w ++ (n.toList ++ (w' ++ (':' :: r))))) = none := by
    intro w w' r n hw hw' hn
    have : tok "IMPORTS".toList (x ++ (w ++ (n.toList ++ (w' ++ (':' :: r))))) = none := by
      unfold tok
      rw [skipWs_space hx, skipWs_space hw]
      obtain ⟨c, cs, h1, h2, _⟩ := capital_cases hn
      have e : skipWs (n.toList ++ (w' ++ (':' :: r))) = n.toList ++ (w' ++ (':' :: r)) := by
        rw [h1]; exact skipWs_cons (upper_not_ws h2) _
      rw [e, lImports]
      exact lit_word (pre := []) rfl (fun _ h => by cases h) (by decide) hn
        (wordEnd_after (After.mk hw' (by decide) (by decide +kernel) _))
    unfold importClause
    rw [this]; rfl
  cases h with
  | seq hw hn hw' =>
    simp only [List.append_assoc]; rw [lSequence]; exact key hw hw' hn
  | choice hw hn hw' =>
    simp only [List.append_assoc]; rw [lChoice]; exact key hw hw' hn
  | enum hw hn hw' =>
    simp only [List.append_assoc]; rw [lEnumerated]; exact key hw hw' hn
  | simple hw hn hw' =>
    simp only [List.append_assoc]; rw [lAssign]; exact key hw hw' hn

theorem imports_cons {i : ImportItem} {is : List ImportItem} {s : Text}
    (h : ImportsSyntax strictStyle (i :: is) s) (t : Text) : Capital (s ++ t) := by
  cases h with
  | cons hw hn => simp only [List.append_assoc]; exact after_capital hn hw

theorem plus_defs {ds : List Def} {s x : Text} (h : DefsSyntax strictStyle ds s) {w r : Text}
    (hw : Space w) (hx : Space x) :
    ∃ l y, Space y ∧ l.map (·.1) = ds ∧ CleanSides (l.flatMap (·.2)) ∧
      plus definition (x ++ (s ++ (w ++ ("END".toList ++ r)))) =
        some (l, y ++ (w ++ ("END".toList ++ r))) := by
  cases h with
  | @one d _ h =>
    obtain ⟨sd, y, hy, hsd, h1⟩ := def_syntax h (t := w ++ ("END".toList ++ r)) hx (end_capital hw)
    refine ⟨[(d, sd)], y, hy, rfl, by simpa using hsd, ?_⟩
    rw [plus_eq _ h1, many_none]
    rw [← List.append_assoc]; exact definition_end (space_append hy hw)
  | @cons d s ds u h hds =>
    obtain ⟨sd, y, hy, hsd, h1⟩ := def_syntax h (t := u ++ (w ++ ("END".toList ++ r))) hx
      (defs_after hds _)
    obtain ⟨l, z, hz, h2, h3, h4⟩ := defs_syntax hds (r := r) hw
      (y ++ (u ++ (w ++ ("END".toList ++ r)))).length y
      (by simp only [List.length_append]; omega) hy
    refine ⟨(d, sd) :: l, z, hz, by rw [← h2]; rfl, ?_, ?_⟩
    · rw [List.flatMap_cons]; exact cleanSides_append hsd h3
    · rw [List.append_assoc, plus_eq _ h1, h4]

theorem importClause_some {i : ImportItem} {is : List ImportItem} {c : Option Comment}
    {s x t : Text} (h : ImportClauseSyntax strictStyle (i :: is) c s) (hx : Space x) (ht : Capital t) :
    ∃ l y, Space y ∧ l.map (·.1) = i :: is ∧ CleanSides (l.flatMap (·.2)) ∧
      importClause (x ++ (s ++ t)) = some ((l, c), y ++ t) := by
  cases h with
  | @some _ _ w s w' _ sc hw his hw' hc =>
    have hS : After (· = ';') (w' ++ ([';'] ++ (sc ++ t))) :=
      After.mk (P := (· = ';')) (c := ';') hw' (by decide) rfl _
    obtain ⟨l, y, hy, h1, h2, h3⟩ := plus_imports his hS space_nil
    obtain ⟨z, hz, hcm⟩ := optComment_syntax (t := t) hc
      (ht.imp fun c h => capital_head_ne h (by decide))
    refine ⟨l, z, hz, h1, h2, ?_⟩
    have h4 : tok "IMPORTS".toList
        (x ++ (w ++ ("IMPORTS".toList ++ (s ++ (w' ++ ([';'] ++ (sc ++ t))))))) =
        some (s ++ (w' ++ ([';'] ++ (sc ++ t)))) := by
      generalize s ++ (w' ++ ([';'] ++ (sc ++ t))) = R
      rw [← List.append_assoc, lImports]; exact tok_lit (space_append hx hw) (by decide) _ R
    have h5 : tok [';'] (y ++ (w' ++ ([';'] ++ (sc ++ t)))) = some (sc ++ t) := by
      rw [← List.append_assoc]; exact tok_lit (space_append hy hw') (by decide) [] _
    rw [List.nil_append] at h3
    simp only [List.append_assoc]
    unfold importClause
    simp only [Option.bind_eq_bind, Option.bind_some, h4, h3, h5, hcm, Option.pure_def]

theorem defs_not_import {ds : List Def} {s : Text} (h : DefsSyntax strictStyle ds s) {x t : Text}
    (hx : Space x) : importClause (x ++ (s ++ t)) = none := by
  cases h with
  | one h => exact def_not_import h hx
  | cons h _ => rw [List.append_assoc]; exact def_not_import h hx

/-- Every module that is written in the syntax is read as it is. -/
theorem parseModule_syntax {m : Module} {s : Text} (h : ModuleSyntax strictStyle m s) :
    ∃ sd, CleanSides sd ∧ parseModule s = some (m, sd) := by
  cases h with
  | @mk n w w₀ w₁ c sc is ci si ds sd w₂ w₃ hw hw₀ hn hw₁ hc hi hd hw₂ hw₃ =>
    have hD : Capital (sd ++ (w₂ ++ ("END".toList ++ w₃))) := defs_after hd _
    have hI : Capital (si ++ (sd ++ (w₂ ++ ("END".toList ++ w₃)))) := by
      cases hi with
      | none => exact hD
      | some hw =>
        simp only [List.append_assoc]
        rw [lImports]; exact After.mk (c := 'I') hw (by decide) (by decide) _
    obtain ⟨z, hz, hcm⟩ := optComment_syntax hc (hI.imp fun c h => capital_head_ne h (by decide))
    generalize hR : sc ++ (si ++ (sd ++ (w₂ ++ ("END".toList ++ w₃)))) = R at hcm
    have e : w ++ "Module-".toList ++ w₀ ++ n.toList ++ w₁ ++ "DEFINITIONS AUTOMATIC TAGS ::= BEGIN".toList ++
        sc ++ si ++ sd ++ w₂ ++ "END".toList ++ w₃ =
        w ++ ("Module-".toList ++ (w₀ ++ (n.toList ++ (w₁ ++
          ("DEFINITIONS AUTOMATIC TAGS ::= BEGIN".toList ++ R))))) := by
      rw [← hR]; simp only [List.append_assoc]
    rw [e]
    have h1 : tok "Module-".toList (w ++ ("Module-".toList ++ (w₀ ++ (n.toList ++ (w₁ ++
          ("DEFINITIONS AUTOMATIC TAGS ::= BEGIN".toList ++ R)))))) =
        some (w₀ ++ (n.toList ++ (w₁ ++ ("DEFINITIONS AUTOMATIC TAGS ::= BEGIN".toList ++ R)))) := by
      generalize w₀ ++ (n.toList ++ (w₁ ++ ("DEFINITIONS AUTOMATIC TAGS ::= BEGIN".toList ++ R))) = R'
      rw [lModule]; exact tok_lit hw (by decide) _ R'
    have h2 : nameLower (skipWs (w₀ ++ (n.toList ++ (w₁ ++
        ("DEFINITIONS AUTOMATIC TAGS ::= BEGIN".toList ++ R))))) =
        some (n, w₁ ++ ("DEFINITIONS AUTOMATIC TAGS ::= BEGIN".toList ++ R)) := by
      refine nameLower_syntax hn hw₀ ?_
      rw [lBegin]; exact nameEnd_after (After.mk (c := 'D') hw₁ (by decide) (by decide +kernel) _)
    have h3 : tok "DEFINITIONS AUTOMATIC TAGS ::= BEGIN".toList
        (w₁ ++ ("DEFINITIONS AUTOMATIC TAGS ::= BEGIN".toList ++ R)) = some R := by
      rw [lBegin]; exact tok_lit hw₁ (by decide) _ R
    have h4 : ∃ l y, Space y ∧ l.map (·.1) = is ∧ CleanSides (l.flatMap (·.2)) ∧
        (importClause (z ++ (si ++ (sd ++ (w₂ ++ ("END".toList ++ w₃)))))).getD
          (([], none), z ++ (si ++ (sd ++ (w₂ ++ ("END".toList ++ w₃))))) =
          ((l, ci), y ++ (sd ++ (w₂ ++ ("END".toList ++ w₃)))) := by
      cases hi with
      | none =>
        refine ⟨[], z, hz, rfl, (fun _ h => by cases h), ?_⟩
        rw [List.nil_append, defs_not_import hd hz]; rfl
      | @some i is w s w' c sc a1 a2 a3 a4 =>
        obtain ⟨l, y, hy, b1, b2, b3⟩ := importClause_some (ImportClauseSyntax.some a1 a2 a3 a4) hz hD
        refine ⟨l, y, hy, b1, b2, ?_⟩
        rw [b3]; rfl
    obtain ⟨l, y, hy, b1, b2, b3⟩ := h4
    obtain ⟨l', y', hy', d1, d2, d3⟩ := plus_defs hd (r := w₃) hw₂ hy
    have h5 : tok "END".toList (y' ++ (w₂ ++ ("END".toList ++ w₃))) = some w₃ := by
      rw [← List.append_assoc, lEnd]; exact tok_lit (space_append hy' hw₂) (by decide) _ w₃
    have h6 : skipWs w₃ = [] := by
      have := skipWs_space hw₃ []
      rw [List.append_nil] at this; rw [this]; rfl
    refine ⟨l.flatMap (·.2) ++ l'.flatMap (·.2), cleanSides_append b2 d2, ?_⟩
    unfold parseModule
    simp only [Option.bind_eq_bind, Option.bind_some, h1, h2, h3, hcm, b3, d3, h5, h6, if_true,
      Option.pure_def, b1, d1]

end Apg
