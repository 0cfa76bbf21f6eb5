import Verif.Lemmas.SyntaxType

/-!
# Clauses and members as written in the syntax are read
-/

namespace Apg

open Parse Spec

/-! ### Lists -/

/-- `items` with the number of items at most. -/
def itemsN {α : Type} (p q : Text → Option (α × Text)) (n : Nat) (t : Text) :
    Option (List α × Text) :=
  (q (many p n t).2).map fun r => ((many p n t).1 ++ [r.1], r.2)

theorem items_eq {α : Type} (p q : Text → Option (α × Text)) (t : Text) :
    items p q t = itemsN p q t.length t := by
  show (q (many p t.length t).2).bind _ = (q (many p t.length t).2).map _
  cases q (many p t.length t).2 <;> rfl

theorem many_succ {α : Type} (p : Text → Option (α × Text)) (n : Nat) (t : Text) :
    many p (n + 1) t = match p t with
      | none => ([], t)
      | some r => (r.1 :: (many p n r.2).1, (many p n r.2).2) := rfl

theorem many_none {α : Type} {p : Text → Option (α × Text)} {n : Nat} {t : Text}
    (h : p t = none) : many p n t = ([], t) := by
  cases n with
  | zero => rfl
  | succ n => rw [many_succ, h]

theorem many_some {α : Type} {p : Text → Option (α × Text)} {n : Nat} {t u : Text} {a : α}
    (h : p t = some (a, u)) : many p (n + 1) t = (a :: (many p n u).1, (many p n u).2) := by
  rw [many_succ, h]

theorem itemsN_last {α : Type} {p q : Text → Option (α × Text)} {n : Nat} {t u : Text} {a : α}
    (hp : p t = none) (hq : q t = some (a, u)) : itemsN p q n t = some ([a], u) := by
  unfold itemsN; rw [many_none hp, hq]; rfl

theorem itemsN_cons {α : Type} {p q : Text → Option (α × Text)} {n : Nat} {t u v : Text} {a : α}
    {l : List α} (hp : p t = some (a, u)) (h : itemsN p q n u = some (l, v)) :
    itemsN p q (n + 1) t = some (a :: l, v) := by
  unfold itemsN at h ⊢
  rw [many_some hp]
  cases hq : q (many p n u).2 with
  | none => rw [hq] at h; cases h
  | some r => rw [hq] at h; cases h; rfl

/-! ### Values in parentheses -/

/-- The text does not start with white space. -/
def NoWs (s : Text) : Prop := ∃ c r, s = c :: r ∧ isWs c = false

theorem skipWs_noWs {s : Text} (h : NoWs s) (t : Text) : skipWs (s ++ t) = s ++ t := by
  obtain ⟨c, r, rfl, h⟩ := h
  exact skipWs_cons h _

theorem sign_digits_noWs {neg : Bool} {sg ds : Text} (h : Sign neg sg) (hd : NoWs ds) :
    NoWs (sg ++ ds) := by
  cases h with
  | none => exact hd
  | plus => exact ⟨_, _, rfl, by decide⟩
  | minus => exact ⟨_, _, rfl, by decide⟩

theorem digit_not_ws {c : Char} (h : '0' ≤ c ∧ c ≤ '9') : isWs c = false := by
  cases hc : isWs c with
  | false => rfl
  | true => rcases (isWs_iff c).mp hc with rfl | rfl | rfl | rfl <;> revert h <;> decide

theorem digits_noWs {ds : Text} {n : Nat} (h : readNat 10 ds = some n) : NoWs ds := by
  obtain ⟨hne, hr⟩ := readNat_some h
  cases ds with
  | nil => exact absurd rfl hne
  | cons c r => exact ⟨c, r, rfl, digit_not_ws (readFrom_head hr)⟩

theorem NoWs.append {s : Text} (h : NoWs s) (t : Text) : NoWs (s ++ t) := by
  obtain ⟨c, r, rfl, h⟩ := h
  exact ⟨c, r ++ t, rfl, h⟩

theorem intSyntax_noWs {i : Int} {s : Text} (h : IntSyntax i s) : NoWs s := by
  cases h with
  | mk hs hr => exact sign_digits_noWs hs (digits_noWs hr)

theorem point_noWs {a b : Text} {n : Nat} (h : readNat 10 (a ++ b) = some n) (t : Text) :
    NoWs (a ++ '.' :: t) := by
  cases a with
  | nil => exact ⟨_, _, rfl, by decide⟩
  | cons c a =>
    obtain ⟨_, hr⟩ := readNat_some h
    exact ⟨c, a ++ '.' :: t, rfl, digit_not_ws (readFrom_head hr)⟩

theorem realSyntax_noWs {x : Num} {s : Text} (h : RealSyntax decimalFloat x s) : NoWs s := by
  cases h with
  | point hs hr =>
    rw [List.append_assoc]; exact sign_digits_noWs hs (point_noWs hr _)
  | pointExp hs hr _ =>
    rw [List.append_assoc, List.append_assoc]
    exact sign_digits_noWs hs (point_noWs hr _)
  | exp hs hr _ =>
    rw [List.append_assoc]
    exact sign_digits_noWs hs ((digits_noWs hr).append _)

/-- The integer rule does not take a decimal up to the parenthesis. -/
theorem intLit_real {x : Num} {s : Text} (h : RealSyntax decimalFloat x s) (t : Text) :
    intLit (s ++ t) = none ∨ ∃ i r, intLit (s ++ t) = some (i, r) ∧ After (· ≠ ')') r := by
  have key : ∀ {neg sg a c v n}, Sign neg sg → readFrom 10 0 a = some n → asciiDigit c = none →
      c ≠ '-' → c ≠ '+' → c ≠ ')' → isWs c = false →
      intLit (sg ++ (a ++ c :: v)) = none ∨
        ∃ i r, intLit (sg ++ (a ++ c :: v)) = some (i, r) ∧ After (· ≠ ')') r := by
    intro neg sg a c v n hs hr hc h1 h2 h3 h4
    cases a with
    | nil =>
      left
      unfold intLit
      rw [List.nil_append, sign_syntax hs h1 h2]
      simp only [digitRun_end (digitEnd_cons hc v), if_true]
    | cons d a =>
      right
      have hr' : readNat 10 (d :: a) = some n := by
        unfold readNat; exact hr
      have := intLit_syntax (IntSyntax.mk hs hr') (t := c :: v) (digitEnd_cons hc v)
      rw [List.append_assoc] at this
      exact ⟨_, _, this, After.mk (w := []) space_nil h4 h3 v⟩
  cases h with
  | @point _ _ _ b _ hs hr =>
    obtain ⟨m, h1, _⟩ := readFrom_append_some (readNat_some hr).2
    have := key (c := '.') (v := b ++ t) hs h1 (by decide) (by decide) (by decide) (by decide) (by decide)
    simpa [List.append_assoc] using this
  | @pointExp _ _ _ b _ _ se hs hr _ =>
    obtain ⟨m, h1, _⟩ := readFrom_append_some (readNat_some hr).2
    have := key (c := '.') (v := b ++ (se ++ t)) hs h1 (by decide) (by decide) (by decide) (by decide) (by decide)
    simpa [List.append_assoc] using this
  | exp hs hr he =>
    cases he with
    | @mk c e s' hc hi =>
      have := key (c := c) (v := s' ++ t) hs (readNat_some hr).2
        (by rcases hc with rfl | rfl <;> decide) (by rcases hc with rfl | rfl <;> decide)
        (by rcases hc with rfl | rfl <;> decide) (by rcases hc with rfl | rfl <;> decide)
        (by rcases hc with rfl | rfl <;> decide)
      simpa [List.append_assoc] using this

theorem space_cons_head {P : Char → Prop} {w : Text} (hw : Space w) {c : Char} {t : Text}
    (hc : P c) (hs : P ' ') (ht : P '\t') (hn : P '\n') (hr : P '\r') :
    ∀ d r, w ++ c :: t = d :: r → P d := by
  intro d r e
  cases w with
  | nil => cases e; exact hc
  | cons x w =>
    obtain ⟨rfl, _⟩ := List.cons.inj e
    rcases hw x (List.Mem.head _) with rfl | rfl | rfl | rfl <;> assumption

theorem inParens_some {α : Type} {p : Text → Option (α × Text)} {w₁ w₂ w₃ s t : Text} {v : α}
    (h₁ : Space w₁) (h₂ : Space w₂) (h₃ : Space w₃) (hs : NoWs s)
    (hp : p (s ++ (w₃ ++ ')' :: t)) = some (v, w₃ ++ ')' :: t)) :
    inParens p (w₁ ++ '(' :: w₂ ++ s ++ w₃ ++ [')'] ++ t) = some (v, t) := by
  have e : w₁ ++ '(' :: w₂ ++ s ++ w₃ ++ [')'] ++ t =
      w₁ ++ (['('] ++ (w₂ ++ (s ++ (w₃ ++ ([')'] ++ t))))) := by simp
  rw [e]
  unfold inParens
  rw [tok_lit h₁ (by decide)]
  show (p (skipWs (w₂ ++ (s ++ (w₃ ++ ')' :: t))))).bind _ = _
  rw [skipWs_space h₂, skipWs_noWs hs, hp]
  show (tok [')'] (w₃ ++ ([')'] ++ t))).bind _ = _
  rw [tok_lit h₃ (by decide)]
  rfl

theorem inParens_none {α : Type} {p : Text → Option (α × Text)} {w₁ w₂ s u : Text}
    (h₁ : Space w₁) (h₂ : Space w₂) (hs : NoWs s)
    (hp : p (s ++ u) = none ∨ ∃ v r, p (s ++ u) = some (v, r) ∧ After (· ≠ ')') r) :
    inParens p (w₁ ++ '(' :: (w₂ ++ (s ++ u))) = none := by
  unfold inParens
  have : tok ['('] (w₁ ++ '(' :: (w₂ ++ (s ++ u))) = some (w₂ ++ (s ++ u)) :=
    tok_lit h₁ (by decide) [] _
  rw [this]
  show (p (skipWs (w₂ ++ (s ++ u)))).bind _ = _
  rw [skipWs_space h₂, skipWs_noWs hs]
  rcases hp with h | ⟨v, r, h, hr⟩
  · rw [h]; rfl
  · rw [h]
    show (tok [')'] r).bind _ = _
    rw [tok_none hr]; rfl

theorem floatLit_none {c : Char} (h : uniDigit c = none) (h1 : c ≠ '-') (h2 : c ≠ '+')
    (h3 : c ≠ '.') (r : Text) : floatLit (c :: r) = none := by
  have e1 : sign (c :: r) = (false, c :: r) := sign_other h1 h2 r
  have e2 : digitRun uniDigit (c :: r) = ([], c :: r) := digitRun_end (digitEnd_cons h r)
  unfold floatLit
  simp only [e1, e2]
  split
  · rename_i e; exact absurd (List.cons.inj e).1 h3
  · rfl

/-- A fixed value is read. -/
theorem compValue_leaf {C : Text → Option ((Comps × List SideComment) × Text)} {v : Leaf} {s : Text}
    (h : LeafSyntax strictStyle v s) (t : Text) :
    compValue C (s ++ t) = some ((.inl v, []), t) := by
  unfold compValue
  cases h with
  | @int i s w₁ w₂ w₃ h₁ h₂ h₃ hi =>
    have : inParens (fun t => (intLit t).map fun r => (Leaf.int r.1, r.2))
        (w₁ ++ '(' :: w₂ ++ s ++ w₃ ++ [')'] ++ t) = some (.int i, t) := by
      refine inParens_some h₁ h₂ h₃ (intSyntax_noWs hi) ?_
      rw [intLit_syntax hi (space_cons_head (P := fun c => asciiDigit c = none) h₃ (by decide) (by decide) (by decide) (by decide) (by decide))]
      rfl
    rw [this]; rfl
  | @real x s w₁ w₂ w₃ h₁ h₂ h₃ hx =>
    have h0 : inParens (fun t => (intLit t).map fun r => (Leaf.int r.1, r.2))
        (w₁ ++ '(' :: w₂ ++ s ++ w₃ ++ [')'] ++ t) = none := by
      have e : w₁ ++ '(' :: w₂ ++ s ++ w₃ ++ [')'] ++ t =
        w₁ ++ '(' :: (w₂ ++ (s ++ (w₃ ++ ([')'] ++ t)))) := by simp
      rw [e]
      refine inParens_none h₁ h₂ (realSyntax_noWs hx) ?_
      rcases intLit_real hx (w₃ ++ ([')'] ++ t)) with h | ⟨i, r, h, hr⟩
      · left; rw [h]; rfl
      · right; exact ⟨_, _, by rw [h]; rfl, hr⟩
    have h1 : inParens (fun t => (floatLit t).map fun r => (Leaf.flt r.1, r.2))
        (w₁ ++ '(' :: w₂ ++ s ++ w₃ ++ [')'] ++ t) = some (.flt x, t) := by
      refine inParens_some h₁ h₂ h₃ (realSyntax_noWs hx) ?_
      rw [floatLit_syntax hx ⟨space_cons_head (P := fun c => uniDigit c = none) h₃ (by decide +kernel)
        (by decide +kernel) (by decide +kernel) (by decide +kernel) (by decide +kernel),
        space_cons_head (P := fun c => c ≠ 'e' ∧ c ≠ 'E') h₃ (by decide) (by decide) (by decide)
          (by decide) (by decide)⟩]
      rfl
    rw [h0, h1]; rfl
  | @true w₁ w₂ w₃ h₁ h₂ h₃ =>
    have e : w₁ ++ '(' :: w₂ ++ "TRUE".toList ++ w₃ ++ [')'] ++ t =
        w₁ ++ '(' :: (w₂ ++ ("TRUE".toList ++ (w₃ ++ ([')'] ++ t)))) := by simp
    have nw : NoWs "TRUE".toList := ⟨'T', _, lTrue, by decide⟩
    have h0 : inParens (fun t => (intLit t).map fun r => (Leaf.int r.1, r.2))
        (w₁ ++ '(' :: w₂ ++ "TRUE".toList ++ w₃ ++ [')'] ++ t) = none := by
      rw [e]
      refine inParens_none h₁ h₂ nw (.inl ?_)
      rw [lTrue]
      show (intLit ('T' :: _)).map _ = _
      rw [intLit_none (by decide) (by decide) (by decide)]; rfl
    have h1 : inParens (fun t => (floatLit t).map fun r => (Leaf.flt r.1, r.2))
        (w₁ ++ '(' :: w₂ ++ "TRUE".toList ++ w₃ ++ [')'] ++ t) = none := by
      rw [e]
      refine inParens_none h₁ h₂ nw (.inl ?_)
      rw [lTrue]
      show (floatLit ('T' :: _)).map _ = _
      rw [floatLit_none (by decide +kernel) (by decide) (by decide) (by decide)]; rfl
    have h2 : inParens (boolLit "TRUE".toList true)
        (w₁ ++ '(' :: w₂ ++ "TRUE".toList ++ w₃ ++ [')'] ++ t) = some (.bool true, t) := by
      refine inParens_some h₁ h₂ h₃ nw ?_
      unfold boolLit; rw [lit_append]; rfl
    rw [h0, h1, h2]; rfl
  | @false w₁ w₂ w₃ h₁ h₂ h₃ =>
    have e : w₁ ++ '(' :: w₂ ++ "FALSE".toList ++ w₃ ++ [')'] ++ t =
        w₁ ++ '(' :: (w₂ ++ ("FALSE".toList ++ (w₃ ++ ([')'] ++ t)))) := by simp
    have nw : NoWs "FALSE".toList := ⟨'F', _, lFalse, by decide⟩
    have h0 : inParens (fun t => (intLit t).map fun r => (Leaf.int r.1, r.2))
        (w₁ ++ '(' :: w₂ ++ "FALSE".toList ++ w₃ ++ [')'] ++ t) = none := by
      rw [e]
      refine inParens_none h₁ h₂ nw (.inl ?_)
      rw [lFalse]
      show (intLit ('F' :: _)).map _ = _
      rw [intLit_none (by decide) (by decide) (by decide)]; rfl
    have h1 : inParens (fun t => (floatLit t).map fun r => (Leaf.flt r.1, r.2))
        (w₁ ++ '(' :: w₂ ++ "FALSE".toList ++ w₃ ++ [')'] ++ t) = none := by
      rw [e]
      refine inParens_none h₁ h₂ nw (.inl ?_)
      rw [lFalse]
      show (floatLit ('F' :: _)).map _ = _
      rw [floatLit_none (by decide +kernel) (by decide) (by decide) (by decide)]; rfl
    have h2 : inParens (boolLit "TRUE".toList true)
        (w₁ ++ '(' :: w₂ ++ "FALSE".toList ++ w₃ ++ [')'] ++ t) = none := by
      rw [e]
      refine inParens_none h₁ h₂ nw (.inl ?_)
      unfold boolLit
      rw [lTrue, lFalse]
      show (lit ('T' :: _) ('F' :: _)).map _ = _
      rw [lit_cons_ne (by decide)]; rfl
    have h3 : inParens (boolLit "FALSE".toList false)
        (w₁ ++ '(' :: w₂ ++ "FALSE".toList ++ w₃ ++ [')'] ++ t) = some (.bool false, t) := by
      refine inParens_some h₁ h₂ h₃ nw ?_
      unfold boolLit; rw [lit_append]; rfl
    rw [h0, h1, h2, h3]; rfl

/-- A clause starts like this. -/
theorem clause_head {cs : Comps} {s : Text} (h : ClauseSyntax strictStyle true cs s) :
    ∃ w r, Space w ∧ s = w ++ '(' :: 'W' :: r := by
  cases h with
  | @clause _ w c s w' hw hc hs hw' =>
    rw [lWith]
    exact ⟨w, _, hw, by simp; rfl⟩

theorem compValue_node {C : Text → Option ((Comps × List SideComment) × Text)} {cs : Comps}
    {sd : List SideComment} {s t u : Text} (h : ClauseSyntax strictStyle true cs s)
    (hC : C (s ++ t) = some ((cs, sd), u)) : compValue C (s ++ t) = some ((.inr cs, sd), u) := by
  obtain ⟨w, r, hw, e⟩ := clause_head h
  have e' : s ++ t = w ++ '(' :: ([] ++ (['W'] ++ (r ++ t))) := by rw [e]; simp
  have no : ∀ {α} {p : Text → Option (α × Text)}, p ('W' :: (r ++ t)) = none →
      inParens p (s ++ t) = none := fun hp => by
    rw [e']; exact inParens_none hw space_nil ⟨'W', [], rfl, by decide⟩ (.inl hp)
  unfold compValue
  rw [no (by rw [intLit_none (by decide) (by decide) (by decide)]; rfl),
    no (by rw [floatLit_W]; rfl),
    no (by unfold boolLit; rw [lTrue, lit_cons_ne (by decide)]; rfl),
    no (by unfold boolLit; rw [lFalse, lit_cons_ne (by decide)]; rfl), hC]
  rfl

theorem leaf_nameEnd {v : Leaf} {s : Text} (h : LeafSyntax strictStyle v s) (t : Text) :
    NameEnd (s ++ t) := by
  have : ∃ w r, Space w ∧ s = w ++ '(' :: r := by
    cases h with
    | int h₁ => exact ⟨_, _, h₁, by simp; rfl⟩
    | real h₁ => exact ⟨_, _, h₁, by simp; rfl⟩
    | true h₁ => exact ⟨_, _, h₁, by simp; rfl⟩
    | false h₁ => exact ⟨_, _, h₁, by simp; rfl⟩
  obtain ⟨w, r, hw, rfl⟩ := this
  rw [List.append_assoc]
  exact nameEnd_after (After.mk hw (by decide) (by decide +kernel) _)

theorem clause_nameEnd {cs : Comps} {s : Text} (h : ClauseSyntax strictStyle true cs s) (t : Text) :
    NameEnd (s ++ t) := by
  obtain ⟨w, r, hw, rfl⟩ := clause_head h
  rw [List.append_assoc]
  exact nameEnd_after (After.mk hw (by decide) (by decide +kernel) _)

/-! ### Items of a clause -/

/-- Comments that are kept nowhere have no sign that is refused. -/
def CleanSides (l : List SideComment) : Prop := ∀ x ∈ l, CleanComment x.2

theorem cleanSides_append {a b : List SideComment} (ha : CleanSides a) (hb : CleanSides b) :
    CleanSides (a ++ b) := fun x hx => by
  rcases List.mem_append.mp hx with h | h
  · exact ha x h
  · exact hb x h

theorem cleanSides_sides {c : Option Comment} (h : ∀ x ∈ c.toList, CleanComment x) (b : Bool) :
    CleanSides (sides b c) := fun x hx => by
  unfold sides at hx
  obtain ⟨y, hy, rfl⟩ := List.mem_map.mp hx
  exact h y hy

theorem compItemNotLast_syntax {C : Text → Option ((Comps × List SideComment) × Text)}
    {k : String} {v : CompValue} {sd : List SideComment} {w s w' c t : Text} (hw : Space w)
    (hk : isNameLower k = true) (hne : ∀ t, NameEnd (s ++ t))
    (hv : compValue C (s ++ (w' ++ ([','] ++ (c ++ t)))) = some ((v, sd), w' ++ ([','] ++ (c ++ t))))
    (hw' : Space w') (hc : SideSyntax strictStyle c) (hsd : CleanSides sd) (ht : After (· ≠ '-') t) :
    ∃ x sd', Space x ∧ CleanSides sd' ∧
      compItemNotLast C (w ++ (k.toList ++ (s ++ (w' ++ ([','] ++ (c ++ t)))))) =
        some (⟨k, v, sd'⟩, x ++ t) := by
  obtain ⟨oc, ho, hcl⟩ := hc.opt
  obtain ⟨x, hx, hcm⟩ := optComment_syntax ho ht
  refine ⟨x, sd ++ sides true oc, hx, cleanSides_append hsd (cleanSides_sides hcl true), ?_⟩
  unfold compItemNotLast
  rw [nameLower_syntax hk hw (hne _)]
  simp only [Option.bind_eq_bind, Option.bind_some, hv, tok_lit hw' (show isWs ',' = false by decide),
    hcm, Option.pure_def]

theorem compItemLast_syntax {C : Text → Option ((Comps × List SideComment) × Text)}
    {k : String} {v : CompValue} {sd : List SideComment} {w s c t : Text} (hw : Space w)
    (hk : isNameLower k = true) (hne : ∀ t, NameEnd (s ++ t))
    (hv : compValue C (s ++ (c ++ t)) = some ((v, sd), c ++ t)) (hc : SideSyntax strictStyle c)
    (hsd : CleanSides sd) (ht : After (· = '}') t) :
    compItemNotLast C (w ++ (k.toList ++ (s ++ (c ++ t)))) = none ∧
    ∃ x sd', Space x ∧ CleanSides sd' ∧
      compItemLast C (w ++ (k.toList ++ (s ++ (c ++ t)))) = some (⟨k, v, sd'⟩, x ++ t) := by
  obtain ⟨oc, ho, hcl⟩ := hc.opt
  obtain ⟨x, hx, hcm⟩ := optComment_syntax ho (ht.imp fun c h => by subst h; decide)
  constructor
  · unfold compItemNotLast
    rw [nameLower_syntax hk hw (hne _)]
    have : tok [','] (c ++ t) = none :=
      tok_none (optComment_after ho (by decide) (ht.imp fun c h => by subst h; decide))
    simp only [Option.bind_eq_bind, Option.bind_some, hv, this, Option.bind_none]
  · refine ⟨x, sd ++ sides true oc, hx, cleanSides_append hsd (cleanSides_sides hcl true), ?_⟩
    unfold compItemLast
    rw [nameLower_syntax hk hw (hne _)]
    simp only [Option.bind_eq_bind, Option.bind_some, hv, hcm, Option.pure_def]

/-- The items of a clause start with a name. -/
theorem items_after {cs : Comps} {s : Text} (h : ClauseSyntax strictStyle false cs s) (t : Text) :
    After (fun c => ('a' ≤ c && c ≤ 'z') = true) (s ++ t) := by
  cases h with
  | lastLeaf hw hk _ _ => simp only [List.append_assoc]; exact after_lower hk hw
  | lastNode hw hk _ _ => simp only [List.append_assoc]; exact after_lower hk hw
  | leaf hw hk _ _ _ _ => simp only [List.append_assoc]; exact after_lower hk hw
  | node hw hk _ _ _ _ => simp only [List.append_assoc]; exact after_lower hk hw

theorem lower_ne {c d : Char} (h : ('a' ≤ c && c ≤ 'z') = true)
    (hd : ('a' ≤ d && d ≤ 'z') = false) : c ≠ d := fun e => by subst e; rw [hd] at h; cases h

/-- What the rules do with a clause (`true`) or with the items in it (`false`). -/
def ClauseRead : Bool → Comps → Text → Prop
  | true, cs, s => ∀ n t, s.length ≤ n → ∃ sd, CleanSides sd ∧
      withComponents n (s ++ t) = some ((cs, sd), t)
  | false, cs, s => ∀ n k x t, s.length ≤ n → s.length ≤ k → Space x → After (· = '}') t →
      ∃ its y, Space y ∧ toComps its = cs ∧ CleanSides (its.flatMap (·.side)) ∧
        itemsN (compItemNotLast (withComponents n)) (compItemLast (withComponents n)) k
          (x ++ (s ++ t)) = some (its, y ++ t)

theorem name_ne_nil {k : String} (hk : isNameLower k = true) : 1 ≤ k.toList.length := by
  obtain ⟨c, cs, h, _⟩ := lower_cases hk
  rw [h]; simp

theorem withComponents_succ (n : Nat) (t : Text) : withComponents (n + 1) t =
    (tok "(WITH COMPONENTS {".toList t).bind fun t =>
      (items (compItemNotLast (withComponents n)) (compItemLast (withComponents n))
        (commentOpt t).2).bind fun l =>
      (tok "})".toList l.2).bind fun u =>
      some ((toComps l.1, sides false (commentOpt t).1 ++ l.1.flatMap (·.side)), u) := rfl

theorem clause_syntax {b : Bool} {cs : Comps} {s : Text} (h : ClauseSyntax strictStyle b cs s) :
    ClauseRead b cs s := by
  induction h with
  | @clause cs w c s w' hw hc hs hw' ih =>
    intro n t hn
    cases n with
    | zero => rw [lWith] at hn; simp at hn
    | succ n =>
      have hlen : s.length ≤ n := by rw [lWith] at hn; simp at hn; omega
      obtain ⟨oc, ho, hcl⟩ := hc.opt
      have ht : After (· = '}') (w' ++ ("})".toList ++ t)) := by
        rw [lEndWith]; exact After.mk (P := (· = '}')) (c := '}') hw' (by decide) rfl _
      obtain ⟨x, hx, hcm⟩ := optComment_syntax (t := s ++ (w' ++ ("})".toList ++ t))) ho
        ((items_after hs _).imp fun c h => lower_ne h (by decide))
      obtain ⟨its, y, hy, h1, h2, h3⟩ := ih n (x ++ (s ++ (w' ++ ("})".toList ++ t)))).length x _
        hlen (by simp; omega) hx ht
      refine ⟨sides false oc ++ its.flatMap (·.side),
        cleanSides_append (cleanSides_sides hcl false) h2, ?_⟩
      have e : w ++ "(WITH COMPONENTS {".toList ++ c ++ s ++ w' ++ "})".toList ++ t =
          w ++ ("(WITH COMPONENTS {".toList ++ (c ++ (s ++ (w' ++ ("})".toList ++ t))))) := by simp
      have e1 : tok "(WITH COMPONENTS {".toList
          (w ++ ("(WITH COMPONENTS {".toList ++ (c ++ (s ++ (w' ++ ("})".toList ++ t)))))) =
          some (c ++ (s ++ (w' ++ ("})".toList ++ t)))) := by
        generalize hT : c ++ (s ++ (w' ++ ("})".toList ++ t))) = T
        rw [lWith]; exact tok_lit hw (by decide) _ _
      have e2 : tok "})".toList (y ++ (w' ++ ("})".toList ++ t))) = some t := by
        rw [← List.append_assoc, lEndWith]
        exact tok_lit (c := '}') (s := [')']) (space_append hy hw') (by decide) _
      rw [withComponents_succ, e, e1, Option.bind_some, hcm, items_eq, h3, Option.bind_some, e2,
        Option.bind_some, h1]
  | @lastLeaf k v w s c hw hk hv hc =>
    intro n m x t hn hm hx ht
    obtain ⟨h1, y, sd, hy, hsd, h2⟩ := compItemLast_syntax (C := withComponents n)
      (space_append hx hw) hk (leaf_nameEnd hv) (compValue_leaf hv _) hc
      (fun _ h => by cases h) ht
    refine ⟨[⟨k, .inl v, sd⟩], y, hy, rfl, by simpa using hsd, ?_⟩
    simp only [List.append_assoc] at h1 h2 ⊢
    exact itemsN_last h1 h2
  | @lastNode k cs w s c hw hk hs hc ih =>
    intro n m x t hn hm hx ht
    have hlen : s.length ≤ n := by simp at hn; omega
    obtain ⟨sd, hsd, hC⟩ := ih n (c ++ t) hlen
    obtain ⟨h1, y, sd, hy, hsd, h2⟩ := compItemLast_syntax (C := withComponents n)
      (space_append hx hw) hk (clause_nameEnd hs) (compValue_node hs hC) hc hsd ht
    refine ⟨[⟨k, .inr cs, sd⟩], y, hy, rfl, by simpa using hsd, ?_⟩
    simp only [List.append_assoc] at h1 h2 ⊢
    exact itemsN_last h1 h2
  | @leaf k v w s w' c r u hw hk hv hw' hc hr ih =>
    intro n m x t hn hm hx ht
    have hk1 := name_ne_nil hk
    have hl1 : u.length ≤ n := by simp at hn; omega
    cases m with
    | zero => simp at hm
    | succ m =>
      have hl2 : u.length ≤ m := by simp at hm; omega
      obtain ⟨y, sd, hy, hsd, h1⟩ := compItemNotLast_syntax (C := withComponents n) (t := u ++ t)
        (space_append hx hw) hk (leaf_nameEnd hv) (compValue_leaf hv _) hw' hc
        (fun _ h => by cases h) ((items_after hr t).imp fun c h => lower_ne h (by decide))
      obtain ⟨its, z, hz, h2, h3, h4⟩ := ih n m y t hl1 hl2 hy ht
      refine ⟨⟨k, .inl v, sd⟩ :: its, z, hz, by rw [← h2]; rfl, ?_, ?_⟩
      · rw [List.flatMap_cons]; exact cleanSides_append hsd h3
      · simp only [List.append_assoc] at h1 ⊢
        exact itemsN_cons h1 h4
  | @node k cs w s w' c r u hw hk hs hw' hc hr ih1 ih =>
    intro n m x t hn hm hx ht
    have hk1 := name_ne_nil hk
    have hl0 : s.length ≤ n := by simp at hn; omega
    have hl1 : u.length ≤ n := by simp at hn; omega
    cases m with
    | zero => simp at hm
    | succ m =>
      have hl2 : u.length ≤ m := by simp at hm; omega
      obtain ⟨sd0, hsd0, hC⟩ := ih1 n (w' ++ ([','] ++ (c ++ (u ++ t)))) hl0
      obtain ⟨y, sd, hy, hsd, h1⟩ := compItemNotLast_syntax (C := withComponents n) (t := u ++ t)
        (space_append hx hw) hk (clause_nameEnd hs) (compValue_node hs hC) hw' hc
        hsd0 ((items_after hr t).imp fun c h => lower_ne h (by decide))
      obtain ⟨its, z, hz, h2, h3, h4⟩ := ih n m y t hl1 hl2 hy ht
      refine ⟨⟨k, .inr cs, sd⟩ :: its, z, hz, by rw [← h2]; rfl, ?_, ?_⟩
      · rw [List.flatMap_cons]; exact cleanSides_append hsd h3
      · simp only [List.append_assoc] at h1 ⊢
        exact itemsN_cons h1 h4

theorem clauseOf_syntax {cs : Comps} {s : Text} (h : ClauseSyntax strictStyle true cs s)
    (t : Text) : ∃ sd, CleanSides sd ∧ clauseOf (s ++ t) = some ((cs, sd), t) :=
  clause_syntax h _ t (by simp; omega)

theorem clauseOf_none {t : Text} (h : After (· ≠ '(') t) : clauseOf t = none := by
  unfold clauseOf
  rw [withComponents_succ, lWith, tok_none h]; rfl

/-! ### Members -/

theorem typeEnd_after {t : Text} (h : After (fun c => c = ',' ∨ c = '}') t) : TypeEnd t := by
  obtain ⟨c, r, h1, h2⟩ := h
  obtain ⟨d, t', rfl, hd | ⟨rfl, rfl⟩⟩ := head_of_skipWs h1
  · exact .inr ⟨d, t', rfl, .inl hd⟩
  · rcases h2 with h2 | h2
    · exact .inr ⟨d, t', rfl, .inr (.inl h2)⟩
    · exact .inr ⟨d, t', rfl, .inr (.inr (.inl h2))⟩

theorem typeEnd_comment {c : Option Comment} {s t : Text} (h : OptComment strictStyle c s)
    (ht : TypeEnd t) : TypeEnd (s ++ t) := by
  cases h with
  | none => exact ht
  | some h =>
    obtain ⟨b, r, hb, e⟩ := comment_after h t
    rw [e]
    cases b with
    | nil => exact .inr ⟨'-', _, rfl, .inr (.inr (.inr (.inl ⟨rfl, _, rfl⟩)))⟩
    | cons d b => exact .inr ⟨d, _, rfl, .inl ((isWs_iff d).mpr (.inl (hb d (List.Mem.head _))))⟩

theorem typeEnd_clause {cs : Comps} {s : Text} (h : ClauseSyntax strictStyle true cs s) (t : Text) :
    TypeEnd (s ++ t) := by
  obtain ⟨w, r, hw, rfl⟩ := clause_head h
  cases w with
  | nil => exact .inr ⟨'(', _, rfl, .inr (.inr (.inr (.inr ⟨rfl, _, rfl⟩)))⟩
  | cons d b =>
    exact .inr ⟨d, _, rfl, .inl ((isWs_iff d).mpr (hw d (List.Mem.head _)))⟩

theorem type_nameEnd {y : AType} {s : Text} (h : TypeSyntax strictStyle y s) (t : Text) :
    NameEnd (s ++ t) := by
  obtain ⟨c, r, rfl, _⟩ := typeSyntax_head h
  exact nameEnd_cons (by decide +kernel) (by decide) _

theorem clause_after {cs : Comps} {s : Text} (h : ClauseSyntax strictStyle true cs s) (t : Text) :
    After (· = '(') (s ++ t) := by
  obtain ⟨w, r, hw, rfl⟩ := clause_head h
  rw [List.append_assoc]
  exact After.mk (P := (· = '(')) (c := '(') hw (by decide) rfl _

theorem members_after {ms : List Member} {s : Text} (h : MembersSyntax strictStyle ms s) (t : Text) :
    After (fun c => ('a' ≤ c && c ≤ 'z') = true) (s ++ t) := by
  cases h with
  | last hw hk _ _ => simp only [List.append_assoc]; exact after_lower hk hw
  | lastClause hw hk _ _ _ => simp only [List.append_assoc]; exact after_lower hk hw
  | comma hw hk _ _ _ _ => simp only [List.append_assoc]; exact after_lower hk hw
  | clauseComma hw hk _ _ _ _ _ => simp only [List.append_assoc]; exact after_lower hk hw

theorem members_syntax {ms : List Member} {s : Text} (h : MembersSyntax strictStyle ms s) :
    ∀ n x t, s.length ≤ n → Space x → After (· = '}') t →
      ∃ l y, Space y ∧ l.map (·.1) = ms ∧ CleanSides (memberSides l) ∧
        itemsN memberNotLast memberLast n (x ++ (s ++ t)) = some (l, y ++ t) := by
  induction h with
  | @last k y w s c sc hw hk hs hc =>
    intro n x t hn hx ht
    obtain ⟨z, hz, hcm⟩ := optComment_syntax hc (ht.imp fun c h => by subst h; decide)
    have hN := nameLower_syntax (t := s ++ (sc ++ t)) hk (space_append hx hw) (type_nameEnd hs _)
    have hT := typeOf_syntax hs
      (typeEnd_comment hc (typeEnd_after (ht.imp fun c h => .inr h)))
    have hcl : clauseOf (z ++ t) = none :=
      clauseOf_none ((ht.space hz).imp fun c h => by subst h; decide)
    have hco : tok [','] (sc ++ t) = none :=
      tok_none (optComment_after hc (by decide) (ht.imp fun c h => by subst h; decide))
    refine ⟨[(⟨k, y, c, none⟩, [])], z, hz, rfl, (fun _ h => by cases h), ?_⟩
    simp only [List.append_assoc] at hN ⊢
    refine itemsN_last ?_ ?_
    · unfold memberNotLast memberComma memberClauseComma
      simp only [Option.bind_eq_bind, Option.bind_some, hN, hT, hcm, hcl, hco, Option.bind_none,
        Option.none_or]
    · unfold memberLast
      simp only [Option.bind_eq_bind, Option.bind_some, hN, hT, hcm, hcl, Option.pure_def]
  | @lastClause k y w s c sc cs u hw hk hs hc hu =>
    intro n x t hn hx ht
    obtain ⟨z, hz, hcm⟩ := optComment_syntax (t := u ++ t) hc
      ((clause_after hu t).imp fun c h => by subst h; decide)
    have hN := nameLower_syntax (t := s ++ (sc ++ (u ++ t))) hk (space_append hx hw)
      (type_nameEnd hs _)
    have hT := typeOf_syntax hs (typeEnd_comment hc (typeEnd_clause hu t))
    have hu' : ClauseSyntax strictStyle true cs (z ++ u) := by
      cases hu with
      | @clause _ w c s w' hw hc hs hw' =>
        have := ClauseSyntax.clause (space_append hz hw) hc hs hw'
        simpa only [List.append_assoc] using this
    obtain ⟨sd, hsd, hcl⟩ := clauseOf_syntax hu' t
    rw [List.append_assoc] at hcl
    have hco : tok [','] (sc ++ (u ++ t)) = none :=
      tok_none (optComment_after hc (by decide) ((clause_after hu t).imp fun c h => by subst h; decide))
    have hco' : tok [','] t = none := tok_none (ht.imp fun c h => by subst h; decide)
    refine ⟨[(⟨k, y, c, some cs⟩, sd)], [], space_nil, rfl, ?_, ?_⟩
    · simpa [memberSides] using hsd
    simp only [List.append_assoc] at hN ⊢
    refine itemsN_last ?_ ?_
    · unfold memberNotLast memberComma memberClauseComma
      simp only [Option.bind_eq_bind, Option.bind_some, hN, hT, hcm, hcl, hco, hco', Option.bind_none,
        Option.none_or]
    · unfold memberLast
      simp only [Option.bind_eq_bind, Option.bind_some, hN, hT, hcm, hcl, Option.pure_def,
        List.nil_append]
  | @comma k y w s w' c sc ms u hw hk hs hw' hc hms ih =>
    intro n x t hn hx ht
    cases n with
    | zero => have := name_ne_nil hk; simp at hn
    | succ n =>
      have hl : u.length ≤ n := by have := name_ne_nil hk; simp at hn; omega
      obtain ⟨z, hz, hcm⟩ := optComment_syntax (t := u ++ t) hc
        ((members_after hms t).imp fun c h => lower_ne h (by decide))
      have hN := nameLower_syntax (t := s ++ (w' ++ ([','] ++ (sc ++ (u ++ t))))) hk
        (space_append hx hw) (type_nameEnd hs _)
      have hT := typeOf_syntax (t := w' ++ ([','] ++ (sc ++ (u ++ t)))) hs
        (typeEnd_after (After.mk hw' (by decide) (.inl rfl) _))
      obtain ⟨l, v, hv, h1, h2, h3⟩ := ih n z t hl hz ht
      refine ⟨(⟨k, y, c, none⟩, []) :: l, v, hv, by rw [← h1]; rfl, h2, ?_⟩
      simp only [List.append_assoc] at hN ⊢
      refine itemsN_cons ?_ h3
      unfold memberNotLast memberComma
      simp only [Option.bind_eq_bind, Option.bind_some, hN, hT, hcm,
        tok_lit hw' (show isWs ',' = false by decide), Option.pure_def, Option.some_or]
  | @clauseComma k y w s c sc cs q w' ms u hw hk hs hc hq hw' hms ih =>
    intro n x t hn hx ht
    cases n with
    | zero => have := name_ne_nil hk; simp at hn
    | succ n =>
      have hl : u.length ≤ n := by have := name_ne_nil hk; simp at hn; omega
      generalize hR : w' ++ ([','] ++ (u ++ t)) = R
      obtain ⟨z, hz, hcm⟩ := optComment_syntax (t := q ++ R) hc
        ((clause_after hq _).imp fun c h => by subst h; decide)
      have hN := nameLower_syntax (t := s ++ (sc ++ (q ++ R))) hk
        (space_append hx hw) (type_nameEnd hs _)
      have hT := typeOf_syntax (t := sc ++ (q ++ R)) hs
        (typeEnd_comment hc (typeEnd_clause hq _))
      have hq' : ClauseSyntax strictStyle true cs (z ++ q) := by
        cases hq with
        | @clause _ w c s w' hw hc hs hw' =>
          have := ClauseSyntax.clause (space_append hz hw) hc hs hw'
          simpa only [List.append_assoc] using this
      obtain ⟨sd, hsd, hcl⟩ := clauseOf_syntax hq' R
      rw [List.append_assoc] at hcl
      have hco : tok [','] (sc ++ (q ++ R)) = none :=
        tok_none (optComment_after hc (by decide) ((clause_after hq R).imp fun c h => by subst h; decide))
      have hco' : tok [','] R = some (u ++ t) := by
        rw [← hR]; exact tok_lit hw' (by decide) _ _
      obtain ⟨l, v, hv, h1, h2, h3⟩ := ih n [] t hl space_nil ht
      refine ⟨(⟨k, y, c, some cs⟩, sd) :: l, v, hv, by rw [← h1]; rfl, ?_, ?_⟩
      · exact cleanSides_append hsd h2
      · simp only [List.append_assoc] at hN ⊢
        rw [hR]
        refine itemsN_cons ?_ h3
        unfold memberNotLast memberComma memberClauseComma
        simp only [Option.bind_eq_bind, Option.bind_some, hN, hT, hcm, hcl, hco, hco',
          Option.bind_none, Option.none_or, Option.pure_def, List.nil_append]

end Apg
