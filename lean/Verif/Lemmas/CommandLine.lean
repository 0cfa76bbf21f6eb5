import Verif.Spec.CommandLine
import Verif.Model.CommandLine

/-!
# Lemmas about the command line
-/

namespace Apg
open Spec

/-- What the proofs need to know about the options of a command. -/
structure OptTable (names : List Text) : Prop where
  nodup : ("--help".toList :: names).Nodup
  noEq : ∀ n ∈ names, '=' ∉ n
  apart : ∀ n ∈ "--help".toList :: names, ∀ n' ∈ "--help".toList :: names, n <+: n' → n' = n

theorem optTable_of {names : List Text}
    (h1 : (decide ("--help".toList :: names).Nodup) = true)
    (h2 : names.all (fun n => !n.contains '=') = true)
    (h3 : ("--help".toList :: names).all (fun n => ("--help".toList :: names).all fun n' =>
      !n.isPrefixOf n' || n' == n) = true) : OptTable names := by
  refine ⟨of_decide_eq_true h1, ?_, ?_⟩
  · intro n hn he
    have := List.all_eq_true.1 h2 n hn
    simp [he] at this
  · intro n hn n' hn' hp
    have := List.all_eq_true.1 (List.all_eq_true.1 h3 n hn) n' hn'
    rw [List.isPrefixOf_iff_prefix.2 hp] at this
    simpa using this

theorem splitEq_none {t : Text} (h : '=' ∉ t) : splitEq t = (t, none) := by
  unfold splitEq
  have : t.dropWhile (· ≠ '=') = [] := by
    induction t with
    | nil => rfl
    | cons c t ih =>
      have hc : c ≠ '=' := fun e => h (by simp [e])
      rw [List.dropWhile_cons_of_pos (by simpa using hc)]
      exact ih fun e => h (by simp [e])
  rw [this]

theorem splitEq_some {t v : Text} (h : '=' ∉ t) : splitEq (t ++ '=' :: v) = (t, some v) := by
  have hall : ∀ c ∈ t, decide (c ≠ '=') = true := by
    intro c hc
    simp only [decide_eq_true_eq]
    rintro rfl
    exact h hc
  unfold splitEq
  have h1 : (t ++ '=' :: v).dropWhile (· ≠ '=') = '=' :: v := by
    rw [List.dropWhile_append_of_pos hall]
    simp
  have h2 : (t ++ '=' :: v).takeWhile (· ≠ '=') = t := by
    rw [List.takeWhile_append_of_pos hall]
    simp
  rw [h1, h2]

theorem splitEq_cases (t : Text) : ('=' ∉ t ∧ splitEq t = (t, none)) ∨
    ∃ u v, t = u ++ '=' :: v ∧ '=' ∉ u ∧ splitEq t = (u, some v) := by
  by_cases h : '=' ∈ t
  · obtain ⟨u, v, rfl, hu⟩ := List.eq_append_cons_of_mem h
    exact Or.inr ⟨u, v, rfl, hu, splitEq_some hu⟩
  · exact Or.inl ⟨h, splitEq_none h⟩

theorem wordKind_ordinary {names : List Text} {w : Text} (h : Ordinary w) : wordKind names w = .argument := by
  unfold wordKind
  rw [if_pos (Or.inl (show w.head? ≠ some '-' from h))]

/-- The filter of the options that a word abbreviates. -/
theorem filter_single {l : List Text} (hn : l.Nodup) {u n : Text} (hm : n ∈ l) (hp : u <+: n)
    (hu : ∀ n' ∈ l, u <+: n' → n' = n) : l.filter (u.isPrefixOf ·) = [n] := by
  induction l with
  | nil => cases hm
  | cons a l ih =>
    rw [List.nodup_cons] at hn
    by_cases ha : a = n
    · subst ha
      rw [List.filter_cons_of_pos (by exact List.isPrefixOf_iff_prefix.2 hp)]
      have : l.filter (u.isPrefixOf ·) = [] := by
        rw [List.filter_eq_nil_iff]
        intro x hx hpx
        have := hu x (List.mem_cons_of_mem _ hx) (List.isPrefixOf_iff_prefix.1 hpx)
        subst this
        exact hn.1 hx
      rw [this]
    · have hm' : n ∈ l := by
        rcases List.mem_cons.1 hm with h | h
        · exact absurd h.symm ha
        · exact h
      rw [List.filter_cons_of_neg (by
        intro hpx
        exact ha (hu a (List.mem_cons_self ..) (List.isPrefixOf_iff_prefix.1 hpx)))]
      exact ih hn.2 hm' fun n' hn' => hu n' (List.mem_cons_of_mem _ hn')

theorem single_filter {l : List Text} {u n : Text} (h : l.filter (u.isPrefixOf ·) = [n]) :
    n ∈ l ∧ u <+: n ∧ ∀ n' ∈ l, u <+: n' → n' = n := by
  have hm : n ∈ l.filter (u.isPrefixOf ·) := by rw [h]; simp
  obtain ⟨h1, h2⟩ := List.mem_filter.1 hm
  refine ⟨h1, List.isPrefixOf_iff_prefix.1 h2, fun n' hn' hp => ?_⟩
  have : n' ∈ l.filter (u.isPrefixOf ·) := List.mem_filter.2 ⟨hn', List.isPrefixOf_iff_prefix.2 hp⟩
  rw [h] at this
  simpa using this

theorem dashes {w : Text} (h : "--".toList <+: w) : ∃ r, w = '-' :: '-' :: r := by
  obtain ⟨r, rfl⟩ := h
  exact ⟨r, rfl⟩

variable {opts : List (Text × Bool)}

theorem writes_noEq (ht : OptTable (opts.map (·.1))) {w n : Text} (h : Writes opts w n) : '=' ∉ w := by
  obtain ⟨_, h2, h3, _⟩ := h
  exact fun he => ht.noEq n h3 (h2.subset he)

theorem writes_long {w n : Text} (ht : OptTable (opts.map (·.1))) (h : Writes opts w n) : w ≠ "--".toList := by
  rintro rfl
  obtain ⟨_, h2, h3, h4⟩ := h
  have : "--help".toList = n := h4 _ (List.mem_cons_self ..) ⟨"help".toList, rfl⟩
  rw [← this] at h3
  exact (List.nodup_cons.1 ht.nodup).1 h3

theorem wordKind_spaced (ht : OptTable (opts.map (·.1))) {w n : Text} (h : Writes opts w n) :
    wordKind (opts.map (·.1)) w = .option n none := by
  have hno := writes_noEq ht h
  obtain ⟨h1, h2, h3, h4⟩ := h
  obtain ⟨r, hr⟩ := dashes h1
  unfold wordKind
  rw [if_neg (by rw [hr]; simp)]
  by_cases hc : (opts.map (·.1)).contains w = true
  · rw [if_pos hc]
    have := h4 w (List.mem_cons_of_mem _ (List.contains_iff_mem.1 hc)) (List.prefix_refl _)
    rw [this]
  · rw [if_neg hc, splitEq_none hno]
    simp only [ne_eq, not_true_eq_false, false_and, if_false]
    rw [if_neg (by rw [hr]; simp), if_pos (List.isPrefixOf_iff_prefix.2 h1),
      filter_single ht.nodup (List.mem_cons_of_mem _ h3) h2 h4]
    simp only
    rw [if_neg]
    rintro rfl
    exact (List.nodup_cons.1 ht.nodup).1 h3

theorem wordKind_joined (ht : OptTable (opts.map (·.1))) {w n v : Text} (h : Writes opts w n) :
    wordKind (opts.map (·.1)) (w ++ '=' :: v) = .option n (some v) := by
  have hno := writes_noEq ht h
  obtain ⟨h1, h2, h3, h4⟩ := h
  obtain ⟨r, hr⟩ := dashes h1
  unfold wordKind
  rw [if_neg (by rw [hr]; simp), if_neg (by
    intro hc
    exact ht.noEq _ (List.contains_iff_mem.1 hc) (by simp)), splitEq_some hno]
  simp only [ne_eq, reduceCtorEq, not_false_eq_true, true_and]
  by_cases hc : (opts.map (·.1)).contains w = true
  · rw [if_pos hc]
    have := h4 w (List.mem_cons_of_mem _ (List.contains_iff_mem.1 hc)) (List.prefix_refl _)
    rw [this]
  · rw [if_neg hc, if_neg (by rw [hr]; simp),
      if_pos (List.isPrefixOf_iff_prefix.2 (h1.trans (List.prefix_append _ _))),
      filter_single ht.nodup (List.mem_cons_of_mem _ h3) h2 h4]
    simp only
    rw [if_neg]
    rintro rfl
    exact (List.nodup_cons.1 ht.nodup).1 h3

/-- What a usual word is, by its kind. -/
theorem wordKind_usual (ht : OptTable (opts.map (·.1))) {w : Text} (hu : Usual w) :
    (Ordinary w ∧ wordKind (opts.map (·.1)) w = .argument) ∨
    (∃ n, Writes opts w n ∧ wordKind (opts.map (·.1)) w = .option n none) ∨
    (∃ u n v, w = u ++ '=' :: v ∧ Writes opts u n ∧ wordKind (opts.map (·.1)) w = .option n (some v)) ∨
    wordKind (opts.map (·.1)) w = .exit := by
  rcases hu with ho | ⟨r, hr, hne, hsp⟩
  · exact Or.inl ⟨ho, wordKind_ordinary ho⟩
  · have hd : "--".toList <+: w := ⟨r, hr.symm⟩
    have hr' : w = '-' :: '-' :: r := hr
    have hself : ∀ n ∈ opts.map (·.1), "--".toList <+: n → Writes opts n n := fun n hn hdn =>
      ⟨hdn, List.prefix_refl _, hn, fun n' hn' hp => ht.apart n (List.mem_cons_of_mem _ hn) n' hn' hp⟩
    by_cases hc : (opts.map (·.1)).contains w = true
    · have hw := hself w (List.contains_iff_mem.1 hc) hd
      exact Or.inr (Or.inl ⟨w, hw, wordKind_spaced ht hw⟩)
    · rcases splitEq_cases w with ⟨hno, hs⟩ | ⟨u, v, he, hno, hs⟩
      · cases hf : ("--help".toList :: opts.map (·.1)).filter (w.isPrefixOf ·) with
        | nil =>
          refine Or.inr (Or.inr (Or.inr ?_))
          unfold wordKind
          rw [if_neg (by rw [hr']; simp), if_neg hc, hs]
          simp only [ne_eq, not_true_eq_false, false_and, if_false]
          rw [if_neg (by rw [hr']; simp), if_pos (List.isPrefixOf_iff_prefix.2 hd), hf]
          simp only
          rw [if_neg]
          have h1 : w.contains ' ' = false := by
            rw [Bool.eq_false_iff]
            intro h
            exact hsp (List.contains_iff_mem.1 h)
          rw [h1, hr']
          have h2 : (Parse.uniDigit '-').isSome = false := by decide
          simp [negativeNumber, h2]
        | cons a l =>
          cases l with
          | nil =>
            obtain ⟨h1, h2, h3⟩ := single_filter hf
            rcases List.mem_cons.1 h1 with rfl | h1
            · refine Or.inr (Or.inr (Or.inr ?_))
              unfold wordKind
              rw [if_neg (by rw [hr']; simp), if_neg hc, hs]
              simp only [ne_eq, not_true_eq_false, false_and, if_false]
              rw [if_neg (by rw [hr']; simp), if_pos (List.isPrefixOf_iff_prefix.2 hd), hf]
              simp
            · have hw : Writes opts w a := ⟨hd, h2, h1, h3⟩
              exact Or.inr (Or.inl ⟨a, hw, wordKind_spaced ht hw⟩)
          | cons b l =>
            refine Or.inr (Or.inr (Or.inr ?_))
            unfold wordKind
            rw [if_neg (by rw [hr']; simp), if_neg hc, hs]
            simp only [ne_eq, not_true_eq_false, false_and, if_false]
            rw [if_neg (by rw [hr']; simp), if_pos (List.isPrefixOf_iff_prefix.2 hd), hf]
      · have hdu : "--".toList <+: u := by
          cases u with
          | nil => rw [hr'] at he; cases he
          | cons a u =>
            cases u with
            | nil => rw [hr'] at he; injection he with h1 h2; injection h2 with h2 _; cases h2
            | cons b u =>
              rw [hr'] at he
              injection he with h1 h2
              injection h2 with h2 _
              exact ⟨u, by rw [← h1, ← h2]; rfl⟩
        by_cases hcu : (opts.map (·.1)).contains u = true
        · have hw := hself u (List.contains_iff_mem.1 hcu) hdu
          exact Or.inr (Or.inr (Or.inl ⟨u, u, v, he, hw, by rw [he]; exact wordKind_joined ht hw⟩))
        · cases hf : ("--help".toList :: opts.map (·.1)).filter (u.isPrefixOf ·) with
          | nil =>
            refine Or.inr (Or.inr (Or.inr ?_))
            unfold wordKind
            rw [if_neg (by rw [hr']; simp), if_neg hc, hs]
            simp only [ne_eq, reduceCtorEq, not_false_eq_true, true_and]
            rw [if_neg hcu, if_neg (by rw [hr']; simp), if_pos (List.isPrefixOf_iff_prefix.2 hd), hf]
            simp only
            rw [if_neg]
            have h1 : w.contains ' ' = false := by
              rw [Bool.eq_false_iff]
              intro h
              exact hsp (List.contains_iff_mem.1 h)
            rw [h1, hr']
            have h2 : (Parse.uniDigit '-').isSome = false := by decide
            simp [negativeNumber, h2]
          | cons a l =>
            cases l with
            | nil =>
              obtain ⟨h1, h2, h3⟩ := single_filter hf
              rcases List.mem_cons.1 h1 with rfl | h1
              · refine Or.inr (Or.inr (Or.inr ?_))
                unfold wordKind
                rw [if_neg (by rw [hr']; simp), if_neg hc, hs]
                simp only [ne_eq, reduceCtorEq, not_false_eq_true, true_and]
                rw [if_neg hcu, if_neg (by rw [hr']; simp), if_pos (List.isPrefixOf_iff_prefix.2 hd), hf]
                simp
              · have hw : Writes opts u a := ⟨hdu, h2, h1, h3⟩
                exact Or.inr (Or.inr (Or.inl ⟨u, a, v, he, hw, by rw [he]; exact wordKind_joined ht hw⟩))
            | cons b l =>
              refine Or.inr (Or.inr (Or.inr ?_))
              unfold wordKind
              rw [if_neg (by rw [hr']; simp), if_neg hc, hs]
              simp only [ne_eq, reduceCtorEq, not_false_eq_true, true_and]
              rw [if_neg hcu, if_neg (by rw [hr']; simp), if_pos (List.isPrefixOf_iff_prefix.2 hd), hf]

/-! ### Scanning -/

theorem scan_option (ht : OptTable (opts.map (·.1))) {x : Part} (hg : x.Good opts) (hp : ¬ x.IsPaths)
    (ws ps : List Text) (vs : List (Text × Text)) (closed : Bool) :
    scan (opts.map (·.1)) (x.words ++ ws) ps vs closed =
      scan (opts.map (·.1)) ws ps (vs ++ x.value) (!ps.isEmpty) := by
  cases x with
  | paths _ => exact absurd trivial hp
  | spaced w n v =>
    obtain ⟨h1, h2⟩ := hg
    show scan _ (w :: v :: ws) ps vs closed = _
    rw [scan, if_neg (writes_long ht h1), wordKind_spaced ht h1]
    simp only
    rw [if_pos ⟨by rintro rfl; exact h2 rfl, wordKind_ordinary h2⟩]
    rfl
  | joined w n v =>
    show scan _ ((w ++ '=' :: v) :: ws) ps vs closed = _
    rw [scan, if_neg, wordKind_joined ht hg]
    · rfl
    · intro h
      have : '=' ∈ "--".toList := by rw [← h]; simp
      exact absurd this (by decide)

theorem scan_options (ht : OptTable (opts.map (·.1))) : ∀ (xs : List Part), (∀ x ∈ xs, x.Good opts ∧ ¬ x.IsPaths) →
    ∀ (ws ps : List Text) (vs : List (Text × Text)) (closed : Bool),
    scan (opts.map (·.1)) (xs.flatMap Part.words ++ ws) ps vs closed =
      scan (opts.map (·.1)) ws ps (vs ++ xs.flatMap Part.value) (if xs = [] then closed else !ps.isEmpty)
  | [], _, ws, ps, vs, closed => by simp
  | x :: xs, h, ws, ps, vs, closed => by
    rw [List.flatMap_cons, List.append_assoc, scan_option ht (h x (by simp)).1 (h x (by simp)).2,
      scan_options ht xs (fun y hy => h y (by simp [hy]))]
    simp

theorem scan_paths {names : List Text} : ∀ (more : List Text), (∀ p ∈ more, Ordinary p) →
    ∀ (ws ps : List Text) (vs : List (Text × Text)),
    scan names (more ++ ws) ps vs false = scan names ws (ps ++ more) vs false
  | [], _, ws, ps, vs => by simp
  | m :: more, h, ws, ps, vs => by
    have hm := h m (by simp)
    rw [List.cons_append, scan, if_neg (by rintro rfl; exact hm rfl), wordKind_ordinary hm]
    simp only [Bool.false_eq_true, if_false]
    rw [scan_paths more (fun p hp => h p (by simp [hp]))]
    simp

theorem scan_complete (ht : OptTable (opts.map (·.1))) {parts : List Part} (h : Invocation opts parts) :
    scan (opts.map (·.1)) (parts.flatMap Part.words) [] [] false =
      some (parts.flatMap Part.inputs, parts.flatMap Part.value) := by
  obtain ⟨hg, pre, ps, post, rfl, hnp⟩ := h
  have hi : ∀ xs : List Part, (∀ x ∈ xs, ¬ x.IsPaths) → xs.flatMap Part.inputs = [] := by
    intro xs hx
    rw [List.flatMap_eq_nil_iff]
    intro x hxm
    cases x with
    | paths _ => exact absurd trivial (hx _ hxm)
    | _ => rfl
  have hpg : ps ≠ [] ∧ ∀ p ∈ ps, Ordinary p := hg (.paths ps) (by simp)
  have hpre := scan_options ht pre (fun x hx => ⟨hg x (by simp [hx]), hnp x (by simp [hx])⟩)
    (ps ++ (post.flatMap Part.words ++ [])) [] [] false
  have hpost := scan_options ht post (fun x hx => ⟨hg x (by simp [hx]), hnp x (by simp [hx])⟩)
    [] ([] ++ ps) ([] ++ pre.flatMap Part.value) false
  have e : (if pre = [] then false else !([] : List Text).isEmpty) = false := by split <;> rfl
  rw [e, scan_paths ps hpg.2, hpost, scan, if_neg (by simpa using hpg.1)] at hpre
  simp only [List.flatMap_append, List.flatMap_cons, Part.words, Part.inputs, Part.value, List.nil_append,
    List.append_nil] at hpre ⊢
  rw [hpre, hi pre fun x hx => hnp x (by simp [hx]), hi post fun x hx => hnp x (by simp [hx])]
  simp

/-- Words that are options only. -/
def OptionWords (opts : List (Text × Bool)) (ws : List Text) (vs : List (Text × Text)) : Prop :=
  ∃ xs : List Part, (∀ x ∈ xs, x.Good opts ∧ ¬ x.IsPaths) ∧ ws = xs.flatMap Part.words ∧ vs = xs.flatMap Part.value

theorem OptionWords.cons {x : Part} {ws : List Text} {vs : List (Text × Text)} (hx : x.Good opts ∧ ¬ x.IsPaths)
    (h : OptionWords opts ws vs) : OptionWords opts (x.words ++ ws) (x.value ++ vs) := by
  obtain ⟨xs, h1, rfl, rfl⟩ := h
  exact ⟨x :: xs, fun y hy => (List.mem_cons.1 hy).elim (fun h => h ▸ hx) (h1 y), rfl, rfl⟩

/-- One step of a scan that succeeds, over usual words. -/
theorem scan_step (ht : OptTable (opts.map (·.1))) {w : Text} {ws ps : List Text} {vs : List (Text × Text)}
    {closed : Bool} {r : List Text × List (Text × Text)} (hu : ∀ t ∈ w :: ws, Usual t)
    (h : scan (opts.map (·.1)) (w :: ws) ps vs closed = some r) :
    (Ordinary w ∧ closed = false ∧ scan (opts.map (·.1)) ws (ps ++ [w]) vs false = some r) ∨
    ∃ (x : Part) (rest : List Text), x.Good opts ∧ ¬ x.IsPaths ∧ w :: ws = x.words ++ rest ∧
      rest.length < (w :: ws).length ∧ scan (opts.map (·.1)) rest ps (vs ++ x.value) (!ps.isEmpty) = some r := by
  have hw : w ≠ "--".toList := by
    rintro rfl
    rcases hu _ (List.mem_cons_self ..) with h | ⟨r, hr, hne, _⟩
    · exact h rfl
    · exact hne (List.append_cancel_left (as := "--".toList) (bs := r) (cs := []) (by rw [← hr]; simp))
  rw [scan, if_neg hw] at h
  rcases wordKind_usual ht (hu w (List.mem_cons_self ..)) with ⟨ho, hk⟩ | ⟨n, hwr, hk⟩ | ⟨u, n, v, he, hwr, hk⟩ | hk
  · rw [hk] at h
    cases closed with
    | true => simp at h
    | false => exact Or.inl ⟨ho, rfl, by simpa using h⟩
  · rw [hk] at h
    simp only at h
    cases ws with
    | nil => cases h
    | cons v ws =>
      simp only at h
      split at h
      · rename_i hv
        have hov : Ordinary v := by
          rcases wordKind_usual ht (hu v (by simp)) with ⟨ho, _⟩ | ⟨_, _, hk'⟩ | ⟨_, _, _, _, _, hk'⟩ | hk'
          · exact ho
          · rw [hk'] at hv; cases hv.2
          · rw [hk'] at hv; cases hv.2
          · rw [hk'] at hv; cases hv.2
        exact Or.inr ⟨.spaced w n v, ws, ⟨hwr, hov⟩, fun h => h, rfl, by simp; omega, h⟩
      · cases h
  · rw [hk] at h
    exact Or.inr ⟨.joined u n v, ws, hwr, fun h => h, by rw [he]; rfl, by simp, h⟩
  · rw [hk] at h
    cases h

theorem scan_sound_after (ht : OptTable (opts.map (·.1))) (k : Nat) : ∀ (ws ps : List Text) (vs : List (Text × Text))
    (closed : Bool) (r : List Text × List (Text × Text)), ws.length ≤ k → (∀ t ∈ ws, Usual t) → ps ≠ [] →
    scan (opts.map (·.1)) ws ps vs closed = some r →
    ∃ more rest vs', ws = more ++ rest ∧ (∀ p ∈ more, Ordinary p) ∧ (closed = true → more = []) ∧
      OptionWords opts rest vs' ∧ r = (ps ++ more, vs ++ vs') := by
  induction k with
  | zero =>
    intro ws ps vs closed r hk hu hp h
    have : ws = [] := List.length_eq_zero_iff.1 (by omega)
    subst this
    rw [scan, if_neg hp] at h
    cases h
    exact ⟨[], [], [], rfl, by simp, fun _ => rfl, ⟨[], by simp, rfl, rfl⟩, by simp⟩
  | succ k ih =>
    intro ws ps vs closed r hk hu hp h
    cases ws with
    | nil =>
      rw [scan, if_neg hp] at h
      cases h
      exact ⟨[], [], [], rfl, by simp, fun _ => rfl, ⟨[], by simp, rfl, rfl⟩, by simp⟩
    | cons w ws =>
      rcases scan_step ht hu h with ⟨ho, hc, h'⟩ | ⟨x, rest, hg, hnp, he, hl, h'⟩
      · obtain ⟨more, rest, vs', e1, e2, e3, e4, e5⟩ := ih ws (ps ++ [w]) vs false r (by simp at hk; omega)
          (fun t ht => hu t (by simp [ht])) (by simp) h'
        refine ⟨w :: more, rest, vs', by rw [e1]; rfl, ?_, ?_, e4, by rw [e5]; simp⟩
        · intro p hp
          rcases List.mem_cons.1 hp with rfl | hp
          · exact ho
          · exact e2 p hp
        · intro hc'; rw [hc] at hc'; cases hc'
      · have hne : (!ps.isEmpty) = true := by cases ps with
          | nil => exact absurd rfl hp
          | cons => rfl
        rw [hne] at h'
        obtain ⟨more, rest', vs', e1, e2, e3, e4, e5⟩ := ih rest ps (vs ++ x.value) true r
          (by simp at hk hl; omega) (fun t ht => hu t (by rw [he]; simp [ht])) hp h'
        have := e3 rfl
        subst this
        rw [List.nil_append] at e1
        subst e1
        exact ⟨[], w :: ws, x.value ++ vs', rfl, by simp, fun _ => rfl, by rw [he]; exact e4.cons ⟨hg, hnp⟩,
          by rw [e5, List.append_assoc]⟩

theorem scan_sound (ht : OptTable (opts.map (·.1))) (k : Nat) : ∀ (ws : List Text) (vs : List (Text × Text))
    (r : List Text × List (Text × Text)), ws.length ≤ k → (∀ t ∈ ws, Usual t) →
    scan (opts.map (·.1)) ws [] vs false = some r →
    ∃ parts, Invocation opts parts ∧ ws = parts.flatMap Part.words ∧ r.1 = parts.flatMap Part.inputs ∧
      r.2 = vs ++ parts.flatMap Part.value := by
  induction k with
  | zero =>
    intro ws vs r hk hu h
    have : ws = [] := List.length_eq_zero_iff.1 (by omega)
    subst this
    rw [scan, if_pos rfl] at h
    cases h
  | succ k ih =>
    intro ws vs r hk hu h
    cases ws with
    | nil =>
      rw [scan, if_pos rfl] at h
      cases h
    | cons w ws =>
      rcases scan_step ht hu h with ⟨ho, _, h'⟩ | ⟨x, rest, hg, hnp, he, hl, h'⟩
      · obtain ⟨more, rest, vs', e1, e2, _, ⟨xs, e4, e6, e7⟩, e5⟩ := scan_sound_after ht ws.length ws ([] ++ [w]) vs
          false r (Nat.le_refl _) (fun t ht => hu t (by simp [ht])) (by simp) h'
        refine ⟨.paths (w :: more) :: xs, ⟨?_, [], w :: more, xs, rfl, ?_⟩, ?_, ?_, ?_⟩
        · intro x hx
          rcases List.mem_cons.1 hx with rfl | hx
          · refine ⟨by simp, fun p hp => ?_⟩
            rcases List.mem_cons.1 hp with rfl | hp
            · exact ho
            · exact e2 p hp
          · exact (e4 x hx).1
        · intro x hx
          exact (e4 x (by simpa using hx)).2
        · rw [e1, e6]; rfl
        · rw [e5]
          have : xs.flatMap Part.inputs = [] := by
            rw [List.flatMap_eq_nil_iff]
            intro x hxm
            cases x with
            | paths _ => exact absurd trivial (e4 _ hxm).2
            | _ => rfl
          rw [List.flatMap_cons, this]
          simp [Part.inputs]
        · rw [e5, e7]; rfl
      · obtain ⟨parts, ⟨g1, pre, ps, post, g2, g3⟩, g4, g5, g6⟩ := ih rest (vs ++ x.value) r (by simp at hk hl; omega)
          (fun t ht => hu t (by rw [he]; simp [ht])) h'
        refine ⟨x :: parts, ⟨?_, x :: pre, ps, post, by rw [g2]; rfl, ?_⟩, ?_, ?_, ?_⟩
        · intro y hy
          rcases List.mem_cons.1 hy with rfl | hy
          · exact hg
          · exact g1 y hy
        · intro y hy
          rcases List.mem_cons.1 hy with rfl | hy
          · exact hnp
          · exact g3 y hy
        · rw [he, g4]; rfl
        · rw [g5, List.flatMap_cons]
          cases x with
          | paths _ => exact absurd trivial hnp
          | _ => rfl
        · rw [g6, List.flatMap_cons, List.append_assoc]

/-! ### Values -/

theorem stored_iff {vs : List (Text × Text)} {n v : Text} : stored vs n = some v ↔ Last vs n v := by
  unfold stored Last
  constructor
  · intro h
    rw [Option.map_eq_some_iff] at h
    obtain ⟨⟨n', v'⟩, h1, rfl⟩ := h
    rw [List.find?_eq_some_iff_append] at h1
    obtain ⟨h2, as, bs, h3, h4⟩ := h1
    have hn : n' = n := by simpa using h2
    subst hn
    refine ⟨bs.reverse, as.reverse, ?_, ?_⟩
    · have := congrArg List.reverse h3
      simpa using this
    · intro hm
      obtain ⟨x, hx, hxn⟩ := List.mem_map.1 hm
      have := h4 x (by simpa using hx)
      simp [hxn] at this
  · rintro ⟨pre, post, rfl, hn⟩
    rw [Option.map_eq_some_iff]
    refine ⟨(n, v), ?_, rfl⟩
    rw [List.find?_eq_some_iff_append]
    refine ⟨by simp, post.reverse, pre.reverse, by simp, ?_⟩
    intro x hx
    have : x.1 ≠ n := by
      rintro rfl
      exact hn (List.mem_map.2 ⟨x, by simpa using hx, rfl⟩)
    simp [this]

theorem stored_none {vs : List (Text × Text)} {n : Text} : stored vs n = none ↔ n ∉ vs.map (·.1) := by
  unfold stored
  rw [Option.map_eq_none_iff, List.find?_eq_none]
  constructor
  · intro h hm
    obtain ⟨x, hx, hxn⟩ := List.mem_map.1 hm
    exact h x (by simpa using hx) (by simp [hxn])
  · intro h x hx hxn
    exact h (List.mem_map.2 ⟨x, by simpa using hx, by simpa using hxn⟩)

theorem stored_or {vs : List (Text × Text)} {n d v : Text} : (stored vs n).getD d = v ↔ LastOr vs n d v := by
  unfold LastOr
  cases h : stored vs n with
  | none =>
    have hn := stored_none.1 h
    constructor
    · rintro rfl; exact Or.inr ⟨hn, rfl⟩
    · rintro (h' | ⟨_, rfl⟩)
      · rw [← stored_iff, h] at h'; cases h'
      · rfl
  | some w =>
    have hw := stored_iff.1 h
    constructor
    · rintro rfl; exact Or.inl hw
    · rintro (h' | ⟨h', _⟩)
      · rw [← stored_iff, h] at h'; exact Option.some.inj h'
      · rw [← stored_none, h] at h'; cases h'

theorem endianOf_iff {v : Text} {e : Endian} : endianOf v = some e ↔ ByteOrder v e := by
  unfold endianOf
  split
  · rename_i h
    subst h
    constructor
    · intro h; cases h; exact .little
    · intro h
      generalize hv : "little-endian".toList = v at h
      cases h
      · rfl
      · exact absurd hv (by decide)
  · rename_i h1
    split
    · rename_i h
      subst h
      constructor
      · intro h; cases h; exact .big
      · intro h
        generalize hv : "big-endian".toList = v at h
        cases h
        · exact absurd hv (by decide)
        · rfl
    · rename_i h2
      constructor
      · intro h; cases h
      · intro h; cases h
        · exact absurd rfl h1
        · exact absurd rfl h2

/-! ### The parsed command line -/

theorem offers_table {cmd : Text} (h : Offers cmd opts) : OptTable (opts.map (·.1)) := by
  cases h <;> exact optTable_of (by decide +kernel) (by decide +kernel) (by decide +kernel)

theorem parseArgs_cosmos (ws : List Text) (ps : List Text) (a : Args) :
    parseArgs ("generate-cosmos".toList :: ws) = some (ps, a) ↔
      ∃ vs, scan cosmosNames ws [] [] false = some (ps, vs) ∧ Means "generate-cosmos".toList vs a := by
  rw [parseArgs, if_pos rfl]
  simp only [Option.bind_eq_bind, Option.bind_eq_some_iff]
  constructor
  · rintro ⟨⟨ps', vs⟩, h1, m, h2, ms, h3, t, h4, h5⟩
    rw [Option.some.injEq, Prod.mk.injEq] at h5
    obtain ⟨rfl, rfl⟩ := h5
    exact ⟨vs, h1, .cosmos (stored_iff.1 h2) (stored_iff.1 h3) (stored_iff.1 h4) (stored_or.1 rfl)⟩
  · rintro ⟨vs, h1, h2⟩
    generalize hc : "generate-cosmos".toList = cmd at h2
    cases h2 with
    | cosmos g1 g2 g3 g4 =>
      exact ⟨(ps, vs), h1, _, stored_iff.2 g1, _, stored_iff.2 g2, _, stored_iff.2 g3, by rw [stored_or.2 g4]⟩
    | cfs => exact absurd hc (by decide)
    | c => exact absurd hc (by decide)
    | binary => exact absurd hc (by decide)

theorem parseArgs_cfs (ws : List Text) (ps : List Text) (a : Args) :
    parseArgs ("generate-cfs".toList :: ws) = some (ps, a) ↔
      ∃ vs, scan cNames ws [] [] false = some (ps, vs) ∧ Means "generate-cfs".toList vs a := by
  rw [parseArgs, if_neg (by decide), if_pos rfl]
  simp only [Option.bind_eq_bind, Option.bind_eq_some_iff]
  constructor
  · rintro ⟨⟨ps', vs⟩, h1, m, h2, h5⟩
    rw [Option.some.injEq, Prod.mk.injEq] at h5
    obtain ⟨rfl, rfl⟩ := h5
    exact ⟨vs, h1, .cfs (stored_iff.1 h2) (stored_or.1 rfl)⟩
  · rintro ⟨vs, h1, h2⟩
    generalize hc : "generate-cfs".toList = cmd at h2
    cases h2 with
    | cfs g1 g4 => exact ⟨(ps, vs), h1, _, stored_iff.2 g1, by rw [stored_or.2 g4]⟩
    | cosmos => exact absurd hc (by decide)
    | c => exact absurd hc (by decide)
    | binary => exact absurd hc (by decide)

theorem parseArgs_c (ws : List Text) (ps : List Text) (a : Args) :
    parseArgs ("generate-c".toList :: ws) = some (ps, a) ↔
      ∃ vs, scan cNames ws [] [] false = some (ps, vs) ∧ Means "generate-c".toList vs a := by
  rw [parseArgs, if_neg (by decide), if_neg (by decide), if_pos rfl]
  simp only [Option.bind_eq_bind, Option.bind_eq_some_iff]
  constructor
  · rintro ⟨⟨ps', vs⟩, h1, m, h2, h5⟩
    rw [Option.some.injEq, Prod.mk.injEq] at h5
    obtain ⟨rfl, rfl⟩ := h5
    exact ⟨vs, h1, .c (stored_iff.1 h2) (stored_or.1 rfl)⟩
  · rintro ⟨vs, h1, h2⟩
    generalize hc : "generate-c".toList = cmd at h2
    cases h2 with
    | c g1 g4 => exact ⟨(ps, vs), h1, _, stored_iff.2 g1, by rw [stored_or.2 g4]⟩
    | cosmos => exact absurd hc (by decide)
    | cfs => exact absurd hc (by decide)
    | binary => exact absurd hc (by decide)

theorem parseArgs_binary (ws : List Text) (ps : List Text) (a : Args) :
    parseArgs ("generate-binary".toList :: ws) = some (ps, a) ↔
      ∃ vs, scan binaryNames ws [] [] false = some (ps, vs) ∧ Means "generate-binary".toList vs a := by
  rw [parseArgs, if_neg (by decide), if_neg (by decide), if_neg (by decide), if_pos rfl]
  simp only [Option.bind_eq_bind, Option.bind_eq_some_iff]
  have hall : ∀ vs : List (Text × Text),
      ((vs.filter (fun x => x.1 == "--endianness".toList)).all (fun x => (endianOf x.2).isSome) = true ↔
        ∀ x ∈ vs, x.1 = "--endianness".toList → ∃ e', ByteOrder x.2 e') := by
    intro vs
    simp only [List.all_eq_true, List.mem_filter, beq_iff_eq, and_imp, Option.isSome_iff_exists, endianOf_iff]
  have hend : ∀ (vs : List (Text × Text)) (e' : Endian),
      (stored vs "--endianness".toList).bind endianOf = some e' ↔
        ∃ v, Last vs "--endianness".toList v ∧ ByteOrder v e' := by
    intro vs e'
    simp only [Option.bind_eq_some_iff, stored_iff, endianOf_iff]
  constructor
  · rintro ⟨⟨ps', vs⟩, h1, m, h2, h5⟩
    split at h5
    · rename_i h6
      rw [Option.some.injEq, Prod.mk.injEq] at h5
      obtain ⟨rfl, rfl⟩ := h5
      exact ⟨vs, h1, .binary (stored_iff.1 h2) (stored_or.1 rfl) ((hall vs).1 h6) (hend vs)⟩
    · cases h5
  · rintro ⟨vs, h1, h2⟩
    generalize hc : "generate-binary".toList = cmd at h2
    cases h2 with
    | @binary _ ms out e g1 g2 g3 g4 =>
      refine ⟨(ps, vs), h1, _, stored_iff.2 g1, ?_⟩
      have he : (stored vs "--endianness".toList).bind endianOf = e := by
        apply Option.ext
        intro e'
        rw [hend, g4]
      simp only
      rw [if_pos ((hall vs).2 g3), stored_or.2 g2, he]
    | cosmos => exact absurd hc (by decide)
    | cfs => exact absurd hc (by decide)
    | c => exact absurd hc (by decide)

theorem parseArgs_iff {cmd : Text} (h : Offers cmd opts) (ws ps : List Text) (a : Args) :
    parseArgs (cmd :: ws) = some (ps, a) ↔
      ∃ vs, scan (opts.map (·.1)) ws [] [] false = some (ps, vs) ∧ Means cmd vs a := by
  cases h
  · exact parseArgs_cosmos ws ps a
  · exact parseArgs_cfs ws ps a
  · exact parseArgs_c ws ps a
  · exact parseArgs_binary ws ps a

theorem parseArgs_offers {argv ps : List Text} {a : Args} (h : parseArgs argv = some (ps, a)) :
    ∃ cmd opts ws, argv = cmd :: ws ∧ Offers cmd opts := by
  cases argv with
  | nil => cases h
  | cons cmd ws =>
    rw [parseArgs] at h
    split at h
    · rename_i hc; exact ⟨cmd, _, ws, rfl, by rw [hc]; exact .cosmos⟩
    · split at h
      · rename_i hc; exact ⟨cmd, _, ws, rfl, by rw [hc]; exact .cfs⟩
      · split at h
        · rename_i hc; exact ⟨cmd, _, ws, rfl, by rw [hc]; exact .c⟩
        · split at h
          · rename_i hc; exact ⟨cmd, _, ws, rfl, by rw [hc]; exact .binary⟩
          · cases h

/-! ### Order -/

theorem last_iff_mem {vs : List (Text × Text)} (hn : (vs.map (·.1)).Nodup) {n v : Text} :
    Last vs n v ↔ (n, v) ∈ vs := by
  constructor
  · rintro ⟨pre, post, rfl, _⟩
    simp
  · intro h
    obtain ⟨pre, post, rfl⟩ := List.append_of_mem h
    refine ⟨pre, post, rfl, ?_⟩
    rw [List.map_append, List.map_cons, List.nodup_append] at hn
    exact (List.nodup_cons.1 hn.2.1).1

theorem last_perm {vs vs' : List (Text × Text)} (hp : vs.Perm vs') (hn : (vs.map (·.1)).Nodup) {n v : Text} :
    Last vs n v ↔ Last vs' n v := by
  rw [last_iff_mem hn, last_iff_mem ((hp.map _).nodup_iff.1 hn), hp.mem_iff]

theorem means_perm {cmd : Text} {vs vs' : List (Text × Text)} (hp : vs.Perm vs') (hn : (vs.map (·.1)).Nodup)
    {a : Args} (h : Means cmd vs a) : Means cmd vs' a := by
  have hl := fun n v => last_perm hp hn (n := n) (v := v)
  have ho : ∀ n d v, LastOr vs n d v → LastOr vs' n d v := by
    intro n d v h
    rcases h with h | ⟨h, h'⟩
    · exact Or.inl ((hl n v).1 h)
    · exact Or.inr ⟨fun hm => h ((hp.map _).mem_iff.2 hm), h'⟩
  cases h with
  | cosmos h1 h2 h3 h4 => exact .cosmos ((hl _ _).1 h1) ((hl _ _).1 h2) ((hl _ _).1 h3) (ho _ _ _ h4)
  | cfs h1 h2 => exact .cfs ((hl _ _).1 h1) (ho _ _ _ h2)
  | c h1 h2 => exact .c ((hl _ _).1 h1) (ho _ _ _ h2)
  | binary h1 h2 h3 h4 =>
    refine .binary ((hl _ _).1 h1) (ho _ _ _ h2) (fun x hx => h3 x (hp.mem_iff.2 hx)) fun e' => ?_
    rw [h4]
    constructor
    · rintro ⟨v, g, g'⟩; exact ⟨v, (hl _ _).1 g, g'⟩
    · rintro ⟨v, g, g'⟩; exact ⟨v, (hl _ _).2 g, g'⟩

theorem inputs_perm {parts parts' : List Part} (hp : parts.Perm parts') (h : Invocation opts parts) :
    Invocation opts parts' ∧ parts'.flatMap Part.inputs = parts.flatMap Part.inputs := by
  have hi : ∀ xs : List Part, (∀ x ∈ xs, ¬ x.IsPaths) → xs.flatMap Part.inputs = [] := by
    intro xs hx
    rw [List.flatMap_eq_nil_iff]
    intro x hxm
    cases x with
    | paths _ => exact absurd trivial (hx _ hxm)
    | _ => rfl
  obtain ⟨hg, pre, ps, post, rfl, hnp⟩ := h
  have hm : Part.paths ps ∈ parts' := hp.mem_iff.1 (by simp)
  obtain ⟨pre', post', rfl⟩ := List.append_of_mem hm
  have hp2 : (pre ++ post).Perm (pre' ++ post') := by
    have h1 : (Part.paths ps :: (pre ++ post)).Perm (Part.paths ps :: (pre' ++ post')) :=
      (List.perm_middle.symm.trans hp).trans List.perm_middle
    exact h1.cons_inv
  have hnp' : ∀ x ∈ pre' ++ post', ¬ x.IsPaths := fun x hx => hnp x (hp2.mem_iff.2 hx)
  refine ⟨⟨fun x hx => hg x (hp.mem_iff.2 hx), pre', ps, post', rfl, hnp'⟩, ?_⟩
  simp only [List.flatMap_append, List.flatMap_cons]
  rw [hi pre fun x hx => hnp x (by simp [hx]), hi post fun x hx => hnp x (by simp [hx]),
    hi pre' fun x hx => hnp' x (by simp [hx]), hi post' fun x hx => hnp' x (by simp [hx])]

end Apg
