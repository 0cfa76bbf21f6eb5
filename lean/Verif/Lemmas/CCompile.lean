import Verif.Spec.CCompile
import Verif.Lemmas.CScope

/-!
# Lemmas about translation units
-/

namespace Apg
open Spec

theorem preprocess_mono {fs : Files} {out : Text} {n : Nat} : ∀ {k : Nat} {s : List Text} {ps : List CPiece}
    {x : List CPiece × List Text}, n ≤ k → preprocess fs out n s ps = some x → preprocess fs out k s ps = some x := by
  induction n with
  | zero => intro k s ps x _ h; simp [preprocess] at h
  | succ n ih =>
    intro k s ps x hk h
    obtain ⟨k, rfl⟩ : ∃ k', k = k' + 1 := ⟨k - 1, by omega⟩
    have hk' : n ≤ k := by omega
    cases ps with
    | nil => exact h
    | cons p r =>
      cases p with
      | decl d =>
        simp only [preprocess, Option.map_eq_some_iff] at h ⊢
        obtain ⟨y, hy, rfl⟩ := h
        exact ⟨y, ih hk' hy, rfl⟩
      | directive l =>
        simp only [preprocess] at h ⊢
        split at h
        · simp only [Option.bind_eq_bind, Option.bind_eq_some_iff] at h ⊢
          obtain ⟨y, hy, h⟩ := h
          refine ⟨y, hy, ?_⟩
          split at h
          · rename_i hc
            rw [if_pos hc]
            exact ih hk' h
          · rename_i hc
            rw [if_neg hc]
            exact ih hk' h
        · split at h
          · exact ih hk' h
          · split at h
            · simp only [Option.map_eq_some_iff] at h ⊢
              obtain ⟨y, hy, rfl⟩ := h
              exact ⟨y, ih hk' hy, rfl⟩
            · simp only [Option.bind_eq_bind, Option.bind_eq_some_iff] at h ⊢
              obtain ⟨f, hf, c, hc, t, ht, q, hq, y, hy, z, hz, h⟩ := h
              exact ⟨f, hf, c, hc, t, ht, q, hq, y, ih hk' hy, z, ih hk' hz, h⟩

/-- The preprocessor ends with this result. -/
def Pre (fs : Files) (out : Text) (s : List Text) (ps u : List CPiece) (s' : List Text) : Prop :=
  ∃ n, preprocess fs out n s ps = some (u, s')

theorem Pre.unique {fs : Files} {out : Text} {s : List Text} {ps u u' : List CPiece} {s1 s2 : List Text}
    (h : Pre fs out s ps u s1) (h' : Pre fs out s ps u' s2) : u = u' ∧ s1 = s2 := by
  obtain ⟨n, h⟩ := h
  obtain ⟨k, h'⟩ := h'
  have e := (preprocess_mono (Nat.le_max_left n k) h).symm.trans (preprocess_mono (Nat.le_max_right n k) h')
  cases e
  exact ⟨rfl, rfl⟩

theorem Pre.nil {fs : Files} {out : Text} (s : List Text) : Pre fs out s [] [] s := ⟨1, rfl⟩

theorem Pre.decl {fs : Files} {out : Text} {s s' : List Text} {ps u : List CPiece} (d : CDecl)
    (h : Pre fs out s ps u s') : Pre fs out s (.decl d :: ps) (.decl d :: u) s' := by
  obtain ⟨n, h⟩ := h
  exact ⟨n + 1, by simp [preprocess, h]⟩

theorem Pre.decls {fs : Files} {out : Text} {s s' : List Text} {ps u : List CPiece} (ds : List CDecl)
    (h : Pre fs out s ps u s') : Pre fs out s (ds.map .decl ++ ps) (ds.map .decl ++ u) s' := by
  induction ds with
  | nil => exact h
  | cons d ds ih => exact ih.decl d

theorem directive?_self (kw x : Text) : directive? kw (kw ++ x) = some x := by
  unfold directive?
  rw [if_pos (List.isPrefixOf_iff_prefix.2 (List.prefix_append _ _)), List.drop_left]

theorem directive?_other {kw kw' : Text} (x : Text) (h : kw.length ≤ kw'.length) (h' : kw'.take kw.length ≠ kw) :
    directive? kw (kw' ++ x) = none := by
  unfold directive?
  rw [if_neg]
  intro hp
  have := List.prefix_iff_eq_take.1 (List.isPrefixOf_iff_prefix.1 hp)
  rw [List.take_append_of_le_length h] at this
  exact h' this.symm

theorem Pre.define {fs : Files} {out : Text} {s s' : List Text} {ps u : List CPiece} {x : Text}
    (h : Pre fs out (x :: s) ps u s') : Pre fs out s (.directive ("#define ".toList ++ x) :: ps) u s' := by
  obtain ⟨n, h⟩ := h
  refine ⟨n + 1, ?_⟩
  rw [preprocess, directive?_other x (by decide) (by decide), directive?_self]
  exact h

theorem Pre.stdint {fs : Files} {out : Text} {s s' : List Text} {ps u : List CPiece}
    (h : Pre fs out s ps u s') :
    Pre fs out s (.directive "#include <stdint.h>".toList :: ps) (.directive "#include <stdint.h>".toList :: u) s' := by
  obtain ⟨n, h⟩ := h
  refine ⟨n + 1, ?_⟩
  have e1 : directive? "#ifndef ".toList "#include <stdint.h>".toList = none := by decide +kernel
  have e2 : directive? "#define ".toList "#include <stdint.h>".toList = none := by decide +kernel
  have e3 : directive? "#include <".toList "#include <stdint.h>".toList = some "stdint.h>".toList := by decide +kernel
  rw [preprocess, e1, e2, e3]
  simp only [h, Option.map_some]

theorem textOf_text (t : Text) : textOf (t.map .inl) = some t := by
  unfold textOf
  induction t with
  | nil => rfl
  | cons c t ih => simp [ih]

theorem Pre.own {fs : Files} {out : Text} {s s' s'' : List Text} {ps ps' u u' : List CPiece} {f t : Text}
    (ht : HasText fs (inDir out f) t) (hr : readFile t = some ps') (h : Pre fs out s ps' u s')
    (h' : Pre fs out s' ps u' s'') : Pre fs out s (.directive (includeLine f) :: ps) (u ++ u') s'' := by
  obtain ⟨n, h⟩ := h
  obtain ⟨k, h'⟩ := h'
  refine ⟨max n k + 1, ?_⟩
  have e : includeLine f = "#include \"".toList ++ (f ++ ['"']) := List.append_assoc _ _ _
  rw [e, preprocess, directive?_other _ (by decide) (by decide), directive?_other _ (by decide) (by decide),
    directive?_other _ (by decide) (by decide), directive?_self]
  simp only [Option.bind_eq_bind, Option.bind_some, List.dropLast_concat]
  unfold HasText at ht
  rw [ht]
  simp only [Option.bind_some, textOf_text, hr, preprocess_mono (Nat.le_max_left n k) h,
    preprocess_mono (Nat.le_max_right n k) h']
  rfl

theorem cutEndif_body {body : List CPiece} {e : Text} (r : List CPiece)
    (h : ∀ l, .directive l ∈ body → "#endif".toList.isPrefixOf l = false) (he : "#endif".toList.isPrefixOf e = true) :
    cutEndif (body ++ .directive e :: r) = some (body, r) := by
  induction body with
  | nil => rw [List.nil_append, cutEndif, if_pos he]
  | cons p body ih =>
    have ih' := ih fun l hl => h l (by simp [hl])
    cases p with
    | decl d => rw [List.cons_append, cutEndif, ih']; rfl; simp
    | directive l =>
      rw [List.cons_append, cutEndif, if_neg (by rw [h l (by simp)]; exact Bool.false_ne_true), ih']
      rfl

theorem Pre.skip {fs : Files} {out : Text} {s : List Text} {body : List CPiece} {x e : Text}
    (h : ∀ l, .directive l ∈ body → "#endif".toList.isPrefixOf l = false) (he : "#endif".toList.isPrefixOf e = true)
    (hx : x ∈ s) :
    Pre fs out s (.directive ("#ifndef ".toList ++ x) :: (body ++ [.directive e])) [] s := by
  refine ⟨2, ?_⟩
  rw [preprocess, directive?_self]
  simp only [cutEndif_body [] h he, Option.bind_eq_bind, Option.bind_some]
  rw [if_pos (List.contains_iff_mem.2 hx)]
  rfl

theorem Pre.take {fs : Files} {out : Text} {s s' : List Text} {body u : List CPiece} {x e : Text}
    (h : ∀ l, .directive l ∈ body → "#endif".toList.isPrefixOf l = false) (he : "#endif".toList.isPrefixOf e = true)
    (hx : x ∉ s) (hp : Pre fs out s body u s') :
    Pre fs out s (.directive ("#ifndef ".toList ++ x) :: (body ++ [.directive e])) u s' := by
  obtain ⟨n, hp⟩ := hp
  refine ⟨n + 1, ?_⟩
  rw [preprocess, directive?_self]
  simp only [cutEndif_body [] h he, Option.bind_eq_bind, Option.bind_some]
  rw [if_neg (fun hc => hx (List.contains_iff_mem.1 hc)), List.append_nil]
  exact hp

/-! ### Known types -/

theorem Spec.Knows.mono {a b : List CPiece} (h : ∀ p ∈ a, p ∈ b) {t : List Text} (hk : Knows a t) : Knows b t := by
  cases hk with
  | keyword hk => exact .keyword hk
  | stdint h1 h2 => exact .stdint (h _ h1) h2
  | struct h1 => exact .struct (h _ h1)
  | enum h1 => exact .enum (h _ h1)

/-- All types are known where they are used, after `before`. -/
def Good (before : List CPiece) : List CPiece → Prop
  | [] => True
  | .decl d :: r => (∀ t ∈ d.types, Knows before t) ∧ Good (before ++ [.decl d]) r
  | .directive l :: r => Good (before ++ [.directive l]) r

theorem Good.append {before u u' : List CPiece} (h : Good before u) (h' : Good (before ++ u) u') :
    Good before (u ++ u') := by
  induction u generalizing before with
  | nil => simpa using h'
  | cons p u ih =>
    have h'' : Good (before ++ [p] ++ u) u' := by simpa using h'
    cases p with
    | decl d => exact ⟨h.1, ih h.2 h''⟩
    | directive l => exact ih (before := before ++ [.directive l]) h h''

theorem Good.known {before u : List CPiece} (h : Good before u) : ∀ a d c, u = a ++ .decl d :: c → ∀ t ∈ d.types,
    Knows (before ++ a) t := by
  intro a
  induction a generalizing before u with
  | nil =>
    rintro d c rfl t ht
    rw [List.append_nil]
    exact h.1 t ht
  | cons p a ih =>
    rintro d c rfl t ht
    have : Good (before ++ [p]) (a ++ .decl d :: c) := by
      cases p with
      | decl d' => exact h.2
      | directive l => exact h
    have := ih this d c rfl t ht
    rwa [List.append_assoc, List.singleton_append] at this

theorem good_decls {before : List CPiece} {ds : List CDecl}
    (h : ∀ a d c, ds = a ++ d :: c → ∀ t ∈ d.types, Knows (before ++ a.map .decl) t) : Good before (ds.map .decl) := by
  induction ds generalizing before with
  | nil => trivial
  | cons d ds ih =>
    refine ⟨fun t ht => ?_, ih fun a d' c he t ht => ?_⟩
    · have := h [] d ds rfl t ht
      rwa [List.map_nil, List.append_nil] at this
    · have := h (d :: a) d' c (by rw [he]; rfl) t ht
      rwa [List.map_cons, ← List.singleton_append, ← List.append_assoc] at this

/-- The declaration defines the type. -/
def Typedef (d : CDecl) (t : List Text) : Prop :=
  (∃ n fs, d = .struct n fs ∧ t = [n]) ∨ ∃ n is, d = .enum n is ∧ t = [n]

theorem Typedef.knows {d : CDecl} {t : List Text} (h : Typedef d t) {a : List CPiece} (hd : .decl d ∈ a) :
    Knows a t := by
  rcases h with ⟨n, fs, rfl, rfl⟩ | ⟨n, is, rfl, rfl⟩
  · exact .struct hd
  · exact .enum hd

theorem declsOf_append (a b : List CPiece) : declsOf (a ++ b) = declsOf a ++ declsOf b := by
  simp [declsOf]

theorem declsOf_decls (ds : List CDecl) : declsOf (ds.map .decl) = ds := by
  induction ds with
  | nil => rfl
  | cons d ds ih => exact congrArg (d :: ·) ih

theorem mem_declsOf {d : CDecl} {u : List CPiece} : d ∈ declsOf u ↔ .decl d ∈ u := by
  unfold declsOf
  rw [List.mem_filterMap]
  constructor
  · rintro ⟨p, hp, h⟩
    cases p with
    | decl d' => cases h; exact hp
    | directive l => cases h
  · intro h
    exact ⟨_, h, rfl⟩

/-! ### Headers that include each other -/

/-- The headers of the modules `ms`: with stdint.h if `st`, the declarations `D`, and include lines for the
imports; under condition `P` with types that are known. -/
structure Headers (P : Prop) (cmd : Command) (fs : Files) (out : Text) (ms : List Module) (st : Module → Bool)
    (D : Module → List CDecl) (rank : Module → Nat) : Prop where
  text : ∀ m ∈ ms, ∃ t, HasText fs (inDir out (cmd.header m.name)) t ∧ readFile t = some
    ((["#ifndef ".toList ++ cmd.guard m.name, "#define ".toList ++ cmd.guard m.name] ++
      (if st m then ["#include <stdint.h>".toList] else []) ++
      m.imports.map fun i => includeLine (cmd.header i.module)).map .directive ++
      (D m).map .decl ++ [.directive "#endif ".toList])
  imports : ∀ m ∈ ms, ∀ i ∈ m.imports, ∃ m' ∈ ms, m'.name = i.module ∧ rank m < rank m'
  guard : ∀ m ∈ ms, ∀ m' ∈ ms, cmd.guard m.name = cmd.guard m'.name → m = m'
  known : P → ∀ m ∈ ms, ∀ a d c, D m = a ++ d :: c → ∀ t ∈ d.types,
    (∃ k, Keyword k ∧ t = [k]) ∨ (st m = true ∧ ∃ k, StdIntType k ∧ t = [k]) ∨ (∃ d' ∈ a, Typedef d' t) ∨
    ∃ i ∈ m.imports, ∃ m' ∈ ms, m'.name = i.module ∧ ∃ d' ∈ D m', Typedef d' t

/-- What reading a header, or several, adds. -/
structure HeaderAdds (P : Prop) (ms : List Module) (D : Module → List CDecl) (before : List CPiece) (S X : List Module)
    (u : List CPiece) : Prop where
  nodup : (X ++ S).Nodup
  sub : ∀ x ∈ X, x ∈ ms
  provides : ∀ x ∈ X, ∀ d ∈ D x, .decl d ∈ before ++ u
  perm : (declsOf u).Perm (X.flatMap D)
  good : P → Good before u

theorem includes_add {P : Prop} {cmd : Command} {fs : Files} {out : Text} {ms : List Module}
    {D : Module → List CDecl} {rank : Module → Nat} (js : List Module)
    (hjs : ∀ j ∈ js, j ∈ ms)
    (ih : ∀ j ∈ js, ∀ (before : List CPiece) (S : List Module), S.Nodup → (∀ x ∈ S, x ∈ ms) →
      (∀ x ∈ S, (∀ d ∈ D x, .decl d ∈ before) ∨ rank x < rank j) → ∃ X u t ps,
        HasText fs (inDir out (cmd.header j.name)) t ∧ readFile t = some ps ∧
        Pre fs out (S.map fun x => cmd.guard x.name) ps u ((X ++ S).map fun x => cmd.guard x.name) ∧
        HeaderAdds P ms D before S X u ∧ (∀ d ∈ D j, .decl d ∈ before ++ u) ∧ j ∈ X ++ S)
    (before : List CPiece) (S : List Module) (hS : S.Nodup) (hSm : ∀ x ∈ S, x ∈ ms)
    (hx : ∀ x ∈ S, (∀ d ∈ D x, .decl d ∈ before) ∨ ∀ j ∈ js, rank x < rank j) :
    ∃ X u, (∀ rest u' s2, Pre fs out ((X ++ S).map fun x => cmd.guard x.name) rest u' s2 →
        Pre fs out (S.map fun x => cmd.guard x.name)
          (js.map (fun j => .directive (includeLine (cmd.header j.name))) ++ rest) (u ++ u') s2) ∧
      HeaderAdds P ms D before S X u ∧ ∀ j ∈ js, (∀ d ∈ D j, .decl d ∈ before ++ u) ∧ j ∈ X ++ S := by
  induction js generalizing before S with
  | nil =>
    refine ⟨[], [], fun rest u' s2 h => h, ⟨hS, by simp, by simp, .refl _, fun _ => trivial⟩, by simp⟩
  | cons j js ihl =>
    obtain ⟨X1, u1, t, ps, a1, a2, a3, a4, a5, a6⟩ := ih j (by simp) before S hS hSm fun x hxs =>
      (hx x hxs).imp id fun h => h j (by simp)
    obtain ⟨X2, u2, b1, b2, b3⟩ := ihl (fun j hj => hjs j (by simp [hj])) (fun j hj => ih j (by simp [hj]))
      (before ++ u1) (X1 ++ S) a4.nodup
      (fun x hxs => (List.mem_append.1 hxs).elim (a4.sub x) (hSm x)) (by
        intro x hxs
        rcases List.mem_append.1 hxs with h | h
        · exact .inl (a4.provides x h)
        · exact (hx x h).imp (fun h d hd => List.mem_append_left _ (h d hd)) fun h j hj => h j (by simp [hj]))
    refine ⟨X2 ++ X1, u1 ++ u2, ?_, ⟨?_, ?_, ?_, ?_, fun h => (a4.good h).append (b2.good h)⟩, ?_⟩
    · intro rest u' s2 h
      rw [List.append_assoc] at h
      have := Pre.own a1 a2 a3 (b1 rest u' s2 h)
      rw [List.append_assoc]
      exact this
    · rw [List.append_assoc]
      exact b2.nodup
    · intro x hxs
      exact (List.mem_append.1 hxs).elim (b2.sub x) (a4.sub x)
    · intro x hxs d hd
      rw [← List.append_assoc]
      rcases List.mem_append.1 hxs with h | h
      · exact b2.provides x h d hd
      · exact List.mem_append_left _ (a4.provides x h d hd)
    · rw [declsOf_append, List.flatMap_append]
      exact (a4.perm.append b2.perm).trans List.perm_append_comm
    · intro j' hj'
      rw [← List.append_assoc before, List.append_assoc X2]
      rcases List.mem_cons.1 hj' with rfl | hj'
      · exact ⟨fun d hd => List.mem_append_left _ (a5 d hd), List.mem_append_right _ a6⟩
      · exact b3 j' hj'

theorem header_adds {P : Prop} {cmd : Command} {fs : Files} {out : Text} {ms : List Module} {st : Module → Bool}
    {D : Module → List CDecl} {rank : Module → Nat} (H : Headers P cmd fs out ms st D rank) {K : Nat}
    (hK : ∀ m ∈ ms, rank m ≤ K) (k : Nat) : ∀ j ∈ ms, K < rank j + k → ∀ (before : List CPiece) (S : List Module),
      S.Nodup → (∀ x ∈ S, x ∈ ms) → (∀ x ∈ S, (∀ d ∈ D x, .decl d ∈ before) ∨ rank x < rank j) → ∃ X u t ps,
        HasText fs (inDir out (cmd.header j.name)) t ∧ readFile t = some ps ∧
        Pre fs out (S.map fun x => cmd.guard x.name) ps u ((X ++ S).map fun x => cmd.guard x.name) ∧
        HeaderAdds P ms D before S X u ∧ (∀ d ∈ D j, .decl d ∈ before ++ u) ∧ j ∈ X ++ S := by
  induction k with
  | zero =>
    intro j hj hk
    have := hK j hj
    omega
  | succ k ih =>
    intro m hm hk before S hS hSm hx
    obtain ⟨t, ht, hr⟩ := H.text m hm
    -- the header without its guard
    generalize hbody : (.directive ("#define ".toList ++ cmd.guard m.name) :: ((if st m then [CPiece.directive "#include <stdint.h>".toList]
      else []) ++ ((m.imports.map fun i => CPiece.directive (includeLine (cmd.header i.module))) ++
      (D m).map CPiece.decl))) = body at *
    have hps : readFile t = some (.directive ("#ifndef ".toList ++ cmd.guard m.name) ::
        (body ++ [.directive "#endif ".toList])) := by
      rw [hr, ← hbody]
      congr 1
      cases st m <;> simp [Function.comp_def]
    have hend : "#endif".toList.isPrefixOf "#endif ".toList = true := by decide +kernel
    have hno : ∀ l, .directive l ∈ body → "#endif".toList.isPrefixOf l = false := by
      have hpre : ∀ kw x : Text, 2 ≤ kw.length → kw.take 2 ≠ "#e".toList → "#endif".toList.isPrefixOf (kw ++ x) = false := by
        intro kw x h2 hne
        cases hp : "#endif".toList.isPrefixOf (kw ++ x) with
        | false => rfl
        | true =>
          obtain ⟨y, hy⟩ := List.isPrefixOf_iff_prefix.1 hp
          have := congrArg (List.take 2) hy
          rw [List.take_append_of_le_length (by decide), List.take_append_of_le_length h2] at this
          exact absurd this.symm hne
      intro l hl
      rw [← hbody] at hl
      simp only [List.mem_cons, List.mem_append, CPiece.directive.injEq, List.mem_map, reduceCtorEq, and_false,
        exists_false, or_false] at hl
      rcases hl with rfl | hl | ⟨i, _, rfl⟩
      · exact hpre _ _ (by decide) (by decide)
      · have : l = "#include <stdint.h>".toList := by
          cases h : st m <;> rw [h] at hl
          · cases hl
          · simpa using hl
        subst this
        decide +kernel
      · have e : includeLine (cmd.header i.module) = "#include \"".toList ++ (cmd.header i.module ++ ['"']) :=
          List.append_assoc _ _ _
        rw [e]
        exact hpre _ _ (by decide) (by decide)
    by_cases hmS : m ∈ S
    · -- the header has been included before
      have hprov : ∀ d ∈ D m, .decl d ∈ before := (hx m hmS).resolve_right (Nat.lt_irrefl _)
      refine ⟨[], [], t, _, ht, hps, .skip hno hend (List.mem_map.2 ⟨m, hmS, rfl⟩),
        ⟨hS, by simp, by simp, .refl _, fun _ => trivial⟩, by simpa using hprov, by simpa using hmS⟩
    · have hgm : cmd.guard m.name ∉ S.map fun x => cmd.guard x.name := by
        intro h
        obtain ⟨x, hx1, hx2⟩ := List.mem_map.1 h
        exact hmS (H.guard _ (hSm x hx1) _ hm hx2 ▸ hx1)
      -- the modules that are imported
      obtain ⟨js, hjs1, hjs2⟩ : ∃ js : List Module, (m.imports.map fun i => i.module) = js.map (·.name) ∧
          ∀ j ∈ js, j ∈ ms ∧ rank m < rank j := by
        have := H.imports m hm
        generalize m.imports = is at this
        induction is with
        | nil => exact ⟨[], rfl, by simp⟩
        | cons i is ihi =>
          obtain ⟨js, q1, q2⟩ := ihi fun i hi => this i (by simp [hi])
          obtain ⟨m', q3, q4, q5⟩ := this i (by simp)
          refine ⟨m' :: js, by simp [q4, q1], ?_⟩
          intro j hj
          rcases List.mem_cons.1 hj with rfl | hj
          · exact ⟨q3, q5⟩
          · exact q2 j hj
      have hincl : (m.imports.map fun i => CPiece.directive (includeLine (cmd.header i.module))) =
          js.map fun j => .directive (includeLine (cmd.header j.name)) := by
        have := congrArg (List.map fun n => CPiece.directive (includeLine (cmd.header n))) hjs1
        simpa [Function.comp_def] using this
      generalize hstd : (if st m then [CPiece.directive "#include <stdint.h>".toList] else []) = std at *
      obtain ⟨X1, u1, b1, b2, b3⟩ := includes_add js (fun j hj => (hjs2 j hj).1)
        (fun j hj => ih j (hjs2 j hj).1 (by have := (hjs2 j hj).2; omega)) (before ++ std) (m :: S)
        (List.nodup_cons.2 ⟨hmS, hS⟩) (by simpa using ⟨hm, hSm⟩) (by
          intro x hxs
          rcases List.mem_cons.1 hxs with rfl | hxs
          · exact .inr fun j hj => (hjs2 j hj).2
          · exact (hx x hxs).imp (fun h d hd => List.mem_append_left _ (h d hd)) fun h j hj =>
              Nat.lt_trans h (hjs2 j hj).2)
      have hstdgood : Good before std := by
        rw [← hstd]
        split <;> trivial
      have hstdds : declsOf std = [] := by
        rw [← hstd]
        split <;> rfl
      have hdecls : P → Good (before ++ (std ++ u1)) ((D m).map .decl) := by
        intro hP
        refine good_decls fun a d c he ty hty => ?_
        rcases H.known hP m hm a d c he ty hty with ⟨k, hk, rfl⟩ | ⟨hst, k, hk, rfl⟩ | ⟨d', hd', htd⟩ |
          ⟨i, hi, m', hm', hn, d', hd', htd⟩
        · exact .keyword hk
        · refine .stdint ?_ hk
          rw [← hstd, if_pos hst]
          simp
        · exact htd.knows (List.mem_append_right _ (List.mem_map.2 ⟨d', hd', rfl⟩))
        · have : i.module ∈ js.map (·.name) := hjs1 ▸ List.mem_map.2 ⟨i, hi, rfl⟩
          obtain ⟨j, hj, hjn⟩ := List.mem_map.1 this
          have hjm : j = m' := H.guard j (hjs2 j hj).1 m' hm' (by rw [hjn, hn])
          subst hjm
          have := (b3 j hj).1 d' hd'
          exact htd.knows (List.mem_append_left _ (by rwa [← List.append_assoc]))
      refine ⟨X1 ++ [m], (std ++ u1) ++ (D m).map .decl, t, _, ht, hps, .take hno hend hgm ?_,
        ⟨?_, ?_, ?_, ?_, fun h => (hstdgood.append (b2.good h)).append (hdecls h)⟩, ?_, by simp⟩
      · rw [← hbody]
        refine Pre.define ?_
        rw [hincl]
        have hbase : Pre fs out ((X1 ++ [m] ++ S).map fun x => cmd.guard x.name) ((D m).map .decl) ((D m).map .decl)
            ((X1 ++ [m] ++ S).map fun x => cmd.guard x.name) := by
          have := Pre.decls (D m) (Pre.nil (fs := fs) (out := out) ((X1 ++ [m] ++ S).map fun x => cmd.guard x.name))
          simpa using this
        have h2 := b1 ((D m).map .decl) ((D m).map .decl) _ (by simpa using hbase)
        rw [← hstd]
        split
        · simpa using h2.stdint
        · simpa using h2
      · simpa using b2.nodup
      · intro x hxs
        rcases List.mem_append.1 hxs with h | h
        · exact b2.sub x h
        · rw [List.mem_singleton.1 h]
          exact hm
      · intro x hxs d hd
        rcases List.mem_append.1 hxs with h | h
        · have := b2.provides x h d hd
          rw [← List.append_assoc, ← List.append_assoc]
          exact List.mem_append_left _ this
        · rw [List.mem_singleton.1 h] at hd
          exact List.mem_append_right _ (List.mem_append_right _ (List.mem_map.2 ⟨d, hd, rfl⟩))
      · rw [declsOf_append, declsOf_append, hstdds, declsOf_decls, List.flatMap_append, List.nil_append]
        have e : [m].flatMap D = D m := by simp
        rw [e]
        exact b2.perm.append_right _
      · intro d hd
        exact List.mem_append_right _ (List.mem_append_right _ (List.mem_map.2 ⟨d, hd, rfl⟩))

end Apg
