import Verif.Lemmas.CCompile
import Verif.Props.CLimits
import Verif.Props.Success

/-!
# C64: the headers compile
-/

namespace Apg
open Spec

theorem all2_split {α β} {R : α → β → Prop} {l : List α} {a c : List β} {x : β} (h : All2 R l (a ++ x :: c)) :
    ∃ l1 e l2, l = l1 ++ e :: l2 ∧ All2 R l1 a ∧ R e x := by
  induction a generalizing l with
  | nil =>
    cases h with
    | cons h1 h2 => exact ⟨[], _, _, rfl, .nil, h1⟩
  | cons y a ih =>
    cases h with
    | cons h1 h2 =>
      obtain ⟨l1, e, l2, rfl, h3, h4⟩ := ih h2
      exact ⟨_ :: l1, e, l2, rfl, .cons h1 h3, h4⟩

/-- The modules can be ranked along their imports. -/
theorem run_rank {cmd : Command} {fuel : Nat} {raw : List Module} {cfg : List String} {out : Text} {b : Bundle}
    (hb : buildFromConfig raw cfg = .ok b) (hr : (cmd.run fuel raw cfg out).result = .ok ()) :
    ∃ rank, AcyclicImports b.modules rank := by
  have hn := accepted_moduleNames hb
  have key : ∀ mk : Bundle → Backend, (runCommand fuel mk raw cfg out).result = .ok () →
      ∃ ms, orderModules fuel b.modules = some ms := by
    intro mk hr
    rcases run_writes fuel mk raw cfg out with ⟨_, h⟩ | ⟨b', hb', done, cds, _, _, h⟩
    · exact absurd hr h
    · rw [hb] at hb'
      cases hb'
      exact ⟨_, (h hr).2⟩
  cases cmd with
  | cfs p =>
    obtain ⟨ms, h⟩ := key _ hr
    exact (C21_returns_iff b.modules hn).2.1 ⟨fuel, ms, h⟩
  | c p =>
    obtain ⟨ms, h⟩ := key _ hr
    exact (C21_returns_iff b.modules hn).2.1 ⟨fuel, ms, h⟩
  | binary e =>
    obtain ⟨ms, h⟩ := key _ hr
    exact (C21_returns_iff b.modules hn).2.1 ⟨fuel, ms, h⟩

theorem guard_inj {cmd : Command} {n n' : String} (hn : isNameLower n = true) (hn' : isNameLower n' = true)
    (h : cmd.guard n = cmd.guard n') : n = n' := by
  have key : ∀ x ∈ suffixes, (∀ n, cmd.header n = ident n ++ x) → n = n' := by
    intro x hx hh
    rw [← guardSymbol_command hn hx (hh n), ← guardSymbol_command hn' hx (hh n')] at h
    have := guardSymbol_inj hn hn' hx hx h
    exact ident_inj (.inl hn) (.inl hn') (List.append_cancel_right this)
  cases cmd with
  | cfs p => exact key _ (by decide) fun _ => rfl
  | c p => exact key _ (by decide) fun _ => rfl
  | binary e => exact key _ (by decide) fun _ => rfl

/-- The declaration of a sequence or enumeration defines its type. -/
theorem declOf_typedef {T : TypeMap} {d : Def} {x : CDecl} (h : DeclOf T d x)
    (hk : (∃ n c ms, d = .seq n c ms) ∨ ∃ n c its, d = .enum n c its) : Typedef x [ident d.name] := by
  rcases hk with ⟨n, c, ms, rfl⟩ | ⟨n, c, its, rfl⟩
  · obtain ⟨fs, rfl, _⟩ := h
    exact .inl ⟨_, _, rfl, rfl⟩
  · cases h
    exact .inr ⟨_, _, rfl, rfl⟩

/-- What is chosen for the header of a module. -/
structure Chosen (cmd : Command) (fs : Files) (out : Text) (b : Bundle) (fuel : Nat) (m : Module)
    (x : Bool × List Def × List CDecl) : Prop where
  sorted : sortDefs fuel m = some x.2.1
  perm : x.2.1.Perm m.defs
  text : ∃ t, HasText fs (cmd.path out m.name) t ∧ HeaderReads cmd (Typed b.defs) m x.2.1 x.1 x.2.2 t

/-- The declarations of a header. -/
def ownDecls (cmd : Command) (x : Bool × List Def × List CDecl) : List CDecl := x.2.2 ++ objectsOf cmd x.2.1

theorem run_chosen {cmd : Command} {fuel : Nat} {raw : List Module} {cfg : List String} {out : Text} {b : Bundle}
    (fs : Files) (hin : Input raw cfg b) (hr : (cmd.run fuel raw cfg out).result = .ok ()) (hreg : Regular b.defs)
    (ht : ∀ m ∈ b.modules, Tame m) {m : Module} (hm : m ∈ b.modules) :
    ∃ x, Chosen cmd ((cmd.run fuel raw cfg out).apply fs) out b fuel m x := by
  have hbt := buildFromTexts_of_config hin.accepted
  have hgr := accepted_grammar hin.grammar hbt
  obtain ⟨h, sorted, tss, h1, h2, h3, h4, h5, h6, h7, h8, h9, h10⟩ := header_typed fs hin hr hreg hm
  obtain ⟨decls, hd⟩ := header_says (cmd := cmd) (T := Typed b.defs) (m := m) (h := h) (goodMap_typed (by
      intro d hd
      have := (hgr d hd).1
      cases d <;> exact this.1) _) (fun d hd => (hgr d (mem_defs_of_module hm hd)).1)
    (accepted_comments hin.comments hbt m hm) (by
      intro i hi
      obtain ⟨m', q1, q2, _⟩ := C13_imports raw cfg b hin.accepted m hm i hi
      rw [← q2]
      exact accepted_names hin.grammar hbt m' q1) (ht m hm) h3 h4 h5 h6 h7 h8 h9 h10
  exact ⟨(h.stdint, sorted, decls), h2, h3, h.text, h1, hd⟩

/-- A type that is used in a header is a type of C, of stdint.h, or defined before its use or in the header of an
imported module. -/
theorem chosen_known {cmd : Command} {fuel : Nat} {raw : List Module} {cfg : List String} {out : Text} {b : Bundle}
    {fs : Files} (hin : Input raw cfg b) (hc : Compilable cmd b.defs) {X : Module → Bool × List Def × List CDecl}
    (hX : ∀ m ∈ b.modules, Chosen cmd fs out b fuel m (X m)) {m : Module} (hm : m ∈ b.modules) (a : List CDecl)
    (d : CDecl) (c : List CDecl) (he : ownDecls cmd (X m) = a ++ d :: c) (t : List Text) (ht : t ∈ d.types) :
    (∃ k, Keyword k ∧ t = [k]) ∨ ((X m).1 = true ∧ ∃ k, StdIntType k ∧ t = [k]) ∨ (∃ d' ∈ a, Typedef d' t) ∨
    ∃ i ∈ m.imports, ∃ m' ∈ b.modules, m'.name = i.module ∧ ∃ d' ∈ ownDecls cmd (X m'), Typedef d' t := by
  have hb := hin.accepted
  have hbt := buildFromTexts_of_config hb
  have hnd := accepted_nodup hbt
  have hcap := accepted_capital hin.grammar hbt
  obtain ⟨hs, hp, text, _, hdecls, _⟩ := hX m hm
  have hobj : ∀ {x}, x ∈ objectsOf cmd (X m).2.1 → ∃ e ∈ (X m).2.1, ∃ n, (∃ c ms, e = Def.seq n c ms) ∧
      x = .object (ident n) (lowerFirst (ident n)) := by
    intro x hx
    cases cmd with
    | c p =>
      obtain ⟨y, hy, rfl⟩ := List.mem_map.1 hx
      obtain ⟨e, he1, he2⟩ := List.mem_flatMap.1 hy
      cases e with
      | seq n c ms =>
        simp only [clausesOf, List.mem_filterMap, Option.map_eq_some_iff] at he2
        obtain ⟨k, _, _, _, rfl⟩ := he2
        exact ⟨_, he1, n, ⟨_, _, rfl⟩, rfl⟩
      | _ => cases he2
    | _ => cases hx
  -- is it a definition or a variable?
  have hcase : (∃ c', (X m).2.2 = a ++ d :: c') ∨ (∃ a', a = (X m).2.2 ++ a') ∧ d ∈ objectsOf cmd (X m).2.1 := by
    unfold ownDecls at he
    rcases List.append_eq_append_iff.1 he with ⟨a', h1, h2⟩ | ⟨c', h1, h2⟩
    · exact .inr ⟨⟨a', h1⟩, by rw [h2]; simp⟩
    · cases c' with
      | nil =>
        rw [List.append_nil] at h1
        rw [List.nil_append] at h2
        exact .inr ⟨⟨[], by rw [h1, List.append_nil]⟩, by rw [← h2]; simp⟩
      | cons y c' =>
        rw [List.cons_append] at h2
        cases h2
        exact .inl ⟨c', h1⟩
  rcases hcase with ⟨c', h1⟩ | ⟨⟨a', rfl⟩, h2⟩
  · -- a definition
    rw [h1] at hdecls
    obtain ⟨l1, e, l2, h3, h4, h5⟩ := all2_split hdecls
    obtain ⟨s1, s2', h6, h7, h8⟩ := List.filter_eq_append_iff.1 h3
    obtain ⟨q1, q2, h9, h10, h11, _⟩ := List.filter_eq_cons_iff.1 h8
    -- the definition in the sorted list
    have hsplit : (X m).2.1 = (s1 ++ q1) ++ e :: q2 := by rw [h6, h9, List.append_assoc]
    have hget : (X m).2.1[(s1 ++ q1).length]? = some e := by rw [hsplit]; simp
    have hem : e ∈ m.defs := hp.mem_iff.1 (List.mem_of_getElem? hget)
    have heb := mem_defs_of_module hm hem
    have before : ∀ e' : Def, e' ∈ s1 ++ q1 → e'.isSimple = false → e' ∈ l1 := by
      intro e' he' hsm
      rcases List.mem_append.1 he' with h | h
      · rw [← h7]
        exact List.mem_filter.2 ⟨h, by simp [hsm]⟩
      · have := h10 e' h
        simp [hsm] at this
    -- a struct or enumeration used by a member
    have generated : ∀ k ∈ e.members, ∀ n e', e' ∈ b.defs → e'.name = n → UsesName k.type n →
        ((∃ n c ms, e' = Def.seq n c ms) ∨ ∃ n c its, e' = Def.enum n c its) → t = [ident n] →
        (∃ d' ∈ a, Typedef d' t) ∨
        ∃ i ∈ m.imports, ∃ m' ∈ b.modules, m'.name = i.module ∧ ∃ d' ∈ ownDecls cmd (X m'), Typedef d' t := by
      intro k hk n e' he' hn hu hkind htn
      have hsm : e'.isSimple = false := by rcases hkind with ⟨_, _, _, rfl⟩ | ⟨_, _, _, rfl⟩ <;> rfl
      have hseq : (∃ nm c ms, e = .seq nm c ms) ∨ (∃ nm c ms, e = .choice nm c ms) := by
        cases e with
        | seq n c ms => exact .inl ⟨_, _, _, rfl⟩
        | choice n c ms => exact .inr ⟨_, _, _, rfl⟩
        | enum => cases hk
        | simple => cases hk
      rcases (C19_dependency_order_partial m fuel _ hs).2.1 _ e hget n ⟨hseq, k, hk, hu⟩ with
        (hbi | ⟨it, hit, hni⟩) | ⟨j, hj, e2, he2, hn2⟩
      · exact absurd hbi (capital_not_builtIn (hn ▸ hcap e' he'))
      · obtain ⟨m', hm', hmn, hdefs⟩ := C13_imports raw cfg b hb m hm it hit
        obtain ⟨e2, he2, hn2⟩ := hdefs n hni
        have : e2 = e' := mem_unique_of_nodup_map hnd (mem_defs_of_module hm' he2) he' (hn2.trans hn.symm)
        subst this
        obtain ⟨_, hp', _, _, hd', _⟩ := hX m' hm'
        obtain ⟨x, hx, hdx⟩ := all2_mem_left hd' (List.mem_filter.2 ⟨hp'.mem_iff.2 he2, by simp [hsm]⟩)
        refine .inr ⟨it, hit, m', hm', hmn, x, List.mem_append_left _ hx, ?_⟩
        rw [htn, ← hn]
        exact declOf_typedef hdx hkind
      · have he2m := hp.mem_iff.1 (List.mem_of_getElem? he2)
        have : e2 = e' := mem_unique_of_nodup_map hnd (mem_defs_of_module hm he2m) he' (hn2.trans hn.symm)
        subst this
        have hin1 : e2 ∈ s1 ++ q1 := by
          rw [hsplit, List.getElem?_append_left hj] at he2
          exact List.mem_of_getElem? he2
        obtain ⟨x, hx, hdx⟩ := all2_mem_left h4 (before e2 hin1 hsm)
        refine .inl ⟨x, hx, ?_⟩
        rw [htn, ← hn]
        exact declOf_typedef hdx hkind
    cases e with
    | seq n cm ms =>
      obtain ⟨fs', rfl, hf⟩ := h5
      obtain ⟨f, hf1, rfl⟩ := List.mem_map.1 ht
      obtain ⟨k, hk, _, _, ct, sfx, ⟨hT, hstd⟩, hty, _⟩ := all2_mem_right hf hf1
      rw [hty] at ht generated ⊢
      have hstd' : StdIntType ct → ((X m).1 = true ∧ ∃ k, StdIntType k ∧ [ct] = [k]) := fun h => ⟨hstd h, ct, h, rfl⟩
      have gen := fun n e' h1 h2 h3 h4 h5 => Or.inr (a := ∃ k, Keyword k ∧ [ct] = [k])
        (Or.inr (a := (X m).1 = true ∧ ∃ k, StdIntType k ∧ [ct] = [k]) (generated k hk n e' h1 h2 h3 h4 h5))
      have scalar : ∀ {t ct' sfx}, ScalarC t ct' sfx → ct' = ct →
          (∃ k, Keyword k ∧ [ct] = [k]) ∨ ((X m).1 = true ∧ ∃ k, StdIntType k ∧ [ct] = [k]) := by
        rintro t ct' sfx hs rfl
        cases hs with
        | uint _ _ hu =>
          obtain ⟨w, hw, _⟩ := hu
          refine .inr (hstd' ?_)
          cases hw
          · exact ⟨_, .u8⟩
          · exact ⟨_, .u16⟩
          · exact ⟨_, .u32⟩
          · exact ⟨_, .u64⟩
        | sint => exact .inl ⟨_, .int, rfl⟩
        | single => exact .inl ⟨_, .float, rfl⟩
        | double => exact .inl ⟨_, .double, rfl⟩
      have named : ∀ {n ct' sfx}, NamedC b.defs n ct' sfx → ct' = ct → UsesName k.type n →
          (∃ k, Keyword k ∧ [ct] = [k]) ∨ ((X m).1 = true ∧ ∃ k, StdIntType k ∧ [ct] = [k]) ∨ (∃ d' ∈ a, Typedef d' [ct]) ∨
          ∃ i ∈ m.imports, ∃ m' ∈ b.modules, m'.name = i.module ∧ ∃ d' ∈ ownDecls cmd (X m'), Typedef d' [ct] := by
        rintro n ct' sfx hN rfl hu
        cases hN with
        | posix _ hp => exact .inr (.inl (hstd' ⟨_, hp⟩))
        | struct he => exact gen n _ he rfl hu (.inl ⟨_, _, _, rfl⟩) rfl
        | union he => exact absurd hu (hc.declarable.choice _ _ _ he _ heb k hk)
        | alias _ _ hs => exact (scalar hs rfl).imp_right .inl
        | aliasBool he => exact absurd hu (hc.declarable.bool _ _ he _ heb k hk)
        | aliasFloat => exact .inl ⟨_, .float, rfl⟩
        | aliasDouble => exact .inl ⟨_, .double, rfl⟩
      generalize hkt : k.type = kt at hT
      cases hT with
      | scalar hs => exact (scalar hs rfl).imp_right .inl
      | bool => exact .inr (.inl (hstd' ⟨_, .u8⟩))
      | chars => exact .inl ⟨_, .char, rfl⟩
      | named hn => exact named hn rfl (by rw [hkt]; exact .plain)
      | enum he => exact gen _ _ he rfl (by rw [hkt]; exact .plain) (.inr ⟨_, _, _, rfl⟩) rfl
      | array hn => exact named hn rfl (by rw [hkt]; exact .arr .plain)
      | arrayEnum he => exact gen _ _ he rfl (by rw [hkt]; exact .arr .plain) (.inr ⟨_, _, _, rfl⟩) rfl
    | choice n cm ms =>
      cases h5
      simp only [CDecl.types, List.map_map, List.mem_map, Function.comp_apply] at ht
      obtain ⟨k, hk, rfl⟩ := ht
      have block : ∀ e' ∈ b.defs, e'.isSimple = false → UsesName k.type e'.name → unionType k.type = ident e'.name → _ :=
        fun e' he' hsm hu htk => Or.inr (a := ∃ k', Keyword k' ∧ [unionType k.type] = [k'])
          (Or.inr (a := (X m).1 = true ∧ ∃ k', StdIntType k' ∧ [unionType k.type] = [k'])
            (generated k hk e'.name e' he' rfl hu (by
              cases e' with
              | seq => exact .inl ⟨_, _, _, rfl⟩
              | enum => exact .inr ⟨_, _, _, rfl⟩
              | choice => exact absurd hu (hc.declarable.choice _ _ _ he' _ heb k hk)
              | simple => cases hsm) (by rw [htk])))
      rcases hc.choices n cm ms heb k hk with ⟨e', he', htk, hsm⟩ | ⟨e0, len, htk0, e', he', htk, hsm⟩ | ⟨s, len, htk⟩
      · exact block e' he' hsm (by rw [htk]; exact .plain) (by rw [htk]; rfl)
      · exact block e' he' hsm (by rw [htk0, htk]; exact .arr .plain) (by rw [htk0, htk]; rfl)
      · rw [htk]
        exact .inl ⟨_, .char, rfl⟩
    | enum => cases h5; cases ht
    | simple => cases h5
  · -- a variable
    obtain ⟨e, he1, n, ⟨cm, ms, rfl⟩, rfl⟩ := hobj h2
    rw [CDecl.types, List.mem_singleton] at ht
    subst ht
    obtain ⟨x, hx, hdx⟩ := all2_mem_left hdecls (List.mem_filter.2 ⟨he1, rfl⟩)
    exact .inr (.inr (.inl ⟨x, List.mem_append_left _ hx, declOf_typedef hdx (.inl ⟨_, _, _, rfl⟩)⟩))


/-! ### Facts about the declarations of all headers -/

/-- A word that no guard symbol is equal to. -/
def NotGuard (w : Text) : Prop := ∀ cmd : Command, ∀ m, w ≠ cmd.guard m

theorem notGuard_of {w : Text} (h : ∀ c r, w = c :: r → ∀ d ∈ r, TailChar d) : NotGuard w := by
  rintro cmd m rfl
  have e : ∃ r, cmd.guard m = 'A' :: 'S' :: r := by
    unfold Command.guard
    exact ⟨_, rfl⟩
  obtain ⟨r, hr⟩ := e
  have := h _ _ hr 'S' (by simp)
  revert this
  unfold TailChar
  decide +kernel

theorem notGuard_lower {n : String} (h : isNameLower n = true) : NotGuard (ident n) :=
  notGuard_of fun c r e d hd => ident_lower_chars h d (by rw [e]; simp [hd])

theorem notGuard_capital {n : String} (h : isNameCapital n = true) : NotGuard (ident n) := by
  obtain ⟨c, r, h1, _, h3⟩ := ident_capital_chars h
  refine notGuard_of fun c' r' e d hd => ?_
  rw [h1] at e
  cases e
  exact h3 d hd

theorem notGuard_lowered {n : String} (h : isNameCapital n = true) : NotGuard (lowerFirst (ident n)) := by
  obtain ⟨c, r, h1, _, h3⟩ := ident_capital_chars h
  refine notGuard_of fun c' r' e d hd => ?_
  rw [h1] at e
  cases e
  exact h3 d hd

theorem notGuard_known {a : List CPiece} {t : List Text} (h : Knows a t)
    (ha : ∀ d ∈ declsOf a, ∀ x ∈ d.names, NotGuard x) : ∀ x ∈ t, NotGuard x := by
  intro x hx
  have lit : ∀ {l : Text}, ((match l with | _ :: 'S' :: _ => false | _ => true) = true) → NotGuard l := by
    rintro l hl cmd m rfl
    have e : ∃ r, cmd.guard m = 'A' :: 'S' :: r := by
      unfold Command.guard
      exact ⟨_, rfl⟩
    obtain ⟨r, hr⟩ := e
    rw [hr] at hl
    cases hl
  cases h with
  | keyword hk =>
    rw [List.mem_singleton.1 hx]
    cases hk <;> exact lit (by decide)
  | stdint _ hk =>
    rw [List.mem_singleton.1 hx]
    obtain ⟨n, hk⟩ := hk
    cases hk <;> exact lit (by decide)
  | struct hd =>
    rw [List.mem_singleton.1 hx]
    exact ha _ (mem_declsOf.2 hd) _ (List.mem_singleton.2 rfl)
  | enum hd =>
    rw [List.mem_singleton.1 hx]
    exact ha _ (mem_declsOf.2 hd) _ (List.mem_cons_self ..)

theorem stdName_lower {x : Text} (h : StdName x) (hu : ∃ c r, x = c :: r ∧ reUpper c = true) : False := by
  obtain ⟨c, r, rfl, hc⟩ := hu
  rcases h with ⟨y, h⟩ | ⟨y, h⟩
  · have : c = 'i' := (List.cons.inj h).1
    subst this
    exact absurd hc (by decide)
  · have : c = 'u' := (List.cons.inj h).1
    subst this
    exact absurd hc (by decide)

/-- What holds for each declaration of each header. -/
theorem chosen_decl {cmd : Command} {fuel : Nat} {raw : List Module} {cfg : List String} {out : Text} {b : Bundle}
    {fs : Files} (hin : Input raw cfg b) (hc : Compilable cmd b.defs) {m : Module} (hm : m ∈ b.modules)
    {x : Bool × List Def × List CDecl} (hx : Chosen cmd fs out b fuel m x) {d : CDecl} (hd : d ∈ ownDecls cmd x) :
    (∀ w ∈ d.names ++ d.tags ++ d.fields.map (·.name), NotGuard w) ∧ (∀ w ∈ d.names, ¬ StdName w) ∧ d.Filled := by
  have hbt := buildFromTexts_of_config hin.accepted
  have hcap := accepted_capital hin.grammar hbt
  obtain ⟨_, hp, _, _, hdecls, _⟩ := hx
  rcases List.mem_append.1 hd with hd | hd
  · obtain ⟨e, he, hde⟩ := all2_mem_right hdecls hd
    have heb := mem_defs_of_module hm (hp.mem_iff.1 (List.mem_filter.1 he).1)
    have hg := (accepted_grammar hin.grammar hbt e heb).1
    have hce := hcap e heb
    have hfields : ∀ w ∈ d.fields.map (·.name), NotGuard w := by
      rw [declOf_fields hde]
      intro w hw
      obtain ⟨k, hk, rfl⟩ := List.mem_map.1 hw
      refine notGuard_lower ?_
      cases e with
      | seq => exact (hg.2.2 k hk).1
      | choice => exact (hg.2.2 k hk).1
      | enum => cases hk
      | simple => cases hk
    have htags : ∀ w ∈ d.tags, NotGuard w := by
      intro w hw
      rw [declOf_tags hde w hw]
      exact notGuard_capital hce
    have hnames : ∀ w ∈ d.names, NotGuard w ∧ ¬ StdName w := by
      rw [declOf_names hde]
      intro w hw
      cases e with
      | seq n c ms =>
        rw [List.mem_singleton.1 hw]
        exact ⟨notGuard_capital hce, fun h => stdName_lower h (ident_capital_head hce)⟩
      | enum n c its =>
        rcases List.mem_cons.1 hw with rfl | hw
        · exact ⟨notGuard_capital hce, fun h => stdName_lower h (ident_capital_head hce)⟩
        · obtain ⟨i, hi, rfl⟩ := List.mem_map.1 hw
          exact ⟨notGuard_lower (hg.2.2 i hi), hc.enumerators i.key
            (List.mem_flatMap.2 ⟨_, heb, List.mem_map.2 ⟨i, hi, rfl⟩⟩)⟩
      | choice n c ms =>
        rw [List.mem_singleton.1 hw]
        exact ⟨notGuard_lowered hce, hc.variables _ heb (by cases cmd <;> trivial)⟩
      | simple => cases hw
    refine ⟨?_, fun w hw => (hnames w hw).2, ?_⟩
    · intro w hw
      rcases List.mem_append.1 hw with hw | hw
      · rcases List.mem_append.1 hw with hw | hw
        · exact (hnames w hw).1
        · exact htags w hw
      · exact hfields w hw
    · cases e with
      | seq n c ms =>
        obtain ⟨fs', rfl, hf⟩ := hde
        rintro rfl
        cases hf
        exact hg.2.1 rfl
      | enum n c its =>
        cases hde
        refine ⟨by simpa using hg.2.1, ?_⟩
        intro i hi
        obtain ⟨i', hi', rfl⟩ := List.mem_map.1 hi
        exact hc.values n c its heb i' hi'
      | choice n c ms =>
        cases hde
        simpa [CDecl.Filled] using hg.2.1
      | simple => cases hde
  · obtain ⟨e, he, _, ho, rfl⟩ := objectsOf_form hd
    have heb := mem_defs_of_module hm (hp.mem_iff.1 he)
    have hce := hcap e heb
    refine ⟨?_, ?_, trivial⟩
    · intro w hw
      simp only [CDecl.names, CDecl.tags, CDecl.fields, List.append_nil, List.map_nil, List.mem_singleton] at hw
      subst hw
      exact notGuard_lowered hce
    · intro w hw
      rw [List.mem_singleton.1 hw]
      exact hc.variables e heb ho

theorem noClash_left {l l' : List CDecl} (h : NoClash (l ++ l')) : NoClash l :=
  ⟨(List.pairwise_append.1 h.1).1, fun d hd => h.2 d (List.mem_append_left _ hd)⟩

theorem perm_of_sub {α} [DecidableEq α] {X ms : List α} (hX : X.Nodup) (hm : ms.Nodup) (hs : ∀ x ∈ X, x ∈ ms) :
    ∃ Y, ms.Perm (X ++ Y) := by
  refine ⟨ms.filter fun x => !X.contains x, (List.perm_ext_iff_of_nodup hm ?_).2 ?_⟩
  · refine List.nodup_append.2 ⟨hX, hm.filter _, ?_⟩
    rintro a ha b hb rfl
    have := (List.mem_filter.1 hb).2
    simp [ha] at this
  · intro a
    rw [List.mem_append, List.mem_filter]
    constructor
    · intro h
      by_cases ha : a ∈ X
      · exact .inl ha
      · exact .inr ⟨h, by simp [ha]⟩
    · rintro (h | h)
      · exact hs a h
      · exact h.1

/-- In a list without clashes a name belongs to one declaration. -/
theorem noClash_typedef {ds : List CDecl} (h : NoClash ds) {d d' : CDecl} (hd : d ∈ ds) (hd' : d' ∈ ds) {t : List Text}
    (ht : Typedef d t) (ht' : Typedef d' t) : d = d' := by
  refine Classical.byContradiction fun hne => ?_
  have hco := pairwise_ne (fun _ _ h => h.symm) h.1 hd hd' hne
  obtain ⟨n, rfl, hn⟩ : ∃ n, t = [n] ∧ n ∈ d.names := by
    rcases ht with ⟨n, fs, rfl, rfl⟩ | ⟨n, is, rfl, rfl⟩
    · exact ⟨n, rfl, List.mem_singleton.2 rfl⟩
    · exact ⟨n, rfl, List.mem_cons_self ..⟩
  have hn' : n ∈ d'.names := by
    rcases ht' with ⟨n', fs, rfl, h⟩ | ⟨n', is, rfl, h⟩
    · cases h; exact List.mem_singleton.2 rfl
    · cases h; exact List.mem_cons_self ..
  rcases hco.2 with h1 | ⟨ty, nm, rfl, _⟩
  · exact h1 n hn hn'
  · rcases ht with ⟨_, _, h, _⟩ | ⟨_, _, h, _⟩ <;> cases h

/-- The bits of a type that is known in a part of the declarations. -/
theorem hasBits_part {D D' : List CDecl} {a : List CPiece} (h : NoClash D) (hs : ∀ d ∈ D', d ∈ D)
    (ha : ∀ d ∈ declsOf a, d ∈ D') {t : List Text} (hk : Knows a t) {w : Int} (hcap : ∀ n is, CDecl.enum n is ∈ D →
      ¬ Keyword n ∧ ¬ StdIntType n) (hb : HasBits D t w) : HasBits D' t w := by
  rcases hb with hb | ⟨n, is, h1, rfl, h2⟩
  · exact .inl hb
  · have htd : Typedef (.enum n is) [n] := .inr ⟨_, _, rfl, rfl⟩
    obtain ⟨d, hd, htd'⟩ : ∃ d ∈ declsOf a, Typedef d [n] := by
      cases hk with
      | keyword hk => exact absurd hk (hcap n is h1).1
      | stdint _ hk => exact absurd hk (hcap n is h1).2
      | struct hd => exact ⟨_, mem_declsOf.2 hd, .inl ⟨_, _, rfl, rfl⟩⟩
      | enum hd => exact ⟨_, mem_declsOf.2 hd, .inr ⟨_, _, rfl, rfl⟩⟩
    have : CDecl.enum n is = d := noClash_typedef h h1 (hs d (ha d hd)) htd htd'
    subst this
    exact .inr ⟨n, is, ha _ hd, rfl, h2⟩

/-- Full statement of C64: a C file that includes headers of a run compiles. -/
def C64_full : Prop :=
  ∀ (cmd : Command) fuel raw cfg out b fs, Input raw cfg b → (cmd.run fuel raw cfg out).result = .ok () →
    Regular b.defs → (∀ m ∈ b.modules, Tame m) → ∀ ms : List Module, (∀ m ∈ ms, m ∈ b.modules) →
    ∃ n unit syms, preprocess ((cmd.run fuel raw cfg out).apply fs) out n [] (includesOf cmd ms) = some (unit, syms) ∧
      Compiles unit syms

/-- The translation unit of a C file that includes headers of a run, whatever the definitions are: `X` are the headers,
`V` the modules that are read. -/
theorem unit_parts (cmd : Command) (fuel : Nat) (raw : List Module) (cfg : List String) (out : Text)
    (b : Bundle) (fs : Files) (hin : Input raw cfg b) (hr : (cmd.run fuel raw cfg out).result = .ok ())
    (hreg : Regular b.defs) (ht : ∀ m ∈ b.modules, Tame m)
    (hinc : ∀ m ∈ b.modules, ∀ i ∈ m.imports, cmd.included i.module = cmd.header i.module)
    (ms : List Module) (hms : ∀ m ∈ ms, m ∈ b.modules) :
    ∃ (X : Module → Bool × List Def × List CDecl) (n : Nat) (u : List CPiece) (V : List Module),
      (∀ m ∈ b.modules, Chosen cmd ((cmd.run fuel raw cfg out).apply fs) out b fuel m (X m)) ∧
      preprocess ((cmd.run fuel raw cfg out).apply fs) out n [] (includesOf cmd ms) =
        some (u, V.map fun x => cmd.guard x.name) ∧
      HeaderAdds (Compilable cmd b.defs) b.modules (fun m => ownDecls cmd (X m)) [] [] V u ∧
      ∀ m ∈ ms, (∀ d ∈ ownDecls cmd (X m), .decl d ∈ u) ∧ m ∈ V := by
  have hb := hin.accepted
  have hbt := buildFromTexts_of_config hb
  have hnames := accepted_moduleNames hb
  have hlow := accepted_names hin.grammar hbt
  obtain ⟨rank, hrank⟩ := run_rank hb hr
  obtain ⟨X, hX⟩ := Classical.axiomOfChoice (r := fun (m : Module) x => m ∈ b.modules →
      Chosen cmd ((cmd.run fuel raw cfg out).apply fs) out b fuel m x) fun m => by
    by_cases hm : m ∈ b.modules
    · obtain ⟨x, hx⟩ := run_chosen fs hin hr hreg ht hm
      exact ⟨x, fun _ => hx⟩
    · exact ⟨(false, [], []), fun h => absurd h hm⟩
  have H : Headers (Compilable cmd b.defs) cmd ((cmd.run fuel raw cfg out).apply fs) out b.modules (fun m => (X m).1)
      (fun m => ownDecls cmd (X m)) rank := by
    refine ⟨?_, ?_, ?_, ?_⟩
    · intro m hm
      obtain ⟨_, _, t, h1, _, h2⟩ := hX m hm
      refine ⟨t, h1, ?_⟩
      rw [h2]
      have : includeLines cmd m = m.imports.map fun i => includeLine (cmd.header i.module) := by
        unfold includeLines includeLine
        refine List.map_congr_left fun i hi => ?_
        rw [hinc m hm i hi]
      rw [this]
      rfl
    · intro m hm i hi
      obtain ⟨m', h1, h2, _⟩ := C13_imports raw cfg b hb m hm i hi
      exact ⟨m', h1, h2, hrank m hm m' h1 ⟨i, hi, h2.symm⟩⟩
    · intro m hm m' hm' h
      exact mem_unique_of_nodup_map hnames hm hm' (guard_inj (hlow m hm) (hlow m' hm') h)
    · intro hc m hm a d c he t hdt
      exact chosen_known hin hc hX hm a d c he t hdt
  obtain ⟨K, hK⟩ : ∃ K, ∀ m ∈ b.modules, rank m ≤ K :=
    ⟨(b.modules.map rank).sum, fun m hm => le_sum_of_mem (List.mem_map.2 ⟨m, hm, rfl⟩)⟩
  obtain ⟨V, u, hpre, hadd, hprov⟩ := includes_add (P := Compilable cmd b.defs) (cmd := cmd) (ms := b.modules)
    (D := fun m => ownDecls cmd (X m)) (rank := rank) ms hms
    (fun j hj => header_adds H hK (K + 1) j (hms j hj) (by omega)) [] [] .nil (by simp) (by simp)
  have hfinal := hpre [] [] _ (.nil _)
  simp only [List.append_nil, List.map_nil] at hfinal hprov
  obtain ⟨n, hn⟩ := hfinal
  exact ⟨X, n, u, V, hX, hn, hadd, hprov⟩

/-- The translation unit of a C file that includes headers of a run. -/
theorem compiles_unit (cmd : Command) (fuel : Nat) (raw : List Module) (cfg : List String) (out : Text)
    (b : Bundle) (fs : Files) (hin : Input raw cfg b) (hr : (cmd.run fuel raw cfg out).result = .ok ())
    (hreg : Regular b.defs) (ht : ∀ m ∈ b.modules, Tame m) (hc : Compilable cmd b.defs)
    (hinc : ∀ m ∈ b.modules, ∀ i ∈ m.imports, cmd.included i.module = cmd.header i.module)
    (ms : List Module) (hms : ∀ m ∈ ms, m ∈ b.modules) :
    ∃ n unit syms, preprocess ((cmd.run fuel raw cfg out).apply fs) out n [] (includesOf cmd ms) = some (unit, syms) ∧
      Compiles unit syms ∧ (∀ m ∈ ms, ∀ d ∈ m.defs, d.isSimple = false →
        ∃ x ∈ declsOf unit, ∃ std, DeclOf (Typed b.defs std) d x) ∧
      (∀ x ∈ declsOf unit, (∃ d ∈ b.defs, ∃ std, DeclOf (Typed b.defs std) d x) ∨ ∃ t n, x = .object t n) ∧
      (∀ m ∈ ms, ∀ sorted, sortDefs fuel m = some sorted → ∀ x ∈ objectsOf cmd sorted, x ∈ declsOf unit) ∧
      ∀ s ∈ syms, ∃ m, s = cmd.guard m := by
  have hb := hin.accepted
  have hbt := buildFromTexts_of_config hb
  have hcap := accepted_capital hin.grammar hbt
  have hnames := accepted_moduleNames hb
  have hlow := accepted_names hin.grammar hbt
  obtain ⟨X, n, u, V, hX, hn, hadd, hprov⟩ := unit_parts cmd fuel raw cfg out b fs hin hr hreg ht hinc ms hms
  generalize hD : (fun m => ownDecls cmd (X m)) = D at hadd
  have hDm : ∀ m, D m = ownDecls cmd (X m) := fun m => by rw [← hD]
  -- the declarations of all headers
  have hall : HeaderDecls cmd ((cmd.run fuel raw cfg out).apply fs) out b.modules (b.modules.map D) := by
    refine all2_map_self fun m hm => ?_
    obtain ⟨_, _, t, h1, _, h2⟩ := hX m hm
    exact ⟨t, _, h1, by rw [hDm]; exact readHeader_of h2⟩
  have hclash : NoClash (b.modules.map D).flatten := by
    obtain ⟨dss, h1, h2⟩ := C61_no_clash_iff_partial cmd fuel raw cfg out b fs hin hr hreg ht
    rw [headerDecls_unique hall h1]
    exact h2.2 hc.idents
  have hlimits : ∀ x ∈ (b.modules.map D).flatten, ∀ f ∈ x.fields, WithinLimits (b.modules.map D).flatten f := by
    obtain ⟨dss, h1, h2⟩ := C63_limits_iff_partial cmd fuel raw cfg out b fs hin hr hreg ht
    rw [headerDecls_unique hall h1]
    exact h2.2 hc.limits
  have hmod : b.modules.Nodup := (List.Pairwise.of_map (·.name) (fun _ _ h h' => h (by rw [h'])) hnames)
  have hVn : V.Nodup := by simpa using hadd.nodup
  have huD : ∀ d ∈ declsOf u, ∃ m ∈ b.modules, d ∈ D m := by
    intro d hd
    obtain ⟨m, hm, hdm⟩ := List.mem_flatMap.1 (hadd.perm.mem_iff.1 hd)
    exact ⟨m, hadd.sub m hm, hdm⟩
  have hsub : ∀ d ∈ declsOf u, d ∈ (b.modules.map D).flatten := by
    intro d hd
    obtain ⟨m, hm, hdm⟩ := huD d hd
    exact List.mem_flatten.2 ⟨_, List.mem_map.2 ⟨m, hm, rfl⟩, hdm⟩
  have huc : NoClash (declsOf u) := by
    obtain ⟨Y, hY⟩ := perm_of_sub hVn hmod hadd.sub
    rw [noClash_perm hadd.perm]
    have := hY.flatMap_right D
    rw [List.flatMap_append, List.flatMap_def] at this
    exact noClash_left ((noClash_perm this).1 hclash)
  have hknown : ∀ a d c, u = a ++ .decl d :: c → ∀ t ∈ d.types, Knows a t := by
    intro a d c he t hdt
    have := (hadd.good hc).known a d c he t hdt
    rwa [List.nil_append] at this
  have hfacts : ∀ d ∈ declsOf u, (∀ w ∈ d.names ++ d.tags ++ d.fields.map (·.name), NotGuard w) ∧
      (∀ w ∈ d.names, ¬ StdName w) ∧ d.Filled := by
    intro d hd
    obtain ⟨m, hm, hdm⟩ := huD d hd
    rw [hDm] at hdm
    exact chosen_decl hin hc hm (hX m hm) hdm
  have hsplit : ∀ d ∈ declsOf u, ∃ a c, u = a ++ .decl d :: c := fun d hd =>
    List.append_of_mem (mem_declsOf.1 hd)
  have hpart : ∀ {a c d}, u = a ++ .decl d :: c → ∀ x ∈ declsOf a, x ∈ declsOf u := by
    rintro a c d rfl x hx
    rw [declsOf_append]
    exact List.mem_append_left _ hx
  have henum : ∀ n is, CDecl.enum n is ∈ (b.modules.map D).flatten → ¬ Keyword n ∧ ¬ StdIntType n := by
    intro n is hd
    obtain ⟨_, hl, hd⟩ := List.mem_flatten.1 hd
    obtain ⟨m, hm, rfl⟩ := List.mem_map.1 hl
    rw [hDm] at hd
    obtain ⟨_, hp, _, _, hdecls, _⟩ := hX m hm
    have hu : ∃ c r, n = c :: r ∧ reUpper c = true := by
      rcases List.mem_append.1 hd with hd | hd
      · obtain ⟨e, he, hde⟩ := all2_mem_right hdecls hd
        have heb := mem_defs_of_module hm (hp.mem_iff.1 (List.mem_filter.1 he).1)
        have hce := hcap e heb
        cases e with
        | enum => cases hde; exact ident_capital_head hce
        | seq => obtain ⟨_, h, _⟩ := hde; cases h
        | choice => cases hde
        | simple => cases hde
      · obtain ⟨_, _, _, _, h⟩ := objectsOf_form hd
        cases h
    obtain ⟨c, r, rfl, hcu⟩ := hu
    constructor
    · intro hk
      generalize hw : c :: r = w at hk
      cases hk <;> cases hw <;> exact absurd hcu (by decide)
    · rintro ⟨k, hk⟩
      generalize hw : c :: r = w at hk
      cases hk <;> cases hw <;> exact absurd hcu (by decide)
  refine ⟨n, u, _, hn, ⟨hknown, huc, ?_, fun d hd => (hfacts d hd).2.2, fun _ d hd => (hfacts d hd).2.1, ?_⟩, ?_,
    ?_, ?_, ?_⟩
  · intro d hd f hf
    obtain ⟨a, c, he⟩ := hsplit d hd
    obtain ⟨h1, h2⟩ := hlimits d (hsub d hd) f hf
    refine ⟨h1, fun w hw => ⟨(h2 w hw).1, ?_⟩⟩
    refine hasBits_part hclash hsub (hpart he) (hknown a d c he f.type ?_) henum (h2 w hw).2
    cases d with
    | struct => exact List.mem_map.2 ⟨f, hf, rfl⟩
    | union => exact List.mem_map.2 ⟨f, hf, rfl⟩
    | enum => cases hf
    | object => cases hf
  · intro d hd w hw hg
    obtain ⟨m, _, rfl⟩ := List.mem_map.1 hg
    rcases List.mem_append.1 hw with hw | hw
    · exact (hfacts d hd).1 _ hw cmd m.name rfl
    · obtain ⟨t, ht', hwt⟩ := List.mem_flatten.1 hw
      obtain ⟨a, c, he⟩ := hsplit d hd
      refine notGuard_known (hknown a d c he t ht') ?_ _ hwt cmd m.name rfl
      intro d' hd' x hx
      exact (hfacts d' (hpart he d' hd')).1 x (List.mem_append_left _ (List.mem_append_left _ hx))
  · intro m hm d hd hs
    obtain ⟨_, hp, _, _, hdecls, _⟩ := hX m (hms m hm)
    obtain ⟨x, hx, hdx⟩ := all2_mem_left hdecls (List.mem_filter.2 ⟨hp.mem_iff.2 hd, by simp [hs]⟩)
    refine ⟨x, mem_declsOf.2 ?_, _, hdx⟩
    exact (hprov m hm).1 x (List.mem_append_left _ hx)
  · intro x hx
    obtain ⟨m, hm, hxm⟩ := huD x hx
    rw [hDm] at hxm
    obtain ⟨_, hp, _, _, hdecls, _⟩ := hX m hm
    rcases List.mem_append.1 hxm with h | h
    · obtain ⟨d, hd, hdx⟩ := all2_mem_right hdecls h
      exact .inl ⟨d, mem_defs_of_module hm (hp.mem_iff.1 (List.mem_filter.1 hd).1), _, hdx⟩
    · obtain ⟨e, _, _, _, rfl⟩ := objectsOf_form h
      exact .inr ⟨_, _, rfl⟩
  · intro m hm sorted hs x hx
    obtain ⟨hs', _⟩ := hX m (hms m hm)
    rw [hs] at hs'
    cases hs'
    exact mem_declsOf.2 ((hprov m hm).1 x (List.mem_append_right _ hx))
  · intro s hs
    obtain ⟨m, _, rfl⟩ := List.mem_map.1 hs
    exact ⟨m.name, rfl⟩

/-- **C64, partial.** A C file that includes headers of a run, in any order, compiles, and has the declarations of
the modules it includes. Missing: modules that are not tame or regular, definitions that are not compilable, and
the headers of generate-c and generate-binary with imports, whose include lines name no file. -/
theorem C64_compiles_partial (cmd : Command) (fuel : Nat) (raw : List Module) (cfg : List String) (out : Text)
    (b : Bundle) (fs : Files) (hin : Input raw cfg b) (hr : (cmd.run fuel raw cfg out).result = .ok ())
    (hreg : Regular b.defs) (ht : ∀ m ∈ b.modules, Tame m) (hc : Compilable cmd b.defs)
    (hinc : ∀ m ∈ b.modules, ∀ i ∈ m.imports, cmd.included i.module = cmd.header i.module)
    (ms : List Module) (hms : ∀ m ∈ ms, m ∈ b.modules) :
    ∃ n unit syms, preprocess ((cmd.run fuel raw cfg out).apply fs) out n [] (includesOf cmd ms) = some (unit, syms) ∧
      Compiles unit syms ∧ ∀ m ∈ ms, ∀ d ∈ m.defs, d.isSimple = false →
        ∃ x ∈ declsOf unit, ∃ std, DeclOf (Typed b.defs std) d x := by
  obtain ⟨n, u, s, h1, h2, h3, _⟩ := compiles_unit cmd fuel raw cfg out b fs hin hr hreg ht hc hinc ms hms
  exact ⟨n, u, s, h1, h2, h3⟩

/-! ### What goes wrong -/

/-- Two enumerations with an item of the same name are accepted, and a file that includes their header does not
compile. -/
theorem C64_full_false : ¬ C64_full := by
  intro hf
  have hi : Input [exOnOff] ["m"] (okBundle (buildFromConfig [exOnOff] ["m"])) :=
    input_of (by decide +kernel) (by decide +kernel) (by decide +kernel)
  obtain ⟨n, u, s, h1, h2⟩ := hf (.cfs exPrinter) 20 [exOnOff] ["m"] exOut _ (fun _ => none) hi (by decide +kernel)
    (regular_of (by decide +kernel) (by decide +kernel) (by decide +kernel)) (single_tame (by decide +kernel) exOnOff_tame)
    [exOnOff] (by decide +kernel)
  have e : (preprocess (((Command.cfs exPrinter).run 20 [exOnOff] ["m"] exOut).apply fun _ => none) exOut 20 []
      (includesOf (.cfs exPrinter) [exOnOff])).map (fun x => declsOf x.1) =
      some [.enum "Power".toList [("off".toList, 0), ("on".toList, 1)],
        .enum "Heater".toList [("off".toList, 0), ("on".toList, 1)]] := by decide +kernel
  obtain ⟨x, hx, he⟩ := Option.map_eq_some_iff.1 e
  obtain ⟨rfl, rfl⟩ := Pre.unique ⟨n, h1⟩ ⟨20, hx⟩
  have hc := h2.clash.1
  rw [he, List.pairwise_cons] at hc
  obtain ⟨_, h | ⟨_, _, h, _⟩⟩ := hc.1 _ (List.mem_cons_self ..)
  · exact h "off".toList (by decide +kernel) (by decide +kernel)
  · cases h

/-! ### Example -/

/-- A module with an enumeration and a structure that uses it and a type of another module. -/
def exUses : Module :=
  { name := "a", imports := [⟨["Part"], "b"⟩]
    defs := [.enum "Mode" none [⟨"idle", 0, none⟩, ⟨"busy", 1, none⟩],
      .seq "Whole" none [⟨"part", .plain "Part" none none, none, none⟩, ⟨"mode", .plain "Mode" none none, none, none⟩]] }

/-- The module that is used. -/
def exUsed : Module :=
  { name := "b"
    defs := [.seq "Part" none [⟨"level", intType 0 300, none, none⟩, ⟨"flag", .plain "BOOLEAN" none none, none, none⟩]] }

theorem exUses_tame : Tame exUses := by
  refine ⟨(by intro c hc; cases hc), (by intro c hc; cases hc), ?_⟩
  intro d hd
  simp only [exUses, List.mem_cons, List.not_mem_nil, or_false] at hd
  rcases hd with rfl | rfl <;> refine ⟨(by intro x hx; cases hx), ?_⟩ <;> unfold NoBackslash NotReserved <;> decide +kernel

theorem exUsed_tame : Tame exUsed := by
  refine ⟨(by intro c hc; cases hc), (by intro c hc; cases hc), ?_⟩
  intro d hd
  simp only [exUsed, List.mem_cons, List.not_mem_nil, or_false] at hd
  rcases hd with rfl <;> refine ⟨(by intro x hx; cases hx), ?_⟩ <;> unfold NoBackslash NotReserved <;> decide +kernel

theorem not_stdName {n : Text} (h : n.getLast? ≠ some 't') : ¬ StdName n := by
  rintro (⟨x, rfl⟩ | ⟨x, rfl⟩) <;> exact h (by rw [List.getLast?_append]; rfl)

theorem exUses_compilable : Compilable (.cfs exPrinter) (exUses.defs ++ exUsed.defs) where
  idents := by
    refine ⟨by unfold DistinctKeys; decide +kernel, by decide +kernel, ?_⟩
    intro d hd h
    simp only [exUses, exUsed, List.mem_cons, List.not_mem_nil, or_false, List.cons_append, List.nil_append] at hd
    rcases hd with rfl | rfl | rfl <;> cases h
  declarable := declarable_of (by decide +kernel)
  choices := by
    intro n c ms hd
    simp [exUses, exUsed] at hd
  limits := by
    intro n c ms hd k hk
    simp only [exUses, exUsed, List.mem_cons, List.not_mem_nil, or_false, reduceCtorEq, false_or, Def.seq.injEq,
      List.cons_append, List.nil_append] at hd
    rcases hd with ⟨rfl, rfl, rfl⟩ | ⟨rfl, rfl, rfl⟩
    · simp only [List.mem_cons, List.not_mem_nil, or_false] at hk
      rcases hk with rfl | rfl
      · refine ⟨by decide, (by intro b e h; simp [intType] at h), ?_⟩
        intro n hn
        cases hn
        refine ⟨?_, ?_⟩
        · intro c its h
          simp [exUses, exUsed] at h
        · intro c b e h
          simp [exUses, exUsed] at h
      · refine ⟨by decide, (by intro b e h; simp [intType] at h), ?_⟩
        intro n hn
        cases hn
        refine ⟨?_, ?_⟩
        · intro c its h
          simp only [exUses, exUsed, List.mem_cons, List.not_mem_nil, or_false, reduceCtorEq, Def.enum.injEq,
            List.cons_append, List.nil_append] at h
          obtain ⟨_, rfl, rfl⟩ := h
          decide
        · intro c b e h
          simp [exUses, exUsed] at h
    · simp only [List.mem_cons, List.not_mem_nil, or_false] at hk
      rcases hk with rfl | rfl
      · refine ⟨by decide, ?_, by intro n hn; cases hn⟩
        intro b e h _
        cases h
        exact ⟨300, ⟨by decide, by decide⟩, by decide⟩
      · refine ⟨by decide, (by intro b e h; simp [intType] at h), ?_⟩
        intro n hn
        cases hn
        refine ⟨?_, ?_⟩
        · intro c its h
          simp [exUses, exUsed] at h
        · intro c b e h
          simp [exUses, exUsed] at h
  values := by
    intro n c its hd i hi
    simp only [exUses, exUsed, List.mem_cons, List.not_mem_nil, or_false, reduceCtorEq, Def.enum.injEq,
      List.cons_append, List.nil_append] at hd
    obtain ⟨rfl, rfl, rfl⟩ := hd
    simp only [List.mem_cons, List.not_mem_nil, or_false] at hi
    rcases hi with rfl | rfl <;> decide
  enumerators := by
    have : ∀ k ∈ (exUses.defs ++ exUsed.defs).flatMap enumerators, (ident k).getLast? ≠ some 't' := by decide +kernel
    exact fun k hk => not_stdName (this k hk)
  variables := by
    intro d hd h
    simp only [exUses, exUsed, List.mem_cons, List.not_mem_nil, or_false, List.cons_append, List.nil_append] at hd
    rcases hd with rfl | rfl | rfl <;> cases h

/-- The hypotheses of the theorem are met by two modules of generate-cfs, one of which is included twice and by the
other one. -/
example : ∃ n unit syms,
    preprocess (((Command.cfs exPrinter).run 20 [exUses, exUsed] ["a", "b"] exOut).apply fun _ => none) exOut n []
      (includesOf (.cfs exPrinter) [exUsed, exUses, exUsed]) = some (unit, syms) ∧ Compiles unit syms ∧
    ∀ m ∈ [exUsed, exUses, exUsed], ∀ d ∈ m.defs, d.isSimple = false →
      ∃ x ∈ declsOf unit, ∃ std, DeclOf (Typed (okBundle (buildFromConfig [exUses, exUsed] ["a", "b"])).defs std) d x := by
  have e : (okBundle (buildFromConfig [exUses, exUsed] ["a", "b"])).modules = [exUses, exUsed] := by decide +kernel
  have e' : (okBundle (buildFromConfig [exUses, exUsed] ["a", "b"])).defs = exUses.defs ++ exUsed.defs := by decide +kernel
  refine C64_compiles_partial (.cfs exPrinter) 20 [exUses, exUsed] ["a", "b"] exOut _ (fun _ => none)
    (input_of (by decide +kernel) (by decide +kernel) (by decide +kernel)) (by decide +kernel)
    (regular_of (by decide +kernel) (by decide +kernel) (by decide +kernel)) ?_ (e' ▸ exUses_compilable)
    (fun _ _ _ _ => rfl) _ (by rw [e]; decide +kernel)
  rw [e]
  simpa using ⟨exUses_tame, exUsed_tame⟩

end Apg
