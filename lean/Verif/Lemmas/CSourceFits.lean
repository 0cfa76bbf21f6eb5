import Verif.Lemmas.CConstant
import Verif.Props.CCompile

/-!
# Lemmas on which initialisers a C compiler accepts
-/

namespace Apg
open Spec

theorem not_capital {l : Text} (h : (l.head?.map reUpper).getD false = false) {n : String} (hn : isNameCapital n = true) :
    l ≠ ident n := by
  rintro rfl
  obtain ⟨c, r, h1, h2⟩ := ident_capital_head hn
  rw [h1] at h
  simp [h2] at h

theorem scalar_not_capital {t : AType} {ct sfx : Text} (h : ScalarC t ct sfx) {n : String} (hn : isNameCapital n = true) :
    ct ≠ ident n := by
  cases h with
  | uint _ _ h =>
    obtain ⟨_, h, _⟩ := h
    cases h <;> exact not_capital (by decide +kernel) hn
  | sint => exact not_capital (by decide +kernel) hn
  | single => exact not_capital (by decide +kernel) hn
  | double => exact not_capital (by decide +kernel) hn

/-- A name that stands for a struct is the name of the sequence. -/
theorem namedC_struct {ds : List Def} (hcap : ∀ d ∈ ds, isNameCapital d.name = true)
    {n n' : String} {c : Option Comment} {ms : List Member} (hs : Def.seq n c ms ∈ ds) {ct sfx : Text}
    (h : NamedC ds n' ct sfx) (hct : ct = ident n) : n' = n := by
  have hn : isNameCapital n = true := hcap _ hs
  cases h with
  | posix _ hp => exact absurd hct (by cases hp <;> exact not_capital (by decide +kernel) hn)
  | struct hm => exact ident_inj (.inr (hcap _ hm)) (.inr hn) hct
  | union hm => exact ident_inj (.inr (hcap _ hm)) (.inr hn) hct
  | alias _ _ hx => exact absurd hct (scalar_not_capital hx hn)
  | aliasBool => exact absurd hct (not_capital (by decide +kernel) hn)
  | aliasFloat => exact absurd hct (not_capital (by decide +kernel) hn)
  | aliasDouble => exact absurd hct (not_capital (by decide +kernel) hn)

/-- A field whose type is a struct, and that is no array, is of the type of the sequence. -/
theorem fieldType_struct {ds : List Def} (hcap : ∀ d ∈ ds, isNameCapital d.name = true)
    {n : String} {c : Option Comment} {ms : List Member} (hs : Def.seq n c ms ∈ ds) {t : AType} {ct sfx : Text}
    (h : FieldType ds t ct sfx) (hd : dims t = []) (hct : ct = ident n) : t = .plain n none none := by
  have hn : isNameCapital n = true := hcap _ hs
  cases h with
  | scalar hx => exact absurd hct (scalar_not_capital hx hn)
  | bool => exact absurd hct (not_capital (by decide +kernel) hn)
  | chars => cases hd
  | named hx => rw [namedC_struct hcap hs hx hct]
  | enum he =>
    have := ident_inj (.inr (hcap _ he)) (.inr hn) hct
    simp only [Def.name] at this
    rw [this]
  | array => cases hd
  | arrayEnum => cases hd

/-- A member whose type is the name of a sequence has the struct as type. -/
theorem fieldType_plain {ds : List Def} (hcap : ∀ d ∈ ds, isNameCapital d.name = true) (hnd : (ds.map Def.name).Nodup)
    {n : String} {c : Option Comment} {ms : List Member} (hs : Def.seq n c ms ∈ ds) {ct sfx : Text}
    (h : FieldType ds (.plain n none none) ct sfx) : ct = ident n := by
  have one : ∀ {d : Def}, d ∈ ds → d.name = n → d = .seq n c ms := fun hd he =>
    mem_unique_of_nodup_map hnd hd hs he
  have scalar : ∀ {ct sfx}, ¬ ScalarC (.plain n none none) ct sfx := by
    intro ct sfx h
    generalize ht : AType.plain n none none = t at h
    cases h <;> simp [intType, realType] at ht
  generalize ht : AType.plain n none none = t at h
  cases h with
  | scalar hx => rw [← ht] at hx; exact absurd hx scalar
  | bool =>
    cases ht
    have hb : isNameCapital "BOOLEAN" = true := hcap _ hs
    exact absurd hb (by decide +kernel)
  | chars => cases ht
  | named hx =>
    cases ht
    cases hx with
    | posix hm => cases one hm rfl
    | struct hm => rfl
    | union hm => rfl
    | alias hm => cases one hm rfl
    | aliasBool hm => cases one hm rfl
    | aliasFloat hm => cases one hm rfl
    | aliasDouble hm => cases one hm rfl
  | enum he => cases ht; rfl
  | array => cases ht
  | arrayEnum => cases ht

/-- The declarations of a translation unit that come from definitions. -/
structure UnitOf (ds : List Def) (U : List CDecl) : Prop where
  capital : ∀ d ∈ ds, isNameCapital d.name = true
  nodup : (ds.map Def.name).Nodup
  grammar : ∀ d ∈ ds, GrammarDef d
  origin : ∀ x ∈ U, (∃ d ∈ ds, ∃ std, DeclOf (Typed ds std) d x) ∨ ∃ t n, x = .object t n
  closed : ∀ s fs, CDecl.struct s fs ∈ U → ∀ f ∈ fs, ∀ n c ms, Def.seq n c ms ∈ ds → f.type = [ident n] →
    ∃ fs', CDecl.struct (ident n) fs' ∈ U

/-- The struct of a sequence. -/
theorem UnitOf.struct {ds : List Def} {U : List CDecl} (h : UnitOf ds U) {s : Text} {fs : List CField}
    (hs : CDecl.struct s fs ∈ U) : ∃ n c ms, s = ident n ∧ Def.seq n c ms ∈ ds ∧ ∃ std, All2 (FieldOf (Typed ds std)) ms fs := by
  rcases h.origin _ hs with ⟨d, hd, std, hx⟩ | ⟨_, _, hx⟩
  · cases d with
    | seq n c ms =>
      obtain ⟨fs', hfs, hall⟩ := hx
      cases hfs
      exact ⟨n, c, ms, rfl, hd, std, hall⟩
    | enum => cases hx
    | choice => cases hx
    | simple => cases hx
  · cases hx

theorem UnitOf.fields {ds : List Def} {U : List CDecl} (h : UnitOf ds U) {n : String} {c : Option Comment} {ms : List Member}
    (hd : Def.seq n c ms ∈ ds) {fs : List CField} (hs : CDecl.struct (ident n) fs ∈ U) :
    ∃ std, All2 (FieldOf (Typed ds std)) ms fs := by
  obtain ⟨n', c', ms', h1, h2, h3⟩ := h.struct hs
  have hn : n = n' := ident_inj (.inr (h.capital _ hd)) (.inr (h.capital _ h2)) h1
  subst hn
  cases mem_unique_of_nodup_map h.nodup hd h2 rfl
  exact h3

theorem take_one_nil {l : List Int} (h : l.take 1 = []) : l = [] := by
  cases l with
  | nil => rfl
  | cons => simp at h

theorem entries_nil {p : Printer} {c : Comps} (h : entriesOf p c = .nil) : c = .nil := by
  cases c with
  | nil => rfl
  | leaf => cases h
  | node => cases h

/-- The initialiser of a clause is right exactly if the clause suits the members. -/
theorem initialises_iff {p : Printer} (hq : PythonFloats p) {ds : List Def} {U : List CDecl} (hU : UnitOf ds U) :
    ∀ (x : Comps), GrammarComps x → ∀ {n : String} {c : Option Comment} {ms : List Member} {fs : List CField},
      Def.seq n c ms ∈ ds → CDecl.struct (ident n) fs ∈ U → (Initialises U fs (entriesOf p x) ↔ SuitsMembers ds ms x)
  | .nil, _, _, _, _, _, _, _ => ⟨fun _ => .nil, fun _ => .nil⟩
  | .leaf k v r, hg, n, c, ms, fs, hd, hs => by
    have ih := initialises_iff hq hU r hg.2 hd hs
    obtain ⟨std, hall⟩ := hU.fields hd hs
    have hgm : ∀ m ∈ ms, isNameLower m.key = true := fun m hm => ((hU.grammar _ hd).2.2 m hm).1
    rw [entriesOf]
    constructor
    · intro h
      cases h with
      | @value _ _ _ _ f h1 h2 h3 h4 h5 h6 =>
        obtain ⟨m, hm, e1, e2, ct, sfx, ⟨e3, _⟩, e4, _⟩ := all2_mem_right hall h1
        rw [e1] at h2
        rw [e2] at h3
        refine .leaf hm (ident_inj (.inl (hgm m hm)) (.inl hg.1) h2) (take_one_nil h3) ?_ ((constant_value hq v).1 h5) (ih.1 h6)
        intro n' c' ms' ht hseq
        rw [ht] at e3
        have hct := fieldType_plain hU.capital hU.nodup hseq e3
        rw [hct] at e4
        obtain ⟨fs', hfs'⟩ := hU.closed _ _ hs f h1 _ _ _ hseq e4
        exact h4 ⟨_, _, e4, hfs'⟩
    · intro h
      cases h with
      | @leaf _ _ _ _ m h1 h2 h3 h4 h5 h6 =>
        obtain ⟨f, hf, e1, e2, ct, sfx, ⟨e3, _⟩, e4, _⟩ := all2_mem_left hall h1
        refine .value hf (by rw [e1, h2]) (by rw [e2, h3]; rfl) ?_ ((constant_value hq v).2 h5) (ih.2 h6)
        rintro ⟨s, fs', h7, h8⟩
        obtain ⟨n', c', ms', rfl, hseq, _⟩ := hU.struct h8
        rw [h7] at e4
        cases e4
        exact h4 n' c' ms' (fieldType_struct hU.capital hseq e3 h3 rfl) hseq
  | .node k i r, hg, n, c, ms, fs, hd, hs => by
    have ih := initialises_iff hq hU r hg.2.2 hd hs
    obtain ⟨std, hall⟩ := hU.fields hd hs
    have hgm : ∀ m ∈ ms, isNameLower m.key = true := fun m hm => ((hU.grammar _ hd).2.2 m hm).1
    rw [entriesOf]
    constructor
    · intro h
      cases h with
      | @group _ _ _ _ f s fs' h1 h2 h3 h4 h5 h6 h7 h8 =>
        obtain ⟨m, hm, e1, e2, ct, sfx, ⟨e3, _⟩, e4, _⟩ := all2_mem_right hall h1
        rw [e1] at h2
        rw [e2] at h3
        obtain ⟨n', c', ms', rfl, hseq, _⟩ := hU.struct h5
        rw [h4] at e4
        cases e4
        exact .node hm (ident_inj (.inl (hgm m hm)) (.inl hg.1) h2)
          (fieldType_struct hU.capital hseq e3 (take_one_nil h3) rfl) hseq
          ((initialises_iff hq hU i hg.2.1.2 hseq h5).1 h7) (ih.1 h8)
    · intro h
      cases h with
      | @node _ _ _ _ n' c' ms' m h1 h2 h3 h4 h5 h6 =>
        obtain ⟨f, hf, e1, e2, ct, sfx, ⟨e3, _⟩, e4, _⟩ := all2_mem_left hall h1
        rw [h3] at e3 e2
        have hct := fieldType_plain hU.capital hU.nodup h4 e3
        rw [hct] at e4
        obtain ⟨fs', hfs'⟩ := hU.closed _ _ hs f hf _ _ _ h4 e4
        exact .group hf (by rw [e1, h2]) e2 e4 hfs' (fun h => hg.2.1.1 (entries_nil h))
          ((initialises_iff hq hU i hg.2.1.2 h4 hfs').2 h5) (ih.2 h6)

/-! ### Variables -/

theorem hasBits_mono {D D' : List CDecl} (h : ∀ d ∈ D, d ∈ D') {t : List Text} {w : Int} (hb : HasBits D t w) :
    HasBits D' t w := by
  rcases hb with h1 | ⟨n, is, h1, h2, h3⟩
  · exact .inl h1
  · exact .inr ⟨n, is, h _ h1, h2, h3⟩

/-- Variables that are declared already can be declared again. -/
theorem compiles_more {unit : List CPiece} {syms : List Text} (h : Compiles unit syms) {O : List CDecl}
    (ho : ∀ o ∈ O, o ∈ declsOf unit ∧ ∃ t n, o = .object t n) : Compiles (unit ++ O.map .decl) syms := by
  have hdecls : declsOf (unit ++ O.map .decl) = declsOf unit ++ O := by rw [declsOf_append, declsOf_decls]
  have hmem : ∀ d ∈ declsOf unit ++ O, d ∈ declsOf unit := by
    intro d hd
    rcases List.mem_append.1 hd with hd | hd
    · exact hd
    · exact (ho d hd).1
  have hco : ∀ d ∈ declsOf unit, ∀ o ∈ O, Coexist d o := by
    intro d hd o hO
    obtain ⟨h1, t, n, rfl⟩ := ho o hO
    by_cases he : d = .object t n
    · subst he
      exact ⟨(by intro x hx; cases hx), .inr ⟨t, n, rfl, rfl⟩⟩
    · exact pairwise_ne (fun _ _ h => h.symm) h.clash.1 hd h1 he
  constructor
  · intro a d c he t ht
    rcases List.append_eq_append_iff.1 he with ⟨a', h1, h2⟩ | ⟨c', h1, h2⟩
    · -- a variable
      obtain ⟨x, hx, hxd⟩ := List.mem_map.1 (show .decl d ∈ O.map CPiece.decl by rw [h2]; simp)
      cases hxd
      obtain ⟨h3, _⟩ := ho d hx
      obtain ⟨b, e, hbe⟩ := List.append_of_mem (mem_declsOf.1 h3)
      have := h.known b d e hbe t ht
      refine this.mono ?_
      intro q hq
      rw [h1, hbe]
      simp [hq]
    · cases c' with
      | nil =>
        rw [List.nil_append] at h2
        rw [List.append_nil] at h1
        obtain ⟨x, hx, hxd⟩ := List.mem_map.1 (show .decl d ∈ O.map CPiece.decl by rw [← h2]; simp)
        cases hxd
        obtain ⟨h3, _⟩ := ho d hx
        obtain ⟨b, e, hbe⟩ := List.append_of_mem (mem_declsOf.1 h3)
        have := h.known b d e hbe t ht
        refine this.mono ?_
        intro q hq
        rw [← h1, hbe]
        simp [hq]
      | cons y c' =>
        rw [List.cons_append] at h2
        cases h2
        exact h.known a d c' h1 t ht
  · rw [hdecls]
    refine ⟨List.pairwise_append.2 ⟨h.clash.1, ?_, hco⟩, fun d hd => h.clash.2 d (hmem d hd)⟩
    have : ∀ a ∈ O, ∀ b ∈ O, Coexist a b := fun a ha b hb => hco a (ho a ha).1 b hb
    exact List.pairwise_iff_forall_sublist.2 fun {a b} hs =>
      this a (hs.subset (by simp)) b (hs.subset (by simp))
  · rw [hdecls]
    intro d hd f hf
    obtain ⟨h1, h2⟩ := h.limits d (hmem d hd) f hf
    exact ⟨h1, fun w hw => ⟨(h2 w hw).1, hasBits_mono (fun d hd => List.mem_append_left _ hd) (h2 w hw).2⟩⟩
  · rw [hdecls]
    exact fun d hd => h.filled d (hmem d hd)
  · rw [hdecls]
    intro hs d hd
    refine h.std ?_ d (hmem d hd)
    rcases List.mem_append.1 hs with hs | hs
    · exact hs
    · obtain ⟨_, _, hx⟩ := List.mem_map.1 hs
      cases hx
  · rw [hdecls]
    exact fun d hd => h.symbols d (hmem d hd)

theorem toLower_inj {c d : Char} (hc : reUpper c = true) (hd : reUpper d = true) (h : c.toLower = d.toLower) : c = d := by
  have hall : ∀ n < 128, ∀ k < 128, reUpper (Char.ofNat n) = true → reUpper (Char.ofNat k) = true →
      (Char.ofNat n).toLower = (Char.ofNat k).toLower → n = k := by decide +kernel
  have small : ∀ {c : Char}, reUpper c = true → c.toNat < 128 := by
    intro c h
    simp only [reUpper, Bool.and_eq_true, decide_eq_true_eq] at h
    have : c.toNat ≤ 'Z'.toNat := h.2
    have h90 : 'Z'.toNat = 90 := by decide
    omega
  have := hall c.toNat (small hc) d.toNat (small hd)
  rw [Char.ofNat_toNat, Char.ofNat_toNat] at this
  have := this hc hd h
  rw [← Char.ofNat_toNat c, this, Char.ofNat_toNat]

theorem variable_inj {n n' : String} (hn : isNameCapital n = true) (hn' : isNameCapital n' = true)
    (h : lowerFirst (ident n) = lowerFirst (ident n')) : n = n' := by
  obtain ⟨c, r, h1, h2⟩ := ident_capital_head hn
  obtain ⟨c', r', h1', h2'⟩ := ident_capital_head hn'
  refine ident_inj (.inr hn) (.inr hn') ?_
  rw [h1, h1'] at h ⊢
  simp only [lowerFirst, List.cons.injEq] at h
  rw [toLower_inj h2 h2' h.1, h.2]

theorem clausesOf_name {d : Def} {x : String × String × Comps} (h : x ∈ clausesOf d) : x.1 = d.name := by
  cases d with
  | seq n c ms =>
    simp only [clausesOf, List.mem_filterMap, Option.map_eq_some_iff] at h
    obtain ⟨_, _, _, _, rfl⟩ := h
    rfl
  | _ => cases h

/-- No variable is defined twice exactly if no sequence has two clauses. -/
theorem variables_nodup {l : List Def} (hn : (l.map Def.name).Nodup) (hc : ∀ d ∈ l, isNameCapital d.name = true) :
    ((l.flatMap clausesOf).map fun x => lowerFirst (ident x.1)).Nodup ↔ ∀ d ∈ l, (clausesOf d).length ≤ 1 := by
  induction l with
  | nil => simp
  | cons d l ih =>
    rw [List.map_cons, List.nodup_cons] at hn
    have ih := ih hn.2 fun d hd => hc d (by simp [hd])
    rw [List.flatMap_cons, List.map_append, List.nodup_append, ih]
    have h1 : ((clausesOf d).map fun x => lowerFirst (ident x.1)).Nodup ↔ (clausesOf d).length ≤ 1 := by
      have : ∀ x ∈ clausesOf d, x.1 = d.name := fun x hx => clausesOf_name hx
      generalize clausesOf d = q at this
      cases q with
      | nil => simp
      | cons a q =>
        cases q with
        | nil => simp
        | cons b q =>
          have ha := this a (by simp)
          have hb := this b (by simp)
          simp [ha, hb]
    rw [h1]
    constructor
    · rintro ⟨h2, h3, _⟩ e he
      rcases List.mem_cons.1 he with rfl | he
      · exact h2
      · exact h3 e he
    · intro h
      refine ⟨h d (by simp), fun e he => h e (by simp [he]), ?_⟩
      intro a ha b hb hab
      obtain ⟨x, hx, rfl⟩ := List.mem_map.1 ha
      obtain ⟨y, hy, rfl⟩ := List.mem_map.1 hb
      obtain ⟨e, he, hye⟩ := List.mem_flatMap.1 hy
      rw [clausesOf_name hx, clausesOf_name hye] at hab
      have := variable_inj (hc d (by simp)) (hc e (by simp [he])) hab
      exact hn.1 (this ▸ List.mem_map.2 ⟨e, he, rfl⟩)

end Apg
