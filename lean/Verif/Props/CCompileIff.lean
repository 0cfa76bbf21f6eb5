import Verif.Props.CCompile
import Verif.Props.SizeOf
import Verif.Lemmas.CSourceFits

/-!
# C64: exactly which headers compile
-/

namespace Apg
open Spec

/-- The type of an alternative that uses a name. -/
theorem unionType_uses {t : AType} {n : String} (h : UsesName t n) (hs : ∀ s len, t ≠ .str s len)
    (ha : ∀ e len, t = .arr e len → ∃ k, e = .plain k none none) : unionType t = ident n := by
  cases h with
  | plain => rfl
  | str => exact absurd rfl (hs _ _)
  | arr h =>
    obtain ⟨k, rfl⟩ := ha _ _ rfl
    cases h
    rfl

/-- A name that is no name of a definition. -/
theorem builtin_ident {s n : String} (hs : isNameCapital s = false) (hu : '_' ∉ s.toList) (hn : isNameCapital n = true) :
    ident s ≠ ident n := by
  intro he
  have := String.toList_inj.1 (map_dash_inj hu (underscore_not_mem (.inr hn)) he)
  rw [this, hn] at hs
  cases hs

/-- The C type of a member whose type uses a name. -/
theorem fieldType_uses {ds : List Def} {t : AType} {ct sfx : Text} (h : FieldType ds t ct sfx) (hg : GrammarType t)
    {n : String} (hn : isNameCapital n = true) (hu : UsesName t n) :
    (∃ sfx, NamedC ds n ct sfx) ∨ ∃ c its, Def.enum n c its ∈ ds := by
  cases h with
  | scalar h =>
    cases h <;> · cases hu; exact absurd hn (by decide +kernel)
  | bool => cases hu; exact absurd hn (by decide +kernel)
  | chars => cases hu; cases hg <;> exact absurd hn (by decide +kernel)
  | named h => cases hu; exact .inl ⟨_, h⟩
  | enum h => cases hu; exact .inr ⟨_, _, h⟩
  | array h => cases hu with | arr hu => cases hu; exact .inl ⟨_, h⟩
  | arrayEnum h => cases hu with | arr hu => cases hu; exact .inr ⟨_, _, h⟩

/-- A definition named like a type of stdint.h has bounds. -/
theorem posix_bounds {raw : List Module} {b : Bundle} (hg : ∀ m ∈ raw, GrammarModule m) (h : buildFromTexts raw = .ok b)
    {n : String} {c : Option Comment} {t : AType} (hd : Def.simple n c t ∈ b.defs) {ct : Text} (hp : Posix n ct) :
    t.lo ≠ none := by
  obtain ⟨lo, hi, w, hs⟩ : ∃ lo hi w, StandardInt n lo hi w := by
    cases hp
    · exact ⟨_, _, _, .i8⟩
    · exact ⟨_, _, _, .i16⟩
    · exact ⟨_, _, _, .i32⟩
    · exact ⟨_, _, _, .i64⟩
    · exact ⟨_, _, _, .u8⟩
    · exact ⟨_, _, _, .u16⟩
    · exact ⟨_, _, _, .u32⟩
    · exact ⟨_, _, _, .u64⟩
  obtain ⟨⟨x, _, h1, _⟩, _⟩ := C04_standard_int_partial raw b hg h n c t (by rw [defsOf_eq]; exact hd) lo hi w hs
  rw [h1]
  simp

/-- The definitions are compilable if the headers compile. -/
theorem compilable_of {cmd : Command} {fuel : Nat} {raw : List Module} {cfg : List String} {out : Text}
    {b : Bundle} {fs : Files} (hin : Input raw cfg b) (hr : (cmd.run fuel raw cfg out).result = .ok ())
    (hreg : Regular b.defs) (ht : ∀ m ∈ b.modules, Tame m)
    (hinc : ∀ m ∈ b.modules, ∀ i ∈ m.imports, cmd.included i.module = cmd.header i.module)
    (henum : ∀ k ∈ b.defs.flatMap enumerators, ¬ StdName (ident k))
    (hvars : ∀ d ∈ b.defs, HasObject cmd d → ¬ StdName (lowerFirst (ident d.name))) {n : Nat} {unit : List CPiece}
    {syms : List Text}
    (hpre : preprocess ((cmd.run fuel raw cfg out).apply fs) out n [] (includesOf cmd b.modules) = some (unit, syms))
    (hc : Compiles unit syms) : Compilable cmd b.defs := by
  have hb := hin.accepted
  have hbt := buildFromTexts_of_config hb
  have hcap := accepted_capital hin.grammar hbt
  have hnames := accepted_moduleNames hb
  have hgr := accepted_grammar hin.grammar hbt
  have hnd := accepted_nodup hbt
  obtain ⟨X, n', u, V, hX, hn', hadd, hprov⟩ := unit_parts cmd fuel raw cfg out b fs hin hr hreg ht hinc b.modules
    (fun _ h => h)
  obtain ⟨rfl, rfl⟩ := Pre.unique ⟨n, hpre⟩ ⟨n', hn'⟩
  generalize hD : (fun m => ownDecls cmd (X m)) = D at hadd
  have hDm : ∀ m, D m = ownDecls cmd (X m) := fun m => by rw [← hD]
  have hmod : b.modules.Nodup := (List.Pairwise.of_map (·.name) (fun _ _ h h' => h (by rw [h'])) hnames)
  have hVn : V.Nodup := by simpa using hadd.nodup
  have hV : V.Perm b.modules := (List.perm_ext_iff_of_nodup hVn hmod).2 fun m =>
    ⟨hadd.sub m, fun hm => (hprov m hm).2⟩
  have hperm : (declsOf unit).Perm (b.modules.map D).flatten := by
    have := hadd.perm.trans (hV.flatMap_right D)
    rwa [List.flatMap_def] at this
  have hall : HeaderDecls cmd ((cmd.run fuel raw cfg out).apply fs) out b.modules (b.modules.map D) := by
    refine all2_map_self fun m hm => ?_
    obtain ⟨_, _, t, h1, _, h2⟩ := hX m hm
    exact ⟨t, _, h1, by rw [hDm]; exact readHeader_of h2⟩
  -- the declaration of a definition
  have hdecl : ∀ d ∈ b.defs, d.isSimple = false → ∃ x ∈ declsOf unit, ∃ std, DeclOf (Typed b.defs std) d x := by
    intro d hd hs
    obtain ⟨m, hm, hdm⟩ := List.mem_flatMap.1 hd
    obtain ⟨_, hp, _, _, hdecls, _⟩ := hX m hm
    obtain ⟨x, hx, hdx⟩ := all2_mem_left hdecls (List.mem_filter.2 ⟨hp.mem_iff.2 hdm, by simp [hs]⟩)
    exact ⟨x, mem_declsOf.2 ((hprov m hm).1 x (List.mem_append_left _ hx)), _, hdx⟩
  have hfrom : ∀ x ∈ declsOf unit, (∃ d ∈ b.defs, ∃ std, DeclOf (Typed b.defs std) d x) ∨ ∃ t n, x = .object t n := by
    intro x hx
    obtain ⟨m, hm, hxm⟩ := List.mem_flatMap.1 (hadd.perm.mem_iff.1 hx)
    rw [hDm] at hxm
    have hm := hadd.sub m hm
    obtain ⟨_, hp, _, _, hdecls, _⟩ := hX m hm
    rcases List.mem_append.1 hxm with h | h
    · obtain ⟨d, hd, hdx⟩ := all2_mem_right hdecls h
      exact .inl ⟨d, mem_defs_of_module hm (hp.mem_iff.1 (List.mem_filter.1 hd).1), _, hdx⟩
    · obtain ⟨e, _, _, _, rfl⟩ := objectsOf_form h
      exact .inr ⟨_, _, rfl⟩
  -- the types that are known
  have hknow : ∀ x ∈ declsOf unit, ∀ w, [w] ∈ x.types → Keyword w ∨ StdIntType w ∨
      ∃ d ∈ b.defs, w = ident d.name ∧ ((∃ n c ms, d = .seq n c ms) ∨ ∃ n c its, d = .enum n c its) := by
    intro x hx w hw
    obtain ⟨a, r, he⟩ := List.append_of_mem (mem_declsOf.1 hx)
    have hk := hc.known a x r he [w] hw
    have hsub : ∀ y, .decl y ∈ a → y ∈ declsOf unit := fun y hy => mem_declsOf.2 (by rw [he]; simp [hy])
    cases hk with
    | keyword h => exact .inl h
    | stdint _ h => exact .inr (.inl h)
    | @struct _ fs' h =>
      rcases hfrom _ (hsub _ h) with ⟨d, hd, std, hdx⟩ | ⟨_, _, hdx⟩
      · cases d with
        | seq n c ms =>
          obtain ⟨_, e, _⟩ := hdx
          rw [CDecl.struct.injEq] at e
          exact .inr (.inr ⟨_, hd, e.1, .inl ⟨_, _, _, rfl⟩⟩)
        | enum => cases hdx
        | choice => cases hdx
        | simple => cases hdx
      · cases hdx
    | @enum _ is h =>
      rcases hfrom _ (hsub _ h) with ⟨d, hd, std, hdx⟩ | ⟨_, _, hdx⟩
      · cases d with
        | seq n c ms => obtain ⟨_, e, _⟩ := hdx; cases e
        | enum =>
          have e : CDecl.enum _ _ = .enum _ _ := hdx
          rw [CDecl.enum.injEq] at e
          exact .inr (.inr ⟨_, hd, e.1, .inr ⟨_, _, _, rfl⟩⟩)
        | choice => cases hdx
        | simple => cases hdx
      · cases hdx
  have hkey : ∀ {w : Text}, Keyword w → ∀ {n : String}, isNameCapital n = true → w ≠ ident n := by
    intro w h n hn
    cases h <;> exact not_capital (by decide +kernel) hn
  have hsti : ∀ {w : Text}, StdIntType w → ∀ {n : String}, isNameCapital n = true → w ≠ ident n := by
    rintro w ⟨_, h⟩ n hn
    cases h <;> exact not_capital (by decide +kernel) hn
  -- a type that is the name of a definition
  have hname : ∀ x ∈ declsOf unit, ∀ d ∈ b.defs, [ident d.name] ∈ x.types →
      (∃ n c ms, d = .seq n c ms) ∨ ∃ n c its, d = .enum n c its := by
    intro x hx d hd hw
    rcases hknow x hx _ hw with h | h | ⟨d', hd', e, hk⟩
    · exact absurd rfl (hkey h (hcap d hd))
    · exact absurd rfl (hsti h (hcap d hd))
    · have : d = d' := mem_unique_of_nodup_map hnd hd hd' (ident_inj (.inr (hcap d hd)) (.inr (hcap d' hd')) e)
      subst this
      exact hk
  -- the alternatives of a CHOICE
  have halt : ∀ n c ms, Def.choice n c ms ∈ b.defs → ∀ k ∈ ms, ∃ x ∈ declsOf unit, [unionType k.type] ∈ x.types := by
    intro n c ms hd k hk
    obtain ⟨x, hx, std, hdx⟩ := hdecl _ hd rfl
    cases hdx
    exact ⟨_, hx, List.mem_map.2 ⟨_, List.mem_map.2 ⟨k, hk, rfl⟩, rfl⟩⟩
  -- the members of a SEQUENCE
  have hfield : ∀ n c ms, Def.seq n c ms ∈ b.defs → ∀ k ∈ ms, ∃ x ∈ declsOf unit, ∃ ct sfx,
      FieldType b.defs k.type ct sfx ∧ [ct] ∈ x.types := by
    intro n c ms hd k hk
    obtain ⟨x, hx, std, fs', rfl, hf⟩ := hdecl _ hd rfl
    obtain ⟨f, hf1, _, _, ct, sfx, hT, hty, _⟩ := all2_mem_left hf hk
    exact ⟨_, hx, ct, sfx, hT.1, List.mem_map.2 ⟨f, hf1, hty⟩⟩
  have harr : ∀ d ∈ b.defs, ∀ k ∈ d.members, ∀ e len, k.type = .arr e len → ∃ n, e = .plain n none none := by
    intro d hd k hk e len h
    obtain ⟨n, h, _⟩ := hreg.array d hd k hk e len h
    exact ⟨n, h⟩
  have hgt : ∀ d ∈ b.defs, ∀ k ∈ d.members, GrammarType k.type := by
    intro d hd k hk
    cases d with
    | seq => exact ((hgr _ hd).1.2.2 k hk).2.1
    | choice => exact ((hgr _ hd).1.2.2 k hk).2.1
    | enum => cases hk
    | simple => cases hk
  have heq : ∀ {d d' : Def}, d ∈ b.defs → d' ∈ b.defs → d.name = d'.name → d = d' := fun h h' e =>
    mem_unique_of_nodup_map hnd h h' e
  have huse : ∀ d ∈ b.defs, ∀ k ∈ d.members, ∀ n, isNameCapital n = true → UsesName k.type n → unionType k.type = ident n := by
    intro d hd k hk n hn hu
    refine unionType_uses hu ?_ (harr d hd k hk)
    intro s len he
    have hg := hgt d hd k hk
    rw [he] at hu hg
    cases hu
    cases hg <;> exact absurd hn (by decide +kernel)
  have hclash : DistinctIdents cmd b.defs := by
    obtain ⟨dss, h1, h2⟩ := C61_no_clash_iff_partial cmd fuel raw cfg out b fs hin hr hreg ht
    rw [headerDecls_unique h1 hall] at h2
    exact h2.1 ((noClash_perm hperm).1 hc.clash)
  refine ⟨hclash, ⟨?_, ?_⟩, ?_, ?_, ?_, henum, hvars⟩
  · -- no CHOICE as a type
    intro n c ms hch d hd k hk hu
    have hn : isNameCapital n = true := hcap _ hch
    cases d with
    | seq n' c' ms' =>
      obtain ⟨x, hx, ct, sfx, hT, hty⟩ := hfield _ _ _ hd k hk
      rcases fieldType_uses hT (hgt _ hd k hk) hn hu with ⟨_, h⟩ | ⟨_, _, h⟩
      · cases h with
        | posix h _ => cases heq hch h rfl
        | struct h => cases heq hch h rfl
        | union h => rcases hname x hx _ hch hty with ⟨_, _, _, h⟩ | ⟨_, _, _, h⟩ <;> cases h
        | alias h _ _ => cases heq hch h rfl
        | aliasBool h => cases heq hch h rfl
        | aliasFloat h => cases heq hch h rfl
        | aliasDouble h => cases heq hch h rfl
      · cases heq hch h rfl
    | choice n' c' ms' =>
      obtain ⟨x, hx, hw⟩ := halt _ _ _ hd k hk
      rw [huse _ hd k hk n hn hu] at hw
      rcases hname x hx _ hch hw with ⟨_, _, _, h⟩ | ⟨_, _, _, h⟩ <;> cases h
    | enum => cases hk
    | simple => cases hk
  · -- no alias of BOOLEAN
    intro n c hch d hd k hk hu
    have hn : isNameCapital n = true := hcap _ hch
    cases d with
    | seq n' c' ms' =>
      obtain ⟨x, hx, ct, sfx, hT, hty⟩ := hfield _ _ _ hd k hk
      rcases fieldType_uses hT (hgt _ hd k hk) hn hu with ⟨_, h⟩ | ⟨_, _, h⟩
      · cases h with
        | posix _ h => exact posix_bounds hin.grammar hbt hch h rfl
        | struct h => cases heq hch h rfl
        | union h => cases heq hch h rfl
        | alias h _ hs =>
          have h := heq hch h rfl
          rw [Def.simple.injEq] at h
          rw [← h.2.2] at hs
          generalize ht : AType.plain "BOOLEAN" none none = t at hs
          cases hs <;> simp [intType, realType] at ht
        | aliasBool h =>
          rcases hknow x hx _ hty with h | ⟨_, h⟩ | ⟨d', hd', e, _⟩
          · generalize hb : "bool".toList = t at h
            cases h <;> exact absurd hb (by decide +kernel)
          · generalize hb : "bool".toList = t at h
            cases h <;> exact absurd hb (by decide +kernel)
          · exact not_capital (by decide +kernel) (hcap d' hd') e
        | aliasFloat h =>
          have h := heq hch h rfl
          simp at h
        | aliasDouble h =>
          have h := heq hch h rfl
          simp at h
      · cases heq hch h rfl
    | choice n' c' ms' =>
      obtain ⟨x, hx, hw⟩ := halt _ _ _ hd k hk
      rw [huse _ hd k hk n hn hu] at hw
      rcases hname x hx _ hch hw with ⟨_, _, _, h⟩ | ⟨_, _, _, h⟩ <;> cases h
    | enum => cases hk
    | simple => cases hk
  · -- alternatives
    intro n c ms hd k hk
    obtain ⟨x, hx, hw⟩ := halt n c ms hd k hk
    have hg := hgt _ hd k hk
    have hbuilt : ∀ s : String, isNameCapital s = false → '_' ∉ s.toList → ¬ Keyword (ident s) → ¬ StdIntType (ident s) →
        [ident s] ∉ x.types := by
      intro s h1 h2 h3 h4 h
      rcases hknow x hx _ h with h | h | ⟨d', hd', e, _⟩
      · exact h3 h
      · exact h4 h
      · exact builtin_ident h1 h2 (hcap d' hd') e
    have hnk : ∀ s ∈ ["REAL", "INTEGER", "NULL", "BOOLEAN"], [ident s] ∉ x.types := by
      intro s hs
      have hk1 : ¬ Keyword (ident s) := by
        intro h
        generalize hi : ident s = t at h
        revert hi
        cases h <;> revert s <;> decide +kernel
      have hk2 : ¬ StdIntType (ident s) := by
        rintro ⟨_, h⟩
        clear hk1
        generalize hi : ident s = t at h
        revert hi
        cases h <;> revert s <;> decide +kernel
      refine hbuilt s ?_ ?_ hk1 hk2 <;> clear hk1 hk2 <;> revert s <;> decide +kernel
    have hplain : ∀ s lo hi, GrammarType (.plain s lo hi) → [ident s] ∈ x.types → NamesBlock b.defs (.plain s lo hi) := by
      intro s lo hi hg hw
      cases hg with
      | named hn =>
        rcases hknow x hx _ hw with h | h | ⟨d', hd', e, hk⟩
        · exact absurd rfl (hkey h hn)
        · exact absurd rfl (hsti h hn)
        · have := ident_inj (.inr hn) (.inr (hcap d' hd')) e
          subst this
          refine ⟨d', hd', rfl, ?_⟩
          rcases hk with ⟨_, _, _, rfl⟩ | ⟨_, _, _, rfl⟩ <;> rfl
      | real => exact absurd hw (hnk _ (by simp))
      | realRange => exact absurd hw (hnk _ (by simp))
      | integer => exact absurd hw (hnk _ (by simp))
      | integerRange => exact absurd hw (hnk _ (by simp))
      | null => exact absurd hw (hnk _ (by simp))
      | boolean => exact absurd hw (hnk _ (by simp))
    cases hkt : k.type with
    | plain s lo hi =>
      rw [hkt] at hw hg
      exact .inl (hplain _ _ _ hg hw)
    | str s len => exact .inr (.inr ⟨_, _, rfl⟩)
    | arr e len =>
      obtain ⟨s, rfl⟩ := harr _ hd k hk e len hkt
      rw [hkt] at hw hg
      cases hg with
      | arr hg => exact .inr (.inl ⟨_, _, rfl, hplain _ _ _ hg hw⟩)
  · obtain ⟨dss, h1, h2⟩ := C63_limits_iff_partial cmd fuel raw cfg out b fs hin hr hreg ht
    rw [headerDecls_unique h1 hall] at h2
    refine h2.1 fun x hx f hf => ?_
    obtain ⟨q1, q2⟩ := hc.limits x (hperm.mem_iff.2 hx) f hf
    exact ⟨q1, fun w hw => ⟨(q2 w hw).1, hasBits_mono (fun d hd => hperm.mem_iff.1 hd) (q2 w hw).2⟩⟩
  · intro n c its hd i hi
    obtain ⟨x, hx, std, hdx⟩ := hdecl _ hd rfl
    cases hdx
    exact (hc.filled _ hx).2 (ident i.key, i.pos) (List.mem_map.2 ⟨i, hi, rfl⟩)

/-- **C64, partial.** A C file that includes the headers of a run compiles exactly if the definitions are compilable:
every condition is needed, apart from the one on the names of stdint.h, which is assumed. Missing: modules that are not
tame or regular, and the headers of generate-c and generate-binary with imports, whose include lines name no file. -/
theorem C64_compiles_iff_partial (cmd : Command) (fuel : Nat) (raw : List Module) (cfg : List String) (out : Text)
    (b : Bundle) (fs : Files) (hin : Input raw cfg b) (hr : (cmd.run fuel raw cfg out).result = .ok ())
    (hreg : Regular b.defs) (ht : ∀ m ∈ b.modules, Tame m)
    (hinc : ∀ m ∈ b.modules, ∀ i ∈ m.imports, cmd.included i.module = cmd.header i.module)
    (henum : ∀ k ∈ b.defs.flatMap enumerators, ¬ StdName (ident k))
    (hvars : ∀ d ∈ b.defs, HasObject cmd d → ¬ StdName (lowerFirst (ident d.name))) :
    (∃ n unit syms,
      preprocess ((cmd.run fuel raw cfg out).apply fs) out n [] (includesOf cmd b.modules) = some (unit, syms) ∧
      Compiles unit syms) ↔ Compilable cmd b.defs := by
  constructor
  · rintro ⟨n, unit, syms, h1, h2⟩
    exact compilable_of hin hr hreg ht hinc henum hvars h1 h2
  · intro hc
    obtain ⟨n, u, s, h1, h2, _⟩ := compiles_unit cmd fuel raw cfg out b fs hin hr hreg ht hc hinc b.modules fun _ h => h
    exact ⟨n, u, s, h1, h2⟩

/-- The hypotheses are met by two modules that compile. -/
example : ∃ n unit syms,
    preprocess (((Command.cfs exPrinter).run 20 [exUses, exUsed] ["a", "b"] exOut).apply fun _ => none) exOut n []
      (includesOf (.cfs exPrinter) (okBundle (buildFromConfig [exUses, exUsed] ["a", "b"])).modules) =
      some (unit, syms) ∧ Compiles unit syms := by
  have e : (okBundle (buildFromConfig [exUses, exUsed] ["a", "b"])).modules = [exUses, exUsed] := by decide +kernel
  have e' : (okBundle (buildFromConfig [exUses, exUsed] ["a", "b"])).defs = exUses.defs ++ exUsed.defs := by decide +kernel
  have hc := exUses_compilable
  rw [← e'] at hc
  exact (C64_compiles_iff_partial (.cfs exPrinter) 20 [exUses, exUsed] ["a", "b"] exOut _ (fun _ => none)
    (input_of (by decide +kernel) (by decide +kernel) (by decide +kernel)) (by decide +kernel)
    (regular_of (by decide +kernel) (by decide +kernel) (by decide +kernel))
    (by rw [e]; simpa using ⟨exUses_tame, exUsed_tame⟩) (fun _ _ _ _ => rfl) hc.enumerators hc.variables).2 hc

/-- And by a module that does not: two enumerations have an item of the same name. -/
example : ¬ ∃ n unit syms,
    preprocess (((Command.cfs exPrinter).run 20 [exOnOff] ["m"] exOut).apply fun _ => none) exOut n []
      (includesOf (.cfs exPrinter) (okBundle (buildFromConfig [exOnOff] ["m"])).modules) =
      some (unit, syms) ∧ Compiles unit syms := by
  have hk : ∀ k ∈ (okBundle (buildFromConfig [exOnOff] ["m"])).defs.flatMap enumerators,
      (ident k).getLast? ≠ some 't' := by decide +kernel
  have ho : ∀ d ∈ (okBundle (buildFromConfig [exOnOff] ["m"])).defs, (lowerFirst (ident d.name)).getLast? ≠ some 't' := by
    decide +kernel
  rw [C64_compiles_iff_partial (.cfs exPrinter) 20 [exOnOff] ["m"] exOut _ (fun _ => none)
    (input_of (by decide +kernel) (by decide +kernel) (by decide +kernel)) (by decide +kernel)
    (regular_of (by decide +kernel) (by decide +kernel) (by decide +kernel)) (single_tame (by decide +kernel) exOnOff_tame)
    (fun _ _ _ _ => rfl) (fun k h => not_stdName (hk k h)) (fun d h _ => not_stdName (ho d h))]
  rintro ⟨h, _⟩
  have := h.2.1
  revert this
  decide +kernel

end Apg
