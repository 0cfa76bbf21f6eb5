import Verif.Lemmas.FieldType

/-!
# Types of members for which the field has the wrong type
-/

namespace Apg
open Spec

theorem faithfulName_lower {ds : List Def} (hcap : ∀ d ∈ ds, isNameCapital d.name = true) {n : String}
    (hn : isNameCapital n = false) : RightName ds n := by
  have : ∀ d ∈ ds, d.name ≠ n := by
    rintro d hd rfl
    rw [hcap d hd] at hn
    cases hn
  exact ⟨fun d hd h => absurd h (this d hd), fun c t h => absurd rfl (this _ h)⟩

/-- A range with a field of the specified type is small. -/
theorem scalarC_small {t : AType} {ct sfx : List Char} (h : ScalarC t ct sfx) {f : Mapped} (hm : mapNumeric t = .ok f) :
    SmallRange t := by
  rintro b e rfl hb
  generalize ht : intType b e = t at h
  cases h with
  | @uint b' e' w ct sfx h1 h2 h3 =>
    simp only [intType, AType.plain.injEq, Option.some.injEq, Num.int.injEq, true_and] at ht
    obtain ⟨rfl, rfl⟩ := ht
    by_cases hbe : b ≤ e
    · obtain ⟨n, hn, hw, _⟩ := h3
      have hn64 : n ≤ 64 := by cases hn <;> decide
      have := (h2.1 e ⟨hbe, Int.le_refl _⟩).2
      have h64 : (2 : Int) ^ w ≤ 2 ^ 64 := by
        have := Nat.pow_le_pow_right (n := 2) (by decide) (show w ≤ 64 by omega)
        exact_mod_cast this
      omega
    · have : (intType b e).cType = none := by
        unfold AType.cType; rw [asn1Type_int]; simp [show e < b by omega]
      simp [mapNumeric, this] at hm
  | @sint b' e' h1 =>
    simp only [intType, AType.plain.injEq, Option.some.injEq, Num.int.injEq, true_and] at ht
    omega
  | single => simp [intType, realType] at ht
  | double => simp [intType, realType] at ht

/-- The name of the type in a field is not one of stdint.h. -/
theorem ident_not_posix {n : String} (hn : isNameCapital n = true) {m : String} (h : Posix m (ident n)) : False := by
  refine cName_not_posix hn ?_
  rw [cName_eq (Or.inr hn)]
  exact (posix_lower h).2.1

/-- A name whose field has the specified type is faithful. -/
theorem faithfulName_of {ds simple : List Def} (he : TypeEnv ds simple) {n : String} (hn : isNameCapital n = true)
    {bits : Text} {sb si : Bool} {f : Mapped} {sfx : List Char}
    (ho : (Posix n f.ctype ∧ f.bits = bits ∧ f.stdint = true) ∨
      ((∀ ct, ¬ Posix n ct) ∧ (∃ d ∈ ds, d.name = n ∧ d.isSimple = false) ∧ f = ⟨bits, cName n, sb, si⟩) ∨
      ((∀ ct, ¬ Posix n ct) ∧ ∃ c t m', Def.simple n c t ∈ ds ∧ mapNumeric t = .ok m' ∧
        f = ⟨m'.bits, m'.ctype, sb || m'.stdbool, si || m'.stdint⟩))
    (h : NamedC ds n f.ctype sfx ∨ (f.ctype = ident n ∧ ∃ c its, Def.enum n c its ∈ ds)) : RightName ds n := by
  have huniq : ∀ d ∈ ds, ∀ d' ∈ ds, d.name = n → d'.name = n → d = d' := fun d hd d' hd' h h' =>
    mem_unique_of_nodup_map he.nodup hd hd' (h.trans h'.symm)
  rcases ho with ⟨h1, _⟩ | ⟨h1, ⟨d, hd, hdn, hs⟩, _⟩ | ⟨h1, c, t, m', h2, h3, hfe⟩
  · refine ⟨fun d hd hdn _ => ?_, fun c t _ hn => absurd ⟨_, h1⟩ hn⟩
    have hsim : ∃ c t, Def.simple n c t ∈ ds := by
      rcases h with h | ⟨h, _⟩
      · generalize hc : f.ctype = ct at h h1
        cases h with
        | posix q => exact ⟨_, _, q⟩
        | struct => exact (ident_not_posix hn h1).elim
        | union => exact (ident_not_posix hn h1).elim
        | alias q => exact ⟨_, _, q⟩
        | aliasBool q => exact ⟨_, _, q⟩
        | aliasFloat q => exact ⟨_, _, q⟩
        | aliasDouble q => exact ⟨_, _, q⟩
      · rw [h] at h1
        exact (ident_not_posix hn h1).elim
    obtain ⟨c, t, q⟩ := hsim
    rw [huniq d hd _ q hdn rfl]
    rfl
  · refine ⟨fun _ _ _ ⟨ct, hc⟩ => absurd hc (h1 ct), fun c t hm _ => ?_⟩
    rw [huniq d hd _ hm hdn rfl] at hs
    cases hs
  · refine ⟨fun _ _ _ ⟨ct, hc⟩ => absurd hc (h1 ct), fun c' t' hm _ => ?_⟩
    have := huniq _ hm _ h2 rfl rfl
    cases this
    rcases h with h | ⟨_, _, _, h⟩
    · generalize hc : f.ctype = ct at h
      have hsame : ∀ {c'' t''}, Def.simple n c'' t'' ∈ ds → t = t'' := by
        intro c'' t'' q
        have := huniq _ q _ h2 rfl rfl
        cases this
        rfl
      have hplain : ∀ x, t = .plain x none none → (∀ e len, t ≠ .arr e len) ∧ ¬ WideRange t := by
        rintro x rfl
        exact ⟨by simp, by rintro ⟨b, e, hh, _⟩; simp [intType] at hh⟩
      cases h with
      | posix q1 q2 => exact absurd q2 (h1 _)
      | struct q => exact absurd (huniq _ q _ h2 rfl rfl) (by simp)
      | union q => exact absurd (huniq _ q _ h2 rfl rfl) (by simp)
      | alias q1 q2 q3 =>
        rw [← hsame q1] at q3
        refine ⟨?_, smallRange_iff.1 (scalarC_small q3 h3)⟩
        rintro e len rfl
        generalize hx : AType.arr e len = x at q3
        cases q3 <;> simp [intType, realType] at hx
      | aliasBool q => exact hplain _ (hsame q)
      | aliasFloat q => exact hplain _ (hsame q)
      | aliasDouble q => exact hplain _ (hsame q)
    · exact absurd (huniq _ h _ h2 rfl rfl) (by simp)

/-- The fields with the specified type are those of faithful types. -/
theorem fieldType_faithful {ds simple : List Def} (he : TypeEnv ds simple) {t : AType} (hg : GrammarType t)
    (hv : Visible ds simple t) {f : Mapped} (h : fieldType ds simple t = .ok f)
    (hT : FieldType ds t f.ctype f.bits) : RightType ds t := by
  have hbi : ∀ m, isNameCapital m = false → ∀ lo hi, (∀ b e : Int, AType.plain m lo hi ≠ intType b e) →
      RightType ds (.plain m lo hi) := by
    intro m hm lo hi hne
    refine ⟨?_, faithfulName_lower he.cap hm⟩
    rintro ⟨b, e, hh, _⟩
    exact hne b e hh
  cases hg with
  | real => exact hbi _ (by decide +kernel) _ _ (by simp [intType])
  | realRange => exact hbi _ (by decide +kernel) _ _ (by simp [intType])
  | integer => exact hbi _ (by decide +kernel) _ _ (by simp [intType])
  | null => exact hbi _ (by decide +kernel) _ _ (by simp [intType])
  | boolean => exact hbi _ (by decide +kernel) _ _ (by simp [intType])
  | ia5 => trivial
  | numeric => trivial
  | @integerRange b e =>
    refine ⟨?_, faithfulName_lower he.cap (by decide +kernel)⟩
    have hm : mapMember ds (.plain "INTEGER" (some (.int b)) (some (.int e))) = mapNumeric (intType b e) := by
      have : cName "INTEGER" = "INTEGER".toList := by decide +kernel
      simp [mapMember, AType.name, this, intType]
    unfold fieldType at h
    rw [hm] at h
    simp only [bind_ok] at h
    obtain ⟨m, hm, _⟩ := h
    refine smallRange_iff.1 ?_
    generalize hx : AType.plain "INTEGER" (some (.int b)) (some (.int e)) = x at hT
    generalize f.ctype = ct at hT
    generalize f.bits = bits at hT
    cases hT with
    | scalar hs =>
      subst hx
      exact scalarC_small hs hm
    | bool => simp at hx
    | chars => simp at hx
    | named => simp at hx
    | enum => simp at hx
    | array => simp at hx
    | arrayEnum => simp at hx
  | @named n hn =>
    refine ⟨by rintro ⟨b, e, hh, _⟩; simp [intType] at hh, ?_⟩
    obtain ⟨b1, b2, b3⟩ := cName_not_builtin hn
    obtain ⟨d, hd, hdn⟩ := (hv n rfl hn).1
    have hl : lastDef ds n = some d := by rw [← hdn]; exact lastDef_of_mem he.nodup hd
    have hN : ∃ sfx, NamedC ds n f.ctype sfx ∨ (f.ctype = ident n ∧ ∃ c its, Def.enum n c its ∈ ds) := by
      generalize hx : AType.plain n none none = x at hT
      generalize f.ctype = ct at hT
      generalize f.bits = bits at hT
      cases hT with
      | scalar hs => cases hs <;> simp [intType, realType] at hx
      | bool =>
        simp only [AType.plain.injEq, and_true] at hx
        subst hx
        exact absurd hn (by decide +kernel)
      | chars => simp at hx
      | named q =>
        simp only [AType.plain.injEq, and_true] at hx
        subst hx
        exact ⟨_, .inl q⟩
      | enum q =>
        simp only [AType.plain.injEq, and_true] at hx
        subst hx
        exact ⟨[], .inr ⟨rfl, _, _, q⟩⟩
      | array => simp at hx
      | arrayEnum => simp at hx
    obtain ⟨sfx, hN⟩ := hN
    unfold fieldType mapMember at h
    simp only [AType.name, b1, b2, b3, or_self, if_false, resolveType] at h
    rw [hl] at h
    cases d with
    | enum n' c its =>
      simp only [bind_ok] at h
      obtain ⟨m, ⟨size, hsize, hm⟩, h⟩ := h
      cases hm
      exact faithfulName_of he hn (fieldType_tail he hn (hv n rfl hn) h) hN
    | seq => exact faithfulName_of he hn (fieldType_tail he hn (hv n rfl hn) h) hN
    | choice => exact faithfulName_of he hn (fieldType_tail he hn (hv n rfl hn) h) hN
    | simple => exact faithfulName_of he hn (fieldType_tail he hn (hv n rfl hn) h) hN
  | @arr e len _ =>
    have hN : ∃ n sfx, e = .plain n none none ∧ f.bits = [] ∧ (∃ d ∈ ds, d.name = n) ∧
        (NamedC ds n f.ctype sfx ∨ (f.ctype = ident n ∧ ∃ c its, Def.enum n c its ∈ ds)) := by
      generalize hx : AType.arr e len = x at hT
      generalize f.ctype = ct at hT
      generalize f.bits = bits at hT
      cases hT with
      | scalar hs => cases hs <;> simp [intType, realType] at hx
      | bool => simp at hx
      | chars => simp at hx
      | named => simp at hx
      | enum => simp at hx
      | @array n ct sfx len' q =>
        simp only [AType.arr.injEq] at hx
        refine ⟨n, sfx, hx.1, rfl, ?_, .inl q⟩
        cases q with
        | posix q => exact ⟨_, q, rfl⟩
        | struct q => exact ⟨_, q, rfl⟩
        | union q => exact ⟨_, q, rfl⟩
        | alias q => exact ⟨_, q, rfl⟩
        | aliasBool q => exact ⟨_, q, rfl⟩
        | aliasFloat q => exact ⟨_, q, rfl⟩
        | aliasDouble q => exact ⟨_, q, rfl⟩
      | arrayEnum q =>
        simp only [AType.arr.injEq] at hx
        exact ⟨_, [], hx.1, rfl, ⟨_, q, rfl⟩, .inr ⟨rfl, _, _, q⟩⟩
    obtain ⟨n, sfx, rfl, hbits, ⟨d, hd, rfl⟩, hN⟩ := hN
    have hn := he.cap d hd
    obtain ⟨b1, b2, b3⟩ := cName_not_builtin hn
    unfold fieldType mapMember at h
    simp only [AType.name, b1, b2, b3, or_self, if_false, resolveType] at h
    have ho := fieldType_tail he hn (hv _ rfl hn) h
    have hF := faithfulName_of he hn ho hN
    refine ⟨⟨d, hd, rfl⟩, hF, ?_⟩
    rintro c t hm hp b e rfl hb
    rcases ho with ⟨h1, _⟩ | ⟨_, ⟨d', hd', hdn, hs⟩, _⟩ | ⟨h1, c', t', m', h2, h3, rfl⟩
    · exact absurd ⟨_, h1⟩ hp
    · rw [mem_unique_of_nodup_map he.nodup hd' hm hdn] at hs
      cases hs
    · have := mem_unique_of_nodup_map he.nodup hm h2 rfl
      cases this
      obtain ⟨g1, g2⟩ := hF.2 _ _ hm hp
      simp only at hbits
      rcases mapNumeric_sound (he.grammar _ _ _ hm) (smallRange_iff.2 g2) g1 h3 with ⟨k1, _⟩ | ⟨k1, _⟩ | ⟨k1, _⟩ | ⟨k1, _⟩
      · rw [hbits] at k1
        generalize ht : intType b e = x at k1
        generalize m'.ctype = ct at k1
        generalize hs0 : ([] : List Char) = s0 at k1
        cases k1 with
        | @uint b' e' w ct sfx h1 h2 h3 =>
          simp only [intType, AType.plain.injEq, Option.some.injEq, Num.int.injEq, true_and] at ht
          obtain ⟨rfl, rfl⟩ := ht
          obtain ⟨n, _, _, _, ⟨⟨ct', h4⟩, _⟩ | ⟨_, y, h4, _⟩⟩ := h3
          · exact ⟨w, ct', h4, h2⟩
          · subst hs0
            cases h4
        | sint h1 =>
          simp only [intType, AType.plain.injEq, Option.some.injEq, Num.int.injEq, true_and] at ht
          omega
        | single => simp [intType, realType] at ht
        | double => simp [intType, realType] at ht
      · simp [intType] at k1
      · simp [intType] at k1
      · simp [intType] at k1

end Apg
