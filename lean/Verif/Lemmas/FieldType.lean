import Verif.Lemmas.CMap
import Verif.Lemmas.Bundle

namespace Apg
open Spec

/-- The unsigned ranges that fit in 64 bits. -/
def SmallRange (t : AType) : Prop := ∀ b e : Int, t = intType b e → 0 ≤ b → e < 2 ^ 64

theorem capital_head {n : String} (h : isNameCapital n = true) :
    ∃ c r, n.toList = c :: r ∧ cName n = c :: r.map (fun c => if c = '-' then '_' else c) ∧
      reUpper c = true := by
  have hn := cName_eq (Or.inr h : GrammarName n)
  unfold isNameCapital at h
  split at h
  · rename_i c cs hs
    simp only [Bool.and_eq_true] at h
    have hne : c ≠ '-' := by rintro rfl; exact absurd h.1 (by decide)
    exact ⟨c, _, hs, by rw [hn]; simp [ident, hs, hne], h.1⟩
  · cases h

theorem find_simple_none {simple : List Def} (hcap : ∀ d ∈ simple, isNameCapital d.name = true)
    {ct : Text} (hct : ∀ c ∈ ct.head?, reUpper c = false) :
    simple.find? (fun d => d.isSimple && cName d.name == ct) = none := by
  rw [List.find?_eq_none]
  intro d hd
  simp only [Bool.and_eq_true, beq_iff_eq, not_and]
  intro _ he
  obtain ⟨c, r, _, hc, hu⟩ := capital_head (hcap d hd)
  rw [hc] at he
  have := hct c (by rw [← he]; simp)
  rw [this] at hu
  cases hu

theorem find_simple_named {simple : List Def} (hcap : ∀ d ∈ simple, isNameCapital d.name = true)
    {n : String} (hn : isNameCapital n = true) {d : Def} :
    simple.find? (fun d => d.isSimple && cName d.name == cName n) = some d →
      d ∈ simple ∧ d.isSimple = true ∧ d.name = n := by
  intro h
  have h1 := List.mem_of_find?_eq_some h
  have h2 := List.find?_some h
  simp only [Bool.and_eq_true, beq_iff_eq] at h2
  exact ⟨h1, h2.1, cName_inj (Or.inr (hcap d h1)) (Or.inr hn) h2.2⟩

theorem find_simple_named_none {simple : List Def} {n : String}
    (h : simple.find? (fun d => d.isSimple && cName d.name == cName n) = none) :
    ∀ d ∈ simple, d.isSimple = true → d.name ≠ n := by
  intro d hd hs hn
  have := List.find?_eq_none.1 h d hd
  simp [hs, hn] at this

theorem posixRange_capital {n : String} (h : (posixRange n).isSome) : isNameCapital n = true := by
  have hall : ∀ m ∈ ["Int8-t", "Int16-t", "Int32-t", "Int64-t", "Uint8-t", "Uint16-t", "Uint32-t",
      "Uint64-t", "Float", "Double"], isNameCapital m = true := by decide +kernel
  exact hall n (posixRange_some h)

theorem capital_ne {n m : String} (h : isNameCapital n = true) (hm : isNameCapital m = false) :
    n ≠ m := by rintro rfl; rw [h] at hm; cases hm

/-- `mapNumeric` on types the grammar builds. -/
theorem mapNumeric_sound {t : AType} (hg : GrammarType t) (hsm : SmallRange t)
    (ha : ∀ e len, t ≠ .arr e len) {f : Mapped} (h : mapNumeric t = .ok f) :
    (ScalarC t f.ctype f.bits ∧ (f.stdint = posixCTypes.contains f.ctype) ∧ f.ctype ≠ "bool".toList) ∨
    (t = .plain "BOOLEAN" none none ∧ f = ⟨[], "bool".toList, false, false⟩) ∨
    (t = .plain "Float" none none ∧ f = ⟨[], "float".toList, false, false⟩) ∨
    (t = .plain "Double" none none ∧ f = ⟨[], "double".toList, false, false⟩) := by
  cases hg with
  | real =>
    have : (AType.plain "REAL" none none).cType = none := by decide +kernel
    simp [mapNumeric, this] at h
  | integer =>
    have : (AType.plain "INTEGER" none none).cType = none := by decide +kernel
    simp [mapNumeric, this] at h
  | null =>
    have : (AType.plain "NULL" none none).cType = none := by decide +kernel
    simp [mapNumeric, this] at h
  | realRange =>
    rcases mapNumeric_real h with ⟨h1, rfl⟩ | ⟨h1, rfl⟩
    · exact Or.inl ⟨.single h1, by decide, by decide⟩
    · exact Or.inl ⟨.double h1, by decide, by decide⟩
  | @integerRange b e =>
    by_cases hb : 0 ≤ b
    · by_cases hbe : b ≤ e
      · by_cases he : e = 0
        · subst he
          rw [show AType.plain "INTEGER" (some (.int b)) (some (.int 0)) = intType b 0 from rfl,
            mapNumeric_uint hb hbe, if_pos (by decide)] at h
          cases h
        · obtain ⟨ct, h1, h2, h3, h4⟩ := mapNumeric_uint_ok hb hbe (by omega) (hsm b e rfl hb)
          rw [show AType.plain "INTEGER" (some (.int b)) (some (.int e)) = intType b e from rfl,
            h1] at h
          cases h
          refine Or.inl ⟨.uint hb h2 h3, h4.symm, ?_⟩
          intro hc
          simp only at hc
          rw [hc] at h4
          revert h4; decide
      · have : (intType b e).cType = none := by
          unfold AType.cType; rw [asn1Type_int]; simp [show e < b by omega]
        rw [show AType.plain "INTEGER" (some (.int b)) (some (.int e)) = intType b e from rfl] at h
        simp [mapNumeric, this] at h
    · have := mapNumeric_sint (by omega) h
      subst this
      exact Or.inl ⟨.sint (by omega), by decide, by decide⟩
  | boolean =>
    have : mapNumeric (.plain "BOOLEAN" none none) = .ok ⟨[], "bool".toList, false, false⟩ := by
      decide +kernel
    rw [this] at h
    cases h
    exact Or.inr (Or.inl ⟨rfl, rfl⟩)
  | ia5 =>
    rename_i len
    have : (AType.str "IA5String" len).cType = some .string := by
      have : posixRange "IA5String" = none := by decide
      simp [AType.cType, asn1Type, AType.lo, AType.hi, AType.name, classify, this]
    simp [mapNumeric, this, AType.hi, getBitSize, bind, Except.bind] at h
  | numeric =>
    rename_i len
    have : (AType.str "NumericString" len).cType = some .string := by
      have : posixRange "NumericString" = none := by decide
      simp [AType.cType, asn1Type, AType.lo, AType.hi, AType.name, classify, this]
    simp [mapNumeric, this, AType.hi, getBitSize, bind, Except.bind] at h
  | arr => exact absurd rfl (ha _ _)
  | @named n hn =>
    by_cases hp : (posixRange n).isSome
    · have hm := posixRange_some hp
      simp only [List.mem_cons, List.not_mem_nil, or_false] at hm
      rcases hm with rfl | rfl | rfl | rfl | rfl | rfl | rfl | rfl | rfl | rfl
      all_goals first
        | (exfalso; revert h
           rw [show mapNumeric _ = Except.error Err.assertion from by decide +kernel]; intro h; cases h)
        | (rw [show mapNumeric _ = Except.ok ⟨[], "float".toList, false, false⟩ from by decide +kernel] at h
           cases h; exact Or.inr (Or.inr (Or.inl ⟨rfl, rfl⟩)))
        | (rw [show mapNumeric _ = Except.ok ⟨[], "double".toList, false, false⟩ from by decide +kernel] at h
           cases h; exact Or.inr (Or.inr (Or.inr ⟨rfl, rfl⟩)))
    · have hb : n ≠ "BOOLEAN" := capital_ne hn (by decide +kernel)
      have : (AType.plain n none none).cType = none := by
        simp [AType.cType, asn1Type, AType.lo, AType.hi, AType.name, classify, hp, hb]
      simp [mapNumeric, this] at h

/-- The lower-case form of a POSIX name. -/
theorem posix_lower {n : String} {ct : List Char} (h : Posix n ct) :
    lowerize (cName n) = ct ∧ posixCTypes.contains ct = true ∧ isNameCapital n = true ∧
    (∀ c ∈ ct.head?, reUpper c = false) := by
  cases h <;> decide +kernel

theorem lowerize_posix {n : String} (hn : isNameCapital n = true)
    (h : posixCTypes.contains (lowerize (cName n)) = true) : Posix n (lowerize (cName n)) := by
  have key : ∀ m : String, isNameCapital m = true → lowerize (cName n) = lowerize (cName m) → n = m := by
    intro m hm he
    obtain ⟨c, r, h1, h2, h3⟩ := capital_head hn
    obtain ⟨c', r', h1', h2', h3'⟩ := capital_head hm
    rw [h2, h2'] at he
    simp only [lowerize, List.cons.injEq] at he
    have hc : c = c' := by
      have hl : ∀ c : Char, reUpper c = true → c.toLower.toNat = c.toNat + 32 := by
        intro c hc
        have h65 : c.toNat = 65 ∨ c.toNat = 66 ∨ c.toNat = 67 ∨ c.toNat = 68 ∨ c.toNat = 69 ∨
            c.toNat = 70 ∨ c.toNat = 71 ∨ c.toNat = 72 ∨ c.toNat = 73 ∨ c.toNat = 74 ∨
            c.toNat = 75 ∨ c.toNat = 76 ∨ c.toNat = 77 ∨ c.toNat = 78 ∨ c.toNat = 79 ∨
            c.toNat = 80 ∨ c.toNat = 81 ∨ c.toNat = 82 ∨ c.toNat = 83 ∨ c.toNat = 84 ∨
            c.toNat = 85 ∨ c.toNat = 86 ∨ c.toNat = 87 ∨ c.toNat = 88 ∨ c.toNat = 89 ∨
            c.toNat = 90 := by
          simp only [reUpper, Bool.and_eq_true, decide_eq_true_eq] at hc
          have h1 : 65 ≤ c.toNat := hc.1
          have h2 : c.toNat ≤ 90 := hc.2
          omega
        have hof : c = Char.ofNat c.toNat := (Char.ofNat_toNat c).symm
        rcases h65 with h | h | h | h | h | h | h | h | h | h | h | h | h | h | h | h | h | h | h |
          h | h | h | h | h | h | h <;> rw [h] at hof <;> subst hof <;> decide
      have h4 := congrArg Char.toNat he.1
      rw [hl c h3, hl c' h3'] at h4
      exact Char.toNat_inj.1 (by omega)
    refine cName_inj (Or.inr hn) (Or.inr hm) ?_
    rw [h2, h2', hc, he.2]
  have hall : ∀ ct ∈ posixCTypes, ∃ m, Posix m ct := by
    intro ct hct
    simp only [posixCTypes, List.mem_cons, List.not_mem_nil, or_false] at hct
    rcases hct with rfl | rfl | rfl | rfl | rfl | rfl | rfl | rfl
    · exact ⟨_, .i8⟩
    · exact ⟨_, .i16⟩
    · exact ⟨_, .i32⟩
    · exact ⟨_, .i64⟩
    · exact ⟨_, .u8⟩
    · exact ⟨_, .u16⟩
    · exact ⟨_, .u32⟩
    · exact ⟨_, .u64⟩
  obtain ⟨m, hm⟩ := hall _ (List.contains_iff_mem.1 h)
  obtain ⟨p1, _, p3, _⟩ := posix_lower hm
  have := key m p3 p1.symm
  rw [this] at hm ⊢
  exact hm

/-- What the type mapping needs to know about the bundle. -/
structure TypeEnv (ds simple : List Def) : Prop where
  cap : ∀ d ∈ ds, isNameCapital d.name = true
  nodup : (ds.map Def.name).Nodup
  sub : ∀ d ∈ simple, d ∈ ds ∧ d.isSimple = true
  grammar : ∀ n c t, Def.simple n c t ∈ ds → GrammarType t
  enums : ∀ n c its, Def.enum n c its ∈ ds → its ≠ [] ∧ ∀ it ∈ its, 0 ≤ it.pos

/-- The type names of `t` are defined, and simple definitions of that name are in view.
-/
def Visible (ds simple : List Def) (t : AType) : Prop :=
  ∀ n, t.name = n → isNameCapital n = true →
    (∃ d ∈ ds, d.name = n) ∧ ∀ d ∈ ds, d.isSimple = true → d.name = n → d ∈ simple

theorem TypeEnv.scap {ds simple : List Def} (he : TypeEnv ds simple) :
    ∀ d ∈ simple, isNameCapital d.name = true := fun d hd => he.cap d (he.sub d hd).1

/-- Result of the second half of `fieldType`, for a name. -/
theorem fieldType_tail {ds simple : List Def} (he : TypeEnv ds simple) {n : String}
    (hn : isNameCapital n = true) (hv : (∃ d ∈ ds, d.name = n) ∧
      ∀ d ∈ ds, d.isSimple = true → d.name = n → d ∈ simple)
    {bits : Text} {sb si : Bool} {f : Mapped}
    (h : (let std := posixCTypes.contains (lowerize (cName n))
      let ct := if std then lowerize (cName n) else cName n
      match simple.find? (fun d => d.isSimple && cName d.name == ct) with
      | some (.simple _ _ st) =>
        mapSimpleDef st >>= fun m' =>
          .ok ⟨m'.bits, m'.ctype, sb || m'.stdbool, si || std || m'.stdint⟩
      | _ => .ok ⟨bits, ct, sb, si || std⟩ : Except Err Mapped) = .ok f) :
    (Posix n f.ctype ∧ f.bits = bits ∧ f.stdint = true) ∨
    ((∀ ct, ¬ Posix n ct) ∧ (∃ d ∈ ds, d.name = n ∧ d.isSimple = false) ∧
      f = ⟨bits, cName n, sb, si⟩) ∨
    ((∀ ct, ¬ Posix n ct) ∧ ∃ c t m', Def.simple n c t ∈ ds ∧ mapNumeric t = .ok m' ∧
      f = ⟨m'.bits, m'.ctype, sb || m'.stdbool, si || m'.stdint⟩) := by
  simp only at h
  by_cases hp : posixCTypes.contains (lowerize (cName n)) = true
  · left
    have hpx := lowerize_posix hn hp
    rw [hp] at h
    simp only [if_true] at h
    rw [find_simple_none he.scap (posix_lower hpx).2.2.2] at h
    cases h
    exact ⟨hpx, rfl, by simp⟩
  · right
    have hnp : ∀ ct, ¬ Posix n ct := by
      intro ct hpx
      obtain ⟨h1, h2, _⟩ := posix_lower hpx
      rw [h1] at hp
      exact hp h2
    simp only [Bool.not_eq_true] at hp
    rw [hp] at h
    simp only [Bool.false_eq_true, if_false, Bool.or_false] at h
    cases hf : simple.find? (fun d => d.isSimple && cName d.name == cName n) with
    | none =>
      rw [hf] at h
      cases h
      left
      refine ⟨hnp, ?_, rfl⟩
      obtain ⟨d, hd, hdn⟩ := hv.1
      refine ⟨d, hd, hdn, ?_⟩
      cases hs : d.isSimple with
      | false => rfl
      | true => exact absurd hdn (find_simple_named_none hf d (hv.2 d hd hs hdn) hs)
    | some d =>
      rw [hf] at h
      obtain ⟨h1, h2, h3⟩ := find_simple_named he.scap hn hf
      right
      refine ⟨hnp, ?_⟩
      cases d with
      | simple n' c t =>
        simp only [Def.name] at h3
        subst h3
        simp only [bind_ok] at h
        obtain ⟨m', hm', h⟩ := h
        cases h
        exact ⟨c, t, m', (he.sub _ h1).1, hm', rfl⟩
      | seq => cases h2
      | choice => cases h2
      | enum => cases h2

theorem lowerize_head {ct : Text} (h : ∀ c ∈ ct.head?, reLower c = true) : lowerize ct = ct := by
  cases ct with
  | nil => rfl
  | cons c r =>
    have hc := h c (by simp)
    simp only [lowerize, List.cons.injEq, and_true]
    simp only [reLower, Bool.and_eq_true, decide_eq_true_eq] at hc
    have h1 : 97 ≤ c.toNat := hc.1
    unfold Char.toLower
    split
    · rename_i hh
      exfalso
      have : c.val.toNat ≤ 'Z'.val.toNat := hh.2
      have h90 : 'Z'.val.toNat = 90 := by decide
      have : c.toNat = c.val.toNat := rfl
      omega
    · rfl

theorem not_upper_of_lower {c : Char} (h : reLower c = true) : reUpper c = false := by
  cases hu : reUpper c with
  | false => rfl
  | true =>
    simp only [reLower, reUpper, Bool.and_eq_true, decide_eq_true_eq] at h hu
    have h1 : 97 ≤ c.toNat := h.1
    have h2 : c.toNat ≤ 90 := hu.2
    omega

/-- `fieldType` when the mapped type starts with a lower-case letter. -/
theorem fieldType_lower {ds simple : List Def} (he : TypeEnv ds simple) {t : AType} {m : Mapped}
    (hm : mapMember ds t = .ok m) (hl : ∀ c ∈ m.ctype.head?, reLower c = true) :
    fieldType ds simple t =
      .ok ⟨m.bits, m.ctype, m.stdbool, m.stdint || posixCTypes.contains m.ctype⟩ := by
  unfold fieldType
  rw [hm]
  simp only [bind, Except.bind, lowerize_head hl, ite_self]
  rw [find_simple_none he.scap (fun c hc => not_upper_of_lower (hl c hc))]

theorem scalarC_lower {t : AType} {ct sfx : List Char} (h : ScalarC t ct sfx) :
    ∀ c ∈ ct.head?, reLower c = true := by
  cases h with
  | uint _ _ hu =>
    obtain ⟨n, hn, _⟩ := hu
    cases hn <;> decide
  | sint => decide
  | single => decide
  | double => decide

theorem cName_second {n : String} (hn : isNameCapital n = true) {c d : Char} {r : Text}
    (h : cName n = c :: d :: r) : reUpper d = false := by
  rw [cName_eq (Or.inr hn)] at h
  unfold ident at h
  cases hs : n.toList with
  | nil => rw [hs] at h; simp at h
  | cons x xs =>
    rw [hs] at h
    cases xs with
    | nil => simp at h
    | cons y ys =>
      simp only [List.map_cons, List.cons.injEq] at h
      have := upper_tail (Or.inr hn) hs (d := y) (by simp)
      rw [← h.2.1]
      split
      · decide
      · exact this

theorem cName_not_builtin {n : String} (hn : isNameCapital n = true) :
    cName n ≠ "INTEGER".toList ∧ cName n ≠ "REAL".toList ∧ cName n ≠ "BOOLEAN".toList := by
  refine ⟨?_, ?_, ?_⟩ <;> intro h
  · exact absurd (cName_second hn (c := 'I') (d := 'N') h) (by decide)
  · exact absurd (cName_second hn (c := 'R') (d := 'E') h) (by decide)
  · exact absurd (cName_second hn (c := 'B') (d := 'O') h) (by decide)

theorem lastDef_of_mem {ds : List Def} (hnd : (ds.map Def.name).Nodup) {d : Def} (hd : d ∈ ds) :
    lastDef ds d.name = some d := (lastDef_eq_some_iff hnd _ _).2 ⟨hd, rfl⟩

theorem cName_not_posix {n : String} (hn : isNameCapital n = true) :
    posixCTypes.contains (cName n) = true → False := by
  intro hc
  have hm := List.contains_iff_mem.1 hc
  obtain ⟨x, r, _, h5, h6⟩ := capital_head hn
  have hh : ∀ ct ∈ posixCTypes, ∀ c ∈ ct.head?, reUpper c = false := by decide
  have := hh _ hm x (by rw [h5]; simp)
  rw [this] at h6; cases h6

theorem smallRange_iff {t : AType} : SmallRange t ↔ ¬ WideRange t := by
  constructor
  · rintro h ⟨b, e, rfl, h1, h2⟩
    have := h b e rfl h1
    omega
  · rintro h b e rfl h1
    by_cases h2 : e < 2 ^ 64
    · exact h2
    · exact absurd ⟨b, e, rfl, h1, by omega⟩ h

/-- Second half of `fieldType` on a name, for a suffix that is empty. -/
theorem fieldType_tail_named {ds simple : List Def} (he : TypeEnv ds simple) {n : String} (hf : RightName ds n)
    (hn : isNameCapital n = true) (hv : (∃ d ∈ ds, d.name = n) ∧
      ∀ d ∈ ds, d.isSimple = true → d.name = n → d ∈ simple) {f : Mapped}
    (h : (let std := posixCTypes.contains (lowerize (cName n))
      let ct := if std then lowerize (cName n) else cName n
      match simple.find? (fun d => d.isSimple && cName d.name == ct) with
      | some (.simple _ _ st) =>
        mapSimpleDef st >>= fun m' =>
          .ok ⟨m'.bits, m'.ctype, false || m'.stdbool, false || std || m'.stdint⟩
      | _ => .ok ⟨[], ct, false, false || std⟩ : Except Err Mapped) = .ok f) :
    (NamedC ds n f.ctype f.bits ∨
      ((∃ c its, Def.enum n c its ∈ ds) ∧ (∀ ct, ¬ Posix n ct) ∧ f.ctype = ident n ∧ f.bits = [])) ∧
    (posixCTypes.contains f.ctype = true → f.stdint = true) := by
  rcases fieldType_tail he hn hv h with ⟨h1, h3, h4⟩ | ⟨h1, ⟨d', hd', hdn', hs⟩, rfl⟩ |
    ⟨h1, c, t, m', h2, h3, rfl⟩
  · rw [h3]
    obtain ⟨d, hd, hdn⟩ := hv.1
    have hds := hf.1 d hd hdn ⟨_, h1⟩
    cases d with
    | simple n' c t => simp only [Def.name] at hdn; subst hdn; exact ⟨Or.inl (.posix hd h1), fun _ => h4⟩
    | seq => cases hds
    | choice => cases hds
    | enum => cases hds
  · refine ⟨?_, fun hc => (cName_not_posix hn hc).elim⟩
    simp only [cName_eq (Or.inr hn)]
    cases d' with
    | seq n' c ms => simp only [Def.name] at hdn'; subst hdn'; exact Or.inl (.struct hd')
    | choice n' c ms => simp only [Def.name] at hdn'; subst hdn'; exact Or.inl (.union hd')
    | enum n' c its =>
      simp only [Def.name] at hdn'; subst hdn'
      exact Or.inr ⟨⟨c, its, hd'⟩, h1, by simp⟩
    | simple => cases hs
  · have g1 := he.grammar n c t h2
    obtain ⟨g3, g2⟩ := hf.2 c t h2 (fun ⟨ct, hc⟩ => h1 ct hc)
    rcases mapNumeric_sound g1 (smallRange_iff.2 g2) g3 h3 with ⟨k1, k2, k3⟩ | ⟨rfl, rfl⟩ | ⟨rfl, rfl⟩ | ⟨rfl, rfl⟩
    · refine ⟨Or.inl (.alias h2 h1 k1), ?_⟩
      simp only
      intro hc; rw [k2, hc]; simp
    · exact ⟨Or.inl (.aliasBool h2), by intro hc; revert hc; decide⟩
    · exact ⟨Or.inl (.aliasFloat h2), by intro hc; revert hc; decide⟩
    · exact ⟨Or.inl (.aliasDouble h2), by intro hc; revert hc; decide⟩

/-- `fieldType` on a name. -/
theorem fieldType_named {ds simple : List Def} (he : TypeEnv ds simple) {n : String} (hf : RightName ds n)
    (hn : isNameCapital n = true) (hv : (∃ d ∈ ds, d.name = n) ∧
      ∀ d ∈ ds, d.isSimple = true → d.name = n → d ∈ simple)
    {f : Mapped} (h : fieldType ds simple (.plain n none none) = .ok f) :
    FieldType ds (.plain n none none) f.ctype f.bits ∧
      (posixCTypes.contains f.ctype = true → f.stdint = true) := by
  obtain ⟨b1, b2, b3⟩ := cName_not_builtin hn
  unfold fieldType mapMember at h
  simp only [AType.name, b1, b2, b3, or_self, if_false, resolveType] at h
  obtain ⟨d, hd, hdn⟩ := hv.1
  have hl : lastDef ds n = some d := by rw [← hdn]; exact lastDef_of_mem he.nodup hd
  rw [hl] at h
  have huniq : ∀ e ∈ ds, e.name = n → e = d := fun e hE hen =>
    mem_unique_of_nodup_map he.nodup hE hd (hen.trans hdn.symm)
  cases d with
  | enum n' c its =>
    simp only [Def.name] at hdn
    subst hdn
    simp only [bind_ok] at h
    obtain ⟨m, ⟨size, hsize, hm⟩, h⟩ := h
    cases hm
    obtain ⟨w, rfl, _, hw1, hw2⟩ := (enumSize_iff (he.enums _ _ _ hd).2 size).1 hsize
    rcases fieldType_tail he hn hv h with ⟨h1, h3, h4⟩ | ⟨h1, _, rfl⟩ |
      ⟨h1, c', t, m', h2, h3, rfl⟩
    · exact absurd (hf.1 _ hd rfl ⟨_, h1⟩) (by simp [Def.isSimple])
    · refine ⟨?_, fun hc => (cName_not_posix hn hc).elim⟩
      simp only [cName_eq (Or.inr hn)]
      exact .enum hd ⟨hw1, hw2⟩ (bitSuffix_int w)
    · exact absurd (huniq _ h2 rfl) (by simp)
  | seq n' c ms =>
    obtain ⟨h1 | ⟨⟨_, _, h1⟩, _⟩, h2⟩ := fieldType_tail_named he hf hn hv h
    · exact ⟨.named h1, h2⟩
    · exact absurd (huniq _ h1 rfl) (by simp)
  | choice n' c ms =>
    obtain ⟨h1 | ⟨⟨_, _, h1⟩, _⟩, h2⟩ := fieldType_tail_named he hf hn hv h
    · exact ⟨.named h1, h2⟩
    · exact absurd (huniq _ h1 rfl) (by simp)
  | simple n' c ms =>
    obtain ⟨h1 | ⟨⟨_, _, h1⟩, _⟩, h2⟩ := fieldType_tail_named he hf hn hv h
    · exact ⟨.named h1, h2⟩
    · exact absurd (huniq _ h1 rfl) (by simp)

theorem leastUnsigned_unique {w w' : Nat} {b e : Int} (h : LeastUnsigned w b e) (h' : LeastUnsigned w' b e) : w = w' :=
  Nat.le_antisymm (h.2 _ h'.1) (h'.2 _ h.1)

/-- Ranges as wide as a standard type are printed without a bit-field. -/
theorem scalarC_whole {t : AType} {ct sfx : List Char} (h : ScalarC t ct sfx) (hw : WholeWidth t) : sfx = [] := by
  cases h with
  | uint h1 h2 h3 =>
    obtain ⟨w, ct', hs, hl⟩ := hw _ _ rfl h1
    obtain ⟨n, _, _, _, ⟨_, h4⟩ | ⟨h4, _⟩⟩ := h3
    · exact h4
    · rw [leastUnsigned_unique h2 hl] at h4
      exact absurd ⟨ct', hs⟩ h4
  | sint => rfl
  | single => rfl
  | double => rfl

/-- `fieldType` on an array of a name. -/
theorem fieldType_array {ds simple : List Def} (he : TypeEnv ds simple) {n : String} (hf : RightName ds n)
    {len : Int} (hn : isNameCapital n = true) (hv : (∃ d ∈ ds, d.name = n) ∧
      ∀ d ∈ ds, d.isSimple = true → d.name = n → d ∈ simple)
    (hb : ∀ c t, Def.simple n c t ∈ ds → (¬ ∃ ct, Posix n ct) → WholeWidth t)
    {f : Mapped} (h : fieldType ds simple (.arr (.plain n none none) len) = .ok f) :
    FieldType ds (.arr (.plain n none none) len) f.ctype f.bits ∧
      (posixCTypes.contains f.ctype = true → f.stdint = true) := by
  obtain ⟨b1, b2, b3⟩ := cName_not_builtin hn
  unfold fieldType mapMember at h
  simp only [AType.name, b1, b2, b3, or_self, if_false, resolveType] at h
  obtain ⟨h1 | ⟨⟨_, _, h1⟩, h3, h4, h5⟩, h2⟩ := fieldType_tail_named he hf hn hv h
  · refine ⟨?_, h2⟩
    have hbits : f.bits = [] := by
      generalize hn' : n = n' at h1
      generalize f.bits = bits at h1
      generalize f.ctype = ctype at h1
      cases h1 with
      | posix => rfl
      | struct => rfl
      | union => rfl
      | alias q1 q2 q3 =>
        subst hn'
        exact scalarC_whole q3 (hb _ _ q1 fun ⟨ct, hct⟩ => q2 ct hct)
      | aliasBool => rfl
      | aliasFloat => rfl
      | aliasDouble => rfl
    rw [hbits]
    exact .array h1
  · rw [h4] at h2 ⊢
    rw [h5]
    exact ⟨.arrayEnum h1, h2⟩

/-- `fieldType` gives the specified C type, for members that are not arrays. -/
theorem fieldType_sound {ds simple : List Def} (he : TypeEnv ds simple) {t : AType}
    (hf : ∀ n, t = .plain n none none → RightName ds n) (hg : GrammarType t) (hsm : SmallRange t) (hv : Visible ds simple t)
    (ha : ∀ e len, t ≠ .arr e len) (hnull : t.name ≠ "NULL") {f : Mapped}
    (h : fieldType ds simple t = .ok f) :
    FieldType ds t f.ctype f.bits ∧ (posixCTypes.contains f.ctype = true → f.stdint = true) := by
  have hscal : ∀ t : AType, GrammarType t → SmallRange t → (∀ e len, t ≠ .arr e len) →
      (mapMember ds t = mapNumeric t) → t ≠ .plain "BOOLEAN" none none →
      t ≠ .plain "Float" none none → t ≠ .plain "Double" none none →
      fieldType ds simple t = .ok f →
      FieldType ds t f.ctype f.bits ∧ (posixCTypes.contains f.ctype = true → f.stdint = true) := by
    intro t hg hsm ha hmn hb hfl hd h
    have h0 := h
    unfold fieldType at h
    simp only [bind_ok] at h
    obtain ⟨m, hm, _⟩ := h
    have hm' := hm
    rw [hmn] at hm
    rcases mapNumeric_sound hg hsm ha hm with ⟨h1, h2, _⟩ | ⟨h1, _⟩ | ⟨h1, _⟩ | ⟨h1, _⟩
    · rw [fieldType_lower he hm' (scalarC_lower h1)] at h0
      cases h0
      exact ⟨.scalar h1, by simp only; intro hc; rw [hc]; simp⟩
    · exact absurd h1 hb
    · exact absurd h1 hfl
    · exact absurd h1 hd
  have hint : ∀ lo hi, mapMember ds (.plain "INTEGER" lo hi) = mapNumeric (.plain "INTEGER" lo hi) := by
    intro lo hi
    have : cName "INTEGER" = "INTEGER".toList := by decide +kernel
    simp [mapMember, AType.name, this]
  have hreal : ∀ lo hi, mapMember ds (.plain "REAL" lo hi) = mapNumeric (.plain "REAL" lo hi) := by
    intro lo hi
    have : cName "REAL" = "REAL".toList := by decide +kernel
    simp [mapMember, AType.name, this]
  cases hg with
  | real => exact hscal _ .real hsm ha (hreal _ _) (by decide) (by decide) (by decide) h
  | integer => exact hscal _ .integer hsm ha (hint _ _) (by decide) (by decide) (by decide) h
  | realRange h1 h2 =>
    exact hscal _ (.realRange h1 h2) hsm ha (hreal _ _) (by simp) (by simp) (by simp) h
  | integerRange =>
    exact hscal _ .integerRange hsm ha (hint _ _) (by simp) (by simp) (by simp) h
  | null => exact absurd rfl hnull
  | boolean =>
    have hm : mapMember ds (.plain "BOOLEAN" none none) = .ok ⟨" : 1".toList, "uint8_t".toList, false, true⟩ := by
      have h0 : cName "BOOLEAN" = "BOOLEAN".toList := by decide +kernel
      simp [mapMember, AType.name, h0]
    rw [fieldType_lower he hm (by decide)] at h
    cases h
    exact ⟨.bool ⟨"1".toList, by decide, by decide⟩, by simp⟩
  | @ia5 len =>
    have hm : mapMember ds (.str "IA5String" len) = .ok ⟨[], "char".toList, false, false⟩ := by
      have h0 : cName "IA5String" = "char".toList := by decide +kernel
      simp [mapMember, AType.name, h0, resolveType]
    rw [fieldType_lower he hm (by decide)] at h
    cases h
    exact ⟨.chars, by intro hc; revert hc; decide⟩
  | @numeric len =>
    have hm : mapMember ds (.str "NumericString" len) = .ok ⟨[], "char".toList, false, false⟩ := by
      have h0 : cName "NumericString" = "char".toList := by decide +kernel
      simp [mapMember, AType.name, h0, resolveType]
    rw [fieldType_lower he hm (by decide)] at h
    cases h
    exact ⟨.chars, by intro hc; revert hc; decide⟩
  | arr => exact absurd rfl (ha _ _)
  | @named n hn => exact fieldType_named he (hf n rfl) hn (hv n rfl hn) h

end Apg
