import Verif.Spec.SuccessBinary
import Verif.Lemmas.Success
import Verif.Lemmas.Binary
import Verif.Lemmas.Decimal
import Verif.Lemmas.CosmosSize
import Verif.Lemmas.Accept

/-! Success of the steps of generate-binary. -/

namespace Apg
open Spec

/-! ### Sizes -/

theorem sound_grammarish {t : AType} (h : SoundType t) (ha : ∀ e len, t ≠ .arr e len) (v : Int) :
    unresolvedSizeBits t = .ok v ↔ LeafSize t v := by
  cases h with
  | real => exact leafSize_iff .real ha v
  | realRange => exact leafSize_real _ _ v
  | integer => exact leafSize_iff .integer ha v
  | integerRange => exact leafSize_int _ _ v
  | boolean => exact leafSize_iff .boolean ha v
  | ia5 => exact leafSize_iff .ia5 ha v
  | numeric => exact leafSize_iff .numeric ha v
  | arr => exact absurd rfl (ha _ _)
  | named hn => exact leafSize_iff (.named hn) ha v

theorem ownBits_iff {t : AType} (h : SoundType t) (v : Int) :
    unresolvedSizeBits t = .ok v ↔ OwnBits t v := by
  cases t with
  | arr e len =>
    simp only [unresolvedSizeBits, Except.ok.injEq]
    constructor
    · rintro rfl; exact .arr
    · intro h
      generalize ht : AType.arr e len = t at h
      cases h with
      | leaf h =>
        subst ht
        rcases leafSize_inv h with ⟨h0, _⟩ | ⟨b', e', w, h0, _⟩ |
          ⟨b', e', w, h0, _⟩ | ⟨b', e', lim, h0, _⟩ | ⟨b', e', lim, dlim, h0, _⟩ |
          ⟨len, h0 | h0, _⟩ | ⟨h0, _⟩ | ⟨h0, _⟩ <;> simp [intType, realType] at h0
      | arr => cases ht; rfl
  | plain n lo hi =>
    rw [sound_grammarish h (by intro e len; simp)]
    constructor
    · exact .leaf
    · intro h
      generalize ht : AType.plain n lo hi = t at h
      cases h with
      | leaf h => exact h
      | arr => cases ht
  | str n len =>
    rw [sound_grammarish h (by intro e len; simp)]
    constructor
    · exact .leaf
    · intro h
      generalize ht : AType.str n len = t at h
      cases h with
      | leaf h => exact h
      | arr => cases ht

/-- What the sizes need to know about the definitions. -/
structure SizeEnv (ds : List Def) : Prop where
  nodup : (ds.map Def.name).Nodup
  simples : ∀ n c t, Def.simple n c t ∈ ds → SoundType t
  seqs : ∀ n c l, Def.seq n c l ∈ ds → ∀ k ∈ l, SoundType k.type
  enums : ∀ n c its, Def.enum n c its ∈ ds → its ≠ [] ∧ its.map (·.pos) = (List.range its.length).map Int.ofNat

theorem enumBits {its : List EnumItem} (hne : its ≠ [])
    (hp : its.map (·.pos) = (List.range its.length).map Int.ofNat) (v : Int) :
    enumSizeBits its = .ok v ↔
      ∃ w : Nat, v = w ∧ its.length ≤ 2 ^ w ∧ ∀ w', its.length ≤ 2 ^ w' → w ≤ w' := by
  have hlen : 0 < its.length := List.length_pos_iff.2 hne
  have hmem : ∀ p : Int, (∃ it ∈ its, it.pos = p) ↔ 0 ≤ p ∧ p < its.length := by
    intro p
    have : (∃ it ∈ its, it.pos = p) ↔ p ∈ its.map (·.pos) := by simp
    rw [this, hp, List.mem_map]
    constructor
    · rintro ⟨k, hk, rfl⟩
      rw [List.mem_range] at hk
      have : (Int.ofNat k) = (k : Int) := rfl
      omega
    · rintro ⟨h1, h2⟩
      exact ⟨p.toNat, List.mem_range.2 (by omega), by show ((p.toNat : Nat) : Int) = p; omega⟩
  rw [enumSize_iff (fun it hit => ((hmem _).1 ⟨it, hit, rfl⟩).1)]
  have hw : ∀ w : Nat, (∀ it ∈ its, FitsUnsigned w it.pos) ↔ its.length ≤ 2 ^ w := by
    intro w
    have hcast : ((2 ^ w : Nat) : Int) = 2 ^ w := by norm_cast
    constructor
    · intro h
      obtain ⟨it, hit, hpos⟩ := (hmem (its.length - 1 : Nat)).2 ⟨by omega, by omega⟩
      have := (h it hit).2
      rw [hpos] at this
      omega
    · intro h it hit
      have := (hmem _).1 ⟨it, hit, rfl⟩
      exact ⟨this.1, by omega⟩
  constructor
  · rintro ⟨w, rfl, _, h1, h2⟩
    exact ⟨w, rfl, (hw w).1 h1, fun w' h => h2 w' ((hw w').2 h)⟩
  · rintro ⟨w, rfl, h1, h2⟩
    exact ⟨w, rfl, hne, (hw w).2 h1, fun w' h => h2 w' ((hw w').1 h)⟩

theorem bits_sound {ds : List Def} (he : SizeEnv ds) : ∀ (fuel : Nat) (ms : List Member),
    (∀ m ∈ ms, SoundType m.type) → ∀ v, sumSizes (sizeDef ds fuel) ds ms = .ok v →
      Bits ds (ms.map (·.type)) v := by
  intro fuel
  induction fuel with
  | zero =>
    intro ms
    induction ms with
    | nil => intro _ v h; simp [sumSizes] at h; subst h; exact .nil
    | cons m ms ih =>
      intro hs v h
      rw [sumSizes, bind_ok] at h
      obtain ⟨a, ha, h⟩ := h
      rw [bind_ok] at h
      obtain ⟨r, hr, h⟩ := h
      rw [pure_ok] at h
      subst h
      have hrest := ih (fun m hm => hs m (List.mem_cons_of_mem _ hm)) r hr
      cases hres : resolveType ds m.type with
      | some d => rw [hres] at ha; simp [sizeDef] at ha
      | none =>
        rw [hres] at ha
        refine .own ?_ ((ownBits_iff (hs m (List.mem_cons_self ..)) a).1 ha) hrest
        intro n lo hi hmt d hd
        have hmt : m.type = .plain n lo hi := hmt
        unfold resolveType at hres
        rw [hmt] at hres
        exact lastDef_none hres d hd
  | succ fuel ihf =>
    intro ms
    induction ms with
    | nil => intro _ v h; simp [sumSizes] at h; subst h; exact .nil
    | cons m ms ih =>
      intro hs v h
      rw [sumSizes, bind_ok] at h
      obtain ⟨a, ha, h⟩ := h
      rw [bind_ok] at h
      obtain ⟨r, hr, h⟩ := h
      rw [pure_ok] at h
      subst h
      have hrest := ih (fun m hm => hs m (List.mem_cons_of_mem _ hm)) r hr
      cases hres : resolveType ds m.type with
      | some d =>
        rw [hres] at ha
        rw [List.map_cons]
        generalize m.type = t at *
        unfold resolveType at hres
        split at hres
        · rename_i n lo hi
          obtain ⟨h1, h2⟩ := lastDef_some hres
          cases d with
          | seq n' c l =>
            obtain rfl : n' = n := h2
            simp only [sizeDef] at ha
            exact .seq h1 (ihf l (he.seqs _ _ _ h1) a ha) hrest
          | choice => simp [sizeDef] at ha
          | enum n' c its =>
            obtain rfl : n' = n := h2
            simp only [sizeDef] at ha
            obtain ⟨w, rfl, q1, q2⟩ := (enumBits (he.enums _ _ _ h1).1 (he.enums _ _ _ h1).2 a).1 ha
            exact .enum w h1 q1 q2 hrest
          | simple n' c t =>
            obtain rfl : n' = n := h2
            simp only [sizeDef] at ha
            exact .simple h1 ((ownBits_iff (he.simples _ _ _ h1) a).1 ha) hrest
        · cases hres
      | none =>
        rw [hres] at ha
        refine .own ?_ ((ownBits_iff (hs m (List.mem_cons_self ..)) a).1 ha) hrest
        intro n lo hi hmt d hd
        have hmt : m.type = .plain n lo hi := hmt
        unfold resolveType at hres
        rw [hmt] at hres
        exact lastDef_none hres d hd

theorem resolve_def {ds : List Def} (hnd : (ds.map Def.name).Nodup) {d : Def} (hd : d ∈ ds)
    (lo hi : Option Num) : resolveType ds (.plain d.name lo hi) = some d := by
  cases h : lastDef ds d.name with
  | none => exact absurd rfl (lastDef_none h d hd)
  | some d' =>
    obtain ⟨h1, h2⟩ := lastDef_some h
    rw [resolveType, h, mem_unique_of_nodup_map hnd h1 hd h2]

theorem sumSizes_cons {ds : List Def} {rec : Def → Except Err Int} {m : Member} {ms : List Member} {a r : Int}
    (h1 : (match resolveType ds m.type with
      | some d => rec d
      | none => unresolvedSizeBits m.type) = .ok a) (h2 : sumSizes rec ds ms = .ok r) :
    sumSizes rec ds (m :: ms) = .ok (a + r) := by
  rw [sumSizes, bind_ok]
  refine ⟨a, ?_, bind_ok.2 ⟨r, h2, rfl⟩⟩
  rw [← h1]
  cases resolveType ds m.type <;> rfl

theorem bits_complete {ds : List Def} (he : SizeEnv ds) {ts : List AType} {v : Int} (h : Bits ds ts v) :
    ∃ N, ∀ fuel, N ≤ fuel → ∀ ms : List Member, (∀ m ∈ ms, SoundType m.type) → ms.map (·.type) = ts →
      sumSizes (sizeDef ds fuel) ds ms = .ok v := by
  have hcons : ∀ {ms : List Member} {t ts}, ms.map (·.type) = t :: ts →
      ∃ m l, ms = m :: l ∧ m.type = t ∧ l.map (·.type) = ts := by
    intro ms t ts h
    cases ms with
    | nil => cases h
    | cons m l => simp only [List.map_cons, List.cons.injEq] at h; exact ⟨m, l, rfl, h⟩
  induction h with
  | nil =>
    refine ⟨0, fun fuel _ ms _ hms => ?_⟩
    rw [List.map_eq_nil_iff] at hms
    subst hms; rfl
  | own hno ho _ ih =>
    obtain ⟨N, hN⟩ := ih
    refine ⟨N, fun fuel hf ms hs hms => ?_⟩
    obtain ⟨m, l, rfl, rfl, hl⟩ := hcons hms
    refine sumSizes_cons ?_ (hN fuel hf l (fun m hm => hs m (List.mem_cons_of_mem _ hm)) hl)
    have : resolveType ds m.type = none := by
      unfold resolveType
      split
      · rename_i n lo hi hmt
        cases hl : lastDef ds n with
        | none => rfl
        | some d =>
          obtain ⟨h1, h2⟩ := lastDef_some hl
          exact absurd h2 (hno _ _ _ hmt d h1)
      · rfl
    rw [this]
    exact (ownBits_iff (hs m (List.mem_cons_self ..)) _).2 ho
  | simple hd ho _ ih =>
    obtain ⟨N, hN⟩ := ih
    refine ⟨N + 1, fun fuel hf ms hs hms => ?_⟩
    obtain ⟨m, l, rfl, hm, hl⟩ := hcons hms
    obtain ⟨fuel, rfl⟩ : ∃ f, fuel = f + 1 := ⟨fuel - 1, by omega⟩
    refine sumSizes_cons ?_ (hN _ (by omega) l (fun m hm => hs m (List.mem_cons_of_mem _ hm)) hl)
    rw [hm, show ∀ n lo hi c t, resolveType ds (.plain n lo hi) = resolveType ds (.plain (Def.simple n c t).name lo hi)
      from fun _ _ _ _ _ => rfl, resolve_def he.nodup hd]
    exact (ownBits_iff (he.simples _ _ _ hd) _).2 ho
  | enum w hd q1 q2 _ ih =>
    obtain ⟨N, hN⟩ := ih
    refine ⟨N + 1, fun fuel hf ms hs hms => ?_⟩
    obtain ⟨m, l, rfl, hm, hl⟩ := hcons hms
    obtain ⟨fuel, rfl⟩ : ∃ f, fuel = f + 1 := ⟨fuel - 1, by omega⟩
    refine sumSizes_cons ?_ (hN _ (by omega) l (fun m hm => hs m (List.mem_cons_of_mem _ hm)) hl)
    rw [hm, show ∀ n lo hi c t, resolveType ds (.plain n lo hi) = resolveType ds (.plain (Def.enum n c t).name lo hi)
      from fun _ _ _ _ _ => rfl, resolve_def he.nodup hd]
    exact (enumBits (he.enums _ _ _ hd).1 (he.enums _ _ _ hd).2 _).2 ⟨w, rfl, q1, q2⟩
  | seq hd _ _ ih1 ih2 =>
    obtain ⟨N, hN⟩ := ih2
    obtain ⟨M, hM⟩ := ih1
    refine ⟨N + M + 1, fun fuel hf ms hs hms => ?_⟩
    obtain ⟨m, l, rfl, hm, hl⟩ := hcons hms
    obtain ⟨fuel, rfl⟩ : ∃ f, fuel = f + 1 := ⟨fuel - 1, by omega⟩
    refine sumSizes_cons ?_ (hN _ (by omega) l (fun m hm => hs m (List.mem_cons_of_mem _ hm)) hl)
    rw [hm, show ∀ n lo hi c t, resolveType ds (.plain n lo hi) = resolveType ds (.plain (Def.seq n c t).name lo hi)
      from fun _ _ _ _ _ => rfl, resolve_def he.nodup hd]
    exact hM fuel (by omega) _ (he.seqs _ _ _ hd) rfl

theorem sizeMember_sum (ds : List Def) (fuel : Nat) (m : Member) (v : Int) :
    sizeMember ds fuel m = .ok v ↔ sumSizes (sizeDef ds fuel) ds [m] = .ok v := by
  have : sumSizes (sizeDef ds fuel) ds [m] = sizeMember ds fuel m >>= fun a => .ok (a + 0) := rfl
  rw [this]
  cases sizeMember ds fuel m with
  | error e => simp [bind, Except.bind]
  | ok a => simp [bind, Except.bind]

theorem sizeMember_sound {ds : List Def} (he : SizeEnv ds) {fuel : Nat} {m : Member} (hs : SoundType m.type)
    {v : Int} (h : sizeMember ds fuel m = .ok v) : Bits ds [m.type] v :=
  bits_sound he fuel [m] (by intro x hx; rcases List.mem_singleton.1 hx with rfl; exact hs) v
    ((sizeMember_sum ..).1 h)

theorem sizeMember_complete {ds : List Def} (he : SizeEnv ds) {m : Member} (hs : SoundType m.type)
    {v : Int} (h : Bits ds [m.type] v) : ∃ N, ∀ fuel, N ≤ fuel → sizeMember ds fuel m = .ok v := by
  obtain ⟨N, hN⟩ := bits_complete he h
  refine ⟨N, fun fuel hf => (sizeMember_sum ..).2 (hN fuel hf [m] ?_ rfl)⟩
  intro x hx; rcases List.mem_singleton.1 hx with rfl; exact hs

theorem bits_unique {ds : List Def} (he : SizeEnv ds) {m : Member} (hs : SoundType m.type) {v w : Int}
    (h1 : Bits ds [m.type] v) (h2 : Bits ds [m.type] w) : v = w := by
  obtain ⟨N, hN⟩ := sizeMember_complete he hs h1
  obtain ⟨M, hM⟩ := sizeMember_complete he hs h2
  have a := hN (N + M) (by omega)
  rw [hM (N + M) (by omega)] at a
  cases a; rfl

/-! ### Encodings -/

/-- The C type of an encoding. -/
def Spec.Encoding.ctype : Encoding → CType
  | .unsigned => .uint
  | .signed => .int
  | .single => .float
  | .double => .double

theorem asn1Type_plain {t : AType} (h : (∃ e len, t = .arr e len) ∨ ∃ n, t = .plain n none none) :
    asn1Type t = classify t.name none none false := by
  rcases h with ⟨e, len, rfl⟩ | ⟨n, rfl⟩ <;> rfl

theorem standard_classify {n : String} {k : Encoding} (h : StandardEncoding n k) :
    classify n none none false = .ok (some k.ctype) := by
  cases h <;> decide +kernel

theorem classify_standard {n : String} {c : CType} (h : classify n none none false = .ok (some c))
    (h1 : c ≠ .bool) : ∃ k, StandardEncoding n k ∧ k.ctype = c := by
  by_cases hp : (posixRange n).isSome
  · have := posixRange_some hp
    simp only [List.mem_cons, List.not_mem_nil, or_false] at this
    have hk : ∀ n k, StandardEncoding n k → classify n none none false = .ok (some c) → k.ctype = c := by
      intro n k hk h
      rw [standard_classify hk] at h
      cases h; rfl
    rcases this with rfl | rfl | rfl | rfl | rfl | rfl | rfl | rfl | rfl | rfl
    · exact ⟨_, .i8, hk _ _ .i8 h⟩
    · exact ⟨_, .i16, hk _ _ .i16 h⟩
    · exact ⟨_, .i32, hk _ _ .i32 h⟩
    · exact ⟨_, .i64, hk _ _ .i64 h⟩
    · exact ⟨_, .u8, hk _ _ .u8 h⟩
    · exact ⟨_, .u16, hk _ _ .u16 h⟩
    · exact ⟨_, .u32, hk _ _ .u32 h⟩
    · exact ⟨_, .u64, hk _ _ .u64 h⟩
    · exact ⟨_, .float, hk _ _ .float h⟩
    · exact ⟨_, .double, hk _ _ .double h⟩
  · simp only [classify, hp] at h
    by_cases hb : n = "BOOLEAN"
    · simp [hb] at h; exact absurd h.symm h1
    · simp [hb] at h

theorem cType_bounded_real {b e : Num} {w : Int} (h : LeafSize (realType b e) w) :
    (realType b e).cType = some (if w = 32 then .float else .double) ∧ (w = 32 ∨ w = 64) := by
  rw [← leafSize_real, size_real] at h
  unfold AType.cType
  rw [asn1Type_real]
  split at h
  · cases h
  · rename_i h1
    rw [if_neg h1]
    split at h
    · rename_i h2; rw [if_pos h2]; cases h; exact ⟨rfl, .inl rfl⟩
    · rename_i h2
      rw [if_neg h2]
      split at h
      · rename_i h3; rw [if_pos h3]; cases h; exact ⟨rfl, .inr rfl⟩
      · cases h

theorem standard_sound {t : AType} (hs : SoundType t) {n : String} {k : Encoding} (hn : t.name = n)
    (h : StandardEncoding n k) : t.cType = some k.ctype := by
  have hne : n ≠ "REAL" ∧ n ≠ "INTEGER" ∧ n ≠ "BOOLEAN" ∧ n ≠ "IA5String" ∧ n ≠ "NumericString" := by
    cases h <;> decide
  have key : ((∃ e len, t = .arr e len) ∨ ∃ n, t = .plain n none none) → t.cType = some k.ctype := by
    intro h'
    unfold AType.cType
    rw [asn1Type_plain h', hn, standard_classify h]
  cases hs with
  | real => exact key (.inr ⟨_, rfl⟩)
  | realRange => exact absurd hn.symm hne.1
  | integer => exact key (.inr ⟨_, rfl⟩)
  | integerRange => exact absurd hn.symm hne.2.1
  | boolean => exact key (.inr ⟨_, rfl⟩)
  | ia5 => exact absurd hn.symm hne.2.2.2.1
  | numeric => exact absurd hn.symm hne.2.2.2.2
  | arr => exact key (.inl ⟨_, _, rfl⟩)
  | named => exact key (.inr ⟨_, rfl⟩)

theorem hasEncoding_ctype {t : AType} (hs : SoundType t) {k : Encoding} (h : HasEncoding t k) :
    t.cType = some k.ctype := by
  cases h with
  | unsigned h1 h2 => rw [cType_int _ _ h2, if_pos h1]; rfl
  | signed h1 h2 => rw [cType_int _ _ h2, if_neg (by omega)]; rfl
  | single h => rw [(cType_bounded_real h).1]; rfl
  | double h => rw [(cType_bounded_real h).1]; rfl
  | name h1 h2 => exact standard_sound hs ((usesName_iff _ _).1 h1) h2

theorem ctype_hasEncoding {t : AType} (hs : SoundType t) {c : CType} (h : t.cType = some c)
    (h1 : c ≠ .bool) (h2 : c ≠ .string) : ∃ k, HasEncoding t k ∧ k.ctype = c := by
  have key : ((∃ e len, t = .arr e len) ∨ ∃ n, t = .plain n none none) →
      ∃ k, HasEncoding t k ∧ k.ctype = c := by
    intro h'
    unfold AType.cType at h
    rw [asn1Type_plain h'] at h
    cases hc : classify t.name none none false with
    | error e => rw [hc] at h; cases h
    | ok c' =>
      rw [hc] at h
      have h : c' = some c := h
      subst h
      obtain ⟨k, hk, hk'⟩ := classify_standard hc h1
      exact ⟨k, .name ((usesName_iff _ _).2 rfl) hk, hk'⟩
  have hstr : ∀ n len, n = "IA5String" ∨ n = "NumericString" → (AType.str n len).cType = some .string := by
    intro n len hn
    rcases hn with rfl | rfl <;> rfl
  cases hs with
  | real => exact key (.inr ⟨_, rfl⟩)
  | realRange q1 q2 q3 =>
    rename_i b e
    have : ∃ w, LeafSize (realType b e) w := by
      obtain ⟨w, hw⟩ := (unresolvedSizeBits_ok (SoundType.realRange q1 q2 q3)).2 (.real q1 q2 q3)
      exact ⟨w, (leafSize_real _ _ _).1 hw⟩
    obtain ⟨w, hw⟩ := this
    obtain ⟨hc, hw'⟩ := cType_bounded_real hw
    rw [hc] at h
    rcases hw' with rfl | rfl
    · exact ⟨.single, .single hw, Option.some.inj h⟩
    · exact ⟨.double, .double hw, Option.some.inj h⟩
  | integer => exact key (.inr ⟨_, rfl⟩)
  | integerRange hbe =>
    rename_i b e
    rw [cType_int _ _ hbe] at h
    by_cases hb : 0 ≤ b
    · rw [if_pos hb] at h; exact ⟨.unsigned, .unsigned hb hbe, Option.some.inj h⟩
    · rw [if_neg hb] at h; exact ⟨.signed, .signed (by omega) hbe, Option.some.inj h⟩
  | boolean => exact key (.inr ⟨_, rfl⟩)
  | ia5 => rw [hstr _ _ (.inl rfl)] at h; exact absurd (Option.some.inj h).symm h2
  | numeric => rw [hstr _ _ (.inr rfl)] at h; exact absurd (Option.some.inj h).symm h2
  | arr => exact key (.inl ⟨_, _, rfl⟩)
  | named => exact key (.inr ⟨_, rfl⟩)

/-! ### Packing -/

theorem dist_lt_iff (q : Rat) (L : Nat) : dist 0 q < (L : Rat) ↔ q.num.natAbs < L * q.den := by
  have key : ∀ x : Rat, 0 ≤ x → (x < (L : Rat) ↔ x.num.natAbs < L * x.den) := by
    intro x hx
    have h := rat_scale hx 1
    rw [Nat.mul_one, Nat.mul_one] at h
    have hd : (0 : Rat) < (x.den : Rat) := by exact_mod_cast x.den_pos
    constructor
    · intro hlt
      have := Rat.mul_lt_mul_of_pos_right hlt hd
      rw [h] at this
      exact_mod_cast this
    · intro hlt
      refine Rat.lt_of_mul_lt_mul_right ?_ (Rat.le_of_lt hd)
      rw [h]
      exact_mod_cast hlt
  unfold dist
  split
  · rename_i hq
    rw [show q - 0 = q by grind, key q hq]
  · rename_i hq
    rw [show 0 - q = -q by grind, key (-q) (by grind)]
    rw [show (-q).num.natAbs = q.num.natAbs from Int.natAbs_neg _, show (-q).den = q.den from rfl]

/-- Packing succeeds below the middle `L` between the largest number and infinity. -/
theorem pack_flt_ok {f : FloatFmt} (hp : 2 ≤ f.prec) (he : f.infBits % 2 = 0) (hi : 0 < f.infBits) {L : Nat}
    (hlim : f.units (f.infBits - 1) + f.units f.infBits = 2 * (L * 2 ^ f.minExp)) (q : Rat) :
    (∃ b, f.pack (.flt q) = .ok b) ↔ dist 0 q < (L : Rat) := by
  have hov := overflow_iff f hp q.num.natAbs q.den q.den_pos he hi
  rw [hlim] at hov
  have hpow : 0 < 2 ^ f.minExp := Nat.two_pow_pos _
  have hov' : f.infBits ≤ f.encode q.num.natAbs q.den ↔ L * q.den ≤ q.num.natAbs := by
    rw [hov]
    generalize 2 ^ f.minExp = K at *
    rw [Nat.mul_assoc, Nat.mul_le_mul_left_iff (by omega), Nat.mul_assoc, Nat.mul_comm K q.den,
      ← Nat.mul_assoc, Nat.mul_le_mul_right_iff hpow]
  rw [dist_lt_iff]
  simp only [FloatFmt.pack]
  by_cases h : f.infBits ≤ f.encode q.num.natAbs q.den
  · rw [if_pos h]
    have := hov'.1 h
    constructor
    · rintro ⟨b, hb⟩; cases hb
    · intro h'; omega
  · rw [if_neg h]
    refine iff_of_true ⟨_, rfl⟩ ?_
    exact Nat.lt_of_not_le fun h' => h (hov'.2 h')

theorem limit32 : binary32.units (binary32.infBits - 1) + binary32.units binary32.infBits =
    2 * ((2 ^ 128 - 2 ^ 103) * 2 ^ binary32.minExp) := by decide +kernel

theorem pack32_ok (q : Rat) : (∃ b, binary32.pack (.flt q) = .ok b) ↔
    dist 0 q < ((2 ^ 128 - 2 ^ 103 : Nat) : Rat) :=
  pack_flt_ok (by decide) (by decide +kernel) (by decide +kernel) limit32 q

theorem pack64_ok (q : Rat) : (∃ b, binary64.pack (.flt q) = .ok b) ↔
    dist 0 q < ((2 ^ 1024 - 2 ^ 970 : Nat) : Rat) :=
  pack_flt_ok (by decide) (by decide +kernel) (by decide +kernel) limit64 q

/-- The double for an integer. -/
theorem intToDouble_value (i : Int) (h : binary64.encode i.natAbs 1 < binary64.infBits) :
    ∃ q, intToDouble i = .ok (.flt q) ∧
      ∀ L : Nat, dist 0 q < (L : Rat) ↔ binary64.units (binary64.encode i.natAbs 1) < L * 2 ^ binary64.minExp := by
  unfold intToDouble
  simp only
  rw [if_neg (by omega)]
  refine ⟨_, rfl, fun L => ?_⟩
  have hpow : 0 < 2 ^ binary64.minExp := Nat.two_pow_pos _
  generalize binary64.units (binary64.encode i.natAbs 1) = u
  generalize 2 ^ binary64.minExp = K at *
  have hK : (0 : Rat) < (K : Rat) := by exact_mod_cast hpow
  have hK0 : (K : Rat) ≠ 0 := fun h => by rw [h] at hK; exact absurd hK (by decide)
  have hx : (u : Rat) / (K : Rat) * (K : Rat) = (u : Rat) := Rat.div_mul_cancel hK0
  have hx0 : 0 ≤ (u : Rat) / (K : Rat) := by
    rw [Rat.div_def]
    exact Rat.mul_nonneg Rat.natCast_nonneg (Rat.le_of_lt (Rat.inv_pos.2 hK))
  generalize (u : Rat) / (K : Rat) = x at *
  have hd : dist 0 (if i < 0 then -x else x) = x := by
    have := dist_zero hx0 (decide (i < 0))
    simpa using this
  rw [hd]
  constructor
  · intro h
    have := Rat.mul_lt_mul_of_pos_right h hK
    rw [hx] at this
    exact_mod_cast this
  · intro h
    refine Rat.lt_of_mul_lt_mul_right ?_ (Rat.le_of_lt hK)
    rw [hx]
    exact_mod_cast h

theorem intToDouble_ok (i : Int) : binary64.encode i.natAbs 1 < binary64.infBits ↔
    i.natAbs < 2 ^ 1024 - 2 ^ 970 := by
  have hov := overflow_iff binary64 (by decide) i.natAbs 1 (by decide) (by decide +kernel) (by decide +kernel)
  rw [limit64] at hov
  have hpow : 0 < 2 ^ binary64.minExp := Nat.two_pow_pos _
  generalize binary64.infBits = I at *
  generalize 2 ^ binary64.minExp = K at *
  generalize 2 ^ 1024 - 2 ^ 970 = L at *
  rw [Nat.mul_one, Nat.mul_le_mul_left_iff (by omega), Nat.mul_le_mul_right_iff hpow] at hov
  omega

/-- The pattern of the double `2 ^ 128 - 2 ^ 103`. -/
def limitBits : Nat := 1150 * 2 ^ 52 + (2 ^ 24 - 1) * 2 ^ 28

theorem limitBits_units : binary64.units limitBits = (2 ^ 128 - 2 ^ 103) * 2 ^ binary64.minExp := by
  decide +kernel

theorem limitBits_middle : binary64.units (limitBits - 1) + binary64.units limitBits =
    2 * ((2 ^ 128 - 2 ^ 103 - 2 ^ 74) * 2 ^ binary64.minExp) := by decide +kernel

theorem pack32_int_ok (i : Int) : (∃ x, intToDouble i = .ok x ∧ ∃ b, binary32.pack x = .ok b) ↔
    i.natAbs < 2 ^ 128 - 2 ^ 103 - 2 ^ 74 := by
  have hge := encode_ge_iff binary64 (by decide) i.natAbs 1 (by decide) (p := limitBits) (by decide +kernel)
    (by decide +kernel)
  rw [limitBits_middle] at hge
  have hpow : 0 < 2 ^ binary64.minExp := Nat.two_pow_pos _
  have hlt : binary64.encode i.natAbs 1 < limitBits ↔ i.natAbs < 2 ^ 128 - 2 ^ 103 - 2 ^ 74 := by
    generalize binary64.encode i.natAbs 1 = E at *
    generalize limitBits = B at *
    generalize 2 ^ binary64.minExp = K at *
    generalize 2 ^ 128 - 2 ^ 103 - 2 ^ 74 = L at *
    rw [Nat.mul_one, Nat.mul_le_mul_left_iff (by omega), Nat.mul_le_mul_right_iff hpow] at hge
    omega
  rw [← hlt]
  by_cases ho : binary64.encode i.natAbs 1 < binary64.infBits
  · obtain ⟨q, h1, h2⟩ := intToDouble_value i ho
    have : (∃ x, intToDouble i = .ok x ∧ ∃ b, binary32.pack x = .ok b) ↔ ∃ b, binary32.pack (.flt q) = .ok b := by
      constructor
      · rintro ⟨x, hx, hb⟩; rw [h1] at hx; cases hx; exact hb
      · exact fun hb => ⟨_, h1, hb⟩
    rw [this, pack32_ok, h2, ← limitBits_units]
    constructor
    · intro h
      refine Nat.lt_of_not_le fun h' => ?_
      have := units_le binary64 h'
      omega
    · exact units_lt binary64
  · constructor
    · rintro ⟨x, hx, _⟩
      unfold intToDouble at hx
      simp only at hx
      rw [if_pos (by omega)] at hx
      cases hx
    · intro h
      have : limitBits < binary64.infBits := by decide +kernel
      omega

theorem largest_units : binary64.units (binary64.infBits - 1) < (2 ^ 1024 - 2 ^ 970) * 2 ^ binary64.minExp := by
  decide +kernel

theorem pack64_int_ok (i : Int) : (∃ x, intToDouble i = .ok x ∧ ∃ b, binary64.pack x = .ok b) ↔
    i.natAbs < 2 ^ 1024 - 2 ^ 970 := by
  rw [← intToDouble_ok]
  by_cases ho : binary64.encode i.natAbs 1 < binary64.infBits
  · obtain ⟨q, h1, h2⟩ := intToDouble_value i ho
    refine iff_of_true ⟨_, h1, (pack64_ok q).2 ((h2 _).2 ?_)⟩ ho
    refine Nat.lt_of_le_of_lt (units_le binary64 ?_) largest_units
    omega
  · refine iff_of_false ?_ ho
    rintro ⟨x, hx, _⟩
    unfold intToDouble at hx
    simp only at hx
    rw [if_pos (by omega)] at hx
    cases hx

theorem packInt_iff (v : Leaf) (i : Int) : packInt v = .ok i ↔ leafNum v = .int i := by
  cases v with
  | int j => simp [packInt, leafNum]
  | bool b => simp [packInt, leafNum]
  | flt x => cases x <;> simp [packInt, leafNum]

theorem bytes_cases {w : Int} (h8 : w % 8 = 0) :
    (w / 8 = 1 ∨ w / 8 = 2 ∨ w / 8 = 4 ∨ w / 8 = 8) ↔ w = 8 ∨ w = 16 ∨ w = 32 ∨ w = 64 := by omega

theorem packFloat_pack {v : Leaf} {f : FloatFmt} {L M : Nat}
    (hq : ∀ q, (∃ b, f.pack (.flt q) = .ok b) ↔ dist 0 q < (L : Rat))
    (hi : ∀ i : Int, (∃ x, intToDouble i = .ok x ∧ ∃ b, f.pack x = .ok b) ↔ i.natAbs < M) :
    (∃ x, packFloat v = .ok x ∧ ∃ b, f.pack x = .ok b) ↔
      (∃ i : Int, leafNum v = .int i ∧ i.natAbs < M) ∨ (∃ q, v = .flt (.flt q) ∧ dist 0 q < (L : Rat)) ∨
      ∃ neg, v = .flt (.inf neg) := by
  have hint : ∀ i : Int, leafNum v = .int i → ((∃ x, packFloat v = .ok x ∧ ∃ b, f.pack x = .ok b) ↔
      (∃ i : Int, leafNum v = .int i ∧ i.natAbs < M) ∨ (∃ q, v = .flt (.flt q) ∧ dist 0 q < (L : Rat)) ∨
      ∃ neg, v = .flt (.inf neg)) := by
    intro i hv
    rw [packFloat_int hv, hi, hv]
    constructor
    · exact fun h => .inl ⟨i, rfl, h⟩
    · rintro (⟨j, hj, h⟩ | ⟨q, rfl, _⟩ | ⟨neg, rfl⟩)
      · cases hj; exact h
      · cases hv
      · cases hv
  cases v with
  | int j => exact hint j rfl
  | bool b => exact hint _ rfl
  | flt x =>
    cases x with
    | int j => exact hint j rfl
    | flt q =>
      simp only [packFloat, Except.ok.injEq, leafNum, reduceCtorEq, false_and, exists_false, false_or, or_false,
        Leaf.flt.injEq, Num.flt.injEq]
      constructor
      · rintro ⟨x, rfl, h⟩; exact ⟨q, rfl, (hq q).1 h⟩
      · rintro ⟨q, rfl, h⟩; exact ⟨_, rfl, (hq _).2 h⟩
    | inf neg =>
      refine iff_of_true ⟨_, rfl, _, rfl⟩ (.inr (.inr ⟨_, rfl⟩))

theorem packBE_iff (k : Encoding) (w : Int) (v : Leaf) :
    (w % 8 = 0 ∧ ∃ bs, packBE k.ctype (w / 8) v = .ok bs) ↔ Holds k w v := by
  have hpow : ∀ n : Nat, n ∈ [8, 16, 32, 64] → ((n : Int) / 8).toNat * 8 = n := by
    intro n hn
    simp only [List.mem_cons, List.not_mem_nil, or_false] at hn
    omega
  cases k with
  | unsigned =>
    constructor
    · rintro ⟨h8, bs, h⟩
      simp only [Encoding.ctype, packBE] at h
      split at h
      · rename_i hw
        rw [bytes_cases h8] at hw
        simp only [bind_ok] at h
        obtain ⟨i, hi, h⟩ := h
        split at h
        · rename_i hr
          rw [packInt_iff] at hi
          obtain ⟨n, rfl⟩ : ∃ n : Nat, w = n := ⟨w.toNat, by omega⟩
          refine .unsigned (by simp only [List.mem_cons, List.not_mem_nil, or_false]; omega) hi ⟨hr.1, ?_⟩
          have := hr.2
          rwa [show 8 * ((n : Int) / 8).toNat = n by omega] at this
        · cases h
      · cases h
    · rintro ⟨hw, hi, hr⟩
      rename_i n i
      have hw' := hw
      simp only [List.mem_cons, List.not_mem_nil, or_false] at hw
      refine ⟨by omega, ?_⟩
      simp only [Encoding.ctype, packBE]
      rw [if_pos (by omega), (packInt_iff _ _).2 hi]
      simp only [bind, Except.bind]
      rw [if_pos]
      · exact ⟨_, rfl⟩
      · rw [show 8 * ((n : Int) / 8).toNat = n by omega]
        exact hr
  | signed =>
    constructor
    · rintro ⟨h8, bs, h⟩
      simp only [Encoding.ctype, packBE] at h
      split at h
      · rename_i hw
        rw [bytes_cases h8] at hw
        simp only [bind_ok] at h
        obtain ⟨i, hi, h⟩ := h
        split at h
        · rename_i hr
          rw [packInt_iff] at hi
          obtain ⟨n, rfl⟩ : ∃ n : Nat, w = n := ⟨w.toNat, by omega⟩
          refine .signed (by simp only [List.mem_cons, List.not_mem_nil, or_false]; omega) hi ?_
          rwa [show 8 * ((n : Int) / 8).toNat = n by omega] at hr
        · cases h
      · cases h
    · intro h
      cases h with
      | signed hw hi hr =>
      rename_i n i
      have hw' := hw
      simp only [List.mem_cons, List.not_mem_nil, or_false] at hw
      refine ⟨by omega, ?_⟩
      simp only [Encoding.ctype, packBE]
      rw [if_pos (by omega), (packInt_iff _ _).2 hi]
      simp only [bind, Except.bind]
      rw [if_pos]
      · exact ⟨_, rfl⟩
      · rw [show 8 * ((n : Int) / 8).toNat = n by omega]
        exact hr
  | single =>
    have hf := packFloat_pack (v := v) pack32_ok pack32_int_ok
    constructor
    · rintro ⟨h8, bs, h⟩
      simp only [Encoding.ctype, packBE] at h
      split at h
      · simp only [bind_ok] at h
        obtain ⟨x, hx, b, hb, _⟩ := h
        obtain rfl : w = 32 := by omega
        rcases hf.1 ⟨x, hx, b, hb⟩ with ⟨i, h1, h2⟩ | ⟨q, rfl, h2⟩ | ⟨neg, rfl⟩
        · exact .singleInt h1 h2
        · exact .single h2
        · exact .singleInf
      · cases h
    · intro h
      have hh : w = 32 ∧ ∃ x, packFloat v = .ok x ∧ ∃ b, binary32.pack x = .ok b := by
        rw [hf]
        cases h with
        | singleInt h1 h2 => exact ⟨rfl, .inl ⟨_, h1, h2⟩⟩
        | single h => exact ⟨rfl, .inr (.inl ⟨_, rfl, h⟩)⟩
        | singleInf => exact ⟨rfl, .inr (.inr ⟨_, rfl⟩)⟩
      obtain ⟨rfl, x, hx, b, hb⟩ := hh
      refine ⟨by decide, bytesBE 4 b, ?_⟩
      simp only [Encoding.ctype, packBE]
      rw [if_pos (by decide), hx]
      simp only [bind, Except.bind, hb]
  | double =>
    have hf := packFloat_pack (v := v) pack64_ok pack64_int_ok
    constructor
    · rintro ⟨h8, bs, h⟩
      simp only [Encoding.ctype, packBE] at h
      split at h
      · simp only [bind_ok] at h
        obtain ⟨x, hx, b, hb, _⟩ := h
        obtain rfl : w = 64 := by omega
        rcases hf.1 ⟨x, hx, b, hb⟩ with ⟨i, h1, h2⟩ | ⟨q, rfl, h2⟩ | ⟨neg, rfl⟩
        · exact .doubleInt h1 h2
        · exact .double h2
        · exact .doubleInf
      · cases h
    · intro h
      have hh : w = 64 ∧ ∃ x, packFloat v = .ok x ∧ ∃ b, binary64.pack x = .ok b := by
        rw [hf]
        cases h with
        | doubleInt h1 h2 => exact ⟨rfl, .inl ⟨_, h1, h2⟩⟩
        | double h => exact ⟨rfl, .inr (.inl ⟨_, rfl, h⟩)⟩
        | doubleInf => exact ⟨rfl, .inr (.inr ⟨_, rfl⟩)⟩
      obtain ⟨rfl, x, hx, b, hb⟩ := hh
      refine ⟨by decide, bytesBE 8 b, ?_⟩
      simp only [Encoding.ctype, packBE]
      rw [if_pos (by decide), hx]
      simp only [bind, Except.bind, hb]

theorem structPack_ok (en : Endian) (c : CType) (size : Int) (v : Leaf) :
    (∃ bs, structPack (some en) c size v = .ok bs) ↔ ∃ bs, packBE c size v = .ok bs := by
  cases en with
  | big => rfl
  | little =>
    simp only [structPack]
    cases packBE c size v with
    | error e => simp [bind, Except.bind]
    | ok b => simp [bind, Except.bind]

theorem ctype_ne (k : Encoding) : k.ctype ≠ .bool ∧ k.ctype ≠ .string := by
  cases k <;> simp [Encoding.ctype]

/-- A value can be written exactly when it fits. -/
theorem leafBytes_iff {ds : List Def} (he : SizeEnv ds) {m : Member} (hs : SoundType m.type) {w : Int}
    (hw : Bits ds [m.type] w) (en : Endian) (v : Leaf) :
    (∃ bs, leafBytes (some en) ⟨m.type.cType, w, m.type.name⟩ v = .ok bs) ↔ Fits ds m.type v := by
  constructor
  · rintro ⟨bs, h⟩
    unfold leafBytes at h
    simp only at h
    cases hc : m.type.cType with
    | none => rw [hc] at h; cases h
    | some c =>
      rw [hc] at h
      simp only [bind_ok] at h
      obtain ⟨size, hsz, h⟩ := h
      split at h
      · cases h
      · rename_i hcc
        obtain ⟨k, hk, rfl⟩ := ctype_hasEncoding hs hc (fun h => hcc (.inl h)) (fun h => hcc (.inr h))
        unfold bitToBytes at hsz
        split at hsz
        · cases hsz
        · rename_i h8
          cases hsz
          refine ⟨k, w, hk, hw, (packBE_iff k w v).1 ⟨by omega, ?_⟩⟩
          exact (structPack_ok en _ _ _).1 ⟨_, h⟩
  · rintro ⟨k, w', hk, hw', hh⟩
    obtain rfl := bits_unique he hs hw hw'
    obtain ⟨h8, bs, hb⟩ := (packBE_iff k w v).2 hh
    obtain ⟨bs', hb'⟩ := (structPack_ok en _ _ _).2 ⟨bs, hb⟩
    refine ⟨bs', ?_⟩
    unfold leafBytes
    simp only
    rw [hasEncoding_ctype hs hk]
    simp only [bitToBytes, if_neg (show ¬ (w % 8 ≠ 0) by omega), bind, Except.bind]
    rw [if_neg (by have := ctype_ne k; simp [this])]
    exact hb'

/-! ### Clauses -/

theorem lastVal_unique {α : Type} {l : List (String × α)} (hn : (l.map (·.1)).Nodup) {k : String} {v : α}
    (h : (k, v) ∈ l) : lastVal l k = some v := by
  have hs : ∃ w, lastVal l k = some w := by
    clear hn
    induction l with
    | nil => cases h
    | cons x l ih =>
      obtain ⟨k', w⟩ := x
      simp only [lastVal]
      cases hl : lastVal l k with
      | some r => exact ⟨r, rfl⟩
      | none =>
        rcases List.mem_cons.1 h with h | h
        · cases h; exact ⟨v, by simp⟩
        · obtain ⟨w, hw⟩ := ih h
          rw [hl] at hw; cases hw
  obtain ⟨w, hw⟩ := hs
  have h' := lastVal_mem hw
  have := mem_unique_of_nodup_map hn h h' rfl
  cases this
  exact hw

theorem binMembers_iff {ds : List Def} {fuel : Nat} {ms : List Member} :
    (∃ l, binMembers ds fuel ms = .ok l) ↔
      ∀ k ∈ ms, k.comps = none → ∃ w, sizeMember ds fuel k = .ok w := by
  induction ms with
  | nil => simp [binMembers]
  | cons m ms ih =>
    unfold binMembers
    cases hc : m.comps with
    | some cs =>
      simp only
      rw [ih]
      constructor
      · intro h k hk hk'
        rcases List.mem_cons.1 hk with rfl | hk
        · rw [hc] at hk'; cases hk'
        · exact h k hk hk'
      · exact fun h k hk => h k (List.mem_cons_of_mem _ hk)
    | none =>
      simp only [bind_ok]
      constructor
      · rintro ⟨l, size, h1, r, h2, _⟩ k hk hk'
        rcases List.mem_cons.1 hk with rfl | hk
        · exact ⟨size, h1⟩
        · exact ih.1 ⟨r, h2⟩ k hk hk'
      · intro h
        obtain ⟨w, hw⟩ := h m (List.mem_cons_self ..) hc
        obtain ⟨r, hr⟩ := ih.2 fun k hk => h k (List.mem_cons_of_mem _ hk)
        exact ⟨_, w, hw, r, hr, rfl⟩

theorem binMembers_entry {ds : List Def} {fuel : Nat} {ms : List Member} {l : List (String × BinSpec)}
    (h : binMembers ds fuel ms = .ok l) : (l.map (·.1)).Sublist (ms.map (·.key)) ∧
      ∀ k ∈ ms, k.comps = none → ∃ w, sizeMember ds fuel k = .ok w ∧
        (k.key, ⟨k.type.cType, w, k.type.name⟩) ∈ l := by
  induction ms generalizing l with
  | nil => simp only [binMembers, Except.ok.injEq] at h; subst h; simp
  | cons m ms ih =>
    unfold binMembers at h
    split at h
    · rename_i cs hc
      obtain ⟨h1, h2⟩ := ih h
      refine ⟨h1.cons _, fun k hk hk' => ?_⟩
      rcases List.mem_cons.1 hk with rfl | hk
      · rw [hc] at hk'; cases hk'
      · exact h2 k hk hk'
    · simp only [bind_ok, Except.ok.injEq] at h
      obtain ⟨size, h1, r, h2, rfl⟩ := h
      obtain ⟨h3, h4⟩ := ih h2
      refine ⟨h3.cons_cons _, fun k hk hk' => ?_⟩
      rcases List.mem_cons.1 hk with rfl | hk
      · exact ⟨size, h1, List.mem_cons_self ..⟩
      · obtain ⟨w, q1, q2⟩ := h4 k hk hk'
        exact ⟨w, q1, List.mem_cons_of_mem _ q2⟩

theorem binDefs_iff {ds : List Def} {fuel : Nat} {own : List Def} :
    (∃ l, binDefs ds fuel own = .ok l) ↔
      ∀ n c ms, Def.seq n c ms ∈ own → ∀ k ∈ ms, k.comps = none → ∃ w, sizeMember ds fuel k = .ok w := by
  induction own with
  | nil => simp [binDefs]
  | cons d own ih =>
    have other : (∀ n c ms, d ≠ .seq n c ms) → ((∃ l, binDefs ds fuel own = .ok l) ↔
        ∀ n c ms, Def.seq n c ms ∈ d :: own → ∀ k ∈ ms, k.comps = none →
          ∃ w, sizeMember ds fuel k = .ok w) := by
      intro hd
      rw [ih]
      constructor
      · intro h n c ms hm
        rcases List.mem_cons.1 hm with h' | hm
        · exact absurd h'.symm (hd _ _ _)
        · exact h n c ms hm
      · exact fun h n c ms hm => h n c ms (List.mem_cons_of_mem _ hm)
    cases d with
    | seq n c ms =>
      simp only [binDefs, bind_ok]
      constructor
      · rintro ⟨l, s, h1, r, h2, _⟩ n' c' ms' hm
        rcases List.mem_cons.1 hm with h' | hm
        · cases h'; exact binMembers_iff.1 ⟨s, h1⟩
        · exact ih.1 ⟨r, h2⟩ n' c' ms' hm
      · intro h
        obtain ⟨s, hs⟩ := binMembers_iff.2 (h n c ms (List.mem_cons_self ..))
        obtain ⟨r, hr⟩ := ih.2 fun n c ms hm => h n c ms (List.mem_cons_of_mem _ hm)
        exact ⟨_, s, hs, r, hr, rfl⟩
    | choice n c ms => simp only [binDefs]; exact other (by simp)
    | enum n c its => simp only [binDefs]; exact other (by simp)
    | simple n c t => simp only [binDefs]; exact other (by simp)

theorem binDefs_entry {ds : List Def} {fuel : Nat} {own : List Def}
    {defs : List (String × List (String × BinSpec))} (h : binDefs ds fuel own = .ok defs) :
    (defs.map (·.1)).Sublist (own.map Def.name) ∧
      ∀ n c ms, Def.seq n c ms ∈ own → ∃ l, binMembers ds fuel ms = .ok l ∧ (n, l) ∈ defs := by
  induction own generalizing defs with
  | nil => simp only [binDefs, Except.ok.injEq] at h; subst h; simp
  | cons d own ih =>
    have other : (∀ n c ms, d ≠ .seq n c ms) → binDefs ds fuel own = .ok defs →
        (defs.map (·.1)).Sublist ((d :: own).map Def.name) ∧
        ∀ n c ms, Def.seq n c ms ∈ d :: own → ∃ l, binMembers ds fuel ms = .ok l ∧ (n, l) ∈ defs := by
      intro hd h
      obtain ⟨h1, h2⟩ := ih h
      refine ⟨h1.cons _, fun n c ms hm => ?_⟩
      rcases List.mem_cons.1 hm with h' | hm
      · exact absurd h'.symm (hd _ _ _)
      · exact h2 n c ms hm
    cases d with
    | seq n c ms =>
      simp only [binDefs, bind_ok, Except.ok.injEq] at h
      obtain ⟨s, h1, r, h2, rfl⟩ := h
      obtain ⟨h3, h4⟩ := ih h2
      refine ⟨h3.cons_cons _, fun n' c' ms' hm => ?_⟩
      rcases List.mem_cons.1 hm with h' | hm
      · cases h'; exact ⟨s, h1, List.mem_cons_self ..⟩
      · obtain ⟨l, q1, q2⟩ := h4 n' c' ms' hm
        exact ⟨l, q1, List.mem_cons_of_mem _ q2⟩
    | choice n c ms => exact other (by simp) h
    | enum n c its => exact other (by simp) h
    | simple n c t => exact other (by simp) h

theorem lastVal_none_of {α : Type} {l : List (String × α)} {k : String} {v : α} (h : lastVal l k = none) :
    (k, v) ∉ l := by
  induction l with
  | nil => simp
  | cons x l ih =>
    obtain ⟨k', w⟩ := x
    simp only [lastVal] at h
    cases hl : lastVal l k with
    | some r => rw [hl] at h; cases h
    | none =>
      rw [hl] at h
      intro hm
      rcases List.mem_cons.1 hm with e | hm
      · cases e; simp at h
      · exact ih hl hm

/-- The entry of a key is that of the last member with the key that has no clause. -/
theorem binMembers_last {ds : List Def} {fuel : Nat} {ms : List Member} {l : List (String × BinSpec)}
    (h : binMembers ds fuel ms = .ok l) {k : String} {s : BinSpec} :
    lastVal l k = some s ↔ ∃ m, LastPlain ms m ∧ m.key = k ∧ s.ctype = m.type.cType ∧
      s.typeName = m.type.name ∧ sizeMember ds fuel m = .ok s.bits := by
  induction ms generalizing l with
  | nil =>
    simp only [binMembers, Except.ok.injEq] at h
    subst h
    refine iff_of_false (by simp [lastVal]) ?_
    rintro ⟨m, ⟨_, pre, post, he, _⟩, _⟩
    cases pre <;> cases he
  | cons x ms ih =>
    have later : ∀ {m : Member}, LastPlain ms m → LastPlain (x :: ms) m := by
      rintro m ⟨h1, pre, post, rfl, h2⟩
      exact ⟨h1, x :: pre, post, rfl, h2⟩
    have inv : ∀ {m : Member}, LastPlain (x :: ms) m →
        LastPlain ms m ∨ m = x ∧ ∀ k ∈ ms, k.comps = none → k.key ≠ x.key := by
      rintro m ⟨h1, pre, post, he, h2⟩
      cases pre with
      | nil =>
        cases he
        exact .inr ⟨rfl, h2⟩
      | cons y pre =>
        cases he
        exact .inl ⟨h1, pre, post, rfl, h2⟩
    unfold binMembers at h
    split at h
    · rename_i cs hc
      rw [ih h]
      constructor
      · rintro ⟨m, h1, h2⟩
        exact ⟨m, later h1, h2⟩
      · rintro ⟨m, h1, h2⟩
        rcases inv h1 with h3 | ⟨rfl, _⟩
        · exact ⟨m, h3, h2⟩
        · rw [h1.1] at hc; cases hc
    · rename_i hc
      simp only [bind_ok, Except.ok.injEq] at h
      obtain ⟨size, h1, r, h2, rfl⟩ := h
      have ih := ih h2
      cases hl : lastVal r k with
      | some s' =>
        simp only [lastVal, hl]
        rw [← hl, ih]
        constructor
        · rintro ⟨m, h1, h2⟩
          exact ⟨m, later h1, h2⟩
        · rintro ⟨m, k1, k2, k3⟩
          rcases inv k1 with h3 | ⟨rfl, h3⟩
          · exact ⟨m, h3, k2, k3⟩
          · obtain ⟨m', hm', hk', hc'⟩ := binMembers_mem h2 (lastVal_mem hl)
            exact absurd (hc'.1.symm.trans k2.symm) (h3 m' hm' hk')
      | none =>
        simp only [lastVal, hl]
        have hno : ∀ m ∈ ms, m.comps = none → m.key ≠ k := by
          intro m hm hc' hk'
          obtain ⟨w, _, hw⟩ := (binMembers_entry h2).2 m hm hc'
          rw [hk'] at hw
          exact lastVal_none_of hl hw
        by_cases hxk : x.key = k
        · simp only [hxk, if_pos, Option.some.injEq]
          constructor
          · rintro rfl
            exact ⟨x, ⟨hc, [], ms, rfl, fun m hm hc' => hxk ▸ hno m hm hc'⟩, hxk, rfl, rfl, h1⟩
          · rintro ⟨m, k1, k2, k3, k4, k5⟩
            rcases inv k1 with h3 | ⟨rfl, h3⟩
            · obtain ⟨q1, pre, post, rfl, _⟩ := h3
              exact absurd k2 (hno m (by simp) q1)
            · rw [h1] at k5
              cases s
              simp only [Except.ok.injEq] at k3 k4 k5
              subst k3 k4 k5
              rfl
        · simp only [hxk, if_false]
          refine iff_of_false (by simp) ?_
          rintro ⟨m, k1, k2, k3, k4, k5⟩
          rcases inv k1 with h3 | ⟨rfl, h3⟩
          · obtain ⟨q1, pre, post, rfl, _⟩ := h3
            exact absurd k2 (hno m (by simp) q1)
          · exact hxk k2

theorem binLookup_iff {ds : List Def} {fuel : Nat} {own : List Def} (hn : (own.map Def.name).Nodup)
    {defs : List (String × List (String × BinSpec))} (h : binDefs ds fuel own = .ok defs)
    {n k : String} {s : BinSpec} :
    binLookup defs n k = .ok s ↔ ∃ ms m, IsSequence own n ms ∧ LastPlain ms m ∧ m.key = k ∧
      s.ctype = m.type.cType ∧ s.typeName = m.type.name ∧ sizeMember ds fuel m = .ok s.bits := by
  constructor
  · intro hs
    unfold binLookup at hs
    split at hs
    · cases hs
    · rename_i ms' h1
      split at hs
      · cases hs
      · rename_i s' h2
        simp only [Except.ok.injEq] at hs
        subst hs
        obtain ⟨c, ms, h3, h4⟩ := binDefs_mem h (lastVal_mem h1)
        obtain ⟨m, h5⟩ := (binMembers_last h4).1 h2
        exact ⟨ms, m, ⟨c, h3⟩, h5⟩
  · rintro ⟨ms, m, ⟨c, hd⟩, hm⟩
    obtain ⟨h1, h2⟩ := binDefs_entry h
    obtain ⟨l, h3, h4⟩ := h2 n c ms hd
    unfold binLookup
    rw [lastVal_unique (h1.nodup hn) h4]
    simp only
    rw [(binMembers_last h3).2 ⟨m, hm⟩]

theorem lastPlain_mem {ms : List Member} {m : Member} (h : LastPlain ms m) : m ∈ ms := by
  obtain ⟨_, pre, post, rfl, _⟩ := h
  simp

theorem binLookup_size {ds : List Def} {fuel : Nat} {own : List Def}
    {defs : List (String × List (String × BinSpec))} (h : binDefs ds fuel own = .ok defs)
    {n : String} {ms : List Member} (hseq : IsSequence own n ms) {m : Member} (hm : LastPlain ms m) :
    ∃ w, sizeMember ds fuel m = .ok w := by
  obtain ⟨c, hd⟩ := hseq
  exact binDefs_iff.1 ⟨_, h⟩ n c ms hd m (lastPlain_mem hm) hm.1

/-- A clause can be written exactly when the specification says so. -/
theorem compBytes_iff {ds own : List Def} (he : SizeEnv ds) (hsub : ∀ d ∈ own, d ∈ ds)
    (hn : (own.map Def.name).Nodup) {fuel : Nat}
    {defs : List (String × List (String × BinSpec))} (h : binDefs ds fuel own = .ok defs) (en : Endian)
    (cs : Comps) : ∀ n, (∃ bs, compBytes defs (some en) n cs = .ok bs) ↔ Writable ds own n cs := by
  have hsound : ∀ {n ms m}, IsSequence own n ms → LastPlain ms m → SoundType m.type := by
    rintro n ms m ⟨c, hd⟩ hm
    exact he.seqs _ _ _ (hsub _ hd) m (lastPlain_mem hm)
  induction cs with
  | nil => exact fun n => iff_of_true ⟨_, rfl⟩ .nil
  | leaf k v rest ih =>
    intro n
    simp only [compBytes, bind_ok]
    constructor
    · rintro ⟨bs, s, h1, b, h2, r, h3, _⟩
      obtain ⟨ms, m, q1, q2, rfl, q4, q5, q6⟩ := (binLookup_iff hn h).1 h1
      refine .leaf q1 q2 ?_ ((ih n).1 ⟨r, h3⟩)
      refine (leafBytes_iff he (hsound q1 q2) (sizeMember_sound he (hsound q1 q2) q6) en v).1 ⟨b, ?_⟩
      rw [← h2]
      cases s
      simp only at q4 q5
      rw [q4, q5]
    · intro hw
      generalize hcs : Comps.leaf k v rest = cs at hw
      cases hw with
      | nil => cases hcs
      | node => cases hcs
      | leaf q1 q2 q4 q5 =>
        cases hcs
        obtain ⟨w, hw⟩ := binLookup_size h q1 q2
        have hl := (binLookup_iff hn h (s := ⟨_, w, _⟩)).2 ⟨_, _, q1, q2, rfl, rfl, rfl, hw⟩
        obtain ⟨b, hb⟩ := (leafBytes_iff he (hsound q1 q2) (sizeMember_sound he (hsound q1 q2) hw) en v).2 q4
        obtain ⟨r, hr⟩ := (ih n).2 q5
        exact ⟨_, _, hl, b, hb, r, hr, rfl⟩
  | node k c rest ihc ih =>
    intro n
    simp only [compBytes, bind_ok]
    constructor
    · rintro ⟨bs, s, h1, b, h2, r, h3, _⟩
      obtain ⟨ms, m, q1, q2, rfl, q4, q5, q6⟩ := (binLookup_iff hn h).1 h1
      refine .node q1 q2 ((usesName_iff _ _).2 q5.symm) ((ihc _).1 ⟨b, h2⟩) ((ih n).1 ⟨r, h3⟩)
    · intro hw
      generalize hcs : Comps.node k c rest = cs at hw
      cases hw with
      | nil => cases hcs
      | leaf => cases hcs
      | node q1 q2 q4 q5 q6 =>
        cases hcs
        obtain ⟨w, hw⟩ := binLookup_size h q1 q2
        have hl := (binLookup_iff hn h (s := ⟨_, w, _⟩)).2 ⟨_, _, q1, q2, rfl, rfl, rfl, hw⟩
        rw [usesName_iff] at q4
        subst q4
        obtain ⟨b, hb⟩ := (ihc _).2 q5
        obtain ⟨r, hr⟩ := (ih n).2 q6
        exact ⟨_, _, hl, b, hb, r, hr, rfl⟩

theorem binPart_iff {ds : List Def} {mod : Module} (he : SizeEnv ds) (hsub : ∀ d ∈ mod.defs, d ∈ ds)
    (hn : (mod.defs.map Def.name).Nodup) {fuel : Nat} (en : Endian)
    (name : Text) (m : Member) :
    (∃ e, memberPart (binHandler ds fuel (some en)) name mod m = .ok e) ↔
      ∀ cs, m.comps = some cs →
        (∀ n c ms, Def.seq n c ms ∈ mod.defs → ∀ k ∈ ms, k.comps = none →
          ∃ w, sizeMember ds fuel k = .ok w) ∧
        Writable ds mod.defs m.type.name cs := by
  unfold memberPart
  cases hc : m.comps with
  | none => exact iff_of_true ⟨_, rfl⟩ (by intro cs h; cases h)
  | some cs =>
    simp only [binHandler, hc, Option.some.injEq, forall_eq', bind_ok, Except.ok.injEq]
    rw [← binDefs_iff]
    constructor
    · rintro ⟨e, defs, h1, bs, h2, _⟩
      exact ⟨⟨defs, h1⟩, (compBytes_iff he hsub hn h1 en cs _).1 ⟨bs, h2⟩⟩
    · rintro ⟨⟨defs, h1⟩, h2⟩
      obtain ⟨bs, hbs⟩ := (compBytes_iff he hsub hn h1 en cs _).2 h2
      exact ⟨_, defs, h1, bs, hbs, rfl⟩

/-- Without a byte order no clause can be written. -/
theorem compBytes_none (defs : List (String × List (String × BinSpec))) (cs : Comps) :
    cs ≠ .nil → GrammarComps cs → ∀ n bs, compBytes defs none n cs ≠ .ok bs := by
  induction cs with
  | nil => exact fun h => absurd rfl h
  | leaf k v rest ih =>
    intro _ _ n bs h
    simp only [compBytes, bind_ok] at h
    obtain ⟨s, _, b, h2, _⟩ := h
    unfold leafBytes at h2
    split at h2
    · cases h2
    · simp only [bind_ok] at h2
      obtain ⟨size, _, h2⟩ := h2
      split at h2
      · cases h2
      · cases h2
  | node k c rest ihc ih =>
    intro _ hg n bs h
    simp only [compBytes, bind_ok] at h
    obtain ⟨s, _, b, h2, _⟩ := h
    exact ihc hg.2.1.1 hg.2.1.2 _ _ h2

theorem binPart_none {ds : List Def} {fuel : Nat} {name : Text} {mod : Module} {m : Member}
    (hg : GrammarMember m) {e : CData} (h : memberPart (binHandler ds fuel none) name mod m = .ok e) :
    m.comps = none := by
  unfold memberPart at h
  cases hc : m.comps with
  | none => rfl
  | some cs =>
    simp only [hc, binHandler, bind_ok] at h
    obtain ⟨defs, _, bs, h2, _⟩ := h
    exact absurd h2 (compBytes_none defs cs (hg.2.2 cs hc).1 (hg.2.2 cs hc).2 _ _)

/-! ### The same definitions -/

/-- Definitions that differ at most in the items of enumerations. -/
structure Alike (ds ds' : List Def) : Prop where
  names : ∀ d ∈ ds', ∃ d0 ∈ ds, d0.name = d.name
  seqs : ∀ n c l, Def.seq n c l ∈ ds → Def.seq n c l ∈ ds'
  simples : ∀ n c t, Def.simple n c t ∈ ds → Def.simple n c t ∈ ds'
  enums : ∀ n c its, Def.enum n c its ∈ ds → ∃ its', Def.enum n c its' ∈ ds' ∧ its'.length = its.length

theorem Alike.bits {ds ds' : List Def} (h : Alike ds ds') {ts : List AType} {v : Int} (hb : Bits ds ts v) :
    Bits ds' ts v := by
  induction hb with
  | nil => exact .nil
  | own h1 h2 _ ih =>
    refine .own (fun n lo hi e d hd he => ?_) h2 ih
    obtain ⟨d0, hd0, e0⟩ := h.names d hd
    exact h1 n lo hi e d0 hd0 (e0.trans he)
  | simple h1 h2 _ ih => exact .simple (h.simples _ _ _ h1) h2 ih
  | enum w h1 h2 h3 _ ih =>
    obtain ⟨its', q1, q2⟩ := h.enums _ _ _ h1
    exact .enum w q1 (by rw [q2]; exact h2) (by rw [q2]; exact h3) ih
  | seq h1 _ _ ih1 ih2 => exact .seq (h.seqs _ _ _ h1) ih1 ih2

theorem Alike.writable {ds ds' own own' : List Def} (h : Alike ds ds') (ho : Alike own own') {n : String}
    {cs : Comps} (hw : Writable ds own n cs) : Writable ds' own' n cs := by
  induction hw with
  | nil => exact .nil
  | leaf h1 h2 h4 _ ih =>
    obtain ⟨c, h1⟩ := h1
    obtain ⟨k, w, q1, q2, q3⟩ := h4
    exact .leaf ⟨c, ho.seqs _ _ _ h1⟩ h2 ⟨k, w, q1, h.bits q2, q3⟩ ih
  | node h1 h2 h4 _ _ ih1 ih2 =>
    obtain ⟨c, h1⟩ := h1
    exact .node ⟨c, ho.seqs _ _ _ h1⟩ h2 h4 ih1 ih2

theorem GeneratableBinary.alike {ms ms' : List Module} (hg : Generatable ms')
    (h : Alike (defsOf ms) (defsOf ms')) (hm : ∀ m' ∈ ms', ∃ m ∈ ms, Alike m.defs m'.defs ∧ Alike m'.defs m.defs)
    (hgen : GeneratableBinary ms) : GeneratableBinary ms' where
  toGeneratable := hg
  sizes := by
    rintro m' hm' ⟨n0, c0, l0, hd0, k0, hk0, hk0'⟩ n c l hd k hk hc
    obtain ⟨m, hmm, _, a2⟩ := hm m' hm'
    obtain ⟨w, hw⟩ := hgen.sizes m hmm ⟨n0, c0, l0, a2.seqs _ _ _ hd0, k0, hk0, hk0'⟩ n c l
      (a2.seqs _ _ _ hd) k hk hc
    exact ⟨w, h.bits hw⟩
  clauses := by
    intro m' hm' n c l hd k hk cs hcs t ht
    obtain ⟨m, hmm, a1, a2⟩ := hm m' hm'
    exact h.writable a1 (hgen.clauses m hmm n c l (a2.seqs _ _ _ hd) k hk cs hcs t ht)

theorem processed_alike {ds ds' : List Def} (h : All2 (fun d d' => processDef d = .ok d') ds ds') :
    Alike ds ds' ∧ Alike ds' ds := by
  have hinv : ∀ {d d'}, processDef d = .ok d' →
      (∀ n c l, d' = .seq n c l → d = .seq n c l) ∧ (∀ n c t, d' = .simple n c t → d = .simple n c t) ∧
      (∀ n c its', d' = .enum n c its' → ∃ its, d = .enum n c its ∧ its'.length = its.length) := by
    intro d d' hp
    obtain ⟨_, _, _, _, p5, p6, p7, p8⟩ := processDef_ok hp
    cases d with
    | seq n c l => cases p6 _ _ _ rfl; simp
    | choice n c l => cases p7 _ _ _ rfl; simp
    | simple n c t => cases (p5 _ _ _ rfl).1; simp
    | enum n c its =>
      obtain ⟨slots, hs, rfl⟩ := p8 _ _ _ rfl
      obtain ⟨items', rfl, k1, k2⟩ := C05_numbered its slots hs
      refine ⟨by simp, by simp, ?_⟩
      intro n' c' its' e
      cases e
      refine ⟨its, rfl, ?_⟩
      have hl : items'.length = its.length := by simpa using k2.length_eq
      simpa using hl
  constructor
  · refine ⟨fun d' hd' => ?_, fun n c l hd => ?_, fun n c t hd => ?_, fun n c its hd => ?_⟩
    · obtain ⟨d, hd, hp⟩ := all2_mem_right h hd'; exact ⟨d, hd, (processDef_ok hp).1.symm⟩
    · obtain ⟨d', hd', hp⟩ := all2_mem_left h hd
      rw [(processDef_ok hp).2.2.2.2.2.1 n c l rfl] at hd'; exact hd'
    · obtain ⟨d', hd', hp⟩ := all2_mem_left h hd
      rw [((processDef_ok hp).2.2.2.2.1 n c t rfl).1] at hd'; exact hd'
    · obtain ⟨d', hd', hp⟩ := all2_mem_left h hd
      obtain ⟨slots, hs, rfl⟩ := (processDef_ok hp).2.2.2.2.2.2.2 _ _ _ rfl
      obtain ⟨its0, e, hl⟩ := (hinv hp).2.2 _ _ _ rfl
      cases e
      exact ⟨_, hd', hl⟩
  · refine ⟨fun d hd => ?_, fun n c l hd => ?_, fun n c t hd => ?_, fun n c its hd => ?_⟩
    · obtain ⟨d', hd', hp⟩ := all2_mem_left h hd; exact ⟨d', hd', (processDef_ok hp).1⟩
    · obtain ⟨d, hd', hp⟩ := all2_mem_right h hd
      rw [← (hinv hp).1 n c l rfl]; exact hd'
    · obtain ⟨d, hd', hp⟩ := all2_mem_right h hd
      rw [← (hinv hp).2.1 n c t rfl]; exact hd'
    · obtain ⟨d, hd', hp⟩ := all2_mem_right h hd
      obtain ⟨its0, rfl, hl⟩ := (hinv hp).2.2 n c its rfl
      exact ⟨_, hd', hl.symm⟩

theorem processedModules_alike {ms ms' : List Module} (h : processModules ms = .ok ms') :
    (Alike (defsOf ms) (defsOf ms') ∧ Alike (defsOf ms') (defsOf ms)) ∧
      All2 (fun m m' => Alike m.defs m'.defs ∧ Alike m'.defs m.defs) ms ms' := by
  have h1 := processModules_ok.1 h
  have h2 : All2 (fun m m' : Module => All2 (fun d d' => processDef d = .ok d') m.defs m'.defs) ms ms' :=
    h1.imp fun m m' hp => by
      obtain ⟨_, _, ds, hds, rfl, _⟩ := processModule_ok.1 hp
      exact processDefs_ok.1 hds
  refine ⟨processed_alike ?_, h2.imp fun m m' hp => processed_alike hp⟩
  clear h h1
  induction h2 with
  | nil => exact .nil
  | cons h _ ih => exact all2_append h ih

/-! ### Fuel -/

theorem uniform {α : Type} {l : List α} {P : α → Nat → Prop} (h : ∀ x ∈ l, ∃ N, ∀ fuel, N ≤ fuel → P x fuel) :
    ∃ N, ∀ fuel, N ≤ fuel → ∀ x ∈ l, P x fuel := by
  induction l with
  | nil => exact ⟨0, fun _ _ x hx => by cases hx⟩
  | cons y l ih =>
    obtain ⟨N, hN⟩ := ih fun x hx => h x (List.mem_cons_of_mem _ hx)
    obtain ⟨M, hM⟩ := h y (List.mem_cons_self ..)
    refine ⟨N + M, fun fuel hf x hx => ?_⟩
    rcases List.mem_cons.1 hx with rfl | hx
    · exact hM fuel (by omega)
    · exact hN fuel (by omega) x hx

end Apg
