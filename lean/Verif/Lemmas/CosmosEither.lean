import Verif.Spec.CosmosEither
import Verif.Lemmas.CosmosOrder
import Verif.Lemmas.CosmosApart

/-!
# Lemmas about items with integers and reals in either byte order
-/

namespace Apg
open Spec

theorem isNumber_integer {ds : List Def} (hnd : (ds.map Def.name).Nodup) {t : AType}
    (hty : ItemType ds t "UINT".toList ∨ ItemType ds t "INT".toList) {w n : Nat} {i : Int} :
    IsNumber ds w t (.int i) n ↔
      (ItemType ds t "UINT".toList ∧ i = n) ∨ (ItemType ds t "INT".toList ∧ i = signedValue w n) := by
  unfold IsNumber
  constructor
  · rintro (⟨h1, h2⟩ | ⟨h1, h2⟩ | ⟨h1, _⟩)
    · exact .inl ⟨h1, by cases h2; rfl⟩
    · exact .inr ⟨h1, by cases h2; rfl⟩
    · rcases hty with h | h
      · exact absurd (itemType_unique hnd h h1) (by decide)
      · exact absurd (itemType_unique hnd h h1) (by decide)
  · rintro (⟨h1, rfl⟩ | ⟨h1, rfl⟩)
    · exact .inl ⟨h1, rfl⟩
    · exact .inr (.inl ⟨h1, rfl⟩)

theorem isNumber_real {ds : List Def} (hnd : (ds.map Def.name).Nodup) {t : AType} (hty : ItemType ds t "FLOAT".toList)
    {w n : Nat} {x : Num} : IsNumber ds w t x n ↔ ∃ q, ratOf x = some q ∧ realOf w n = some q := by
  unfold IsNumber
  constructor
  · rintro (⟨h1, _⟩ | ⟨h1, _⟩ | ⟨_, h⟩)
    · exact absurd (itemType_unique hnd hty h1) (by decide)
    · exact absurd (itemType_unique hnd hty h1) (by decide)
    · exact h
  · intro h
    exact .inr (.inr ⟨hty, h⟩)

theorem hasItem_iff {ds : List Def} (hnd : (ds.map Def.name).Nodup) {t : AType}
    (hty : ItemType ds t "UINT".toList ∨ ItemType ds t "INT".toList) {data : List UInt8} {pos w : Nat} {l : Bool} {i : Int} :
    HasItem ds data pos w l t i ↔ HasIn ds data pos w l t (.int i) := by
  unfold HasItem HasIn
  simp only [isNumber_integer hnd hty]

theorem itemValue_float (data : List UInt8) (pos w : Nat) (l : Bool) : itemValue data pos w l "FLOAT".toList = none := by
  unfold itemValue
  rw [if_neg (by decide), if_neg (by decide)]

/-- What is known of the item of a leaf. -/
def MatchInfo (p : Printer) (ds : List Def) (path : List Member) (m : Member) (it : CosmosItem) : Prop :=
  ∃ w : Nat, itemLength it = some (w : Int) ∧ Size ds (.members [m]) w ∧
    (∀ v, Size ds (.members [m]) v → v = w) ∧
    ((it.kind ≠ "APPEND_ID_ITEM".toList ∧ (∀ v, ¬ FixedTo path v) ∧ ¬ IsBoolean ds m.type) ∨
     (it.kind = "APPEND_ID_ITEM".toList ∧ ∃ x,
      (∀ data pos, ItemMatches p data pos w it ↔ HasIn ds data pos w (isLittle m) m.type x) ∧
      ((∃ v, FixedTo path v ∧ (∀ v', FixedTo path v' → v' = v) ∧ leafNum v = x) ∨
       ((∀ v, ¬ FixedTo path v) ∧ IsBoolean ds m.type ∧ x = .int 0 ∧
        (ItemType ds m.type "UINT".toList ∨ ItemType ds m.type "INT".toList)))))

/-- What the data must have for a leaf. -/
def MatchHas (ds : List Def) (data : List UInt8) (path : List Member) (m : Member) (pos w : Nat) : Prop :=
  (∀ v, FixedTo path v → HasIn ds data pos w (isLittle m) m.type (leafNum v)) ∧
  (IsBoolean ds m.type → (∀ v, ¬ FixedTo path v) → HasIn ds data pos w (isLittle m) m.type (.int 0))

theorem accepts_iff {p : Printer} {ds : List Def} {ls : List (List Member)} {items : List CosmosItem}
    (h : All2 (fun path it => ∃ m, path.getLast? = some m ∧ MatchInfo p ds path m it) ls items)
    (data : List UInt8) (start : Nat) : Accepts p data start items ↔
      ∀ path m pos w, LeafAt ds ls path m pos w → MatchHas ds data path m (start + pos) w := by
  induction h generalizing start with
  | nil => exact ⟨fun _ path m pos w h => (by cases h), fun _ => .nil⟩
  | @cons path it ls items h1 _ ih =>
    obtain ⟨m, hlast, w, k1, k2, k3, k4⟩ := h1
    have hw : ∀ {m' : Member} {a : Nat}, path.getLast? = some m' → Size ds (.members [m']) a → m' = m ∧ a = w := by
      intro m' a g1 g2
      rw [hlast] at g1
      cases g1
      have := k3 _ g2
      exact ⟨rfl, by omega⟩
    have hall : (∀ path' m' pos w', LeafAt ds (path :: ls) path' m' pos w' →
          MatchHas ds data path' m' (start + pos) w') ↔
        MatchHas ds data path m start w ∧
        ∀ path' m' pos w', LeafAt ds ls path' m' pos w' → MatchHas ds data path' m' (start + w + pos) w' := by
      constructor
      · intro hh
        refine ⟨hh path m 0 w (.here hlast k2), fun path' m' pos w' g => ?_⟩
        have := hh path' m' (w + pos) w' (.later hlast k2 g)
        rwa [← Nat.add_assoc] at this
      · rintro ⟨g1, g2⟩ path' m' pos w' g
        cases g with
        | here q1 q2 =>
          obtain ⟨rfl, rfl⟩ := hw q1 q2
          exact g1
        | later q1 q2 q3 =>
          obtain ⟨rfl, rfl⟩ := hw q1 q2
          rw [← Nat.add_assoc]
          exact g2 _ _ _ _ q3
    rw [hall, ← ih]
    rcases k4 with ⟨l1, l2, l3⟩ | ⟨l1, x, l4, l5⟩
    · constructor
      · intro hid
        cases hid with
        | other _ q2 q3 =>
          rw [k1] at q2
          cases Int.ofNat.inj (Option.some.inj q2)
          exact ⟨⟨fun v hv => absurd hv (l2 v), fun hb => absurd hb l3⟩, q3⟩
        | id q1 => exact absurd q1 l1
      · rintro ⟨_, q⟩
        exact .other l1 k1 q
    · have hgood : MatchHas ds data path m start w ↔ HasIn ds data start w (isLittle m) m.type x := by
        rcases l5 with ⟨v, f1, f2, rfl⟩ | ⟨f1, f2, rfl, _⟩
        · refine ⟨fun g => g.1 v f1, fun g => ⟨fun v' hv' => ?_, fun _ hno => absurd f1 (hno v)⟩⟩
          rw [f2 v' hv']
          exact g
        · exact ⟨fun g => g.2 f2 f1, fun g => ⟨fun v hv => absurd hv (f1 v), fun _ _ => g⟩⟩
      rw [hgood, ← l4]
      constructor
      · intro hid
        cases hid with
        | other q1 => exact absurd l1 q1
        | id q1 q3 q5 q6 =>
          rw [k1] at q3
          cases Int.ofNat.inj (Option.some.inj q3)
          exact ⟨q5, q6⟩
      · rintro ⟨q5, q6⟩
        exact .id l1 k1 q5 q6

/-- The facts about the item of a leaf. -/
theorem matchInfo_of {p : Printer} (hp : Faithful p) {ds : List Def} (hs : Sized ds) {path : List Member} {m : Member}
    (hf : FlatMember ds m) (hnat : NaturalSizes ds) (hd : ∃ d ∈ ds, m ∈ d.members)
    (hcmp : (∃ v, FixedTo path v) ∨ IsBoolean ds m.type → MatchableIn ds path m)
    {s : Specific} {c : CType} {lo hi : Option Num} {states : List Text} {e : Entry}
    (hsh : ItemShape ds m.type (some c) lo hi states) (hm : MadeFrom p m s c lo hi states e)
    (hfound : FoundValue .nil path s) : MatchInfo p ds path m (readItem p e) := by
  have hgm := (member_grammar hs.grammar hd).2.1
  have hit := itemType_of hs hgm hsh hm
  by_cases hint : (∃ v, FixedTo path v) ∧ ItemType ds m.type "FLOAT".toList
  · obtain ⟨⟨v, hv⟩, hfl⟩ := hint
    have hc := hcmp (.inl ⟨v, hv⟩)
    obtain ⟨a, k1, k2⟩ := leaf_length hs hf hd hsh hm
    obtain ⟨w, rfl⟩ : ∃ w : Nat, a = w := ⟨a.toNat, by
      have : 0 ≤ a := size_nonneg (n := .members [m]) hnat (fun x hx => by
        rcases List.mem_singleton.1 hx with rfl
        obtain ⟨d, hd, hmd⟩ := hd
        exact (hnat d hd).1 _ hmd) k2
      omega⟩
    refine ⟨w, k1, k2, fun v' hv' => size_unique hs ?_ hv' k2, .inr ?_⟩
    · intro x hx
      rcases List.mem_singleton.1 hx with rfl
      exact hgm
    obtain ⟨f1, f2⟩ := hfound
    have hfix : ∀ v, s = .leaf v ↔ FixedTo path v := by
      intro v
      rw [f2 v]
      constructor
      · rintro (h | h)
        · cases h
        · exact h
      · exact .inr
    have hbi := itemShape_bool_iff hs.nodup hs.grammar hgm hsh
    obtain ⟨h1, h2⟩ := item_id hp hc.single hm hbi f1
    obtain ⟨g1, g2⟩ := h2 v ((hfix v).2 hv) (hc.value v hv)
    have g2 := idText_num g2
    have hty := itemType_unique hs.nodup hit hfl
    refine ⟨g1, leafNum v, fun data pos => ?_, .inl ⟨v, hv, ?_, rfl⟩⟩
    · unfold ItemMatches HasIn
      rw [readItem_order p hm, hty, itemValue_float]
      simp only [isNumber_real hs.nodup hfl]
      constructor
      · rintro (⟨_, _, h⟩ | ⟨_, x, q, e1, e2, e3⟩)
        · cases h
        · obtain ⟨n, e4, e5⟩ := Option.bind_eq_some_iff.1 e3
          rw [wordText_unique hp e1 g2] at e2
          exact ⟨n, e4, q, e2, e5⟩
      · rintro ⟨n, e1, q, e2, e3⟩
        exact .inr ⟨trivial, leafNum v, q, g2, e2, by rw [e1]; exact e3⟩
    · intro v' hv'
      have a := (hfix v').2 hv'
      have b := (hfix v).2 hv
      rw [a] at b
      exact Specific.leaf.inj b
  · have hnum : (∃ v, FixedTo path v) ∨ IsBoolean ds m.type → ¬ ItemType ds m.type "FLOAT".toList := by
      rintro (hv | hb) hfl
      · exact hint ⟨hv, hfl⟩
      · exact boolean_not_float hs hgm hsh hm hb hfl
    have hcmp' : (∃ v, FixedTo path v) ∨ IsBoolean ds m.type → Comparable' ds path m := fun hor => by
      have hc := hcmp hor
      rcases hc.number with ⟨h, h'⟩ | ⟨h, _⟩
      · exact ⟨hc.single, h, fun v hv => ⟨hc.value v hv, h' v hv⟩⟩
      · exact absurd h (hnum hor)
    obtain ⟨w, k1, k2, k3, k4⟩ := orderFact_of hp hs hf hnat hd hcmp' hsh hm hfound
    refine ⟨w, k1, k2, k3, ?_⟩
    rcases k4 with k4 | ⟨l1, l2, i, l3, l4, l5⟩
    · exact .inl k4
    · have hor : (∃ v, FixedTo path v) ∨ IsBoolean ds m.type := by
        rcases l5 with ⟨v, h, _⟩ | ⟨_, h, _⟩
        · exact .inl ⟨v, h⟩
        · exact .inr h
      refine .inr ⟨l1, .int i, fun data pos => ?_, ?_⟩
      · rw [← hasItem_iff hs.nodup (hcmp' hor).integer, ← l4]
        unfold ItemMatches
        constructor
        · rintro (⟨v, e1, e2⟩ | ⟨e1, _⟩)
          · rw [l3] at e1
            cases e1
            exact e2
          · rw [e1] at hit
            exact absurd hit (hnum hor)
        · intro h
          exact .inl ⟨i, l3, h⟩
      · rcases l5 with ⟨v, q1, q2, q3⟩ | ⟨q1, q2, rfl⟩
        · exact .inl ⟨v, q1, q2, q3⟩
        · exact .inr ⟨q1, q2, rfl, (hcmp' hor).integer⟩

/-! ### Numbers and bytes -/

/-- A number other than zero has one pattern. -/
theorem isNumber_unique {ds : List Def} (hnd : (ds.map Def.name).Nodup) {w : Nat} {t : AType} {x : Num} {n n' : Nat}
    (hn : n < 2 ^ w) (hn' : n' < 2 ^ w) (h : IsNumber ds w t x n) (h' : IsNumber ds w t x n')
    (h0 : ItemType ds t "FLOAT".toList → ratOf x ≠ some 0) : n = n' := by
  have hne : ∀ {a b : String}, a.toList ≠ b.toList → ItemType ds t a.toList → ItemType ds t b.toList → False :=
    fun hab h1 h2 => hab (itemType_unique hnd h1 h2)
  rcases h with ⟨h1, h2⟩ | ⟨h1, h2⟩ | ⟨h1, q, h2, h3⟩ <;> rcases h' with ⟨k1, k2⟩ | ⟨k1, k2⟩ | ⟨k1, q', k2, k3⟩
  · rw [h2] at k2
    have := Num.int.inj k2
    omega
  · exact (hne (by decide) h1 k1).elim
  · exact (hne (by decide) h1 k1).elim
  · exact (hne (by decide) h1 k1).elim
  · rw [h2] at k2
    exact signedValue_inj hn hn' (Num.int.inj k2)
  · exact (hne (by decide) h1 k1).elim
  · exact (hne (by decide) h1 k1).elim
  · exact (hne (by decide) h1 k1).elim
  · rw [h2] at k2
    cases k2
    obtain ⟨f, hf, hw, hr⟩ := realOf_format h3
    rw [hr] at h3 k3
    obtain ⟨e1, e2⟩ := ieee_patterns hf h3 k3
    have e2 := e2 fun hq => h0 h1 (by rw [h2, hq])
    subst hw
    rw [Nat.pow_succ] at hn hn'
    have d1 := Nat.div_add_mod n (2 ^ (f.expBits + (f.prec - 1)))
    have d2 := Nat.div_add_mod n' (2 ^ (f.expBits + (f.prec - 1)))
    have b1 : n / 2 ^ (f.expBits + (f.prec - 1)) < 2 := Nat.div_lt_of_lt_mul hn
    have b2 : n' / 2 ^ (f.expBits + (f.prec - 1)) < 2 := Nat.div_lt_of_lt_mul hn'
    rw [Nat.mod_eq_of_lt b1, Nat.mod_eq_of_lt b2] at e2
    rw [← d1, ← d2, e1, e2]

end Apg
