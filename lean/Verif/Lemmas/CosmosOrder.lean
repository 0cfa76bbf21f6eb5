import Verif.Spec.CosmosOrder
import Verif.Lemmas.CosmosData

/-!
# Lemmas about items in either byte order
-/

namespace Apg
open Spec

/-- The data have the integer in these bits, read in this byte order with the data type for `t`. -/
def HasItem (ds : List Def) (data : List UInt8) (pos w : Nat) (l : Bool) (t : AType) (i : Int) : Prop :=
  ∃ n, itemBits data pos w l = some n ∧
    ((ItemType ds t "UINT".toList ∧ i = n) ∨ (ItemType ds t "INT".toList ∧ i = signedValue w n))

theorem readItem_order (p : Printer) {m : Member} {s : Specific} {c : CType} {lo hi : Option Num}
    {states : List Text} {e : Entry} (hm : MadeFrom p m s c lo hi states e) : (readItem p e).little = isLittle m := by
  show e.little = isLittle m
  rw [hm.little]
  unfold isLittle
  cases m.comment <;> rfl

theorem itemValue_iff {ds : List Def} (hnd : (ds.map Def.name).Nodup) {t : AType} {ty : Text}
    (h : ItemType ds t ty) (hty : ItemType ds t "UINT".toList ∨ ItemType ds t "INT".toList)
    (data : List UInt8) (pos w : Nat) (l : Bool) (i : Int) :
    itemValue data pos w l ty = some i ↔ HasItem ds data pos w l t i := by
  unfold itemValue HasItem
  have hne : "UINT".toList ≠ "INT".toList := by decide
  rcases hty with hu | hu
  · rw [itemType_unique hnd h hu, if_pos rfl, Option.map_eq_some_iff]
    constructor
    · rintro ⟨n, h1, rfl⟩; exact ⟨n, h1, .inl ⟨hu, rfl⟩⟩
    · rintro ⟨n, h1, ⟨_, rfl⟩ | ⟨h2, _⟩⟩
      · exact ⟨n, h1, rfl⟩
      · exact absurd (itemType_unique hnd hu h2) hne
  · rw [itemType_unique hnd h hu, if_neg hne.symm, if_pos rfl, Option.map_eq_some_iff]
    constructor
    · rintro ⟨n, h1, rfl⟩; exact ⟨n, h1, .inr ⟨hu, rfl⟩⟩
    · rintro ⟨n, h1, ⟨h2, _⟩ | ⟨_, rfl⟩⟩
      · exact absurd (itemType_unique hnd h2 hu) hne
      · exact ⟨n, h1, rfl⟩

/-- What is known of the item of a leaf. -/
def OrderFact (ds : List Def) (path : List Member) (m : Member) (it : CosmosItem) : Prop :=
  ∃ w : Nat, itemLength it = some (w : Int) ∧ Size ds (.members [m]) w ∧
    (∀ v, Size ds (.members [m]) v → v = w) ∧
    ((it.kind ≠ "APPEND_ID_ITEM".toList ∧ (∀ v, ¬ FixedTo path v) ∧ ¬ IsBoolean ds m.type) ∨
     (it.kind = "APPEND_ID_ITEM".toList ∧ it.little = isLittle m ∧ ∃ i, idNumber it.value = some i ∧
      (∀ data pos, itemValue data pos w it.little it.type = some i ↔ HasItem ds data pos w (isLittle m) m.type i) ∧
      ((∃ v, FixedTo path v ∧ (∀ v', FixedTo path v' → v' = v) ∧ leafNum v = .int i) ∨
       ((∀ v, ¬ FixedTo path v) ∧ IsBoolean ds m.type ∧ i = 0))))

/-- What the data must have for a leaf. -/
def OrderGood (ds : List Def) (data : List UInt8) (path : List Member) (m : Member) (pos w : Nat) : Prop :=
  (∀ v, FixedTo path v → ∃ i, leafNum v = .int i ∧ HasItem ds data pos w (isLittle m) m.type i) ∧
  (IsBoolean ds m.type → (∀ v, ¬ FixedTo path v) → HasItem ds data pos w (isLittle m) m.type 0)

theorem taken_iff {ds : List Def} {ls : List (List Member)} {items : List CosmosItem}
    (h : All2 (fun path it => ∃ m, path.getLast? = some m ∧ OrderFact ds path m it) ls items)
    (data : List UInt8) (start : Nat) : Taken data start items ↔
      ∀ path m pos w, LeafAt ds ls path m pos w → OrderGood ds data path m (start + pos) w := by
  induction h generalizing start with
  | nil => exact ⟨fun _ path m pos w h => (by cases h), fun _ => .nil⟩
  | @cons path it ls items h1 _ ih =>
    obtain ⟨m, hlast, w, k1, k2, k3, k4⟩ := h1
    have hw : ∀ {m' : Member} {a : Nat}, path.getLast? = some m' → Size ds (.members [m']) a → m' = m ∧ a = w := by
      intro m' a g1 g2
      rw [hlast] at g1
      cases g1
      have := k3 _ g2
      exact ⟨rfl, by omega⟩
    have hall : (∀ path' m' pos w', LeafAt ds (path :: ls) path' m' pos w' →
          OrderGood ds data path' m' (start + pos) w') ↔
        OrderGood ds data path m start w ∧
        ∀ path' m' pos w', LeafAt ds ls path' m' pos w' → OrderGood ds data path' m' (start + w + pos) w' := by
      constructor
      · intro hh
        refine ⟨hh path m 0 w (.here hlast k2), fun path' m' pos w' g => ?_⟩
        have := hh path' m' (w + pos) w' (.later hlast k2 g)
        rwa [← Nat.add_assoc] at this
      · rintro ⟨g1, g2⟩ path' m' pos w' g
        cases g with
        | here q1 q2 =>
          obtain ⟨rfl, rfl⟩ := hw q1 q2
          exact g1
        | later q1 q2 q3 =>
          obtain ⟨rfl, rfl⟩ := hw q1 q2
          rw [← Nat.add_assoc]
          exact g2 _ _ _ _ q3
    rw [hall, ← ih]
    rcases k4 with ⟨l1, l2, l3⟩ | ⟨l1, l2, i, l3, l4, l5⟩
    · constructor
      · intro hid
        cases hid with
        | other _ q2 q3 =>
          rw [k1] at q2
          cases Int.ofNat.inj (Option.some.inj q2)
          exact ⟨⟨fun v hv => absurd hv (l2 v), fun hb => absurd hb l3⟩, q3⟩
        | id q1 => exact absurd q1 l1
      · rintro ⟨_, q⟩
        exact .other l1 k1 q
    · have hgood : OrderGood ds data path m start w ↔ HasItem ds data start w (isLittle m) m.type i := by
        rcases l5 with ⟨v, f1, f2, f3⟩ | ⟨f1, f2, rfl⟩
        · constructor
          · rintro ⟨g1, _⟩
            obtain ⟨j, e1, e2⟩ := g1 v f1
            rw [f3] at e1
            cases e1
            exact e2
          · intro g
            refine ⟨fun v' hv' => ?_, fun _ hno => absurd f1 (hno v)⟩
            rw [f2 v' hv']
            exact ⟨i, f3, g⟩
        · exact ⟨fun g => g.2 f2 f1, fun g => ⟨fun v hv => absurd hv (f1 v), fun _ _ => g⟩⟩
      rw [hgood, ← l4]
      constructor
      · intro hid
        cases hid with
        | other q1 => exact absurd l1 q1
        | id q1 q3 q4 q5 q6 =>
          rw [k1] at q3
          cases Int.ofNat.inj (Option.some.inj q3)
          rw [l3] at q4
          cases q4
          exact ⟨q5, q6⟩
      · rintro ⟨q5, q6⟩
        exact .id l1 k1 l3 q5 q6

/-- The facts about the item of a leaf. -/
theorem orderFact_of {p : Printer} (hp : Faithful p) {ds : List Def} (hs : Sized ds) {path : List Member} {m : Member}
    (hf : FlatMember ds m) (hnat : NaturalSizes ds) (hd : ∃ d ∈ ds, m ∈ d.members)
    (hcmp : (∃ v, FixedTo path v) ∨ IsBoolean ds m.type → Comparable' ds path m)
    {s : Specific} {c : CType} {lo hi : Option Num} {states : List Text} {e : Entry}
    (hsh : ItemShape ds m.type (some c) lo hi states) (hm : MadeFrom p m s c lo hi states e)
    (hfound : FoundValue .nil path s) : OrderFact ds path m (readItem p e) := by
  obtain ⟨v, k1, k2⟩ := leaf_length hs hf hd hsh hm
  have hgm := (member_grammar hs.grammar hd).2.1
  obtain ⟨w, rfl⟩ : ∃ w : Nat, v = w := ⟨v.toNat, by
    have : 0 ≤ v := size_nonneg (n := .members [m]) hnat (fun x hx => by
      rcases List.mem_singleton.1 hx with rfl
      obtain ⟨d, hd, hmd⟩ := hd
      exact (hnat d hd).1 _ hmd) k2
    omega⟩
  refine ⟨w, k1, k2, fun v' hv' => size_unique hs ?_ hv' k2, ?_⟩
  · intro x hx
    rcases List.mem_singleton.1 hx with rfl
    exact hgm
  obtain ⟨f1, f2⟩ := hfound
  have hfix : ∀ v, s = .leaf v ↔ FixedTo path v := by
    intro v
    rw [f2 v]
    constructor
    · rintro (h | h)
      · cases h
      · exact h
    · exact .inr
  have hlit := readItem_order p hm
  have hbi := itemShape_bool_iff hs.nodup hs.grammar hgm hsh
  by_cases hex : (∃ v, FixedTo path v) ∨ IsBoolean ds m.type
  · have hc := hcmp hex
    obtain ⟨h1, h2⟩ := item_id hp hc.single hm hbi f1
    have hit := itemType_of hs hgm hsh hm
    by_cases hv : ∃ v, FixedTo path v
    · obtain ⟨v, hv⟩ := hv
      obtain ⟨hsuit, hnf⟩ := hc.value v hv
      obtain ⟨i, hi⟩ : ∃ i, leafNum v = .int i := by
        cases v with
        | int j => exact ⟨_, rfl⟩
        | bool b => exact ⟨_, rfl⟩
        | flt x => exact absurd rfl (hnf x)
      obtain ⟨g1, g2⟩ := h2 v ((hfix v).2 hv) hsuit
      refine .inr ⟨g1, hlit, i, idNumber_of g2 ?_,
        fun data pos => by rw [hlit]; exact itemValue_iff hs.nodup hit hc.integer data pos w _ i, .inl ⟨v, hv, ?_, hi⟩⟩
      · cases v with
        | int j => cases hi; exact .inl rfl
        | bool b => cases hi; exact .inr ⟨b, rfl, rfl⟩
        | flt x => exact absurd rfl (hnf x)
      · intro v' hv'
        have a := (hfix v').2 hv'
        have b := (hfix v).2 hv
        rw [a] at b
        exact Specific.leaf.inj b
    · have hb : IsBoolean ds m.type := hex.resolve_left hv
      have hcb := hbi.2 hb
      subst hcb
      obtain ⟨g1, g2⟩ := item_boolean hc.single hm f1 fun v h => hv ⟨v, (hfix v).1 h⟩
      refine .inr ⟨g1, hlit, 0, ?_,
        fun data pos => by rw [hlit]; exact itemValue_iff hs.nodup hit hc.integer data pos w _ 0,
        .inr ⟨fun v h => hv ⟨v, h⟩, hb, rfl⟩⟩
      rw [g2]
      decide +kernel
  · rw [not_or] at hex
    refine .inl ⟨?_, fun v hv => hex.1 ⟨v, hv⟩, hex.2⟩
    by_cases ha : ∃ el len, m.type = .arr el len
    · obtain ⟨el, len, ha⟩ := ha
      exact item_array ha hm
    · obtain ⟨h1, _⟩ := item_id hp (fun el len h => ha ⟨el, len, h⟩) hm hbi f1
      rw [Ne, h1 hex.2]
      rintro ⟨v, h⟩
      exact hex.1 ⟨v, (hfix v).1 h⟩

end Apg
