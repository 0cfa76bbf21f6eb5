import Verif.Spec.CosmosReal
import Verif.Lemmas.CosmosData
import Verif.Props.Values

/-!
# Lemmas about the recognition of packets by fixed integers and reals
-/

namespace Apg
open Spec

/-! ### Texts of numbers -/

theorem numText_unique {p : Printer} (hp : Faithful p) {t : Text} {x y : Num} (h : NumText p t x)
    (h' : NumText p t y) : x = y := by
  cases h with
  | int h =>
    generalize ht : t = s at h'
    cases h' with
    | int h' => subst ht; rw [h] at h'; cases h'; rfl
    | float hf => subst ht; rw [hp.notInt _ hf] at h; cases h
  | @float _ hf =>
    generalize ht : p.float x = s at h'
    cases h' with
    | int h' => subst ht; rw [hp.notInt _ hf] at h'; cases h'
    | float hf' => exact hp.inj _ _ hf hf' ht

theorem numText_not_hex {p : Printer} (hp : Faithful p) {w : Text} {x : Num} : ¬ NumText p ("0x".toList ++ w) x := by
  have h0x : "0x".toList = ['0', 'x'] := by decide
  intro h
  generalize ht : "0x".toList ++ w = s at h
  cases h with
  | int h =>
    subst ht
    rw [h0x] at h
    rw [show ['0', 'x'] ++ w = '0' :: 'x' :: w from rfl, readDec_zero_x] at h
    cases h
  | float hf =>
    have := hp.chars _ hf 'x' (by rw [← ht, h0x]; simp)
    exact absurd this (by decide)

theorem wordText_unique {p : Printer} (hp : Faithful p) {ws : List Text} {x y : Num} (h : WordText p ws x)
    (h' : WordText p ws y) : x = y := by
  cases h with
  | @num t _ h =>
    generalize hs : [t] = s at h'
    cases h' with
    | num h' => cases hs; exact numText_unique hp h h'
    | hex => obtain ⟨rfl, _⟩ := List.cons.inj hs; exact absurd h (numText_not_hex hp)
  | @hex w n h =>
    generalize hs : ["0x".toList ++ w] = s at h'
    cases h' with
    | num h' => obtain ⟨rfl, _⟩ := List.cons.inj hs; exact absurd h' (numText_not_hex hp)
    | hex h' =>
      have := List.append_cancel_left (List.cons.inj hs).1
      subst this
      rw [h] at h'
      cases h'
      rfl

/-! ### Leaves -/

theorem fieldValue_float (data : List UInt8) (pos w : Nat) : fieldValue data pos w "FLOAT".toList = none := by
  unfold fieldValue
  rw [if_neg (by decide), if_neg (by decide)]

/-- What is known of the item of a leaf. -/
def LeafInfo (p : Printer) (ds : List Def) (path : List Member) (m : Member) (it : CosmosItem) : Prop :=
  ∃ w : Nat, itemLength it = some (w : Int) ∧ Size ds (.members [m]) w ∧
    (∀ v, Size ds (.members [m]) v → v = w) ∧
    ((it.kind ≠ "APPEND_ID_ITEM".toList ∧ (∀ v, ¬ FixedTo path v) ∧ ¬ IsBoolean ds m.type) ∨
     (it.kind = "APPEND_ID_ITEM".toList ∧ it.little = false ∧ it.type ≠ "FLOAT".toList ∧
      ¬ ItemType ds m.type "FLOAT".toList ∧ ∃ i, idNumber it.value = some i ∧
      (∀ data pos, fieldValue data pos w it.type = some i ↔ HasValue ds data pos w m.type i) ∧
      ((∃ v, FixedTo path v ∧ (∀ v', FixedTo path v' → v' = v) ∧ leafNum v = .int i) ∨
       ((∀ v, ¬ FixedTo path v) ∧ IsBoolean ds m.type ∧ i = 0))) ∨
     (it.kind = "APPEND_ID_ITEM".toList ∧ it.little = false ∧ it.type = "FLOAT".toList ∧
      ItemType ds m.type "FLOAT".toList ∧ ¬ IsBoolean ds m.type ∧ ∃ v q, FixedTo path v ∧ (∀ v', FixedTo path v' → v' = v) ∧
      ratOf (leafNum v) = some q ∧ WordText p it.value (leafNum v)))

/-- What the data must have for a leaf. -/
def LeafHas (ds : List Def) (data : List UInt8) (path : List Member) (m : Member) (pos w : Nat) : Prop :=
  (∀ v, FixedTo path v → HasNumber ds data pos w m.type (leafNum v)) ∧
  (IsBoolean ds m.type → (∀ v, ¬ FixedTo path v) → HasValue ds data pos w m.type 0)

theorem hasValue_not_float {ds : List Def} (hnd : (ds.map Def.name).Nodup) {data : List UInt8} {pos w : Nat}
    {t : AType} {i : Int} (h : HasValue ds data pos w t i) : ¬ ItemType ds t "FLOAT".toList := by
  intro hf
  obtain ⟨n, _, ⟨h, _⟩ | ⟨h, _⟩⟩ := h <;> exact absurd (itemType_unique hnd h hf) (by decide)

theorem recognised_iff {p : Printer} (hp : Faithful p) {ds : List Def} (hnd : (ds.map Def.name).Nodup)
    {ls : List (List Member)} {items : List CosmosItem}
    (h : All2 (fun path it => ∃ m, path.getLast? = some m ∧ LeafInfo p ds path m it) ls items)
    (data : List UInt8) (start : Nat) : Recognised p data start items ↔
      ∀ path m pos w, LeafAt ds ls path m pos w → LeafHas ds data path m (start + pos) w := by
  induction h generalizing start with
  | nil => exact ⟨fun _ path m pos w h => (by cases h), fun _ => .nil⟩
  | @cons path it ls items h1 _ ih =>
    obtain ⟨m, hlast, w, k1, k2, k3, k4⟩ := h1
    have hw : ∀ {m' : Member} {a : Nat}, path.getLast? = some m' → Size ds (.members [m']) a → m' = m ∧ a = w := by
      intro m' a g1 g2
      rw [hlast] at g1
      cases g1
      have := k3 _ g2
      exact ⟨rfl, by omega⟩
    have hall : (∀ path' m' pos w', LeafAt ds (path :: ls) path' m' pos w' →
          LeafHas ds data path' m' (start + pos) w') ↔
        LeafHas ds data path m start w ∧
        ∀ path' m' pos w', LeafAt ds ls path' m' pos w' → LeafHas ds data path' m' (start + w + pos) w' := by
      constructor
      · intro hh
        refine ⟨hh path m 0 w (.here hlast k2), fun path' m' pos w' g => ?_⟩
        have := hh path' m' (w + pos) w' (.later hlast k2 g)
        rwa [← Nat.add_assoc] at this
      · rintro ⟨g1, g2⟩ path' m' pos w' g
        cases g with
        | here q1 q2 =>
          obtain ⟨rfl, rfl⟩ := hw q1 q2
          exact g1
        | later q1 q2 q3 =>
          obtain ⟨rfl, rfl⟩ := hw q1 q2
          rw [← Nat.add_assoc]
          exact g2 _ _ _ _ q3
    rw [hall, ← ih]
    rcases k4 with ⟨l1, l2, l3⟩ | ⟨l1, l2, lt, ln, i, l3, l4, l5⟩ | ⟨l1, l2, l3, l4, l5, v, q, f1, f2, f3, f4⟩
    · constructor
      · intro hid
        cases hid with
        | other _ q2 q3 =>
          rw [k1] at q2
          cases Int.ofNat.inj (Option.some.inj q2)
          exact ⟨⟨fun v hv => absurd hv (l2 v), fun hb => absurd hb l3⟩, q3⟩
        | int q1 => exact absurd q1 l1
        | real q1 => exact absurd q1 l1
      · rintro ⟨_, q⟩
        exact .other l1 k1 q
    · have hgood : LeafHas ds data path m start w ↔ HasValue ds data start w m.type i := by
        rcases l5 with ⟨v, f1, f2, f3⟩ | ⟨f1, f2, rfl⟩
        · constructor
          · rintro ⟨g1, _⟩
            rcases g1 v f1 with ⟨j, e1, e2⟩ | ⟨e1, _⟩
            · rw [f3] at e1
              cases e1
              exact e2
            · exact absurd e1 ln
          · intro g
            refine ⟨fun v' hv' => ?_, fun _ hno => absurd f1 (hno v)⟩
            rw [f2 v' hv']
            exact .inl ⟨i, f3, g⟩
        · exact ⟨fun g => g.2 f2 f1, fun g => ⟨fun v hv => absurd hv (f1 v), fun _ _ => g⟩⟩
      rw [hgood, ← l4]
      constructor
      · intro hid
        cases hid with
        | other q1 => exact absurd l1 q1
        | int q1 q2 q3 q4 q5 q6 =>
          rw [k1] at q3
          cases Int.ofNat.inj (Option.some.inj q3)
          rw [l3] at q4
          cases q4
          exact ⟨q5, q6⟩
        | real _ _ _ q4 => exact absurd q4 lt
      · rintro ⟨q5, q6⟩
        exact .int l1 l2 k1 l3 q5 q6
    · have hgood : LeafHas ds data path m start w ↔ realAt data start w = some q := by
        constructor
        · rintro ⟨g1, _⟩
          rcases g1 v f1 with ⟨j, e1, e2⟩ | ⟨_, q', e1, e2⟩
          · exact absurd l4 (hasValue_not_float hnd e2)
          · rw [f3] at e1
            cases e1
            exact e2
        · intro g
          refine ⟨fun v' hv' => ?_, fun hb => absurd hb l5⟩
          rw [f2 v' hv']
          exact .inr ⟨l4, q, f3, g⟩
      rw [hgood]
      constructor
      · intro hid
        cases hid with
        | other q1 => exact absurd l1 q1
        | int q1 q2 q3 q4 q5 q6 => rw [l3, fieldValue_float] at q5; cases q5
        | real q1 q2 q3 q4 q5 q6 q7 q8 =>
          rw [k1] at q3
          cases Int.ofNat.inj (Option.some.inj q3)
          rw [wordText_unique hp q5 f4, f3] at q6
          cases q6
          exact ⟨q7, q8⟩
      · rintro ⟨q7, q8⟩
        exact .real l1 l2 k1 l3 f4 f3 q7 q8

theorem boolean_not_float {p : Printer} {ds : List Def} (hs : Sized ds) {m : Member} (hg : GrammarType m.type)
    {s : Specific} {c : CType} {lo hi : Option Num} {states : List Text} {e : Entry}
    (hsh : ItemShape ds m.type (some c) lo hi states) (hm : MadeFrom p m s c lo hi states e)
    (hb : IsBoolean ds m.type) : ¬ ItemType ds m.type "FLOAT".toList := by
  intro hf
  have hit := itemType_of hs hg hsh hm
  rw [readItem_type, hm.ctype, (itemShape_bool_iff hs.nodup hs.grammar hg hsh).2 hb] at hit
  exact absurd (itemType_unique hs.nodup hit hf) (by decide)

/-- The facts about the item of a leaf. -/
theorem leafInfo_of {p : Printer} (hp : Faithful p) {ds : List Def} (hs : Sized ds) {path : List Member} {m : Member}
    (hf : FlatMember ds m) (hnat : NaturalSizes ds) (hd : ∃ d ∈ ds, m ∈ d.members)
    (hcmp : (∃ v, FixedTo path v) ∨ IsBoolean ds m.type → Matchable ds path m)
    {s : Specific} {c : CType} {lo hi : Option Num} {states : List Text} {e : Entry}
    (hsh : ItemShape ds m.type (some c) lo hi states) (hm : MadeFrom p m s c lo hi states e)
    (hfound : FoundValue .nil path s) : LeafInfo p ds path m (readItem p e) := by
  by_cases hint : (∃ v, FixedTo path v) ∧ ItemType ds m.type "FLOAT".toList
  · obtain ⟨⟨v, hv⟩, hfl⟩ := hint
    have hc := hcmp (.inl ⟨v, hv⟩)
    obtain ⟨a, k1, k2⟩ := leaf_length hs hf hd hsh hm
    have hgm := (member_grammar hs.grammar hd).2.1
    obtain ⟨w, rfl⟩ : ∃ w : Nat, a = w := ⟨a.toNat, by
      have : 0 ≤ a := size_nonneg (n := .members [m]) hnat (fun x hx => by
        rcases List.mem_singleton.1 hx with rfl
        obtain ⟨d, hd, hmd⟩ := hd
        exact (hnat d hd).1 _ hmd) k2
      omega⟩
    have hnb := fun hb => boolean_not_float hs hgm hsh hm hb hfl
    refine ⟨w, k1, k2, fun v' hv' => size_unique hs ?_ hv' k2, .inr (.inr ?_)⟩
    · intro x hx
      rcases List.mem_singleton.1 hx with rfl
      exact hgm
    obtain ⟨f1, f2⟩ := hfound
    have hfix : ∀ v, s = .leaf v ↔ FixedTo path v := by
      intro v
      rw [f2 v]
      constructor
      · rintro (h | h)
        · cases h
        · exact h
      · exact .inr
    have hbi := itemShape_bool_iff hs.nodup hs.grammar hgm hsh
    obtain ⟨h1, h2⟩ := item_id hp hc.single hm hbi f1
    have hit := itemType_of hs hgm hsh hm
    obtain ⟨g1, g2⟩ := h2 v ((hfix v).2 hv) (hc.value v hv)
    obtain ⟨q, hq⟩ : ∃ q, ratOf (leafNum v) = some q := by
      rcases hc.number with ⟨h | h, _⟩ | ⟨_, h⟩
      · exact absurd (itemType_unique hs.nodup h hfl) (by decide)
      · exact absurd (itemType_unique hs.nodup h hfl) (by decide)
      · exact h v hv
    refine ⟨g1, readItem_little p hm hc.big, itemType_unique hs.nodup hit hfl, hfl, hnb, v, q, hv, ?_, hq, idText_num g2⟩
    intro v' hv'
    have a := (hfix v').2 hv'
    have b := (hfix v).2 hv
    rw [a] at b
    exact Specific.leaf.inj b
  · have hgm := (member_grammar hs.grammar hd).2.1
    have hnum : (∃ v, FixedTo path v) ∨ IsBoolean ds m.type → ¬ ItemType ds m.type "FLOAT".toList := by
      rintro (hv | hb) hfl
      · exact hint ⟨hv, hfl⟩
      · exact boolean_not_float hs hgm hsh hm hb hfl
    have hfact := leafFact_of hp hs hf hnat hd (fun hor => by
      have hc := hcmp hor
      rcases hc.number with ⟨h, h'⟩ | ⟨h, _⟩
      · exact ⟨hc.single, h, hc.big, fun v hv => ⟨hc.value v hv, h' v hv⟩⟩
      · exact absurd h (hnum hor)) hsh hm hfound
    obtain ⟨w, k1, k2, k3, k4⟩ := hfact
    refine ⟨w, k1, k2, k3, ?_⟩
    rcases k4 with k4 | ⟨l1, l2, i, l3, l4, l5⟩
    · exact .inl k4
    · have hor : (∃ v, FixedTo path v) ∨ IsBoolean ds m.type := by
        rcases l5 with ⟨v, h, _⟩ | ⟨_, h, _⟩
        · exact .inl ⟨v, h⟩
        · exact .inr h
      refine .inr (.inl ⟨l1, l2, fun h => hnum hor ?_, hnum hor, i, l3, l4, l5⟩)
      rw [← h]
      exact itemType_of hs hgm hsh hm

end Apg
