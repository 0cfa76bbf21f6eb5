import Verif.Spec.CosmosData
import Verif.Props.Cosmos
import Verif.Lemmas.SuccessBinary

/-!
# Lemmas on what COSMOS does with received data
-/

namespace Apg
open Spec

/-! ### Data types -/

/-- The text of a C type. -/
def typeWord : CType → Text
  | .bool => "UINT".toList
  | .double => "FLOAT".toList
  | .uint => "UINT".toList
  | .int => "INT".toList
  | .string => "STRING".toList
  | .float => "FLOAT".toList

theorem readItem_type (p : Printer) (e : Entry) : (readItem p e).type = typeWord e.ctype := by
  show (itemFields e).1 = _
  unfold itemFields typeWord
  cases e.ctype <;> rfl

/-- Types without bounds that have a size. -/
theorem dataType_bare {t : AType} (hg : GrammarType t) (hs : ∀ n len, t ≠ .str n len) {c : CType}
    (hc : classify t.name none none false = .ok (some c)) (hb : ∃ bits, getBitSize c none none = .ok bits) :
    DataType t (typeWord c) := by
  have hc' : c = .bool ∨ c = .float ∨ c = .double := by
    obtain ⟨bits, hb⟩ := hb
    cases c <;> first | cases hb; simp | cases hb
  have hno : ∀ n ∈ ["REAL", "INTEGER", "NULL", "IA5String", "NumericString"],
      classify n none none false ≠ .ok (some c) := by
    clear hb hc hc'
    cases c <;> decide +kernel
  have key : ∀ t, GrammarType t → (∀ n len, t ≠ .str n len) → classify t.name none none false = .ok (some c) →
      DataType t (typeWord c) := by
    intro t hg
    induction hg with
    | real => intro _ h; exact absurd h (hno "REAL" (by decide))
    | realRange => intro _ h; exact absurd h (hno "REAL" (by decide))
    | integer => intro _ h; exact absurd h (hno "INTEGER" (by decide))
    | integerRange => intro _ h; exact absurd h (hno "INTEGER" (by decide))
    | null => intro _ h; exact absurd h (hno "NULL" (by decide))
    | boolean =>
      intro _ h
      rw [show classify (AType.plain "BOOLEAN" none none).name none none false = .ok (some .bool) by decide +kernel] at h
      cases h
      exact .bool
    | ia5 => intro h; exact absurd rfl (h _ _)
    | numeric => intro h; exact absurd rfl (h _ _)
    | @arr e len he ih =>
      intro _ h
      refine .array (ih ?_ h)
      rintro n len rfl
      cases he
      · exact hno "IA5String" (by decide) h
      · exact hno "NumericString" (by decide) h
    | @named n hn =>
      intro _ h
      have hne := capital_not_word hn
      by_cases hcb : c = .bool
      · subst hcb
        exact (classify_not_bool hne.2.2.1 h).elim
      · obtain ⟨k, hk, rfl⟩ := classify_standard h hcb
        cases hk with
        | float => exact .single
        | double => exact .double
        | _ => rcases hc' with hc' | hc' | hc' <;> cases hc'
  exact key t hg hs hc

/-- Types of items that have a size. -/
theorem dataType_of {t : AType} (hg : GrammarType t) {c : CType} (hc : t.cType = some c)
    (hb : (∃ bits, getBitSize c t.lo t.hi = .ok bits) ∨ ∃ n len, t = .str n len) : DataType t (typeWord c) := by
  by_cases hs : ∃ n len, t = .str n len
  · obtain ⟨n, len, rfl⟩ := hs
    rw [cType_string hg] at hc
    cases hc
    exact .string
  · have hb := hb.resolve_right hs
    have hs' : ∀ n len, t ≠ .str n len := fun n len h => hs ⟨n, len, h⟩
    have hbare : t.lo = none → t.hi = none → DataType t (typeWord c) := by
      intro h1 h2
      rw [h1, h2] at hb
      refine dataType_bare hg hs' ?_ hb
      have he : asn1Type t = classify t.name none none false := by
        unfold asn1Type
        rw [h1, h2]
        cases t with
        | str n len => exact absurd rfl (hs' n len)
        | plain => rfl
        | arr => rfl
      unfold AType.cType at hc
      rw [he] at hc
      split at hc
      · rename_i x hx; rw [hx, hc]
      · cases hc
    cases hg with
    | realRange _ _ => rcases cType_real hc with rfl | rfl <;> exact .real
    | @integerRange b e =>
      have hc2 : (intType b e).cType = some c := hc
      by_cases hle : b ≤ e
      · rw [cType_int b e hle] at hc2
        cases hc2
        split
        · rename_i h; exact .natural h
        · rename_i h; exact .negative (by omega)
      · exfalso
        unfold AType.cType at hc2
        rw [asn1Type_int] at hc2
        simp [show e < b by omega] at hc2
    | _ => exact hbare rfl rfl

/-- The data type of the item of a leaf. -/
theorem itemType_of {p : Printer} {ds : List Def} (hs : Sized ds) {m : Member} (hg : GrammarType m.type)
    {s : Specific} {c : CType} {lo hi : Option Num} {states : List Text} {e : Entry}
    (hsh : ItemShape ds m.type (some c) lo hi states) (hm : MadeFrom p m s c lo hi states e) :
    ItemType ds m.type (readItem p e).type := by
  rw [readItem_type, hm.ctype]
  have hb := hm.bits
  have hbuilt : m.type.name ∈ ["INTEGER", "REAL", "BOOLEAN", "NULL", "IA5String", "NumericString"] →
      ∀ d ∈ ds, ¬ UsesName m.type d.name := by
    intro hn d hd hu
    exact builtin_not_def hs.grammar hn d hd ((usesName_iff _ _).1 hu).symm
  generalize hc' : some c = c' at hsh
  cases hsh with
  | number h =>
    refine .builtIn (hbuilt ?_) (dataType_of hg hc'.symm (.inl ⟨_, hb⟩))
    rcases h with h | h <;> rw [h] <;> decide
  | bool h =>
    exact .builtIn (hbuilt (by rw [h]; decide)) (dataType_of hg hc'.symm (.inl ⟨_, hb⟩))
  | str h =>
    refine .builtIn (hbuilt ?_) (dataType_of hg hc'.symm (.inr ⟨_, _, h⟩))
    rw [h] at hg ⊢
    cases hg
    · show "IA5String" ∈ _; decide
    · show "NumericString" ∈ _; decide
  | simple h1 h2 =>
    exact .named ((usesName_iff _ _).2 h1) h2 (dataType_of (hs.grammar _ h2).2 hc'.symm (.inl ⟨_, hb⟩))
  | enum h1 h2 =>
    cases hc'
    exact .enum ((usesName_iff _ _).2 h1) h2

theorem dataType_unique {t : AType} {w w' : List Char} (h : DataType t w) (h' : DataType t w') : w = w' := by
  induction h with
  | bool => generalize hx : AType.plain "BOOLEAN" none none = x at h'; cases h' <;> first | rfl | (exfalso; revert hx; simp [intType, realType])
  | @natural lo hi hl =>
    generalize hx : intType lo hi = x at h'
    cases h' <;> first
      | rfl
      | (exfalso; revert hx; simp [intType, realType]; done)
      | (exfalso; simp only [intType, AType.plain.injEq, Option.some.injEq, Num.int.injEq] at hx; omega)
  | @negative lo hi hl =>
    generalize hx : intType lo hi = x at h'
    cases h' <;> first
      | rfl
      | (exfalso; revert hx; simp [intType, realType]; done)
      | (exfalso; simp only [intType, AType.plain.injEq, Option.some.injEq, Num.int.injEq] at hx; omega)
  | @real lo hi =>
    generalize hx : realType lo hi = x at h'
    cases h' <;> first | rfl | (exfalso; revert hx; simp [intType, realType])
  | single => generalize hx : AType.plain "Float" none none = x at h'; cases h' <;> first | rfl | (exfalso; revert hx; simp [intType])
  | double => generalize hx : AType.plain "Double" none none = x at h'; cases h' <;> first | rfl | (exfalso; revert hx; simp [intType])
  | string => cases h'; rfl
  | array _ ih => cases h' with | array h => exact ih h

theorem itemType_unique {ds : List Def} (hnd : (ds.map Def.name).Nodup) {t : AType} {w w' : List Char}
    (h : ItemType ds t w) (h' : ItemType ds t w') : w = w' := by
  have hu : ∀ {n n'}, UsesName t n → UsesName t n' → n = n' := by
    intro n n' h1 h2
    rw [← (usesName_iff _ _).1 h1, ← (usesName_iff _ _).1 h2]
  cases h with
  | builtIn k1 k2 =>
    cases h' with
    | builtIn _ l2 => exact dataType_unique k2 l2
    | named l1 l2 _ => exact absurd l1 (k1 _ l2)
    | enum l1 l2 => exact absurd l1 (k1 _ l2)
  | named k1 k2 k3 =>
    cases h' with
    | builtIn l1 _ => exact absurd k1 (l1 _ k2)
    | named l1 l2 l3 =>
      have := mem_unique_of_nodup_map hnd k2 l2 (hu k1 l1)
      cases this
      exact dataType_unique k3 l3
    | enum l1 l2 =>
      have := mem_unique_of_nodup_map hnd k2 l2 (hu k1 l1)
      cases this
  | enum k1 k2 =>
    cases h' with
    | builtIn l1 _ => exact absurd k1 (l1 _ k2)
    | named l1 l2 _ =>
      have := mem_unique_of_nodup_map hnd k2 l2 (hu k1 l1)
      cases this
    | enum => rfl

/-! ### Sizes are unique -/

/-- What uniqueness needs of the node. -/
def GoodNode (ds : List Def) : Node → Prop
  | .def d => d ∈ ds
  | .members ms => ∀ m ∈ ms, GrammarType m.type

theorem size_unique {ds : List Def} (hs : Sized ds) {n : Node} {v w : Int} (hn : GoodNode ds n)
    (h : Size ds n v) (h' : Size ds n w) : v = w := by
  induction h generalizing w with
  | seq _ ih =>
    cases h' with
    | seq h' => exact ih (fun m hm => (member_grammar hs.grammar ⟨_, hn, hm⟩).2.1) h'
  | enum a k1 k2 k3 =>
    cases h' with
    | enum b l1 l2 l3 =>
      have := k3 b l2
      have := l3 a k2
      omega
  | simple k =>
    cases h' with
    | simple l =>
      have hg : GrammarType _ := (hs.grammar _ hn).2
      refine leafSize_unique hg ?_ k l
      rintro e len rfl
      cases k
  | nil => cases h'; rfl
  | named k1 k2 _ _ ih1 ih2 =>
    have hrest : GoodNode ds (.members _) := fun m hm => hn m (List.mem_cons_of_mem _ hm)
    cases h' with
    | named l1 l2 l3 l4 =>
      rw [k1, AType.plain.injEq] at l1
      have := mem_unique_of_nodup_map hs.nodup k2 l2 l1.1
      subst this
      rw [ih1 k2 l3, ih2 hrest l4]
    | leaf l1 _ _ => exact absurd rfl (l1 _ _ _ k1 _ k2)
    | array l1 _ _ => rw [k1] at l1; cases l1
  | leaf k1 k2 _ ih =>
    have hrest : GoodNode ds (.members _) := fun m hm => hn m (List.mem_cons_of_mem _ hm)
    cases h' with
    | named l1 l2 _ _ => exact absurd rfl (k1 _ _ _ l1 _ l2)
    | leaf _ l2 l3 =>
      rw [ih hrest l3, leafSize_unique (hn _ (List.mem_cons_self ..)) ?_ k2 l2]
      intro e len he
      rw [he] at k2
      cases k2
    | array l1 _ _ => rw [l1] at k2; cases k2
  | array k1 _ _ ih1 ih2 =>
    have hrest : GoodNode ds (.members _) := fun m hm => hn m (List.mem_cons_of_mem _ hm)
    cases h' with
    | named l1 _ _ _ => rw [k1] at l1; cases l1
    | leaf _ l2 _ => rw [k1] at l2; cases l2
    | array l1 l2 l3 =>
      rw [k1, AType.arr.injEq] at l1
      obtain ⟨rfl, rfl⟩ := l1
      rw [ih1 ?_ l2, ih2 hrest l3]
      intro m hm
      rcases List.mem_singleton.1 hm with rfl
      have := hn _ (List.mem_cons_self ..)
      rw [k1] at this
      cases this
      assumption

theorem leafSize_nonneg {t : AType} {v : Int} (hn : ¬ NegativeSize t) (h : LeafSize t v) : 0 ≤ v := by
  cases h with
  | bool => omega
  | uint => omega
  | int => omega
  | single => omega
  | double => omega
  | floatName => omega
  | doubleName => omega
  | @ia5 len =>
    have : ¬ len < 0 := fun h => hn (.string h)
    omega
  | @numeric len =>
    have : ¬ len < 0 := fun h => hn (.string h)
    omega

/-- The definition is among the given ones, or the members have no negative SIZE. -/
def NaturalNode (ds : List Def) : Node → Prop
  | .def d => d ∈ ds
  | .members ms => ∀ m ∈ ms, ¬ NegativeSize m.type

theorem size_nonneg {ds : List Def} (hs : NaturalSizes ds) {n : Node} {v : Int} (hn : NaturalNode ds n)
    (h : Size ds n v) : 0 ≤ v := by
  induction h with
  | seq _ ih => exact ih (hs _ hn).1
  | enum => omega
  | simple k => exact leafSize_nonneg ((hs _ hn).2 _ _ _ rfl) k
  | nil => omega
  | named _ k2 _ _ ih1 ih2 =>
    have := ih1 k2
    have := ih2 fun m hm => hn m (List.mem_cons_of_mem _ hm)
    omega
  | leaf _ k2 _ ih =>
    have := leafSize_nonneg (hn _ (List.mem_cons_self ..)) k2
    have := ih fun m hm => hn m (List.mem_cons_of_mem _ hm)
    omega
  | @array m ms e len a v k1 _ _ ih1 ih2 =>
    have hm := hn m (List.mem_cons_self ..)
    rw [k1] at hm
    have h1 : ¬ len < 0 := fun h => hm (.array h)
    have h2 := ih1 fun x hx => by
      rcases List.mem_singleton.1 hx with rfl
      exact fun h => hm (.elem h)
    have h3 := ih2 fun m hm => hn m (List.mem_cons_of_mem _ hm)
    have := Int.mul_nonneg (by omega : 0 ≤ len) h2
    omega

/-! ### Values in data -/

theorem fieldValue_iff {ds : List Def} (hnd : (ds.map Def.name).Nodup) {t : AType} {ty : Text}
    (h : ItemType ds t ty) (hty : ItemType ds t "UINT".toList ∨ ItemType ds t "INT".toList)
    (data : List UInt8) (pos w : Nat) (i : Int) :
    fieldValue data pos w ty = some i ↔ HasValue ds data pos w t i := by
  unfold fieldValue HasValue
  have hne : "UINT".toList ≠ "INT".toList := by decide
  rcases hty with hu | hu
  · rw [itemType_unique hnd h hu, if_pos rfl, Option.map_eq_some_iff]
    constructor
    · rintro ⟨n, h1, rfl⟩; exact ⟨n, h1, .inl ⟨hu, rfl⟩⟩
    · rintro ⟨n, h1, ⟨_, rfl⟩ | ⟨h2, _⟩⟩
      · exact ⟨n, h1, rfl⟩
      · exact absurd (itemType_unique hnd hu h2) hne
  · rw [itemType_unique hnd h hu, if_neg hne.symm, if_pos rfl, Option.map_eq_some_iff]
    constructor
    · rintro ⟨n, h1, rfl⟩; exact ⟨n, h1, .inr ⟨hu, rfl⟩⟩
    · rintro ⟨n, h1, ⟨h2, _⟩ | ⟨_, rfl⟩⟩
      · exact absurd (itemType_unique hnd h2 hu) hne
      · exact ⟨n, h1, rfl⟩

theorem readDec_zero_x (t : Text) : readInt ('0' :: 'x' :: t) = none := by
  show (readDec ('0' :: 'x' :: t)).map (fun n : Nat => (n : Int)) = none
  unfold readDec
  rw [if_pos ⟨rfl, by simp⟩]
  rfl

/-- What COSMOS reads from the text of an ID item. -/
theorem idNumber_of {p : Printer} {ws : List (List Char)} {v : Leaf} (h : IdText p ws v) {i : Int}
    (hv : v = .int i ∨ ∃ b, v = .bool b ∧ i = if b then 1 else 0) : idNumber ws = some i := by
  have h0x : "0x".toList = ['0', 'x'] := by decide
  cases h with
  | @dec w j hw =>
    have hj : j = i := by
      rcases hv with hv | ⟨b, hv, _⟩
      · cases hv; rfl
      · cases hv
    subst hj
    unfold idNumber
    simp only
    rw [if_neg, hw]
    intro hx
    rw [h0x] at hx
    match w, hx with
    | a :: b :: r, hx =>
      simp only [List.take_succ_cons, List.take_zero, List.cons.injEq, and_true] at hx
      obtain ⟨rfl, rfl⟩ := hx
      rw [readDec_zero_x] at hw
      cases hw
  | @hex w n hw =>
    have hj : (n : Int) = i := by
      rcases hv with hv | ⟨b, hv, _⟩
      · rw [Leaf.int.injEq] at hv; exact hv
      · cases hv
    subst hj
    unfold idNumber
    simp only
    rw [h0x, if_pos (by simp)]
    simp [hw]
  | true =>
    rcases hv with hv | ⟨b, hv, rfl⟩
    · cases hv
    · cases hv; decide +kernel
  | false =>
    rcases hv with hv | ⟨b, hv, rfl⟩
    · cases hv
    · cases hv; decide +kernel
  | float =>
    rcases hv with hv | ⟨b, hv, _⟩ <;> cases hv

/-- What is known of the item of a leaf. -/
def LeafFact (ds : List Def) (path : List Member) (m : Member) (it : CosmosItem) : Prop :=
  ∃ w : Nat, itemLength it = some (w : Int) ∧ Size ds (.members [m]) w ∧
    (∀ v, Size ds (.members [m]) v → v = w) ∧
    ((it.kind ≠ "APPEND_ID_ITEM".toList ∧ (∀ v, ¬ FixedTo path v) ∧ ¬ IsBoolean ds m.type) ∨
     (it.kind = "APPEND_ID_ITEM".toList ∧ it.little = false ∧ ∃ i, idNumber it.value = some i ∧
      (∀ data pos, fieldValue data pos w it.type = some i ↔ HasValue ds data pos w m.type i) ∧
      ((∃ v, FixedTo path v ∧ (∀ v', FixedTo path v' → v' = v) ∧ leafNum v = .int i) ∨
       ((∀ v, ¬ FixedTo path v) ∧ IsBoolean ds m.type ∧ i = 0))))

/-- What the data must have for a leaf. -/
def LeafGood (ds : List Def) (data : List UInt8) (path : List Member) (m : Member) (pos w : Nat) : Prop :=
  (∀ v, FixedTo path v → ∃ i, leafNum v = .int i ∧ HasValue ds data pos w m.type i) ∧
  (IsBoolean ds m.type → (∀ v, ¬ FixedTo path v) → HasValue ds data pos w m.type 0)

theorem identified_iff {ds : List Def} {ls : List (List Member)} {items : List CosmosItem}
    (h : All2 (fun path it => ∃ m, path.getLast? = some m ∧ LeafFact ds path m it) ls items)
    (data : List UInt8) (start : Nat) : Identified data start items ↔
      ∀ path m pos w, LeafAt ds ls path m pos w → LeafGood ds data path m (start + pos) w := by
  induction h generalizing start with
  | nil => exact ⟨fun _ path m pos w h => (by cases h), fun _ => .nil⟩
  | @cons path it ls items h1 _ ih =>
    obtain ⟨m, hlast, w, k1, k2, k3, k4⟩ := h1
    have hw : ∀ {m' : Member} {a : Nat}, path.getLast? = some m' → Size ds (.members [m']) a → m' = m ∧ a = w := by
      intro m' a g1 g2
      rw [hlast] at g1
      cases g1
      have := k3 _ g2
      exact ⟨rfl, by omega⟩
    have hall : (∀ path' m' pos w', LeafAt ds (path :: ls) path' m' pos w' →
          LeafGood ds data path' m' (start + pos) w') ↔
        LeafGood ds data path m start w ∧
        ∀ path' m' pos w', LeafAt ds ls path' m' pos w' → LeafGood ds data path' m' (start + w + pos) w' := by
      constructor
      · intro hh
        refine ⟨hh path m 0 w (.here hlast k2), fun path' m' pos w' g => ?_⟩
        have := hh path' m' (w + pos) w' (.later hlast k2 g)
        rwa [← Nat.add_assoc] at this
      · rintro ⟨g1, g2⟩ path' m' pos w' g
        cases g with
        | here q1 q2 =>
          obtain ⟨rfl, rfl⟩ := hw q1 q2
          exact g1
        | later q1 q2 q3 =>
          obtain ⟨rfl, rfl⟩ := hw q1 q2
          rw [← Nat.add_assoc]
          exact g2 _ _ _ _ q3
    rw [hall, ← ih]
    rcases k4 with ⟨l1, l2, l3⟩ | ⟨l1, l2, i, l3, l4, l5⟩
    · constructor
      · intro hid
        cases hid with
        | other _ q2 q3 =>
          rw [k1] at q2
          cases Int.ofNat.inj (Option.some.inj q2)
          exact ⟨⟨fun v hv => absurd hv (l2 v), fun hb => absurd hb l3⟩, q3⟩
        | id q1 => exact absurd q1 l1
      · rintro ⟨_, q⟩
        exact .other l1 k1 q
    · have hgood : LeafGood ds data path m start w ↔ HasValue ds data start w m.type i := by
        rcases l5 with ⟨v, f1, f2, f3⟩ | ⟨f1, f2, rfl⟩
        · constructor
          · rintro ⟨g1, _⟩
            obtain ⟨j, e1, e2⟩ := g1 v f1
            rw [f3] at e1
            cases e1
            exact e2
          · intro g
            refine ⟨fun v' hv' => ?_, fun _ hno => absurd f1 (hno v)⟩
            rw [f2 v' hv']
            exact ⟨i, f3, g⟩
        · exact ⟨fun g => g.2 f2 f1, fun g => ⟨fun v hv => absurd hv (f1 v), fun _ _ => g⟩⟩
      rw [hgood, ← l4]
      constructor
      · intro hid
        cases hid with
        | other q1 => exact absurd l1 q1
        | id q1 q2 q3 q4 q5 q6 =>
          rw [k1] at q3
          cases Int.ofNat.inj (Option.some.inj q3)
          rw [l3] at q4
          cases q4
          exact ⟨q5, q6⟩
      · rintro ⟨q5, q6⟩
        exact .id l1 l2 k1 l3 q5 q6

/-! ### Items of leaves -/

theorem readItem_little (p : Printer) {m : Member} {s : Specific} {c : CType} {lo hi : Option Num}
    {states : List Text} {e : Entry} (hm : MadeFrom p m s c lo hi states e)
    (h : ∀ c, m.comment = some c → c.little = false) : (readItem p e).little = false := by
  show e.little = false
  rw [hm.little]
  split
  · rfl
  · rename_i c hc; exact h c hc

theorem item_boolean {p : Printer} {m : Member} (ha : ∀ e len, m.type ≠ .arr e len) {lo hi : Option Num}
    {states : List Text} {e : Entry} {s : Specific} (hm : MadeFrom p m s .bool lo hi states e)
    (hs : ∀ c, s ≠ .node c) (hno : ∀ v, s ≠ .leaf v) :
    (readItem p e).kind = "APPEND_ID_ITEM".toList ∧ (readItem p e).value = [['0']] := by
  have harr : e.isArray = false := by
    rw [hm.isArray]
    split
    · rename_i el len ht; exact absurd ht (ha _ _)
    · rfl
  have hspec : e.specific = [] := by
    rcases specificText_scalar ha hm.specific with ⟨_, v, i, h, _⟩ | ⟨_, ⟨_, hx⟩ | ⟨v, h, _⟩ | ⟨c, h⟩⟩
    · exact absurd h (hno v)
    · exact hx
    · exact absurd h (hno v)
    · exact absurd h (hs c)
  constructor
  · show (itemFields e).2.2.text = _
    unfold itemFields
    simp only [harr, hm.ctype, hspec]
    decide
  · show words (itemFields e).2.1 = _
    unfold itemFields
    simp only [hm.ctype, hspec]
    decide

theorem item_array {p : Printer} {m : Member} {el : AType} {len : Int} (ha : m.type = .arr el len) {lo hi : Option Num}
    {states : List Text} {e : Entry} {s : Specific} {c : CType} (hm : MadeFrom p m s c lo hi states e) :
    (readItem p e).kind ≠ "APPEND_ID_ITEM".toList := by
  have harr : e.isArray = true := by rw [hm.isArray, ha]
  show (itemFields e).2.2.text ≠ _
  unfold itemFields
  simp only [harr, if_true]
  decide

/-- The facts about the item of a leaf. -/
theorem leafFact_of {p : Printer} (hp : Faithful p) {ds : List Def} (hs : Sized ds) {path : List Member} {m : Member}
    (hf : FlatMember ds m) (hnat : NaturalSizes ds) (hd : ∃ d ∈ ds, m ∈ d.members)
    (hcmp : (∃ v, FixedTo path v) ∨ IsBoolean ds m.type → Comparable ds path m)
    {s : Specific} {c : CType} {lo hi : Option Num} {states : List Text} {e : Entry}
    (hsh : ItemShape ds m.type (some c) lo hi states) (hm : MadeFrom p m s c lo hi states e)
    (hfound : FoundValue .nil path s) : LeafFact ds path m (readItem p e) := by
  obtain ⟨v, k1, k2⟩ := leaf_length hs hf hd hsh hm
  have hgm := (member_grammar hs.grammar hd).2.1
  obtain ⟨w, rfl⟩ : ∃ w : Nat, v = w := ⟨v.toNat, by
    have : 0 ≤ v := size_nonneg (n := .members [m]) hnat (fun x hx => by
      rcases List.mem_singleton.1 hx with rfl
      obtain ⟨d, hd, hmd⟩ := hd
      exact (hnat d hd).1 _ hmd) k2
    omega⟩
  refine ⟨w, k1, k2, fun v' hv' => size_unique hs ?_ hv' k2, ?_⟩
  · intro x hx
    rcases List.mem_singleton.1 hx with rfl
    exact hgm
  obtain ⟨f1, f2⟩ := hfound
  have hfix : ∀ v, s = .leaf v ↔ FixedTo path v := by
    intro v
    rw [f2 v]
    constructor
    · rintro (h | h)
      · cases h
      · exact h
    · exact .inr
  have hbi := itemShape_bool_iff hs.nodup hs.grammar hgm hsh
  by_cases hex : (∃ v, FixedTo path v) ∨ IsBoolean ds m.type
  · have hc := hcmp hex
    obtain ⟨h1, h2⟩ := item_id hp hc.single hm hbi f1
    have hit := itemType_of hs hgm hsh hm
    by_cases hv : ∃ v, FixedTo path v
    · obtain ⟨v, hv⟩ := hv
      obtain ⟨hsuit, hnf⟩ := hc.value v hv
      obtain ⟨i, hi⟩ : ∃ i, leafNum v = .int i := by
        cases v with
        | int j => exact ⟨_, rfl⟩
        | bool b => exact ⟨_, rfl⟩
        | flt x => exact absurd rfl (hnf x)
      obtain ⟨g1, g2⟩ := h2 v ((hfix v).2 hv) hsuit
      refine .inr ⟨g1, readItem_little p hm hc.big, i, idNumber_of g2 ?_,
        fun data pos => fieldValue_iff hs.nodup hit hc.integer data pos w i, .inl ⟨v, hv, ?_, hi⟩⟩
      · cases v with
        | int j => cases hi; exact .inl rfl
        | bool b => cases hi; exact .inr ⟨b, rfl, rfl⟩
        | flt x => exact absurd rfl (hnf x)
      · intro v' hv'
        have a := (hfix v').2 hv'
        have b := (hfix v).2 hv
        rw [a] at b
        exact Specific.leaf.inj b
    · have hb : IsBoolean ds m.type := hex.resolve_left hv
      have hcb := hbi.2 hb
      subst hcb
      obtain ⟨g1, g2⟩ := item_boolean hc.single hm f1 fun v h => hv ⟨v, (hfix v).1 h⟩
      refine .inr ⟨g1, readItem_little p hm hc.big, 0, ?_,
        fun data pos => fieldValue_iff hs.nodup hit hc.integer data pos w 0,
        .inr ⟨fun v h => hv ⟨v, h⟩, hb, rfl⟩⟩
      rw [g2]
      decide +kernel
  · rw [not_or] at hex
    refine .inl ⟨?_, fun v hv => hex.1 ⟨v, hv⟩, hex.2⟩
    by_cases ha : ∃ el len, m.type = .arr el len
    · obtain ⟨el, len, ha⟩ := ha
      exact item_array ha hm
    · obtain ⟨h1, _⟩ := item_id hp (fun el len h => ha ⟨el, len, h⟩) hm hbi f1
      rw [Ne, h1 hex.2]
      rintro ⟨v, h⟩
      exact hex.1 ⟨v, (hfix v).1 h⟩

end Apg
