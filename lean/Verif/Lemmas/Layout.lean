import Verif.Spec.Layout
import Verif.Props.Agreement
import Verif.Props.CScope

/-!
# Lemmas on the layout of messages
-/

namespace Apg
open Spec

/-! ### Elementary types -/

/-- Number of bits of an elementary C type, by its name. -/
def typeBitsOf (t : Text) : Option Int :=
  (["uint8_t", "uint16_t", "uint32_t", "uint64_t", "int8_t", "int16_t", "int32_t", "int64_t", "int", "float", "double",
    "char"].zip [8, 16, 32, 64, 8, 16, 32, 64, 32, 32, 64, 8]).findSome? fun x => if x.1.toList = t then some x.2 else none

theorem typeBits_of {ct : Text} {w : Int} (h : TypeBits ct w) :
    typeBitsOf ct = some w ∧ w % 8 = 0 ∧ 0 < w ∧ ∃ c r, ct = c :: r ∧ reLower c = true := by
  cases h with
  | unsigned h => cases h <;> exact ⟨by decide +kernel, by decide, by decide, _, _, rfl, by decide⟩
  | signed h => cases h <;> exact ⟨by decide +kernel, by decide, by decide, _, _, rfl, by decide⟩
  | int => exact ⟨by decide +kernel, by decide, by decide, _, _, rfl, by decide⟩
  | single => exact ⟨by decide +kernel, by decide, by decide, _, _, rfl, by decide⟩
  | double => exact ⟨by decide +kernel, by decide, by decide, _, _, rfl, by decide⟩
  | char => exact ⟨by decide +kernel, by decide, by decide, _, _, rfl, by decide⟩

theorem typeBits_unique {ct : Text} {w w' : Int} (h : TypeBits ct w) (h' : TypeBits ct w') : w = w' :=
  Option.some.inj ((typeBits_of h).1.symm.trans (typeBits_of h').1)

theorem typeBits_of_field {ct : Text} {w : Int} (h : FieldBits ct [] w) : TypeBits ct w := by
  generalize hs : ([] : Text) = sfx at h
  cases h with
  | bitField h _ =>
    obtain ⟨d, rfl, _⟩ := h
    exact absurd hs (by simp)
  | unsigned h => exact .unsigned h
  | signed h => exact .signed h
  | int => exact .int
  | single => exact .single
  | double => exact .double

theorem posix_unique {n : String} {ct ct' : Text} (h : Posix n ct) (h' : Posix n ct') : ct = ct' :=
  (posix_lower h).1.symm.trans (posix_lower h').1

theorem leafSize_least {lo hi : Int} {w : Int} (h : LeafSize (intType lo hi) w) (h0 : 0 ≤ lo) :
    ∃ n : Nat, w = n ∧ LeastUnsigned n lo hi := by
  generalize hx : intType lo hi = x at h
  cases h with
  | uint n _ _ h1 h2 => simp [intType] at hx; obtain ⟨rfl, rfl⟩ := hx; exact ⟨n, rfl, h1, h2⟩
  | int _ h1 _ _ _ => simp [intType] at hx; omega
  | _ => simp [intType] at hx

theorem stdUInt_mem {w : Nat} : (∃ ct, StdUInt w ct) ↔ (w : Int) ∈ [8, 16, 32, 64] := by
  constructor
  · rintro ⟨ct, h⟩
    cases h <;> decide
  · intro h
    simp only [List.mem_cons, List.not_mem_nil, or_false] at h
    have : w = 8 ∨ w = 16 ∨ w = 32 ∨ w = 64 := by omega
    rcases this with rfl | rfl | rfl | rfl
    · exact ⟨_, .w8⟩
    · exact ⟨_, .w16⟩
    · exact ⟨_, .w32⟩
    · exact ⟨_, .w64⟩

/-- A numeric field is a bit-field exactly if its type is an odd range. -/
theorem scalar_field {t : AType} {ct sfx : Text} {w : Int} (h : ScalarC t ct sfx) (hw : ScalarWidth t w) :
    (OddRange t ∧ ∃ n : Nat, w = n ∧ BitSuffix n sfx) ∨ (¬ OddRange t ∧ sfx = [] ∧ TypeBits ct w) := by
  cases hw with
  | @unsigned lo hi w h0 h1 h2 =>
    obtain ⟨n, rfl, hn⟩ := leafSize_least h2 h0
    generalize hx : intType lo hi = x at h
    cases h with
    | uint k1 k2 k3 =>
      simp [intType] at hx
      obtain ⟨rfl, rfl⟩ := hx
      cases leastUnsigned_unique hn k2
      obtain ⟨n', q1, q2, q3, q4⟩ := k3
      rcases q4 with ⟨q4, rfl⟩ | ⟨q4, q5⟩
      · refine .inr ⟨?_, rfl, ?_⟩
        · rintro ⟨lo', hi', w', r1, r2, r3, r4⟩
          simp [intType] at r1
          obtain ⟨rfl, rfl⟩ := r1
          obtain ⟨n'', rfl, r5⟩ := leafSize_least r3 h0
          cases leastUnsigned_unique hn r5
          exact r4 (stdUInt_mem.1 q4)
        · obtain ⟨ct', q4⟩ := q4
          have := q3 _ _ q4 (Nat.le_refl _)
          have : n = n' := by omega
          subst this
          exact .unsigned q1
      · exact .inl ⟨⟨lo, hi, n, rfl, h0, h2, fun h => q4 (stdUInt_mem.2 h)⟩, n, rfl, q5⟩
    | sint k1 => simp [intType] at hx; omega
    | single => simp [intType, realType] at hx
    | double => simp [intType, realType] at hx
  | @signed lo hi h0 h1 =>
    generalize hx : intType lo hi = x at h
    cases h with
    | uint k1 k2 k3 => simp [intType] at hx; omega
    | sint k1 =>
      refine .inr ⟨?_, rfl, .int⟩
      rintro ⟨lo', hi', w', r1, r2, r3, r4⟩
      rw [r1] at hx
      simp [intType] at hx
      omega
    | single => simp [intType, realType] at hx
    | double => simp [intType, realType] at hx
  | @real lo hi w h0 =>
    have hno : ¬ OddRange (realType lo hi) := by
      rintro ⟨_, _, _, r1, _⟩
      simp [intType, realType] at r1
    have h2 := (leafSize_real lo hi w).2 h0
    generalize hx : realType lo hi = x at h
    cases h with
    | uint k1 k2 k3 => simp [intType, realType] at hx
    | sint k1 => simp [intType, realType] at hx
    | single k =>
      simp [realType] at hx
      obtain ⟨rfl, rfl⟩ := hx
      rw [(leafSize_real _ _ 32).2 k] at h2
      cases h2
      exact .inr ⟨hno, rfl, .single⟩
    | double k =>
      simp [realType] at hx
      obtain ⟨rfl, rfl⟩ := hx
      rw [(leafSize_real _ _ 64).2 k] at h2
      cases h2
      exact .inr ⟨hno, rfl, .double⟩

/-! ### Leaves -/

/-- What is used of the definitions. -/
structure LayoutEnv (ds : List Def) : Prop extends Sized ds where
  posix : ∀ d ∈ ds, ∀ ct, Posix d.name ct → d.isSimple = true
  simple : ∀ n c t, Def.simple n c t ∈ ds → ∀ e len, t ≠ .arr e len

theorem LayoutEnv.same {ds : List Def} (h : LayoutEnv ds) {d d' : Def} (hd : d ∈ ds) (hd' : d' ∈ ds)
    (hn : d.name = d'.name) : d = d' := mem_unique_of_nodup_map h.nodup hd hd' hn

theorem scalar_not_plain {t : AType} {w : Int} (h : ScalarWidth t w) {n : String} : t ≠ .plain n none none := by
  rintro rfl
  obtain ⟨_, _, _, hn, _⟩ := h.plain
  generalize hx : AType.plain n none none = x at h
  cases h <;> simp [intType, realType] at hx

theorem scalarC_not_plain {t : AType} {ct sfx : Text} (h : ScalarC t ct sfx) {n : String} : t ≠ .plain n none none := by
  generalize hx : AType.plain n none none = x
  rintro rfl
  cases h <;> simp [intType, realType] at hx

theorem oddRange_not_plain {t : AType} (h : OddRange t) {n : String} : t ≠ .plain n none none := by
  obtain ⟨_, _, _, rfl, _⟩ := h
  simp [intType]

/-- The field of a leaf. -/
theorem leaf_type {ds : List Def} (hs : LayoutEnv ds) {t : AType} {w : Int} (hw : LeafBits ds t w)
    {ct sfx : Text} (h : FieldType ds t ct sfx) :
    (InBits ds t ∧ dims t = [] ∧ ∃ n : Nat, w = n ∧ BitSuffix n sfx) ∨
    (¬ InBits ds t ∧ sfx = [] ∧ ∃ u, TypeBits ct u ∧ u * elements ((dims t).take 1) = w) := by
  have nobool : ∀ d ∈ ds, d.name ≠ "BOOLEAN" := builtin_not_def hs.grammar (by decide)
  cases hw with
  | number hw hpos =>
    cases hw with
    | scalar hw =>
      have hd : dims t = [] := by
        obtain ⟨_, _, _, rfl, _⟩ := hw.plain
        rfl
      have hsc : ScalarC t ct sfx := by
        cases h with
        | scalar h => exact h
        | bool => exact absurd rfl (scalar_not_plain hw)
        | chars => cases hd
        | named => exact absurd rfl (scalar_not_plain hw)
        | enum => exact absurd rfl (scalar_not_plain hw)
        | array => cases hd
        | arrayEnum => cases hd
      rcases scalar_field hsc hw with ⟨h1, h2⟩ | ⟨h1, h2, h3⟩
      · exact .inl ⟨.range h1, hd, h2⟩
      · refine .inr ⟨?_, h2, w, h3, by simp [hd, elements]⟩
        rintro (_ | _ | h | _)
        · exact absurd rfl (scalar_not_plain hw)
        · exact absurd rfl (scalar_not_plain hw)
        · exact h1 h
        · exact absurd rfl (scalar_not_plain hw)
    | bool =>
      refine .inl ⟨.bool, rfl, 1, rfl, ?_⟩
      generalize hx : AType.plain "BOOLEAN" none none = x at h
      cases h with
      | scalar h => exact absurd hx.symm (scalarC_not_plain h)
      | bool h => exact h
      | chars => cases hx
      | named h =>
        cases hx
        cases h with
        | posix h => exact absurd rfl (nobool _ h)
        | struct h => exact absurd rfl (nobool _ h)
        | union h => exact absurd rfl (nobool _ h)
        | alias h => exact absurd rfl (nobool _ h)
        | aliasBool h => exact absurd rfl (nobool _ h)
        | aliasFloat h => exact absurd rfl (nobool _ h)
        | aliasDouble h => exact absurd rfl (nobool _ h)
      | enum h => cases hx; exact absurd rfl (nobool _ h)
      | array => cases hx
      | arrayEnum => cases hx
    | @enum n c its w he hl =>
      refine .inl ⟨.enum he, rfl, w, rfl, ?_⟩
      generalize hx : AType.plain n none none = x at h
      cases h with
      | scalar h => exact absurd hx.symm (scalarC_not_plain h)
      | bool => cases hx; exact absurd rfl (nobool _ he)
      | chars => cases hx
      | named h =>
        cases hx
        cases h with
        | posix h => cases hs.same he h rfl
        | struct h => cases hs.same he h rfl
        | union h => cases hs.same he h rfl
        | alias h => cases hs.same he h rfl
        | aliasBool h => cases hs.same he h rfl
        | aliasFloat h => cases hs.same he h rfl
        | aliasDouble h => cases hs.same he h rfl
      | enum h h1 h2 =>
        cases hx
        cases hs.same he h rfl
        rw [least_unique hl h1]
        exact h2
      | array => cases hx
      | arrayEnum => cases hx
    | @alias n c t' w he hp hl =>
      have hsc : ScalarC t' ct sfx := by
        generalize hx : AType.plain n none none = x at h
        cases h with
        | scalar h => exact absurd hx.symm (scalarC_not_plain h)
        | bool => cases hx; exact absurd rfl (nobool _ he)
        | chars => cases hx
        | named h =>
          cases hx
          cases h with
          | posix _ h => exact absurd h (hp _)
          | struct h => cases hs.same he h rfl
          | union h => cases hs.same he h rfl
          | alias h _ h2 =>
            cases hs.same he h rfl
            exact h2
          | aliasBool h => cases hs.same he h rfl; exact absurd rfl (scalar_not_plain hl)
          | aliasFloat h => cases hs.same he h rfl; exact absurd rfl (scalar_not_plain hl)
          | aliasDouble h => cases hs.same he h rfl; exact absurd rfl (scalar_not_plain hl)
        | enum h => cases hx; cases hs.same he h rfl
        | array => cases hx
        | arrayEnum => cases hx
      rcases scalar_field hsc hl with ⟨h1, h2⟩ | ⟨h1, h2, h3⟩
      · exact .inl ⟨.named he hp h1, rfl, h2⟩
      · refine .inr ⟨?_, h2, w, h3, by simp [dims, elements]⟩
        intro hb
        generalize hx : AType.plain n none none = x at hb
        cases hb with
        | bool => cases hx; exact absurd rfl (nobool _ he)
        | enum h => cases hx; cases hs.same he h rfl
        | range h => exact absurd hx.symm (oddRange_not_plain h)
        | named h _ h' => cases hx; cases hs.same he h rfl; exact h1 h'
    | @posix n c t' ct' w he hp hf hl =>
      refine .inr ⟨?_, ?_⟩
      · intro hb
        generalize hx : AType.plain n none none = x at hb
        cases hb with
        | bool => cases hx; exact absurd rfl (nobool _ he)
        | enum h => cases hx; cases hs.same he h rfl
        | range h => exact absurd hx.symm (oddRange_not_plain h)
        | named h h' => cases hx; exact h' _ hp
      · generalize hx : AType.plain n none none = x at h
        cases h with
        | scalar h => exact absurd hx.symm (scalarC_not_plain h)
        | bool => cases hx; exact absurd rfl (nobool _ he)
        | chars => cases hx
        | named h =>
          cases hx
          cases h with
          | posix _ h =>
            cases posix_unique hp h
            exact ⟨rfl, w, typeBits_of_field hf, by simp [dims, elements]⟩
          | struct h => cases hs.same he h rfl
          | union h => cases hs.same he h rfl
          | alias _ h => exact absurd hp (h _)
          | aliasBool h =>
            cases hs.same he h rfl
            have := leafSize_bool hl
            have := typeBits_of (typeBits_of_field hf)
            omega
          | aliasFloat h =>
            cases hs.same he h rfl
            cases leafSize_float hl
            exact ⟨rfl, 32, .single, by simp [dims, elements]⟩
          | aliasDouble h =>
            cases hs.same he h rfl
            cases leafSize_double hl
            exact ⟨rfl, 64, .double, by simp [dims, elements]⟩
        | enum h => cases hx; cases hs.same he h rfl
        | array => cases hx
        | arrayEnum => cases hx
  | @string n len _ hl =>
    refine .inr ⟨?_, ?_⟩
    · intro hb
      generalize hx : AType.str n len = x at hb
      cases hb with
      | range h => obtain ⟨_, _, _, rfl, _⟩ := h; cases hx
      | _ => cases hx
    · generalize hx : AType.str n len = x at h
      cases h with
      | chars => cases hx; exact ⟨rfl, 8, .char, by simp [dims, elements]⟩
      | scalar h => cases h <;> cases hx
      | _ => cases hx
  | @array n c t' ct' w len he hp hf hl hpos =>
    refine .inr ⟨?_, ?_⟩
    · intro hb
      generalize hx : AType.arr (.plain n none none) len = x at hb
      cases hb with
      | range h => obtain ⟨_, _, _, rfl, _⟩ := h; cases hx
      | _ => cases hx
    · generalize hx : AType.arr (.plain n none none) len = x at h
      cases h with
      | array h =>
        cases hx
        refine ⟨rfl, w, ?_, by simp [dims, elements]⟩
        cases h with
        | posix _ h =>
          cases posix_unique hp h
          exact typeBits_of_field hf
        | struct h => cases hs.same he h rfl
        | union h => cases hs.same he h rfl
        | alias _ h => exact absurd hp (h _)
        | aliasBool h =>
          cases hs.same he h rfl
          have := leafSize_bool hl
          have := typeBits_of (typeBits_of_field hf)
          omega
        | aliasFloat h =>
          cases hs.same he h rfl
          cases leafSize_float hl
          exact .single
        | aliasDouble h =>
          cases hs.same he h rfl
          cases leafSize_double hl
          exact .double
      | arrayEnum h => cases hx; cases hs.same he h rfl
      | scalar h => cases h <;> cases hx
      | _ => cases hx

/-- No leaf is a sequence. -/
theorem leafBits_not_seq {ds : List Def} (hs : LayoutEnv ds) {t : AType} {w : Int} (hw : LeafBits ds t w) {n : String}
    {inner : List Member} (hu : UsesName t n) (hq : IsSequence ds n inner) : False := by
  obtain ⟨c, hq⟩ := hq
  rw [usesName_iff] at hu
  cases hw with
  | number hw =>
    cases hw with
    | scalar h =>
      obtain ⟨_, _, _, rfl, hn⟩ := h.plain
      cases hu
      rcases hn with hn | hn
      · exact builtin_not_def hs.grammar (n := "INTEGER") (by decide) _ hq hn
      · exact builtin_not_def hs.grammar (n := "REAL") (by decide) _ hq hn
    | bool => cases hu; exact builtin_not_def hs.grammar (n := "BOOLEAN") (by decide) _ hq rfl
    | enum h => cases hu; cases hs.same h hq rfl
    | alias h => cases hu; cases hs.same h hq rfl
    | posix h => cases hu; cases hs.same h hq rfl
  | string hn =>
    cases hu
    rcases hn with hn | hn
    · exact builtin_not_def hs.grammar (n := "IA5String") (by decide) _ hq hn
    · exact builtin_not_def hs.grammar (n := "NumericString") (by decide) _ hq hn
  | array h => cases hu; cases hs.same h hq rfl

/-- The bits of a leaf are those the tool computes. -/
theorem leafBits_size {ds : List Def} (hs : LayoutEnv ds) {m : Member} {w : Int} (hw : LeafBits ds m.type w) :
    Size ds (.members [m]) w := by
  generalize ht : m.type = t at hw
  cases hw with
  | number hw => exact Width.size hs.grammar (ht ▸ hw)
  | @string n len hn =>
    have h1 : LeafSize m.type (8 * len) := by
      rw [ht, Int.mul_comm]
      rcases hn with rfl | rfl
      · exact .ia5
      · exact .numeric
    have := Size.leaf (ds := ds) (m := m) (ms := []) (by intro n' lo hi h; rw [ht] at h; cases h) h1 .nil
    rwa [Int.add_zero] at this
  | @array n c t' ct w len he hp hf hl =>
    have h1 := Width.size hs.grammar (m := { m with type := .plain n none none }) (w := w) (.posix he hp hf hl)
    have := Size.array (m := m) (ms := []) ht h1 .nil
    rwa [Int.add_zero, Int.mul_comm] at this

/-- It has no other number of bits. -/
theorem leafBits_eq {ds : List Def} (hs : LayoutEnv ds) {m : Member} (hg : GrammarType m.type) {w v : Int}
    (hw : LeafBits ds m.type w) (hv : Size ds (.members [m]) v) : v = w := by
  generalize ht : m.type = t at hw
  cases hw with
  | number hw => exact Width.unique hs.nodup hs.grammar hg (ht ▸ hw) hv
  | @string n len hn =>
    generalize hl : Node.members [m] = x at hv
    cases hv with
    | named h => cases hl; rw [ht] at h; cases h
    | leaf _ h h' =>
      cases hl
      cases h'
      rw [ht] at h
      rw [leafSize_str h]
      omega
    | array h => cases hl; rw [ht] at h; cases h
    | _ => cases hl
  | @array n c t' ct w len he hp hf hl =>
    generalize hl' : Node.members [m] = x at hv
    cases hv with
    | named h => cases hl'; rw [ht] at h; cases h
    | leaf _ h => cases hl'; rw [ht] at h; cases h
    | array h h1 h2 =>
      cases hl'
      cases h2
      rw [ht] at h
      cases h
      have := Width.unique (m := { m with type := .plain n none none }) hs.nodup hs.grammar
        (.named (posix_lower hp).2.2.1) (.posix he hp hf hl) h1
      rw [this, Int.add_zero, Int.mul_comm]
    | _ => cases hl'

theorem leafBits_unique {ds : List Def} (hs : LayoutEnv ds) {t : AType} (hg : GrammarType t) {w v : Int}
    (hw : LeafBits ds t w) (hv : LeafBits ds t v) : v = w :=
  leafBits_eq hs (m := ⟨"x", t, none, none⟩) hg hw (leafBits_size hs hv)

/-- Leaves are not arrays of other things than numbers. -/
theorem leafBits_flat {ds : List Def} (hs : LayoutEnv ds) {m : Member} {w : Int} (hw : LeafBits ds m.type w) :
    FlatMember ds m := by
  have harr : ∀ e len, m.type = .arr e len → ∃ n c t ct w, e = .plain n none none ∧ Def.simple n c t ∈ ds ∧ Posix n ct ∧
      FieldBits ct [] w ∧ LeafSize t w := by
    intro e len ht
    rw [ht] at hw
    cases hw with
    | number h =>
      generalize hx : AType.arr e len = x at h
      cases h with
      | scalar h => obtain ⟨_, _, _, rfl, _⟩ := h.plain; cases hx
      | _ => cases hx
    | array h1 h2 h3 h4 => exact ⟨_, _, _, _, _, rfl, h1, h2, h3, h4⟩
  refine ⟨fun n c t _ h => hs.simple n c t h, ?_, ?_, ?_⟩
  · rintro e len ht e' len' rfl
    obtain ⟨_, _, _, _, _, h, _⟩ := harr _ _ ht
    cases h
  · intro e len ht n inner hu hq
    obtain ⟨_, _, _, _, _, rfl, h1, _⟩ := harr _ _ ht
    rw [usesName_iff] at hu
    obtain ⟨c, hq⟩ := hq
    cases hu
    cases hs.same h1 hq rfl
  · intro e len ht
    obtain ⟨n, c, t, ct, w, rfl, h1, h2, h3, h4⟩ := harr _ _ ht
    refine ⟨?_, ?_⟩
    · intro hu
      rw [usesName_iff] at hu
      exact builtin_not_def hs.grammar (n := "BOOLEAN") (by decide) _ h1 hu
    · intro n' c' t' hu hd hb
      rw [usesName_iff] at hu hb
      cases hu
      cases hs.same h1 hd rfl
      have h5 := typeBits_of (typeBits_of_field h3)
      rcases leafSize_inv h4 with ⟨_, h0⟩ | ⟨b', e', w, h0, _⟩ |
        ⟨b', e', w, h0, _⟩ | ⟨b', e', lim, h0, _⟩ | ⟨b', e', lim, dlim, h0, _⟩ |
        ⟨len, h0 | h0, _⟩ | ⟨h0, h1⟩ | ⟨h0, h1⟩
      · omega
      all_goals rw [h0] at hb; simp [intType, realType, AType.name] at hb

/-! ### Plans -/

/-- The leaves of a message with their bits. -/
inductive Plan (ds : List Def) : List Member → List (List Member × Int) → Prop
  | nil : Plan ds [] []
  | leaf {m ms w ps} : LeafBits ds m.type w → Plan ds ms ps → Plan ds (m :: ms) (([m], w) :: ps)
  | seq {m ms n inner ps qs} : m.type = .plain n none none → IsSequence ds n inner → Plan ds inner ps → Plan ds ms qs →
      Plan ds (m :: ms) (ps.map (fun x => (m :: x.1, x.2)) ++ qs)

theorem plan_of_leaves {ds : List Def} (hs : LayoutEnv ds) {ms : List Member} {ls : List (List Member)}
    (h : Leaves ds ms ls) (ha : Agreed ds ms) : ∃ ps, Plan ds ms ps ∧ ps.map (·.1) = ls := by
  induction h with
  | nil => exact ⟨[], .nil, rfl⟩
  | @leaf m ms ps h1 _ ih =>
    obtain ⟨qs, i1, i2⟩ := ih fun k hk => ha k (by
      cases hk with
      | here h => exact .here (by simp [h])
      | inside h h2 h3 h4 => exact .inside (by simp [h]) h2 h3 h4)
    rcases ha m (.here (by simp)) with ⟨w, hw⟩ | ⟨n, inner, h2, h3⟩
    · exact ⟨_, .leaf hw i1, by simp [i2]⟩
    · exact absurd h3 (h1 n inner ((usesName_iff _ _).2 (by rw [h2]; rfl)))
  | @seq m ms n inner ps qs h1 h2 _ _ ih1 ih2 =>
    obtain ⟨qs', i1, i2⟩ := ih2 fun k hk => ha k (by
      cases hk with
      | here h => exact .here (by simp [h])
      | inside h h2 h3 h4 => exact .inside (by simp [h]) h2 h3 h4)
    obtain ⟨ps', j1, j2⟩ := ih1 fun k hk => ha k (.inside (by simp) h1 h2 hk)
    rcases ha m (.here (by simp)) with ⟨w, hw⟩ | ⟨n', inner', h3, h4⟩
    · exact (leafBits_not_seq hs hw h1 h2).elim
    · have : n' = n := by
        rw [usesName_iff, h3] at h1
        exact h1
      subst this
      refine ⟨_, .seq h3 h2 j1 i1, ?_⟩
      rw [List.map_append, i2, ← j2]
      simp

theorem all2_unmap {α β γ} {R : γ → β → Prop} {f : α → γ} {l : List α} {r : List β} (h : All2 R (l.map f) r) :
    All2 (fun a b => R (f a) b) l r := by
  induction l generalizing r with
  | nil => cases h; exact .nil
  | cons a l ih =>
    cases h with
    | cons h1 h2 => exact .cons h1 (ih h2)

theorem plan_path {ds : List Def} {ms : List Member} {ps : List (List Member × Int)} (h : Plan ds ms ps) :
    ∀ x ∈ ps, x.1 ≠ [] := by
  induction h with
  | nil => intro x hx; cases hx
  | leaf _ _ ih =>
    intro x hx
    rcases List.mem_cons.1 hx with rfl | hx
    · simp
    · exact ih x hx
  | seq _ _ _ _ ih1 ih2 =>
    intro x hx
    rcases List.mem_append.1 hx with hx | hx
    · obtain ⟨z, _, rfl⟩ := List.mem_map.1 hx
      simp
    · exact ih2 x hx

/-- The leaves of a plan have its bits. -/
theorem plan_leaf {ds : List Def} {ms : List Member} {ps : List (List Member × Int)} (h : Plan ds ms ps) :
    ∀ x ∈ ps, ∀ m, x.1.getLast? = some m → LeafBits ds m.type x.2 := by
  induction h with
  | nil => intro x hx; cases hx
  | leaf hw _ ih =>
    intro x hx m hm
    rcases List.mem_cons.1 hx with rfl | hx
    · simp at hm
      subst hm
      exact hw
    · exact ih x hx m hm
  | seq _ _ hpl _ ih1 ih2 =>
    intro x hx m hm
    rcases List.mem_append.1 hx with hx | hx
    · obtain ⟨y, hy, rfl⟩ := List.mem_map.1 hx
      have hne := plan_path hpl y hy
      refine ih1 y hy m ?_
      rwa [List.getLast?_cons, List.getLast?_eq_some_getLast hne, Option.getD_some,
        ← List.getLast?_eq_some_getLast hne] at hm
    · exact ih2 x hx m hm

/-- Number of bits of a plan. -/
def planBits (ps : List (List Member × Int)) : Int := (ps.map (·.2)).sum

theorem planBits_append (ps qs : List (List Member × Int)) : planBits (ps ++ qs) = planBits ps + planBits qs := by
  simp [planBits, List.sum_append]

theorem planBits_map (m : Member) (ps : List (List Member × Int)) :
    planBits (ps.map fun x => (m :: x.1, x.2)) = planBits ps := by
  simp [planBits, Function.comp_def]

/-- The structs declare the sequences. -/
structure StructEnv (ds : List Def) (decls : List CDecl) : Prop where
  declared : ∀ n inner, IsSequence ds n inner → ∃ fs, CDecl.struct (ident n) fs ∈ decls
  only : ∀ x fs, CDecl.struct x fs ∈ decls → ∃ n inner, IsSequence ds n inner ∧ x = ident n ∧
    All2 (FieldOf (FieldType ds)) inner fs

theorem StructEnv.of {ds : List Def} {decls : List CDecl} (hd : StructEnv ds decls) (hs : LayoutEnv ds) {n : String}
    {inner : List Member} (h : IsSequence ds n inner) {fs : List CField} (hf : CDecl.struct (ident n) fs ∈ decls) :
    All2 (FieldOf (FieldType ds)) inner fs := by
  obtain ⟨n', inner', h1, h2, h3⟩ := hd.only _ _ hf
  obtain ⟨c, h⟩ := h
  obtain ⟨c', h1⟩ := h1
  have := ident_inj (.inr (hs.grammar _ h).1) (.inr (hs.grammar _ h1).1) h2
  subst this
  cases hs.same h h1 rfl
  exact h3

theorem bits_width {n : Nat} {sfx : Text} {f : CField} (hb : BitSuffix n sfx)
    (h : (sfx = [] ∧ f.width = none) ∨ ∃ d i, sfx = " : ".toList ++ d ∧ readInt d = some i ∧ f.width = some i) :
    f.width = some (n : Int) := by
  obtain ⟨d, rfl, h1⟩ := hb
  rcases h with ⟨h, _⟩ | ⟨d', i, h2, h3, h4⟩
  · exact absurd h (by simp)
  · rw [List.append_cancel_left h2] at h1
    rw [h1] at h3
    cases h3
    exact h4

/-- Where a leaf starts, the position before it being `p`. -/
noncomputable def leafStart (ds : List Def) (t : AType) (p : Int) : Int :=
  open Classical in if InBits ds t then p else nextByte p

theorem leafBits_pos {ds : List Def} {t : AType} {w : Int} (h : LeafBits ds t w) : 0 < w := by
  cases h with
  | number _ h => exact h
  | string _ h => omega
  | array _ _ hf _ hl =>
    have := typeBits_of (typeBits_of_field hf)
    exact Int.mul_pos this.2.2.1 hl

/-- A leaf can be placed. -/
theorem leaf_placed {ds : List Def} (hs : LayoutEnv ds) {decls : List CDecl} {m : Member} {w : Int}
    (hw : LeafBits ds m.type w) {f : CField} (hf : FieldOf (FieldType ds) m f) {fs : List CField} {p e : Int}
    {ss : List Slot} (h : Placed decls fs (leafStart ds m.type p + w) ss e) :
    Placed decls (f :: fs) p (⟨[ident m.key], leafStart ds m.type p, w, f.type⟩ :: ss) e := by
  obtain ⟨h1, h2, ct, sfx, h3, h4, h5⟩ := hf
  rw [← h1]
  rcases leaf_type hs hw h3 with ⟨k1, k2, n, rfl, k4⟩ | ⟨k1, rfl, u, k3, k4⟩
  · simp only [leafStart, if_pos k1] at h ⊢
    exact .bits (bits_width k4 h5) (leafBits_pos hw) h
  · simp only [leafStart, if_neg k1] at h ⊢
    rw [← h2] at k4
    rw [← k4] at h ⊢
    refine .whole ?_ h4 k3 h
    rcases h5 with ⟨_, h⟩ | ⟨d, i, h, _⟩
    · exact h
    · exact absurd h (by simp)

/-- A leaf is placed only so. -/
theorem placed_leaf {ds : List Def} (hs : LayoutEnv ds) {decls : List CDecl} (hd : StructEnv ds decls) {m : Member} {w : Int}
    (hw : LeafBits ds m.type w) {f : CField} (hf : FieldOf (FieldType ds) m f) {fs : List CField} {p e : Int}
    {ss : List Slot} (h : Placed decls (f :: fs) p ss e) :
    ∃ ss', ss = ⟨[ident m.key], leafStart ds m.type p, w, f.type⟩ :: ss' ∧
      Placed decls fs (leafStart ds m.type p + w) ss' e := by
  obtain ⟨h1, h2, ct, sfx, h3, h4, h5⟩ := hf
  rw [← h1]
  rcases leaf_type hs hw h3 with ⟨k1, k2, n, rfl, k4⟩ | ⟨k1, rfl, u, k3, k4⟩
  · have hwd := bits_width k4 h5
    simp only [leafStart, if_pos k1]
    cases h with
    | bits q1 q2 q3 =>
      rw [hwd] at q1
      cases q1
      exact ⟨_, rfl, q3⟩
    | whole q1 => rw [hwd] at q1; cases q1
    | struct q1 => rw [hwd] at q1; cases q1
  · have hwd : f.width = none := by
      rcases h5 with ⟨_, h⟩ | ⟨d, i, h, _⟩
      · exact h
      · exact absurd h (by simp)
    simp only [leafStart, if_neg k1]
    rw [← h2] at k4
    cases h with
    | bits q1 => rw [hwd] at q1; cases q1
    | whole q1 q2 q3 q4 =>
      rw [h4] at q2
      cases q2
      cases typeBits_unique k3 q3
      rw [k4] at q4 ⊢
      exact ⟨_, rfl, q4⟩
    | struct q1 q2 q3 q4 =>
      rw [h4] at q2
      cases q2
      obtain ⟨n', inner', ⟨c, r1⟩, r2, _⟩ := hd.only _ _ q4
      obtain ⟨x, r, r3, r4⟩ := ident_capital_head (hs.grammar _ r1).1
      obtain ⟨_, _, _, y, r', r5, r6⟩ := typeBits_of k3
      rw [r2, r3] at r5
      cases r5
      exact absurd r6 (by simp [upper_lower r4])

/-- The field of a nested sequence. -/
theorem seq_type {ds : List Def} (hs : LayoutEnv ds) {n : String} {inner : List Member} (hq : IsSequence ds n inner)
    {ct sfx : Text} (h : FieldType ds (.plain n none none) ct sfx) : ct = ident n ∧ sfx = [] := by
  obtain ⟨c, hq⟩ := hq
  generalize hx : AType.plain n none none = x at h
  cases h with
  | scalar h => exact absurd hx.symm (scalarC_not_plain h)
  | bool => cases hx; exact absurd rfl (builtin_not_def hs.grammar (n := "BOOLEAN") (by decide) _ hq)
  | named h =>
    cases hx
    cases h with
    | posix h => cases hs.same hq h rfl
    | struct h => exact ⟨rfl, rfl⟩
    | union h => cases hs.same hq h rfl
    | alias h => cases hs.same hq h rfl
    | aliasBool h => cases hs.same hq h rfl
    | aliasFloat h => cases hs.same hq h rfl
    | aliasDouble h => cases hs.same hq h rfl
  | enum h => cases hx; cases hs.same hq h rfl
  | _ => cases hx

theorem seq_field {ds : List Def} (hs : LayoutEnv ds) {m : Member} {n : String} {inner : List Member}
    (ht : m.type = .plain n none none) (hq : IsSequence ds n inner) {f : CField} (hf : FieldOf (FieldType ds) m f) :
    f.name = ident m.key ∧ f.dims = [] ∧ f.type = [ident n] ∧ f.width = none := by
  obtain ⟨h1, h2, ct, sfx, h3, h4, h5⟩ := hf
  rw [ht] at h3 h2
  obtain ⟨rfl, rfl⟩ := seq_type hs hq h3
  refine ⟨h1, h2, h4, ?_⟩
  rcases h5 with ⟨_, h⟩ | ⟨d, i, h, _⟩
  · exact h
  · exact absurd h (by simp)

/-- The slots inside a field. -/
def inField (n : Text) (ss : List Slot) : List Slot := ss.map fun s => { s with path := n :: s.path }

/-- A nested sequence is placed as a struct. -/
theorem placed_seq {ds : List Def} (hs : LayoutEnv ds) {decls : List CDecl} (hd : StructEnv ds decls) {m : Member}
    {n : String} {inner : List Member} (ht : m.type = .plain n none none) (hq : IsSequence ds n inner) {f : CField}
    (hf : FieldOf (FieldType ds) m f) {fs : List CField} {p e : Int} {ss : List Slot}
    (h : Placed decls (f :: fs) p ss e) :
    ∃ fs' ss1 q ss2, All2 (FieldOf (FieldType ds)) inner fs' ∧ Placed decls fs' (nextByte p) ss1 q ∧
      Placed decls fs (nextByte q) ss2 e ∧ ss = inField (ident m.key) ss1 ++ ss2 := by
  obtain ⟨h1, h2, h3, h4⟩ := seq_field hs ht hq hf
  cases h with
  | bits q1 => rw [h4] at q1; cases q1
  | whole q1 q2 q3 =>
    rw [h3] at q2
    cases q2
    obtain ⟨c, hq⟩ := hq
    obtain ⟨x, r, r3, r4⟩ := ident_capital_head (hs.grammar _ hq).1
    obtain ⟨_, _, _, y, r', r5, r6⟩ := typeBits_of q3
    rw [r3] at r5
    cases r5
    exact absurd r6 (by simp [upper_lower r4])
  | struct q1 q2 q3 q4 q5 q6 =>
    rw [h3] at q2
    cases q2
    exact ⟨_, _, _, _, hd.of hs hq q4, q5, q6, by rw [← h1]; rfl⟩

/-- Every message has a layout. -/
theorem placed_exists {ds : List Def} (hs : LayoutEnv ds) {decls : List CDecl} (hd : StructEnv ds decls)
    {ms : List Member} {ps : List (List Member × Int)} (h : Plan ds ms ps) :
    ∀ {fs : List CField}, All2 (FieldOf (FieldType ds)) ms fs → ∀ p, ∃ ss e, Placed decls fs p ss e := by
  induction h with
  | nil => intro fs hf p; cases hf; exact ⟨[], p, .nil⟩
  | @leaf m ms w ps hw _ ih =>
    intro fs hf p
    cases hf with
    | cons h1 h2 =>
      obtain ⟨ss, e, h⟩ := ih h2 (leafStart ds m.type p + w)
      exact ⟨_, _, leaf_placed hs hw h1 h⟩
  | @seq m ms n inner ps qs ht hq _ _ ih1 ih2 =>
    intro fs hf p
    cases hf with
    | cons h1 h2 =>
      obtain ⟨k1, k2, k3, k4⟩ := seq_field hs ht hq h1
      obtain ⟨fs', hfs⟩ := hd.declared _ _ hq
      obtain ⟨ss1, q, h3⟩ := ih1 (hd.of hs hq hfs) (nextByte p)
      obtain ⟨ss2, e, h4⟩ := ih2 h2 (nextByte q)
      exact ⟨_, _, .struct k4 k3 k2 hfs h3 h4⟩

theorem all2_maps {α β γ δ} {R : α → β → Prop} {S : γ → δ → Prop} {f : α → γ} {g : β → δ} {l : List α} {r : List β}
    (h : All2 R l r) (hf : ∀ a b, R a b → S (f a) (g b)) : All2 S (l.map f) (r.map g) := by
  induction h with
  | nil => exact .nil
  | cons hx _ ih => exact .cons (hf _ _ hx) ih

/-- The names and bits of the slots. -/
theorem placed_slots {ds : List Def} (hs : LayoutEnv ds) {decls : List CDecl} (hd : StructEnv ds decls)
    {ms : List Member} {ps : List (List Member × Int)} (h : Plan ds ms ps) :
    ∀ {fs : List CField}, All2 (FieldOf (FieldType ds)) ms fs → ∀ {p ss e}, Placed decls fs p ss e →
      All2 (fun x s => s.path = x.1.map (ident ·.key) ∧ s.bits = x.2) ps ss := by
  induction h with
  | nil => intro fs hf p ss e h; cases hf; cases h; exact .nil
  | leaf hw _ ih =>
    intro fs hf p ss e h
    cases hf with
    | cons h1 h2 =>
      obtain ⟨ss', rfl, h3⟩ := placed_leaf hs hd hw h1 h
      exact .cons ⟨rfl, rfl⟩ (ih h2 h3)
  | seq ht hq _ _ ih1 ih2 =>
    intro fs hf p ss e h
    cases hf with
    | cons h1 h2 =>
      obtain ⟨fs', ss1, q, ss2, k1, k2, k3, rfl⟩ := placed_seq hs hd ht hq h1 h
      refine All2.append ?_ (ih2 h2 k3)
      exact all2_maps (ih1 k1 k2) fun x s hx => ⟨by simp [hx.1], hx.2⟩

/-- A struct is at least as long as its leaves together, and as long only if there are no gaps. -/
theorem placed_end {ds : List Def} (hs : LayoutEnv ds) {decls : List CDecl} (hd : StructEnv ds decls)
    {ms : List Member} {ps : List (List Member × Int)} (h : Plan ds ms ps) :
    ∀ {fs : List CField}, All2 (FieldOf (FieldType ds)) ms fs → ∀ {p ss e}, Placed decls fs p ss e →
      p + planBits ps ≤ e ∧ (e = p + planBits ps → Gapless ds ms p e) := by
  have hup : ∀ p, p ≤ nextByte p := fun p => by unfold nextByte; omega
  induction h with
  | nil => intro fs hf p ss e h; cases hf; cases h; simp [planBits]; exact .nil
  | @leaf m ms w ps hw _ ih =>
    intro fs hf p ss e h
    cases hf with
    | cons h1 h2 =>
      obtain ⟨ss', rfl, h3⟩ := placed_leaf hs hd hw h1 h
      obtain ⟨i1, i2⟩ := ih h2 h3
      have e1 : planBits (([m], w) :: ps) = w + planBits ps := by simp [planBits]
      rw [e1]
      by_cases hb : InBits ds m.type
      · simp only [leafStart, if_pos hb] at h3 i1 i2
        refine ⟨by omega, fun he => .bits hb hw (i2 (by omega))⟩
      · simp only [leafStart, if_neg hb] at h3 i1 i2
        have := hup p
        refine ⟨by omega, fun he => ?_⟩
        have hp : nextByte p = p := by omega
        rw [hp] at i2
        refine .whole hb hw ?_ (i2 (by omega))
        unfold nextByte at hp
        omega
  | @seq m ms n inner ps qs ht hq _ _ ih1 ih2 =>
    intro fs hf p ss e h
    cases hf with
    | cons h1 h2 =>
      obtain ⟨fs', ss1, q, ss2, k1, k2, k3, rfl⟩ := placed_seq hs hd ht hq h1 h
      obtain ⟨i1, i2⟩ := ih1 k1 k2
      obtain ⟨j1, j2⟩ := ih2 h2 k3
      have := hup p
      have := hup q
      rw [planBits_append, planBits_map]
      refine ⟨by omega, fun he => ?_⟩
      have hp : nextByte p = p := by omega
      have hq' : nextByte q = q := by omega
      rw [hp] at i2
      rw [hq'] at j2
      refine .seq ht hq ?_ (i2 (by omega)) ?_ (j2 (by omega))
      · unfold nextByte at hp; omega
      · unfold nextByte at hq'; omega

/-- The slots follow one another. -/
inductive Contiguous : Int → List Slot → Int → Prop
  | nil {p} : Contiguous p [] p
  | cons {p s ss e} : s.pos = p → Contiguous (p + s.bits) ss e → Contiguous p (s :: ss) e

theorem Contiguous.append {p q e : Int} {ss ss' : List Slot} (h : Contiguous p ss q) (h' : Contiguous q ss' e) :
    Contiguous p (ss ++ ss') e := by
  induction h with
  | nil => exact h'
  | cons h1 _ ih => exact .cons h1 (ih h')

theorem Contiguous.inField {p q : Int} {ss : List Slot} (n : Text) (h : Contiguous p ss q) :
    Contiguous p (inField n ss) q := by
  induction h with
  | nil => exact .nil
  | cons h1 _ ih => exact .cons h1 ih

/-- Without gaps the slots follow one another. -/
theorem gapless_contiguous {ds : List Def} (hs : LayoutEnv ds) {decls : List CDecl} (hd : StructEnv ds decls)
    {ms : List Member} {p q : Int} (h : Gapless ds ms p q) :
    ∀ {fs : List CField}, All2 (FieldOf (FieldType ds)) ms fs → ∀ {ss e}, Placed decls fs p ss e →
      e = q ∧ Contiguous p ss q := by
  have hup : ∀ p, p % 8 = 0 → nextByte p = p := fun p => by unfold nextByte; omega
  induction h with
  | nil => intro fs hf ss e h; cases hf; cases h; exact ⟨rfl, .nil⟩
  | bits hb hw _ ih =>
    intro fs hf ss e h
    cases hf with
    | cons h1 h2 =>
      obtain ⟨ss', rfl, h3⟩ := placed_leaf hs hd hw h1 h
      simp only [leafStart, if_pos hb] at h3 ⊢
      obtain ⟨i1, i2⟩ := ih h2 h3
      exact ⟨i1, .cons rfl i2⟩
  | whole hb hw hp _ ih =>
    intro fs hf ss e h
    cases hf with
    | cons h1 h2 =>
      obtain ⟨ss', rfl, h3⟩ := placed_leaf hs hd hw h1 h
      simp only [leafStart, if_neg hb, hup _ hp] at h3 ⊢
      obtain ⟨i1, i2⟩ := ih h2 h3
      exact ⟨i1, .cons rfl i2⟩
  | seq ht hq hp _ hq' _ ih1 ih2 =>
    intro fs hf ss e h
    cases hf with
    | cons h1 h2 =>
      obtain ⟨fs', ss1, q, ss2, k1, k2, k3, rfl⟩ := placed_seq hs hd ht hq h1 h
      rw [hup _ hp] at k2
      obtain ⟨rfl, i2⟩ := ih1 k1 k2
      rw [hup _ hq'] at k3
      obtain ⟨j1, j2⟩ := ih2 h2 k3
      exact ⟨j1, (i2.inField _).append j2⟩

/-- Items with the names and lengths of a plan are at the places of the slots exactly if these follow one another. -/
theorem samePlaces_of {ps : List (List Member × Int)} {ss : List Slot} {items : List CosmosItem}
    (h1 : All2 (fun x s => s.path = x.1.map (ident ·.key) ∧ s.bits = x.2) ps ss)
    (h2 : All2 (fun x it => ∃ m, x.1.getLast? = some m ∧ it.name = m.key.toList ∧ itemLength it = some x.2) ps items)
    {p q : Int} (h : Contiguous p ss q) : SamePlaces p ss items q := by
  induction h generalizing ps items with
  | nil => cases h1; cases h2; exact .nil
  | cons h3 _ ih =>
    cases h1 with
    | cons k1 k2 =>
      cases h2 with
      | cons r1 r2 =>
        obtain ⟨m, r3, r4, r5⟩ := r1
        refine .cons r4 (by rw [k1.1, List.getLast?_map, r3]; rfl) r5 h3 k1.2 ?_
        rw [← k1.2]
        exact ih k2 r2

theorem samePlaces_end {ps : List (List Member × Int)} {ss : List Slot} {items : List CosmosItem} {p q : Int}
    (h : SamePlaces p ss items q) (h2 : All2 (fun x it => itemLength it = some x.2) ps items) :
    q = p + planBits ps := by
  induction h generalizing ps with
  | nil => cases h2; simp [planBits]
  | cons _ _ h3 _ _ _ ih =>
    cases h2 with
    | cons r1 r2 =>
      have := ih r2
      rw [h3] at r1
      cases r1
      simp [planBits] at this ⊢
      omega

/-- Struct and packet have the same layout exactly if there are no gaps. -/
theorem sameLayout_iff {ds : List Def} (hs : LayoutEnv ds) {decls : List CDecl} (hd : StructEnv ds decls)
    {ms : List Member} {ps : List (List Member × Int)} (h : Plan ds ms ps)
    {fs : List CField} (hf : All2 (FieldOf (FieldType ds)) ms fs) {items : List CosmosItem}
    (hi : All2 (fun x it => ∃ m, x.1.getLast? = some m ∧ it.name = m.key.toList ∧ itemLength it = some x.2) ps items)
    {ss : List Slot} {e : Int} (hp : Placed decls fs 0 ss e) :
    SameLayout ss e items ↔ ∃ e, Gapless ds ms 0 e ∧ e % 8 = 0 := by
  constructor
  · intro hl
    have h1 := samePlaces_end hl (hi.imp fun _ _ ⟨_, _, _, h⟩ => h)
    obtain ⟨h2, h3⟩ := placed_end hs hd h hf hp
    unfold nextByte at h1
    have : e = 0 + planBits ps := by omega
    exact ⟨e, h3 this, by omega⟩
  · rintro ⟨q, h1, h2⟩
    obtain ⟨rfl, h3⟩ := gapless_contiguous hs hd h1 hf hp
    have hn : nextByte e = e := by unfold nextByte; omega
    unfold SameLayout
    rw [hn]
    exact samePlaces_of (placed_slots hs hd h hf hp) hi h3

end Apg
