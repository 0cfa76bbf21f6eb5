import Verif.Lemmas.Layout
import Verif.Spec.Overlay
import Verif.Props.Binary

/-!
# Lemmas on binary files read through structs
-/

namespace Apg
open Spec

/-- The slots start where the bits before them end, as long as these are whole bytes. -/
def AlignedSlots (ds : List Def) : Int → List (List Member × Int) → List Slot → Prop
  | p, x :: ps, s :: ss => s.pos = p ∧ s.bits = x.2 ∧ s.path = x.1.map (ident ·.key) ∧
      (∃ m f, x.1.getLast? = some m ∧ LeafBits ds m.type x.2 ∧ FieldOf (FieldType ds) m f ∧ s.type = f.type) ∧
      (x.2 % 8 = 0 → AlignedSlots ds (p + x.2) ps ss)
  | _, [], [] => True
  | _, _, _ => False

theorem AlignedSlots.append {ds : List Def} {ps qs : List (List Member × Int)} : ∀ {p : Int} {ss ts : List Slot},
    AlignedSlots ds p ps ss → ((∀ x ∈ ps, x.2 % 8 = 0) → AlignedSlots ds (p + planBits ps) qs ts) →
    AlignedSlots ds p (ps ++ qs) (ss ++ ts) := by
  induction ps with
  | nil =>
    intro p ss ts h h'
    cases ss with
    | nil =>
      have := h' (fun _ h => by cases h)
      simpa [planBits] using this
    | cons s ss => exact h.elim
  | cons x ps ih =>
    intro p ss ts h h'
    cases ss with
    | nil => exact h.elim
    | cons s ss =>
      obtain ⟨h1, h2, h3, h4, h5⟩ := h
      refine ⟨h1, h2, h3, h4, fun hx => ih (h5 hx) fun hall => ?_⟩
      have := h' fun y hy => by
        rcases List.mem_cons.1 hy with rfl | hy
        · exact hx
        · exact hall y hy
      have e : planBits (x :: ps) = x.2 + planBits ps := by simp [planBits]
      rw [e, ← Int.add_assoc] at this
      exact this

theorem AlignedSlots.inField {ds : List Def} (m : Member) {ps : List (List Member × Int)} : ∀ {p : Int} {ss : List Slot},
    AlignedSlots ds p ps ss → AlignedSlots ds p (ps.map fun x => (m :: x.1, x.2)) (inField (ident m.key) ss) := by
  induction ps with
  | nil =>
    intro p ss h
    cases ss with
    | nil => trivial
    | cons s ss => exact h.elim
  | cons x ps ih =>
    intro p ss h
    cases ss with
    | nil => exact h.elim
    | cons s ss =>
      obtain ⟨h1, h2, h3, ⟨k, f, h4, h6⟩, h5⟩ := h
      refine ⟨h1, h2, by simp [h3], ⟨k, f, ?_, h6⟩, fun hx => ih (h5 hx)⟩
      obtain ⟨path, w⟩ := x
      cases path with
      | nil => cases h4
      | cons a r => rw [List.getLast?_cons_cons]; exact h4

theorem nextByte_of {p : Int} (h : p % 8 = 0) : nextByte p = p := by
  unfold nextByte
  omega

theorem placed_aligned {ds : List Def} (hs : LayoutEnv ds) {decls : List CDecl} (hd : StructEnv ds decls)
    {ms : List Member} {ps : List (List Member × Int)} (h : Plan ds ms ps) :
    ∀ {fs : List CField}, All2 (FieldOf (FieldType ds)) ms fs → ∀ {p ss e}, p % 8 = 0 → Placed decls fs p ss e →
      AlignedSlots ds p ps ss ∧ ((∀ x ∈ ps, x.2 % 8 = 0) → e = p + planBits ps ∧ e % 8 = 0) := by
  induction h with
  | nil =>
    intro fs hf p ss e hp h
    cases hf
    cases h
    exact ⟨trivial, fun _ => ⟨by simp [planBits], hp⟩⟩
  | @leaf m ms w ps hw _ ih =>
    intro fs hf p ss e hp h
    cases hf with
    | @cons _ f _ _ h1 h2 =>
      obtain ⟨ss', rfl, h3⟩ := placed_leaf hs hd hw h1 h
      have hst : leafStart ds m.type p = p := by
        unfold leafStart
        split
        · rfl
        · exact nextByte_of hp
      rw [hst] at h3 ⊢
      refine ⟨⟨rfl, rfl, rfl, ⟨m, f, rfl, hw, h1, rfl⟩, fun hx => (ih h2 (by simp only at hx; omega) h3).1⟩, fun hall => ?_⟩
      have hx : w % 8 = 0 := hall _ (List.Mem.head _)
      have e1 : planBits (([m], w) :: ps) = w + planBits ps := by simp [planBits]
      obtain ⟨i1, i2⟩ := (ih h2 (by omega) h3).2 fun x hx => hall x (List.mem_cons_of_mem _ hx)
      exact ⟨by omega, i2⟩
  | @seq m ms n inner ps qs ht hq _ _ ih1 ih2 =>
    intro fs hf p ss e hp h
    cases hf with
    | cons h1 h2 =>
      obtain ⟨fs', ss1, q, ss2, k1, k2, k3, rfl⟩ := placed_seq hs hd ht hq h1 h
      rw [nextByte_of hp] at k2
      obtain ⟨i1, i2⟩ := ih1 k1 hp k2
      have hmap : ∀ x : List Member × Int, x ∈ ps → (m :: x.1, x.2) ∈ ps.map (fun x => (m :: x.1, x.2)) :=
        fun x hx => List.mem_map.2 ⟨x, hx, rfl⟩
      constructor
      · refine AlignedSlots.append (i1.inField m) fun hall => ?_
        obtain ⟨j1, j2⟩ := i2 fun x hx => hall (m :: x.1, x.2) (hmap x hx)
        rw [nextByte_of j2, j1] at k3
        rw [planBits_map]
        exact (ih2 h2 (by omega) k3).1
      · intro hall
        obtain ⟨j1, j2⟩ := i2 fun x hx => hall (m :: x.1, x.2) (List.mem_append_left _ (hmap x hx))
        rw [nextByte_of j2] at k3
        obtain ⟨l1, l2⟩ := (ih2 h2 j2 k3).2 fun x hx => hall x (List.mem_append_right _ hx)
        rw [planBits_append, planBits_map]
        exact ⟨by omega, l2⟩

/-- The blocks of the first leaves are the bytes of their slots. -/
theorem aligned_blocks {ds : List Def} {ps qs : List (List Member × Int)} {blocks : List (List UInt8)}
    (h : All2 (fun x blk => x.2 = 8 * (blk.length : Int)) ps blocks) : ∀ (done : List UInt8) {ss : List Slot},
    AlignedSlots ds (8 * done.length) (ps ++ qs) ss →
    All2 (fun x blk => ∃ s ∈ ss, s.path = x.1.map (ident ·.key) ∧ s.bits = 8 * (blk.length : Int) ∧
      InData (done ++ blocks.flatten) s ∧ slotBytes (done ++ blocks.flatten) s = blk ∧
      ∃ m f, x.1.getLast? = some m ∧ LeafBits ds m.type x.2 ∧ FieldOf (FieldType ds) m f ∧ s.type = f.type) ps blocks := by
  induction h with
  | nil => intro done ss _; exact .nil
  | @cons x blk ps blocks hx _ ih =>
    intro done ss hal
    cases ss with
    | nil => exact hal.elim
    | cons s ss =>
      obtain ⟨h1, h2, h3, h4, h5⟩ := hal
      have h6 := h5 (by omega)
      have e1 : (8 * (done.length : Int)) + x.2 = 8 * ((done ++ blk).length : Int) := by
        rw [List.length_append]; push_cast; omega
      rw [e1] at h6
      refine .cons ⟨s, List.Mem.head _, h3, by omega, ⟨by omega, by omega, by omega, ?_⟩, ?_, h4⟩ ?_
      · rw [List.flatten_cons, List.length_append, List.length_append]; push_cast; omega
      · unfold slotBytes
        have e2 : (s.pos / 8).toNat = done.length := by omega
        have e3 : (s.bits / 8).toNat = blk.length := by omega
        rw [e2, e3, List.drop_left, List.flatten_cons, List.take_left]
      · refine (ih (done ++ blk) h6).imp ?_
        rintro y b ⟨s, hs, r1, r2, r3, r4, r5⟩
        rw [List.append_assoc] at r3 r4
        exact ⟨s, List.Mem.tail _ hs, r1, r2, r3, r4, r5⟩

/-! ### Types of number fields -/

/-- A range of integers or reals. -/
def IsRange (t : AType) : Prop := (∃ lo hi, t = intType lo hi) ∨ ∃ lo hi, t = realType lo hi

theorem IsRange.ne_plain {t : AType} (h : IsRange t) {n : String} : t ≠ .plain n none none := by
  rintro rfl
  rcases h with ⟨_, _, h⟩ | ⟨_, _, h⟩ <;> simp [intType, realType] at h

theorem IsRange.name {t : AType} (h : IsRange t) {n : String} {lo hi : Option Num} (ht : t = .plain n lo hi) :
    n = "INTEGER" ∨ n = "REAL" := by
  rcases h with ⟨_, _, h⟩ | ⟨_, _, h⟩ <;> rw [h] at ht <;> simp only [intType, realType, AType.plain.injEq] at ht
  · exact .inl ht.1.symm
  · exact .inr ht.1.symm

/-- The type of a field for a number, which is the number range itself or a name of it. -/
theorem number_field {ds : List Def} (hs : LayoutEnv ds) {t t' : AType} (hr : IsRange t') (ht : Elementary ds t t')
    {w : Int} (hw : LeafBits ds t w) {ct sfx : Text} (hf : FieldType ds t ct sfx) :
    ScalarWidth t' w ∧ ScalarC t' ct sfx ∨
    ∃ n c, Def.simple n c t' ∈ ds ∧ Posix n ct ∧ sfx = [] ∧ FieldBits ct [] w ∧ t.name = n := by
  have nobuilt : ∀ {n : String} {d : Def}, n = "INTEGER" ∨ n = "REAL" → d ∈ ds → d.name ≠ n := by
    rintro n d (rfl | rfl) hd
    · exact builtin_not_def hs.grammar (by decide) d hd
    · exact builtin_not_def hs.grammar (by decide) d hd
  cases ht with
  | @direct n lo hi hno =>
    left
    have hne : lo ≠ none ∨ hi ≠ none := by
      refine Classical.byContradiction fun h => ?_
      simp only [not_or, ne_eq, Classical.not_not] at h
      obtain ⟨rfl, rfl⟩ := h
      exact hr.ne_plain rfl
    constructor
    · generalize hx : AType.plain n lo hi = x at hw
      cases hw with
      | number hw _ =>
        cases hw with
        | scalar h => exact h
        | bool => cases hx; simp at hne
        | enum => cases hx; simp at hne
        | alias => cases hx; simp at hne
        | posix => cases hx; simp at hne
      | string => cases hx
      | array => cases hx
    · generalize hx : AType.plain n lo hi = x at hf
      cases hf with
      | scalar h => exact h
      | bool => cases hx; simp at hne
      | chars => cases hx
      | named => cases hx; simp at hne
      | enum => cases hx; simp at hne
      | array => cases hx
      | arrayEnum => cases hx
  | @named n c lo hi n' lo' hi' hd =>
    generalize ht' : AType.plain n' lo' hi' = t' at hr hd
    have hlohi : ∀ {x}, ScalarWidth (.plain n lo hi) x → False := by
      intro x h
      obtain ⟨_, _, _, h1, h2⟩ := h.plain
      cases h1
      exact nobuilt h2 hd rfl
    have hC : ∀ {ct sfx}, ScalarC (.plain n lo hi) ct sfx → False := by
      intro ct sfx h
      generalize hx : AType.plain n lo hi = x at h
      cases h <;> simp only [intType, realType, AType.plain.injEq] at hx
      · exact nobuilt (.inl hx.1) hd rfl
      · exact nobuilt (.inl hx.1) hd rfl
      · exact nobuilt (.inr hx.1) hd rfl
      · exact nobuilt (.inr hx.1) hd rfl
    generalize hx : AType.plain n lo hi = x at hw hf
    have hfc : ScalarC t' ct sfx ∧ (∀ ct, ¬ Posix n ct) ∨ Posix n ct ∧ sfx = [] := by
      cases hf with
      | scalar h => subst hx; exact (hC h).elim
      | bool =>
        cases hx
        exact absurd rfl (builtin_not_def hs.grammar (n := "BOOLEAN") (by decide) _ hd)
      | chars => cases hx
      | named h =>
        cases hx
        cases h with
        | posix _ h => exact .inr ⟨h, rfl⟩
        | struct h => cases hs.same hd h rfl
        | union h => cases hs.same hd h rfl
        | alias h k1 k2 => cases hs.same hd h rfl; exact .inl ⟨k2, k1⟩
        | aliasBool h => cases hs.same hd h rfl; exact absurd rfl hr.ne_plain
        | aliasFloat h => cases hs.same hd h rfl; exact absurd rfl hr.ne_plain
        | aliasDouble h => cases hs.same hd h rfl; exact absurd rfl hr.ne_plain
      | enum h => cases hx; cases hs.same hd h rfl
      | array => cases hx
      | arrayEnum => cases hx
    cases hw with
    | number hw _ =>
      cases hw with
      | scalar h => subst hx; exact (hlohi h).elim
      | bool => cases hx; exact absurd rfl (builtin_not_def hs.grammar (n := "BOOLEAN") (by decide) _ hd)
      | enum h => cases hx; cases hs.same hd h rfl
      | alias h k1 k2 =>
        cases hx
        cases hs.same hd h rfl
        rcases hfc with ⟨h1, _⟩ | ⟨h1, _⟩
        · exact .inl ⟨k2, h1⟩
        · exact absurd h1 (k1 _)
      | posix h k1 k2 =>
        cases hx
        rcases hfc with ⟨_, h1⟩ | ⟨h1, h2⟩
        · exact absurd k1 (h1 _)
        · cases posix_unique h1 k1
          exact .inr ⟨n, c, hd, h1, h2, k2, rfl⟩
    | string => cases hx
    | array => cases hx

/-- The field of an INTEGER of a width of stdint.h. -/
theorem int_field {raw : List Module} {b : Bundle} (hg : ∀ m ∈ raw, GrammarModule m) (hb : buildFromTexts raw = .ok b)
    (hs : LayoutEnv b.defs) {t : AType} {lo hi : Int} (ht : Elementary b.defs t (intType lo hi)) {w : Nat}
    (hw : LeafBits b.defs t w) (h4 : ∃ ct, StdUInt w ct) {ct sfx : Text} (hf : FieldType b.defs t ct sfx) :
    sfx = [] ∧ (0 ≤ lo → StdUInt w ct) ∧ (lo < 0 → StdSInt w ct ∨ ct = "int".toList ∧ w = 32) := by
  rcases number_field hs (.inl ⟨lo, hi, rfl⟩) ht hw hf with ⟨h1, h2⟩ | ⟨n, c, h1, h2, rfl, h3, hname⟩
  · generalize hx : intType lo hi = x at h1
    generalize hwi : (w : Int) = wi at h1
    cases h1 with
    | unsigned k1 k2 k3 =>
      cases hx
      subst hwi
      obtain ⟨m, k4, k5⟩ := leafSize_least k3 k1
      have : w = m := by omega
      subst this
      generalize hx : intType lo hi = x at h2
      cases h2 with
      | uint q1 q2 q3 =>
        cases hx
        cases leastUnsigned_unique k5 q2
        obtain ⟨n', r1, r2, r3, r4⟩ := q3
        obtain ⟨ct', h4⟩ := h4
        have := r3 _ _ h4 (Nat.le_refl _)
        have : w = n' := by omega
        subst this
        rcases r4 with ⟨_, rfl⟩ | ⟨r4, _⟩
        · exact ⟨rfl, fun _ => r1, fun h => absurd h (by omega)⟩
        · exact absurd ⟨_, h4⟩ r4
      | sint q1 => cases hx; omega
      | single => simp [intType, realType] at hx
      | double => simp [intType, realType] at hx
    | signed k1 k2 =>
      cases hx
      generalize hx : intType lo hi = x at h2
      cases h2 with
      | uint q1 => cases hx; omega
      | sint q1 => exact ⟨rfl, fun h => absurd h (by omega), fun _ => .inr ⟨rfl, by omega⟩⟩
      | single => simp [intType, realType] at hx
      | double => simp [intType, realType] at hx
    | real => simp [intType, realType] at hx
  · refine ⟨rfl, ?_⟩
    have key : ∀ {a z : Int} {u : Nat}, StandardInt n a z u → lo = a := by
      intro a z u hst
      have := ((C04_standard_int_partial raw b hg hb n c _ h1 a z u hst).2 .plain).1
      simp only [intType, AType.plain.injEq, Option.some.injEq, Num.int.injEq, true_and] at this
      exact this.1
    have hbits := typeBits_of_field h3
    have hu : ∀ {u : Nat} {c : Text}, StdUInt u c → c = ct → w = u := fun h e => by
      have := typeBits_unique (e ▸ hbits) (TypeBits.unsigned h)
      exact_mod_cast this
    have hi : ∀ {u : Nat} {c : Text}, StdSInt u c → c = ct → w = u := fun h e => by
      have := typeBits_unique (e ▸ hbits) (TypeBits.signed h)
      exact_mod_cast this
    cases h2
    · rw [key .i8, hi .w8 rfl]; exact ⟨fun h => absurd h (by decide), fun _ => .inl .w8⟩
    · rw [key .i16, hi .w16 rfl]; exact ⟨fun h => absurd h (by decide), fun _ => .inl .w16⟩
    · rw [key .i32, hi .w32 rfl]; exact ⟨fun h => absurd h (by decide), fun _ => .inl .w32⟩
    · rw [key .i64, hi .w64 rfl]; exact ⟨fun h => absurd h (by decide), fun _ => .inl .w64⟩
    · rw [key .u8, hu .w8 rfl]; exact ⟨fun _ => .w8, fun h => absurd h (by decide)⟩
    · rw [key .u16, hu .w16 rfl]; exact ⟨fun _ => .w16, fun h => absurd h (by decide)⟩
    · rw [key .u32, hu .w32 rfl]; exact ⟨fun _ => .w32, fun h => absurd h (by decide)⟩
    · rw [key .u64, hu .w64 rfl]; exact ⟨fun _ => .w64, fun h => absurd h (by decide)⟩

/-- The field of a REAL. -/
theorem real_field {ds : List Def} (hs : LayoutEnv ds) {t : AType} {lo hi : Num}
    (hn : t.name = "REAL" ∨ t.name = "Float" ∨ t.name = "Double") (ht : Elementary ds t (realType lo hi)) {w : Int}
    (hw : LeafBits ds t w) {ct sfx : Text} (hf : FieldType ds t ct sfx) :
    w = 32 ∧ ct = "float".toList ∨ w = 64 ∧ ct = "double".toList := by
  rcases number_field hs (.inr ⟨lo, hi, rfl⟩) ht hw hf with ⟨h1, h2⟩ | ⟨n, c, h1, h2, rfl, h3, hname⟩
  · generalize hx : realType lo hi = x at h1
    cases h1 with
    | unsigned => simp [intType, realType] at hx
    | signed => simp [intType, realType] at hx
    | real k =>
      cases hx
      have k' := (leafSize_real _ _ _).2 k
      generalize hx : realType lo hi = x at h2
      cases h2 with
      | uint => simp [intType, realType] at hx
      | sint => simp [intType, realType] at hx
      | single q =>
        cases hx
        rw [(leafSize_real _ _ _).2 q] at k'
        exact .inl ⟨(Except.ok.inj k').symm, rfl⟩
      | double q =>
        cases hx
        rw [(leafSize_real _ _ _).2 q] at k'
        exact .inr ⟨(Except.ok.inj k').symm, rfl⟩
  · rw [hname] at hn
    exfalso
    cases h2 <;> rcases hn with hn | hn | hn <;> exact absurd hn (by decide)

/-- Sizes of blocks of integers. -/
theorem pack_std {en : Endian} {c : CType} (hc : c = .uint ∨ c = .int) {size : Int} {v : Leaf} {bs : List UInt8}
    (h : structPack (some en) c size v = .ok bs) : ∃ ct, StdUInt (8 * bs.length) ct := by
  have hl := pack_length h
  obtain ⟨be, h1, _, _⟩ := readBytes_pack h
  have hsz : size = 1 ∨ size = 2 ∨ size = 4 ∨ size = 8 := by
    rcases hc with rfl | rfl <;> simp only [packBE] at h1 <;> split at h1
    · assumption
    · cases h1
    · assumption
    · cases h1
  have : bs.length = 1 ∨ bs.length = 2 ∨ bs.length = 4 ∨ bs.length = 8 := by omega
  rcases this with h | h | h | h <;> rw [h]
  · exact ⟨_, .w8⟩
  · exact ⟨_, .w16⟩
  · exact ⟨_, .w32⟩
  · exact ⟨_, .w64⟩

end Apg
