import Verif.Lemmas.SizeSpec
import Verif.Props.Bundle

/-!
# Properties C04 and C09: standard type names, sizes of sequences
-/

namespace Apg
open Spec

/-- Full statement of C09: the size the tool computes is the specified one. -/
def C09_full : Prop :=
  ∀ raw b, (∀ m ∈ raw, GrammarModule m) → buildFromTexts raw = .ok b →
    ∀ d ∈ defsOf b.modules, ∀ v, (∃ fuel, sizeDef b.defs fuel d = .ok v) →
      Size (defsOf b.modules) (.def d) v

def exArr : Module :=
  { name := "a"
    defs := [.seq "S" none [⟨"x", .arr (.plain "T" none none) 4, none, none⟩],
             .simple "T" none (.plain "INTEGER" (some (.int 0)) (some (.int 65535)))] }

/-- The code does not satisfy it for arrays: each element counts eight bits,
whatever its type. -/
theorem C09_full_false : ¬ C09_full := by
  intro h
  have hg : ∀ m ∈ [exArr], GrammarModule m := by
    intro m hm
    simp at hm; subst hm
    refine ⟨by decide +kernel, by simp [exArr], ?_, by simp [exArr]⟩
    intro d hd
    simp [exArr] at hd
    rcases hd with rfl | rfl
    · refine ⟨by decide +kernel, by simp, ?_⟩
      intro m hm; simp at hm; subst hm
      exact ⟨by decide +kernel, .arr (.named (by decide +kernel)), by simp⟩
    · exact ⟨by decide +kernel, .integerRange⟩
  have := h [exArr] ⟨[⟨exArr, []⟩], [("T", ["a"])]⟩ hg (by decide +kernel)
    (.seq "S" none [⟨"x", .arr (.plain "T" none none) 4, none, none⟩])
    (by simp [defsOf, Bundle.modules, exArr]) 32 ⟨2, by decide +kernel⟩
  cases this with
  | seq h =>
    generalize hv : (32 : Int) = v at h
    cases h with
    | named hmt => cases hmt
    | leaf _ hl =>
      rcases leafSize_inv hl with ⟨h0, _⟩ | ⟨b', e', w, h0, _⟩ |
        ⟨b', e', w, h0, _⟩ | ⟨b', e', lim, h0, _⟩ | ⟨b', e', lim, dlim, h0, _⟩ |
        ⟨len, h0 | h0, _⟩ | ⟨h0, _⟩ | ⟨h0, _⟩ <;> simp [intType, realType] at h0
    | array hmt h1 h2 =>
      cases hmt
      cases h2
      cases h1 with
      | array hmt => cases hmt
      | leaf hno _ _ =>
        exact hno "T" none none rfl (.simple "T" none (.plain "INTEGER" (some (.int 0)) (some (.int 65535))))
          (by simp [defsOf, Bundle.modules, exArr]) rfl
      | named hmt hd h1 h2 =>
        rename_i d lo hi a v'
        cases h2
        have hdn : d.name = "T" := by simp at hmt; exact hmt.1.symm
        simp [defsOf, Bundle.modules, exArr] at hd
        rcases hd with rfl | rfl
        · simp [Def.name] at hdn
        · cases h1 with
          | simple hl =>
            have := (leafSize_int 0 65535 _).2 hl
            rw [size_int] at this
            have hb : bitLength 65535 = 16 := by decide +kernel
            simp [hb] at this
            omega

/-- **C09, partial.** Missing: members that are arrays. For every accepted bundle
without arrays, the size computed for a definition is exactly the specified size:
the sum of the member sizes with names followed through the whole bundle. -/
theorem C09_size_partial (raw : List Module) (b : Bundle) (hg : ∀ m ∈ raw, GrammarModule m)
    (h : buildFromTexts raw = .ok b) (hna : ∀ d ∈ defsOf b.modules, NoArrays d)
    (d : Def) (hd : d ∈ defsOf b.modules) (v : Int) :
    (∃ N, ∀ fuel, N ≤ fuel → sizeDef b.defs fuel d = .ok v) ↔
      Size (defsOf b.modules) (.def d) v := by
  have hready := accepted_sizeReady hg h hna
  constructor
  · rintro ⟨N, hN⟩
    exact sizeDef_sound hready N d hd v (hN N (Nat.le_refl _))
  · intro hs
    exact size_complete (accepted_nodup h) hready hs hd

/-- C09 (computable): when no sequence contains itself, the size computation does
not recurse forever, and its answer is the same for every larger stack. -/
theorem C09_terminates (ds : List Def) (rank : Def → Nat) (hr : NonRecursive ds rank)
    (d : Def) (hd : d ∈ ds) :
    ∃ r, r ≠ .error .recursion ∧ ∀ fuel, rank d < fuel → sizeDef ds fuel d = r := by
  refine ⟨sizeDef ds (rank d + 1) d, sizeDef_no_recursion hr _ d hd (by omega), ?_⟩
  intro fuel hf
  exact sizeDef_mono (fun _ => rfl) _ _ d (by omega) (sizeDef_no_recursion hr _ d hd (by omega))

/-- C09 (order): the order in which the files are given does not matter. -/
theorem C09_order_independent (raw raw' : List Module) (hp : raw.Perm raw') (b b' : Bundle)
    (h : buildFromTexts raw = .ok b) (h' : buildFromTexts raw' = .ok b') (fuel : Nat) (d : Def)
    (hne : sizeDef b.defs fuel d ≠ .error .recursion) :
    sizeDef b'.defs fuel d = sizeDef b.defs fuel d :=
  sizeDef_mono (C17_order_independent raw raw' hp b b' h h') fuel fuel d (Nat.le_refl _) hne

/-- C09 (sum): splitting the member list splits the size. -/
theorem C09_additive (ds : List Def) (fuel : Nat) (n : String) (c : Option Comment)
    (ms₁ ms₂ : List Member) (v₁ v₂ : Int)
    (h₁ : sizeDef ds (fuel + 1) (.seq n c ms₁) = .ok v₁)
    (h₂ : sizeDef ds (fuel + 1) (.seq n c ms₂) = .ok v₂) :
    sizeDef ds (fuel + 1) (.seq n c (ms₁ ++ ms₂)) = .ok (v₁ + v₂) := by
  simp only [sizeDef] at *
  induction ms₁ generalizing v₁ with
  | nil => simp [sumSizes] at h₁; subst h₁; simpa using h₂
  | cons m ms ih =>
    rw [sumSizes, bind_ok] at h₁
    obtain ⟨a, ha, h₁⟩ := h₁
    rw [bind_ok] at h₁
    obtain ⟨r, hr, h₁⟩ := h₁
    rw [pure_ok] at h₁
    subst h₁
    rw [List.cons_append, sumSizes, ha, ih r hr]
    show Except.ok (a + (r + v₂)) = _
    rw [Int.add_assoc]

example : sizeDef (allDefs [exGeo, exBase]) 3
    (.seq "Point" none [⟨"lat", .plain "Angle" none none, none, none⟩,
                        ⟨"lon", .plain "Angle" none none, none, none⟩]) = .ok 18 := by
  decide +kernel
example : NonRecursive (allDefs [exGeo, exBase])
    (fun d => if d.name = "Track" then 2 else if d.name = "Point" then 1 else 0) := by
  intro d hd
  simp [allDefs, exGeo, exBase] at hd
  rcases hd with rfl | rfl | rfl <;> intro hs m hm n lo hi hmt e he hen <;>
    simp [allDefs, exGeo, exBase, Def.members] at hm he <;>
    rcases hm with rfl | rfl <;> simp at hmt <;> obtain ⟨rfl, rfl, rfl⟩ := hmt <;>
    rcases he with rfl | rfl | rfl <;> simp [Def.name] at hen ⊢

/-! ## C04 -/

/-- The standard integer names with range and width (C99 `stdint.h`). -/
inductive StandardInt : String → Int → Int → Nat → Prop
  | i8 : StandardInt "Int8-t" (-128) 127 8
  | i16 : StandardInt "Int16-t" (-32768) 32767 16
  | i32 : StandardInt "Int32-t" (-2147483648) 2147483647 32
  | i64 : StandardInt "Int64-t" (-9223372036854775808) 9223372036854775807 64
  | u8 : StandardInt "Uint8-t" 0 255 8
  | u16 : StandardInt "Uint16-t" 0 65535 16
  | u32 : StandardInt "Uint32-t" 0 4294967295 32
  | u64 : StandardInt "Uint64-t" 0 18446744073709551615 64

/-- Full statement of the first half of C04 for the integer names. -/
def C04_full : Prop :=
  ∀ raw b, (∀ m ∈ raw, GrammarModule m) → buildFromTexts raw = .ok b →
    ∀ d ∈ defsOf b.modules, ∀ lo hi w, StandardInt d.name lo hi w →
      ∃ c, d = .simple d.name c (intType lo hi)

def exPosixReal : Module :=
  { name := "a"
    defs := [.simple "Uint8-t" none (.plain "REAL" (some (.flt 0)) (some (.flt 255)))] }

/-- The code accepts `Uint8-t ::= REAL(0.0 .. 255.0)`. -/
theorem C04_full_false : ¬ C04_full := by
  intro h
  have hg : ∀ m ∈ [exPosixReal], GrammarModule m := by
    intro m hm
    simp at hm; subst hm
    refine ⟨by decide +kernel, by simp [exPosixReal], ?_, by simp [exPosixReal]⟩
    intro d hd
    simp [exPosixReal] at hd
    subst hd
    exact ⟨by decide +kernel, .realRange (by decide) (by decide)⟩
  obtain ⟨c, hc⟩ := h [exPosixReal] ⟨[⟨exPosixReal, []⟩], []⟩ hg (by decide +kernel)
    (.simple "Uint8-t" none (.plain "REAL" (some (.flt 0)) (some (.flt 255))))
    (by simp [defsOf, Bundle.modules, exPosixReal]) 0 255 8 .u8
  simp [intType] at hc

def exPosixSeq : Module :=
  { name := "a"
    defs := [.seq "Uint8-t" none [⟨"x", .plain "BOOLEAN" none none, none, none⟩]] }

/-- It also accepts a SEQUENCE called `Uint8-t`. -/
theorem C04_full_false_sequence : ¬ C04_full := by
  intro h
  have hg : ∀ m ∈ [exPosixSeq], GrammarModule m := by
    intro m hm
    simp at hm; subst hm
    refine ⟨by decide +kernel, by simp [exPosixSeq], ?_, by simp [exPosixSeq]⟩
    intro d hd
    simp [exPosixSeq] at hd
    subst hd
    refine ⟨by decide +kernel, by simp, ?_⟩
    intro m hm; simp at hm; subst hm
    exact ⟨by decide +kernel, .boolean, by simp⟩
  obtain ⟨c, hc⟩ := h [exPosixSeq] ⟨[⟨exPosixSeq, []⟩], []⟩ hg (by decide +kernel)
    (.seq "Uint8-t" none [⟨"x", .plain "BOOLEAN" none none, none, none⟩])
    (by simp [defsOf, Bundle.modules, exPosixSeq]) 0 255 8 .u8
  simp [intType] at hc

theorem posixRange_standard {n : String} {lo hi : Int} {w : Nat} (h : StandardInt n lo hi w) :
    posixRange n = some (.int lo, .int hi) := by
  cases h <;> decide +kernel

/-- The size of the standard ranges is their nominal width. -/
theorem size_standard {n : String} {lo hi : Int} {w : Nat} (h : StandardInt n lo hi w) :
    unresolvedSizeBits (intType lo hi) = .ok (w : Int) := by
  cases h <;> decide +kernel

/-- **C04, partial (integer names).** Missing: the code does not check that the
definition is an INTEGER, nor that it is a simple definition. If it is a simple
definition, its range is the range of the C type; if moreover it is an INTEGER,
every member of that type has the nominal width. -/
theorem C04_standard_int_partial (raw : List Module) (b : Bundle)
    (hg : ∀ m ∈ raw, GrammarModule m) (h : buildFromTexts raw = .ok b)
    (n : String) (c : Option Comment) (t : AType) (hd : Def.simple n c t ∈ defsOf b.modules)
    (lo hi : Int) (w : Nat) (hs : StandardInt n lo hi w) :
    (∃ x y, t.lo = some x ∧ t.hi = some y ∧ NumLE x (.int lo) ∧ NumLE (.int lo) x ∧
      NumLE y (.int hi) ∧ NumLE (.int hi) y) ∧
    (UsesName t "INTEGER" → t = intType lo hi ∧
      ∀ m : Member, UsesName m.type n → (∀ e len, m.type ≠ .arr e len) → (∀ len, m.type ≠ .str n len) →
        ∀ fuel, sizeMember b.defs (fuel + 1) m = .ok (w : Int)) := by
  have hgd := accepted_grammar hg h _ hd
  obtain ⟨ms, h1, h2, h3⟩ := buildFromTexts_ok.1 h
  have hd' := hd
  rw [build_modules h2] at hd'
  obtain ⟨m, hm, hdm⟩ := List.mem_flatMap.1 hd'
  obtain ⟨m0, hm0, d0, hd0, hp⟩ := processModules_def h1 hm hdm
  obtain ⟨_, _, _, _, p5, p6, p7, p8⟩ := processDef_ok hp
  have hq : nullCheckSimple n t = .ok () := by
    cases d0 with
    | simple n' c' t' =>
      obtain ⟨q1, q2, q3⟩ := p5 n' c' t' rfl
      cases q1; exact q3
    | seq n' c' ms' => have := p6 n' c' ms' rfl; cases this
    | choice n' c' ms' => have := p7 n' c' ms' rfl; cases this
    | enum n' c' ms' => obtain ⟨_, _, h⟩ := p8 n' c' ms' rfl; cases h
  unfold nullCheckSimple at hq
  split at hq
  · cases hq
  · unfold checkPosix at hq
    rw [posixRange_standard hs] at hq
    simp only at hq
    split at hq
    · rename_i x y hx hy
      split at hq
      · rename_i heq
        rw [Bool.and_eq_true, Num.eq_iff, Num.eq_iff] at heq
        refine ⟨⟨x, y, hx, hy, heq.1.2, heq.1.1, heq.2.2, heq.2.1⟩, ?_⟩
        intro hint
        have ht : t = intType lo hi := by
          have hgt := hgd.1.2
          rw [usesName_iff] at hint
          cases hgt with
          | real => simp [AType.lo] at hx
          | realRange _ _ => simp [AType.name] at hint
          | integer => simp [AType.lo] at hx
          | integerRange =>
            simp only [AType.lo, AType.hi, Option.some.injEq] at hx hy
            subst hx; subst hy
            rw [numLE_int, numLE_int, numLE_int, numLE_int] at heq
            unfold intType
            congr 3 <;> omega
          | null => simp [AType.lo] at hx
          | boolean => simp [AType.lo] at hx
          | ia5 => simp [AType.lo] at hx
          | numeric => simp [AType.lo] at hx
          | arr _ => simp [AType.lo] at hx
          | named _ => simp [AType.lo] at hx
        refine ⟨ht, ?_⟩
        intro k hk hna hns fuel
        rw [usesName_iff] at hk
        cases hkt : k.type with
        | plain n' lo' hi' =>
          rw [hkt] at hk
          simp only [AType.name] at hk
          subst hk
          unfold sizeMember
          have hl : lastDef b.defs n' = some (.simple n' c t) :=
            (lastDef_eq_some_iff (accepted_nodup h) _ _).2 ⟨hd, rfl⟩
          rw [hkt, resolveType, hl]
          simp only [sizeDef]
          rw [ht, size_standard hs]
        | str n' len => rw [hkt] at hk; simp only [AType.name] at hk; subst hk; exact absurd hkt (hns len)
        | arr e len => exact absurd hkt (hna e len)
      · cases hq
    · cases hq

def exPosix : Module :=
  { name := "a"
    defs := [.simple "Uint8-t" none (intType 0 255),
             .seq "S" none [⟨"x", .plain "Uint8-t" none none, none, none⟩]] }

example : buildFromTexts [exPosix] = .ok ⟨[⟨exPosix, []⟩], [("Uint8-t", ["a"])]⟩ := by
  decide +kernel

/-- **C04, partial (Float and Double).** The range is exactly the range of the C
type as the tool knows it, and a REAL definition has the nominal width. -/
theorem C04_standard_real_partial (raw : List Module) (b : Bundle)
    (h : buildFromTexts raw = .ok b)
    (n : String) (c : Option Comment) (t : AType) (hd : Def.simple n c t ∈ defsOf b.modules)
    (lim : Rat) (w : Int)
    (hs : n = "Float" ∧ lim = (8999725064576941 * 2 ^ 75 : Int) ∧ w = 32 ∨
      n = "Double" ∧ lim = (2 ^ 1024 - 2 ^ 971 : Int) ∧ w = 64) :
    (∃ x y, t.lo = some x ∧ t.hi = some y ∧ NumLE x (.flt (-lim)) ∧ NumLE (.flt (-lim)) x ∧
      NumLE y (.flt lim) ∧ NumLE (.flt lim) y) ∧
    (∀ x y, t = realType x y → unresolvedSizeBits t = .ok w) := by
  obtain ⟨ms, h1, h2, h3⟩ := buildFromTexts_ok.1 h
  have hd' := hd
  rw [build_modules h2] at hd'
  obtain ⟨m, hm, hdm⟩ := List.mem_flatMap.1 hd'
  obtain ⟨m0, hm0, d0, hd0, hp⟩ := processModules_def h1 hm hdm
  obtain ⟨_, _, _, _, p5, p6, p7, p8⟩ := processDef_ok hp
  have hq : nullCheckSimple n t = .ok () := by
    cases d0 with
    | simple n' c' t' =>
      obtain ⟨q1, q2, q3⟩ := p5 n' c' t' rfl
      cases q1; exact q3
    | seq n' c' ms' => have := p6 n' c' ms' rfl; cases this
    | choice n' c' ms' => have := p7 n' c' ms' rfl; cases this
    | enum n' c' ms' => obtain ⟨_, _, h⟩ := p8 n' c' ms' rfl; cases h
  have hpr : posixRange n = some (.flt (-lim), .flt lim) := by
    rcases hs with ⟨rfl, rfl, _⟩ | ⟨rfl, rfl, _⟩ <;> decide +kernel
  unfold nullCheckSimple at hq
  split at hq
  · cases hq
  · unfold checkPosix at hq
    rw [hpr] at hq
    simp only at hq
    split at hq
    · rename_i x y hx hy
      split at hq
      · rename_i heq
        rw [Bool.and_eq_true, Num.eq_iff, Num.eq_iff] at heq
        refine ⟨⟨x, y, hx, hy, heq.1.2, heq.1.1, heq.2.2, heq.2.1⟩, ?_⟩
        rintro x' y' rfl
        simp only [realType, AType.lo, AType.hi, Option.some.injEq] at hx hy
        subst hx; subst hy
        have htrans : ∀ a b c : Num, NumLE a b → NumLE b c → NumLE a c :=
          fun a b c h1 h2 q hq => h2 q (h1 q hq)
        have hlim : NumLE (.flt (-lim)) (.flt lim) := by
          rcases hs with ⟨rfl, rfl, _⟩ | ⟨rfl, rfl, _⟩ <;> rw [← Num.le_iff] <;> decide +kernel
        have hxy : NumLE x' y' := htrans _ _ _ heq.1.2 (htrans _ _ _ hlim heq.2.1)
        rw [leafSize_real]
        rcases hs with ⟨rfl, hl, rfl⟩ | ⟨rfl, hl, rfl⟩
        · exact .single hl hxy heq.1.1 heq.2.2
        · refine .double (lim := floatMax) floatMax_eq hl hxy ?_ heq.1.1 heq.2.2
          rintro ⟨_, hh⟩
          have : NumLE (.flt lim) (.flt floatMax) := htrans _ _ _ heq.2.1 hh
          rw [hl, ← Num.le_iff] at this
          revert this
          decide +kernel
      · cases hq
    · cases hq

example : buildFromTexts [{ name := "a", defs := [.simple "Float" none
      (realType (.flt floatMin) (.flt floatMax))] }] =
    .ok ⟨[⟨{ name := "a", defs := [.simple "Float" none
      (realType (.flt floatMin) (.flt floatMax))] }, []⟩], []⟩ := by decide +kernel

end Apg
