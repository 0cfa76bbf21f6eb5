import Verif.Spec.MsgIdBits
import Verif.Lemmas.Success
import Verif.Props.Defines

/-!
# Property C22, for all clauses on primary headers
-/

namespace Apg
open Spec

theorem intBit_ofNat (m i : Nat) : IntBit (.ofNat m) i ↔ m.testBit i = true := by
  unfold IntBit
  rw [Nat.testBit_eq_decide_div_mod_eq, decide_eq_true_iff]
  have : (Int.ofNat m) / 2 ^ i % 2 = ((m / 2 ^ i % 2 : Nat) : Int) := by
    simp
  rw [this]
  omega

theorem intBit_negSucc (m i : Nat) : IntBit (.negSucc m) i ↔ m.testBit i = false := by
  unfold IntBit
  rw [Nat.testBit_eq_decide_div_mod_eq, decide_eq_false_iff_not]
  have h : (0 : Int) < 2 ^ i := Int.pow_pos (by decide)
  have : (Int.negSucc m) / 2 ^ i = -(((m / 2 ^ i : Nat) : Int) + 1) := by
    rw [Int.negSucc_ediv _ h]
    show -((m : Int) / 2 ^ i + 1) = _
    simp
  rw [this]
  generalize m / 2 ^ i = k
  omega

theorem intBit_or (x y : Int) (i : Nat) : IntBit (intOr x y) i ↔ IntBit x i ∨ IntBit y i := by
  cases x <;> cases y <;> simp only [intOr, intBit_ofNat, intBit_negSucc, Nat.testBit_or, Nat.testBit_and,
    Nat.testBit_xor] <;>
    (generalize Nat.testBit _ i = a; generalize Nat.testBit _ i = b; revert a b; decide)

theorem intBit_zero (i : Nat) : ¬ IntBit 0 i := by
  intro h
  have := (intBit_ofNat 0 i).1 h
  simp at this

theorem testBit_far (m n : Nat) : m.testBit (m + n) = false :=
  Nat.testBit_lt_two_pow (Nat.lt_of_lt_of_le Nat.lt_two_pow_self (Nat.pow_le_pow_right (by decide) (by omega)))

theorem intBit_ext {x y : Int} (h : ∀ i, IntBit x i ↔ IntBit y i) : x = y := by
  have no : ∀ m n : Nat, ¬ ∀ i, IntBit (.ofNat m) i ↔ IntBit (.negSucc n) i := by
    intro m n h
    have := h (m + n)
    rw [intBit_ofNat, intBit_negSucc, testBit_far m n, Nat.add_comm m n, testBit_far n m] at this
    simp at this
  cases x with
  | ofNat m =>
    cases y with
    | ofNat n =>
      refine congrArg Int.ofNat (Nat.eq_of_testBit_eq fun i => Bool.eq_iff_iff.2 ?_)
      rw [← intBit_ofNat, ← intBit_ofNat]
      exact h i
    | negSucc n => exact absurd h (no m n)
  | negSucc m =>
    cases y with
    | ofNat n => exact absurd (fun i => (h i).symm) (no n m)
    | negSucc n =>
      refine congrArg Int.negSucc (Nat.eq_of_testBit_eq fun i => ?_)
      have := h i
      rw [intBit_negSucc, intBit_negSucc] at this
      cases h1 : m.testBit i <;> cases h2 : n.testBit i <;> simp_all

theorem intOr_nonneg {x y : Int} (hx : 0 ≤ x) (hy : 0 ≤ y) : 0 ≤ intOr x y := by
  cases x with
  | ofNat m => cases y with
    | ofNat n => exact Int.natCast_nonneg _
    | negSucc n => exact absurd hy (by omega)
  | negSucc m => exact absurd hx (by omega)

theorem shiftLeft_int {l : Leaf} {s : Nat} {y : Int} :
    shiftLeft (.leaf l) s = .ok y ↔ ∃ x, IntOf l x ∧ y = x * 2 ^ s := by
  cases l with
  | int i =>
    simp only [shiftLeft, Except.ok.injEq]
    constructor
    · rintro rfl; exact ⟨_, .int i, rfl⟩
    · rintro ⟨x, hx, rfl⟩; cases hx; rfl
  | bool b =>
    simp only [shiftLeft, Except.ok.injEq]
    constructor
    · rintro rfl
      cases b
      · exact ⟨_, .false, rfl⟩
      · exact ⟨_, .true, rfl⟩
    · rintro ⟨x, hx, rfl⟩; cases hx <;> rfl
  | flt x =>
    refine iff_of_false (by simp [shiftLeft]) ?_
    rintro ⟨y, h, _⟩
    cases h

theorem fieldAt_inj {k : String} {s s' : Nat} (h : FieldAt k s) (h' : FieldAt k s') : s = s' := by
  have key : ∀ {k s}, FieldAt k s → (k = "packet-version-number" ∧ s = 13) ∨ (k = "packet-type-is-cmd" ∧ s = 12) ∨
      (k = "sec-hdr-flag-is-present" ∧ s = 11) ∨ (k = "application-process-identifier" ∧ s = 0) := by
    intro k s h
    cases h <;> simp
  rcases key h with ⟨rfl, rfl⟩ | ⟨rfl, rfl⟩ | ⟨rfl, rfl⟩ | ⟨rfl, rfl⟩ <;>
    rcases key h' with ⟨e, rfl⟩ | ⟨e, rfl⟩ | ⟨e, rfl⟩ | ⟨e, rfl⟩ <;> first | rfl | exact absurd e (by decide)

theorem msgIdStep_puts {id : Int} {k : String} {l : Leaf} {j : Int} :
    msgIdStep id k (.leaf l) = .ok j ↔ ∃ y, Puts (k, l) y ∧ j = intOr id y := by
  have key : ∀ s, FieldAt k s →
      ((shiftLeft (.leaf l) s >>= fun s => .ok (intOr id s) : Except Err Int) = .ok j ↔
        ∃ y, Puts (k, l) y ∧ j = intOr id y) := by
    intro s hs
    simp only [bind_ok, Except.ok.injEq]
    constructor
    · rintro ⟨y, h, rfl⟩
      obtain ⟨x, hx, rfl⟩ := shiftLeft_int.1 h
      exact ⟨_, ⟨s, x, hs, hx, rfl⟩, rfl⟩
    · rintro ⟨y, ⟨s', x, hs', hx, rfl⟩, rfl⟩
      obtain rfl := fieldAt_inj hs hs'
      exact ⟨_, shiftLeft_int.2 ⟨x, hx, rfl⟩, rfl⟩
  unfold msgIdStep
  split
  · rename_i h; subst h; exact key 13 .version
  · split
    · rename_i h; subst h; exact key 12 .type
    · split
      · rename_i h; subst h; exact key 11 .flag
      · split
        · rename_i h; subst h; exact key 0 .apid
        · rename_i h1 h2 h3 h4
          refine iff_of_false (by simp) ?_
          rintro ⟨y, ⟨s, x, hs, _⟩, _⟩
          cases hs <;> contradiction

theorem puts_inj {kv : String × Leaf} {y y' : Int} (h : Puts kv y) (h' : Puts kv y') : y = y' := by
  obtain ⟨k, l⟩ := kv
  obtain ⟨s, x, hs, hx, rfl⟩ := h
  obtain ⟨s', x', hs', hx', rfl⟩ := h'
  simp only at hs hx hs' hx'
  have e1 : s = s' := fieldAt_inj hs hs'
  have e2 : x = x' := by cases hx <;> cases hx' <;> rfl
  rw [e1, e2]

/-- The id `id` with the integers of `l` put into it is `j`. -/
def PutAll (id : Int) (l : List (String × Leaf)) (j : Int) : Prop :=
  (∀ kv ∈ l, ∃ y, Puts kv y) ∧ (∀ i, IntBit j i ↔ IntBit id i ∨ ∃ kv ∈ l, ∃ y, Puts kv y ∧ IntBit y i) ∧
    (0 ≤ id → (∀ kv ∈ l, ∀ y, Puts kv y → 0 ≤ y) → 0 ≤ j)

theorem putAll_nil (id : Int) : PutAll id [] id := ⟨by simp, by simp, fun h _ => h⟩

theorem PutAll.one {id y : Int} {kv : String × Leaf} (h : Puts kv y) : PutAll id [kv] (intOr id y) := by
  refine ⟨by simpa using ⟨y, h⟩, ?_, fun h0 hy => intOr_nonneg h0 (hy kv (by simp) y h)⟩
  intro i
  rw [intBit_or]
  constructor
  · rintro (g | g)
    · exact .inl g
    · exact .inr ⟨kv, by simp, y, h, g⟩
  · rintro (g | ⟨kv', hm, y', hy', g⟩)
    · exact .inl g
    · obtain rfl := List.mem_singleton.1 hm
      obtain rfl := puts_inj h hy'
      exact .inr g

theorem PutAll.append {id j j' : Int} {l l' : List (String × Leaf)} (h : PutAll id l j) (h' : PutAll j l' j') :
    PutAll id (l ++ l') j' := by
  obtain ⟨a1, a2, a3⟩ := h
  obtain ⟨b1, b2, b3⟩ := h'
  refine ⟨?_, ?_, ?_⟩
  · intro kv hkv
    rcases List.mem_append.1 hkv with g | g
    · exact a1 kv g
    · exact b1 kv g
  · intro i
    rw [b2, a2]
    constructor
    · rintro ((g | ⟨kv, hm, g⟩) | ⟨kv, hm, g⟩)
      · exact .inl g
      · exact .inr ⟨kv, List.mem_append_left _ hm, g⟩
      · exact .inr ⟨kv, List.mem_append_right _ hm, g⟩
    · rintro (g | ⟨kv, hm, g⟩)
      · exact .inl (.inl g)
      · rcases List.mem_append.1 hm with hm | hm
        · exact .inl (.inr ⟨kv, hm, g⟩)
        · exact .inr ⟨kv, hm, g⟩
  · intro h0 hy
    exact b3 (a3 h0 fun kv hm => hy kv (List.mem_append_left _ hm)) fun kv hm => hy kv (List.mem_append_right _ hm)

theorem msgIdInner_puts {c : Comps} : ∀ {id j : Int}, msgIdInner id c = .ok j →
    ∃ l, c = leavesComps l ∧ PutAll id l j := by
  induction c with
  | nil => intro id j h; cases h; exact ⟨[], rfl, putAll_nil _⟩
  | leaf k v r ih =>
    intro id j h
    simp only [msgIdInner, bind_ok] at h
    obtain ⟨i, h1, h2⟩ := h
    obtain ⟨y, hy, rfl⟩ := msgIdStep_puts.1 h1
    obtain ⟨l, rfl, hl⟩ := ih h2
    exact ⟨(k, v) :: l, rfl, (PutAll.one hy).append hl⟩
  | node k c r _ _ =>
    intro id j h
    simp only [msgIdInner, bind_ok] at h
    obtain ⟨i, h1, _⟩ := h
    obtain ⟨_, v', g2, _⟩ := msgIdStep_iff.1 ⟨i, h1⟩
    cases g2

theorem msgIdOuter_puts {c : Comps} : ∀ {id j : Int}, msgIdOuter id c = .ok j →
    ∃ parts, c = headerComps parts ∧ PutAll id parts.flatten j := by
  induction c with
  | nil => intro id j h; cases h; exact ⟨[], rfl, putAll_nil _⟩
  | leaf k v r =>
    intro id j h
    simp only [msgIdOuter] at h
    split at h <;> cases h
  | node k c r _ ih =>
    intro id j h
    simp only [msgIdOuter] at h
    split at h
    · rename_i hk
      subst hk
      simp only [bind_ok] at h
      obtain ⟨i, h1, h2⟩ := h
      obtain ⟨l, rfl, hl⟩ := msgIdInner_puts h1
      obtain ⟨parts, rfl, hp⟩ := ih h2
      exact ⟨l :: parts, rfl, hl.append hp⟩
    · cases h

theorem leavesComps_inj {l l' : List (String × Leaf)} (h : leavesComps l = leavesComps l') : l = l' := by
  induction l generalizing l' with
  | nil => cases l' with
    | nil => rfl
    | cons => cases h
  | cons x l ih => cases l' with
    | nil => cases h
    | cons y l' =>
      obtain ⟨k, v⟩ := x
      obtain ⟨k', v'⟩ := y
      simp only [leavesComps, Comps.leaf.injEq] at h
      rw [h.1, h.2.1, ih h.2.2]

theorem headerComps_inj {l l' : List (List (String × Leaf))} (h : headerComps l = headerComps l') : l = l' := by
  induction l generalizing l' with
  | nil => cases l' with
    | nil => rfl
    | cons => cases h
  | cons x l ih => cases l' with
    | nil => cases h
    | cons y l' =>
      simp only [headerComps, Comps.node.injEq, true_and] at h
      rw [leavesComps_inj h.1, ih h.2]

theorem headerClause_puts {parts : List (List (String × Leaf))} (h : ∀ kv ∈ parts.flatten, ∃ y, Puts kv y) :
    HeaderClause (headerComps parts) := by
  refine ⟨parts, rfl, fun kv hkv => ?_⟩
  obtain ⟨y, s, x, hs, hx, _⟩ := h kv hkv
  refine ⟨?_, ?_⟩
  · generalize kv.1 = k at hs
    cases hs <;> simp
  · generalize kv.2 = l at hx
    cases hx <;> constructor

/-- **C22**, for all clauses: a clause has the message id `id` exactly if it consists of
`packet-identification` clauses that give integers or truth values to the four fields, and a bit of
`id` is set exactly if it is set in one of the integers shifted to its field. Fields may be
missing, given several times, too large or negative. -/
theorem C22_bits_iff (c : Comps) (id : Int) :
    msgId c = .ok id ↔ ∃ parts, c = headerComps parts ∧ (∀ kv ∈ parts.flatten, ∃ y, Puts kv y) ∧
      ∀ i, IntBit id i ↔ ∃ kv ∈ parts.flatten, ∃ y, Puts kv y ∧ IntBit y i := by
  have fwd : ∀ {id : Int}, msgId c = .ok id → ∃ parts, c = headerComps parts ∧ PutAll 0 parts.flatten id :=
    fun h => msgIdOuter_puts h
  constructor
  · intro h
    obtain ⟨parts, hc, h1, h2, _⟩ := fwd h
    refine ⟨parts, hc, h1, fun i => (h2 i).trans ?_⟩
    simp only [intBit_zero, false_or]
  · rintro ⟨parts, rfl, h1, h2⟩
    obtain ⟨j, hj⟩ := (msgIdOuter_iff (id := 0)).2 (headerClause_puts h1)
    obtain ⟨parts', he, _, g2, _⟩ := fwd hj
    obtain rfl : parts = parts' := headerComps_inj he
    have : j = id := intBit_ext fun i => by
      rw [g2, h2]
      simp only [intBit_zero, false_or]
    rw [← this]
    exact hj

/-- A clause that gives the application id twice, once too large, and no version. -/
def exApids : List (List (String × Leaf)) :=
  [[("application-process-identifier", .int 4097)],
   [("sec-hdr-flag-is-present", .bool true), ("application-process-identifier", .int (-4))]]

theorem exApids_puts : ∀ kv ∈ exApids.flatten, ∃ y, Puts kv y := by
  intro kv h
  simp only [exApids, List.flatten_cons, List.flatten_nil, List.cons_append, List.nil_append, List.append_nil,
    List.mem_cons, List.not_mem_nil, or_false] at h
  rcases h with rfl | rfl | rfl
  · exact ⟨_, _, _, .apid, .int _, rfl⟩
  · exact ⟨_, _, _, .flag, .true, rfl⟩
  · exact ⟨_, _, _, .apid, .int _, rfl⟩

example : msgId (headerComps exApids) = .ok (-3) ∧ ∀ kv ∈ exApids.flatten, ∃ y, Puts kv y :=
  ⟨by decide, exApids_puts⟩

/-- **C23, what collides**, for all clauses: two clauses have the same id exactly if the same bits are set by
their integers. -/
theorem C23_all_iff_partial (parts parts' : List (List (String × Leaf)))
    (h : ∀ kv ∈ parts.flatten, ∃ y, Puts kv y) (h' : ∀ kv ∈ parts'.flatten, ∃ y, Puts kv y) :
    msgId (headerComps parts) = msgId (headerComps parts') ↔
      ∀ i, (∃ kv ∈ parts.flatten, ∃ y, Puts kv y ∧ IntBit y i) ↔
        ∃ kv ∈ parts'.flatten, ∃ y, Puts kv y ∧ IntBit y i := by
  have key : ∀ {l : List (List (String × Leaf))}, (∀ kv ∈ l.flatten, ∃ y, Puts kv y) →
      ∃ id, msgId (headerComps l) = .ok id ∧
        ∀ i, IntBit id i ↔ ∃ kv ∈ l.flatten, ∃ y, Puts kv y ∧ IntBit y i := by
    intro l hl
    obtain ⟨id, hid⟩ := (msgIdOuter_iff (id := 0)).2 (headerClause_puts hl)
    obtain ⟨l', he, _, h2⟩ := (C22_bits_iff _ _).1 hid
    obtain rfl : l = l' := headerComps_inj he
    exact ⟨id, hid, h2⟩
  obtain ⟨a, ha, ha'⟩ := key h
  obtain ⟨b, hb, hb'⟩ := key h'
  simp only [ha, hb, Except.ok.injEq, ← ha', ← hb']
  exact ⟨fun e i => by rw [e], intBit_ext⟩

/-- A header without application id has the id of one with application id 0. -/
example : msgId (headerComps [[("sec-hdr-flag-is-present", .bool true)]]) =
    msgId (headerComps [[("sec-hdr-flag-is-present", .int 1), ("application-process-identifier", .int 0)]]) := by
  decide

/-- **C22**, in the files: after generate-cfs has succeeded, every clause on a primary header has
this form and its `_MID` macro is there; if no integer is negative, its digits denote the number
with these bits. -/
theorem C22_macros (fuel : Nat) (p : Printer) (hp : Faithful p) (raw : List Module)
    (hg : ∀ m ∈ raw, GrammarModule m) (cfg : List String) (out : Text)
    (h : (runCfs fuel p raw cfg out).result = .ok ()) (b : Bundle) (hb : buildFromConfig raw cfg = .ok b)
    (fs : Files) (n : String) (c : Comps) (hc : (n, Fixed.header c) ∈ b.defs.flatMap fixedOfDef) :
    ∃ parts d, c = headerComps parts ∧ (∀ kv ∈ parts.flatten, ∃ y, Puts kv y) ∧
      (raise (ident n) ++ "_MID".toList, "(0x".toList ++ d ++ [')']) ∈ cfsMacros fuel p raw cfg out b fs ∧
      ((∀ kv ∈ parts.flatten, ∀ y, Puts kv y → 0 ≤ y) → ∃ id, readNat 16 d = some id ∧
        ∀ i, IntBit id i ↔ ∃ kv ∈ parts.flatten, ∃ y, Puts kv y ∧ IntBit y i) := by
  obtain ⟨d, hd, hx⟩ := List.mem_flatMap.1 hc
  rw [← defsOf_eq] at hd
  obtain ⟨m, hm, hdm⟩ := List.mem_flatMap.1 hd
  obtain ⟨defs, hpd, hall⟩ := msgids_macros fuel p hp raw hg cfg out h b hb m hm fs
  obtain ⟨y, hy, hmac⟩ := all2_mem_left hall (List.mem_flatMap.2 ⟨d, hpd.mem_iff.2 hdm, hx⟩)
  obtain ⟨h1, t, h2, id, hs, h3, h4, h5, _⟩ := hmac
  obtain ⟨parts, hc', k1, k2, k3⟩ := msgIdOuter_puts h3
  refine ⟨parts, hs, hc', k1, List.mem_flatMap.2 ⟨m, hm, ?_⟩, fun hn => ?_⟩
  · have e : "(0x".toList = '(' :: "0x".toList := by decide
    have : y = (raise (ident n) ++ "_MID".toList, "(0x".toList ++ hs ++ [')']) := by
      rw [e, ← Prod.eta y, h1, h2, h4]
      rfl
    rw [← this]
    exact hy
  · obtain ⟨k, rfl⟩ := Int.eq_ofNat_of_zero_le (k3 (Int.le_refl 0) hn)
    refine ⟨k, h5 k rfl, fun i => (k2 i).trans ?_⟩
    simp only [intBit_zero, false_or]

/-- The runs of C25 have such clauses. -/
example : ∃ d, ("PING_MID".toList, "(0x".toList ++ d ++ [')']) ∈ cfsMacros 40 exPrinter (exCcsds 5 9) ["base"] exOut
    (okBundle (buildFromConfig (exCcsds 5 9) ["base"])) (fun _ => none) ∧ readNat 16 d = some 0x1805 :=
  ⟨"1805".toList, by decide +kernel, by decide +kernel⟩

/-- **C24**, for all integers: what is printed for the `_MID` macro has only hexadecimal digits exactly
if no integer of the clause is negative. -/
theorem C24_digits_iff (p : Printer) (seqName : Text) (parts : List (List (String × Leaf)))
    (h : ∀ kv ∈ parts.flatten, ∃ y, Puts kv y) :
    ∃ hs : List Char,
      cfsDefines p seqName (.node "primary" (headerComps parts) .nil) =
        .ok [⟨upper seqName ++ "_MID".toList, "(0x".toList ++ hs ++ [')'], false⟩] ∧
      ((∀ x ∈ hs, ('0' ≤ x ∧ x ≤ '9') ∨ ('A' ≤ x ∧ x ≤ 'F')) ↔
        ∀ kv ∈ parts.flatten, ∀ y, Puts kv y → 0 ≤ y) := by
  obtain ⟨id, hid⟩ := (msgIdOuter_iff (id := 0)).2 (headerClause_puts h)
  obtain ⟨parts', he, _, g2, g3⟩ := msgIdOuter_puts hid
  obtain rfl : parts = parts' := headerComps_inj he
  have hid' : msgId (headerComps parts) = .ok id := hid
  cases id with
  | ofNat m =>
    obtain ⟨hs, k1, _, _, _, k5⟩ := C24_mid_text p seqName _ m hid'
    refine ⟨hs, k1, iff_of_true k5 ?_⟩
    intro kv hkv y hy
    cases y with
    | ofNat n => exact Int.natCast_nonneg _
    | negSucc n =>
      have := (g2 (m + n)).2 (.inr ⟨kv, hkv, _, hy, (intBit_negSucc _ _).2 (by rw [Nat.add_comm]; exact testBit_far n m)⟩)
      rw [intBit_ofNat, testBit_far] at this
      cases this
  | negSucc m =>
    refine ⟨hexText 4 (.negSucc m), by simp [cfsDefines, hid', bind, Except.bind], iff_of_false ?_ ?_⟩
    · intro hx
      have hm : '-' ∈ hexText 4 (.negSucc m) := by
        unfold hexText
        rw [if_pos (by omega)]
        exact List.mem_cons_self
      have := hx _ hm
      revert this
      decide
    · intro hy
      have := g3 (Int.le_refl 0) hy
      omega

example : (∀ kv ∈ exApids.flatten, ∃ y, Puts kv y) ∧ Puts ("application-process-identifier", .int (-4)) (-4) :=
  ⟨exApids_puts, _, _, .apid, .int _, rfl⟩

end Apg
