import Verif.Lemmas.ClauseOrder

/-!
# What is made of clauses that fix values in another order
-/

namespace Apg
open Spec

/-! ### Results -/

/-- Two results: errors, or values in relation. -/
inductive Both {α β : Type} (R : α → β → Prop) : Except Err α → Except Err β → Prop where
  | error (e e' : Err) : Both R (.error e) (.error e')
  | ok {a : α} {b : β} (h : R a b) : Both R (.ok a) (.ok b)

theorem Both.bind {α β γ δ : Type} {R : α → β → Prop} {S : γ → δ → Prop} {x : Except Err α} {y : Except Err β}
    {f : α → Except Err γ} {g : β → Except Err δ} (h : Both R x y) (hfg : ∀ a b, x = .ok a → y = .ok b → R a b →
      Both S (f a) (g b)) : Both S (x >>= f) (y >>= g) := by
  cases h with
  | error e e' => exact .error e e'
  | ok h => exact hfg _ _ rfl rfl h

theorem Both.imp {α β : Type} {R S : α → β → Prop} {x : Except Err α} {y : Except Err β} (h : Both R x y)
    (hi : ∀ a c, R a c → S a c) : Both S x y := by
  cases h with
  | error e e' => exact .error e e'
  | ok h => exact .ok (hi _ _ h)

theorem Both.refl {α : Type} {R : α → α → Prop} (h : ∀ a, R a a) (x : Except Err α) : Both R x x := by
  cases x with
  | error e => exact .error e e
  | ok a => exact .ok (h a)

theorem Both.trans {α β γ : Type} {R : α → β → Prop} {S : β → γ → Prop} {T : α → γ → Prop} {x : Except Err α}
    {y : Except Err β} {z : Except Err γ} (h : Both R x y) (h' : Both S y z) (hi : ∀ a c d, R a c → S c d → T a d) :
    Both T x z := by
  cases h with
  | error e e' => cases h' with | error => exact .error _ _
  | ok h => cases h' with | ok h' => exact .ok (hi _ _ _ h h')

/-! ### Message ids -/

theorem intOr_zero (i : Int) : intOr i 0 = i := by
  cases i with
  | ofNat m => show Int.ofNat (m ||| 0) = _; rw [Nat.or_zero]
  | negSucc m => show Int.negSucc (m ^^^ (m &&& 0)) = _; rw [Nat.and_zero, Nat.xor_zero]

theorem intOr_comm (i j : Int) : intOr i j = intOr j i := by
  cases i <;> cases j
  · simp only [intOr, Nat.or_comm]
  · simp only [intOr]
  · simp only [intOr]
  · simp only [intOr, Nat.and_comm]

theorem intOr_assoc (i j k : Int) : intOr (intOr i j) k = intOr i (intOr j k) := by
  cases i <;> cases j <;> cases k <;> simp only [intOr] <;> congr 1 <;> apply Nat.eq_of_testBit_eq <;> intro b <;>
    simp only [Nat.testBit_or, Nat.testBit_and, Nat.testBit_xor] <;>
    (generalize Nat.testBit _ b = x; generalize Nat.testBit _ b = y; generalize Nat.testBit _ b = z; revert x y z; decide)

/-- A step that fails, or sets bits. -/
def OrLike (f : Int → Except Err Int) : Prop := (∃ e, ∀ i, f i = .error e) ∨ ∃ w, ∀ i, f i = .ok (intOr i w)

theorem OrLike.comp {f g : Int → Except Err Int} (hf : OrLike f) (hg : OrLike g) : OrLike fun i => f i >>= g := by
  rcases hf with ⟨e, hf⟩ | ⟨w, hf⟩
  · exact .inl ⟨e, fun i => by simp only [hf, bind, Except.bind]⟩
  · rcases hg with ⟨e, hg⟩ | ⟨v, hg⟩
    · exact .inl ⟨e, fun i => by simp only [hf, hg, bind, Except.bind]⟩
    · exact .inr ⟨intOr w v, fun i => by simp only [hf, hg, bind, Except.bind, intOr_assoc]⟩

theorem OrLike.swap {f g : Int → Except Err Int} (hf : OrLike f) (hg : OrLike g) (i : Int) :
    Both Eq (f i >>= g) (g i >>= f) := by
  rcases hf with ⟨e, hf⟩ | ⟨w, hf⟩
  · rcases hg with ⟨e', hg⟩ | ⟨v, hg⟩
    · simp only [hf, hg, bind, Except.bind]; exact .error _ _
    · simp only [hf, hg, bind, Except.bind]; exact .error _ _
  · rcases hg with ⟨e, hg⟩ | ⟨v, hg⟩
    · simp only [hf, hg, bind, Except.bind]; exact .error _ _
    · simp only [hf, hg, bind, Except.bind]
      exact .ok (by rw [intOr_assoc, intOr_assoc, intOr_comm w v])

theorem orLike_step (k : String) (v : CVal) : OrLike fun id => msgIdStep id k v := by
  unfold msgIdStep
  have key : ∀ n, OrLike fun id => shiftLeft v n >>= fun s => .ok (intOr id s) := by
    intro n
    cases shiftLeft v n with
    | error e => exact .inl ⟨e, fun i => rfl⟩
    | ok w => exact .inr ⟨w, fun i => rfl⟩
  split
  · exact key _
  · split
    · exact key _
    · split
      · exact key _
      · split
        · exact key _
        · exact .inl ⟨_, fun i => rfl⟩

/-- A value of a clause. -/
def valOf : Leaf ⊕ Comps → CVal
  | .inl v => .leaf v
  | .inr c => .node c

theorem inner_entry (id : Int) (k : String) (x : Leaf ⊕ Comps) (r : Comps) :
    msgIdInner id (entry k x r) = (msgIdStep id k (valOf x) >>= fun id' => msgIdInner id' r) := by
  cases x <;> rfl

theorem orLike_inner (c : Comps) : OrLike fun id => msgIdInner id c := by
  induction c with
  | nil => exact .inr ⟨0, fun i => by simp only [msgIdInner, intOr_zero]⟩
  | leaf k v r ih => simp only [msgIdInner]; exact (orLike_step k (.leaf v)).comp ih
  | node k c r _ ih => simp only [msgIdInner]; exact (orLike_step k (.node c)).comp ih

theorem bind_swap {f g h : Int → Except Err Int} (hf : OrLike f) (hg : OrLike g) (i : Int) :
    Both Eq (f i >>= fun a => g a >>= h) (g i >>= fun a => f a >>= h) := by
  have e : ∀ f g : Int → Except Err Int, (f i >>= fun a => g a >>= h) = ((f i >>= g) >>= h) := by
    intro f g; cases f i <;> rfl
  rw [e f g, e g f]
  refine (hf.swap hg i).bind fun a b _ _ hab => ?_
  subst hab
  exact .refl (fun _ => rfl) _

theorem msgIdStep_node (id : Int) (k : String) (c c' : Comps) : msgIdStep id k (.node c) = msgIdStep id k (.node c') := rfl

theorem msgIdInner_reordered {c c' : Comps} (h : Reordered c c') : ∀ id, Both Eq (msgIdInner id c) (msgIdInner id c') := by
  induction h with
  | nil => intro id; exact .refl (fun _ => rfl) _
  | @keep k x r r' _ ih =>
    intro id
    rw [inner_entry, inner_entry]
    exact (Both.refl (R := Eq) (fun _ => rfl) _).bind fun a b _ _ hab => hab ▸ ih a
  | @inner k c c' r _ ih =>
    intro id
    simp only [msgIdInner, msgIdStep_node id k c c']
    exact .refl (fun _ => rfl) _
  | @swap k x k' x' r =>
    intro id
    simp only [inner_entry]
    exact bind_swap (orLike_step k (valOf x)) (orLike_step k' (valOf x')) id
  | trans _ _ ih ih' => intro id; exact (ih id).trans (ih' id) fun _ _ _ h h' => h.trans h'

/-- The step of the outer loop. -/
def outerStep (k : String) : Leaf ⊕ Comps → Int → Except Err Int
  | .inl _, _ => if k = "packet-identification" then .error .attributeError else .error .exception
  | .inr c, id => if k = "packet-identification" then msgIdInner id c else .error .exception

theorem outer_entry (id : Int) (k : String) (x : Leaf ⊕ Comps) (r : Comps) :
    msgIdOuter id (entry k x r) = (outerStep k x id >>= fun id' => msgIdOuter id' r) := by
  cases x with
  | inl v =>
    simp only [entry, msgIdOuter, outerStep]
    split <;> rfl
  | inr c =>
    simp only [entry, msgIdOuter, outerStep]
    split <;> rfl

theorem orLike_outer (k : String) (x : Leaf ⊕ Comps) : OrLike (outerStep k x) := by
  by_cases h : k = "packet-identification"
  · cases x with
    | inl v => exact .inl ⟨.attributeError, fun i => by simp only [outerStep, if_pos h]⟩
    | inr c =>
      have := orLike_inner c
      have e : outerStep k (.inr c) = fun id => msgIdInner id c := by funext i; simp only [outerStep, if_pos h]
      rw [e]; exact this
  · refine .inl ⟨.exception, fun i => ?_⟩
    cases x <;> simp only [outerStep, if_neg h]

theorem msgIdOuter_reordered {c c' : Comps} (h : Reordered c c') : ∀ id, Both Eq (msgIdOuter id c) (msgIdOuter id c') := by
  induction h with
  | nil => intro id; exact .refl (fun _ => rfl) _
  | @keep k x r r' _ ih =>
    intro id
    rw [outer_entry, outer_entry]
    exact (Both.refl (R := Eq) (fun _ => rfl) _).bind fun a b _ _ hab => hab ▸ ih a
  | @inner k c c' r hc _ =>
    intro id
    simp only [msgIdOuter]
    split
    · refine (msgIdInner_reordered hc id).bind fun a b _ _ hab => ?_
      subst hab
      exact .refl (fun _ => rfl) _
    · exact .error _ _
  | @swap k x k' x' r =>
    intro id
    simp only [outer_entry]
    exact bind_swap (orLike_outer k x) (orLike_outer k' x') id
  | trans _ _ ih ih' => intro id; exact (ih id).trans (ih' id) fun _ _ _ h h' => h.trans h'

theorem msgId_reordered {c c' : Comps} (h : Reordered c c') : Both Eq (msgId c) (msgId c') := msgIdOuter_reordered h 0

/-! ### Macros -/

/-- The macros of an entry. -/
def entryDefines (p : Printer) (n : Text) (k : String) : Leaf ⊕ Comps → Except Err (List Define)
  | .inl v => .ok [⟨upper (n ++ '_' :: cName k), '(' :: cfsValue p v ++ [')'], true⟩]
  | .inr c =>
    if k = "primary" then
      msgId c >>= fun id => .ok [⟨upper n ++ "_MID".toList, "(0x".toList ++ hexText 4 id ++ [')'], false⟩]
    else cfsDefines p n c

theorem defines_entry (p : Printer) (n : Text) (k : String) (x : Leaf ⊕ Comps) (r : Comps) :
    cfsDefines p n (entry k x r) = (entryDefines p n k x >>= fun d => cfsDefines p n r >>= fun r => .ok (d ++ r)) := by
  cases x <;> rfl

theorem swap_results {α : Type} (x y : Except Err (List α)) (z : Except Err (List α)) : Both List.Perm
    (x >>= fun d => (y >>= fun d' => z >>= fun r => .ok (d' ++ r)) >>= fun r => .ok (d ++ r))
    (y >>= fun d => (x >>= fun d' => z >>= fun r => .ok (d' ++ r)) >>= fun r => .ok (d ++ r)) := by
  cases x with
  | error e => cases y <;> exact .error _ _
  | ok a =>
    cases y with
    | error e => exact .error _ _
    | ok c =>
      cases z with
      | error e => exact .error _ _
      | ok r => exact .ok (List.perm_append_comm_assoc a c r)

theorem cfsDefines_reordered (p : Printer) (n : Text) {c c' : Comps} (h : Reordered c c') :
    Both List.Perm (cfsDefines p n c) (cfsDefines p n c') := by
  induction h with
  | nil => exact .refl .refl _
  | @keep k x r r' _ ih =>
    rw [defines_entry, defines_entry]
    refine (Both.refl (R := Eq) (fun _ => rfl) _).bind fun a b _ _ hab => ?_
    subst hab
    exact ih.bind fun _ _ _ _ hr => .ok (hr.append_left _)
  | @inner k c c' r hc ih =>
    have e1 := defines_entry p n k (.inr c) r
    have e2 := defines_entry p n k (.inr c') r
    simp only [entry] at e1 e2
    rw [e1, e2]
    have : Both List.Perm (entryDefines p n k (.inr c)) (entryDefines p n k (.inr c')) := by
      simp only [entryDefines]
      split
      · exact (msgId_reordered hc).bind fun a b _ _ hab => .ok (hab ▸ .refl _)
      · exact ih
    refine this.bind fun a b _ _ hab => (Both.refl (R := Eq) (fun _ => rfl) _).bind fun _ _ _ _ hr => ?_
    subst hr
    exact .ok (hab.append_right _)
  | @swap k x k' x' r =>
    simp only [defines_entry]
    exact swap_results _ _ _
  | trans _ _ ih ih' => exact ih.trans ih' fun _ _ _ h h' => h.trans h'

/-! ### Bytes -/

/-- The blocks of an entry. -/
def entryBytes (defs : List (String × List (String × BinSpec))) (e : Option Endian) (tn k : String) :
    Leaf ⊕ Comps → Except Err (List (List UInt8))
  | .inl v => binLookup defs tn k >>= fun s => leafBytes e s v >>= fun b => .ok [b]
  | .inr c => binLookup defs tn k >>= fun s => compBytes defs e s.typeName c

/-- The values of an entry. -/
def entryValues (k : String) : Leaf ⊕ Comps → List (String × Leaf)
  | .inl v => [(k, v)]
  | .inr c => valuesOf c

theorem values_entry (k : String) (x : Leaf ⊕ Comps) (r : Comps) : valuesOf (entry k x r) = entryValues k x ++ valuesOf r := by
  cases x <;> rfl

theorem bytes_entry (defs : List (String × List (String × BinSpec))) (e : Option Endian) (tn k : String) (x : Leaf ⊕ Comps)
    (r : Comps) : compBytes defs e tn (entry k x r) =
      (entryBytes defs e tn k x >>= fun a => compBytes defs e tn r >>= fun r => .ok (a ++ r)) := by
  cases x with
  | inl v =>
    simp only [entry, compBytes, entryBytes]
    cases binLookup defs tn k with
    | error e => rfl
    | ok s => simp only [bind, Except.bind]; cases leafBytes e s v <;> rfl
  | inr c =>
    simp only [entry, compBytes, entryBytes]
    cases binLookup defs tn k <;> rfl

theorem compBytes_length (defs : List (String × List (String × BinSpec))) (e : Option Endian) (c : Comps) : ∀ tn bs,
    compBytes defs e tn c = .ok bs → bs.length = (valuesOf c).length := by
  induction c with
  | nil => intro tn bs h; cases h; rfl
  | leaf k v r ih =>
    intro tn bs h
    simp only [compBytes, bind_ok, Except.ok.injEq] at h
    obtain ⟨_, _, _, _, r, h1, rfl⟩ := h
    simp only [valuesOf, List.length_cons, ih tn r h1]
  | node k c r ihc ih =>
    intro tn bs h
    simp only [compBytes, bind_ok, Except.ok.injEq] at h
    obtain ⟨s, _, a, h1, r, h2, rfl⟩ := h
    simp only [valuesOf, List.length_append, ihc _ a h1, ih tn r h2]

theorem entryBytes_length {defs : List (String × List (String × BinSpec))} {e : Option Endian} {tn k : String}
    {x : Leaf ⊕ Comps} {a : List (List UInt8)} (h : entryBytes defs e tn k x = .ok a) : a.length = (entryValues k x).length := by
  cases x with
  | inl v =>
    simp only [entryBytes, bind_ok, Except.ok.injEq] at h
    obtain ⟨_, _, _, _, rfl⟩ := h
    rfl
  | inr c =>
    simp only [entryBytes, bind_ok] at h
    obtain ⟨_, _, h⟩ := h
    exact compBytes_length defs e c _ a h

theorem compBytes_reordered (defs : List (String × List (String × BinSpec))) (e : Option Endian) {c c' : Comps}
    (h : Reordered c c') : ∀ tn, Both (fun bs bs' => ((valuesOf c).zip bs).Perm ((valuesOf c').zip bs'))
      (compBytes defs e tn c) (compBytes defs e tn c') := by
  induction h with
  | nil => intro tn; exact .refl (fun _ => .refl _) _
  | @keep k x r r' _ ih =>
    intro tn
    rw [bytes_entry, bytes_entry]
    refine (Both.refl (R := Eq) (fun _ => rfl) _).bind fun a b h1 _ hab => ?_
    subst hab
    refine (ih tn).bind fun r1 r2 _ _ hr => .ok ?_
    rw [values_entry, values_entry, List.zip_append (entryBytes_length h1).symm, List.zip_append (entryBytes_length h1).symm]
    exact hr.append_left _
  | @inner k c c' r hc ih =>
    intro tn
    simp only [compBytes]
    refine (Both.refl (R := Eq) (fun _ => rfl) _).bind fun s s' _ _ hs => ?_
    subst hs
    refine (ih _).bind fun a b h1 h2 hab => (Both.refl (R := Eq) (fun _ => rfl) _).bind fun r1 r2 _ _ hr => .ok ?_
    subst hr
    simp only [valuesOf]
    rw [List.zip_append (compBytes_length defs e c _ a h1).symm, List.zip_append (compBytes_length defs e c' _ b h2).symm]
    exact hab.append_right _
  | @swap k x k' x' r =>
    intro tn
    simp only [bytes_entry]
    cases h1 : entryBytes defs e tn k x with
    | error e => cases entryBytes defs _ tn k' x' <;> exact .error _ _
    | ok a =>
      cases h2 : entryBytes defs e tn k' x' with
      | error e => exact .error _ _
      | ok c =>
        cases h3 : compBytes defs e tn r with
        | error e => exact .error _ _
        | ok z =>
          refine .ok ?_
          simp only [values_entry]
          rw [List.zip_append (entryBytes_length h1).symm, List.zip_append (entryBytes_length h2).symm,
            List.zip_append (entryBytes_length h2).symm, List.zip_append (entryBytes_length h1).symm]
          exact List.perm_append_comm_assoc _ _ _
  | trans _ _ ih ih' => intro tn; exact (ih tn).trans (ih' tn) fun _ _ _ h h' => h.trans h'

/-! ### Sizes -/

theorem sumSizes_unfixed {rec rec' : Def → Except Err Int} (h : ∀ d, rec' (unfixedDef d) = rec d) (ds : List Def)
    (ms : List Member) : sumSizes rec' (ds.map unfixedDef) (ms.map unfixedMember) = sumSizes rec ds ms := by
  induction ms with
  | nil => rfl
  | cons m ms ih =>
    rw [List.map_cons, sumSizes, sumSizes, ih]
    congr 1
    show (match resolveType (ds.map unfixedDef) m.type with
      | some d => rec' d | none => unresolvedSizeBits m.type) = _
    rw [resolveType_unfixed]
    cases resolveType ds m.type with
    | none => rfl
    | some d => exact h d

theorem sizeDef_unfixed (ds : List Def) (fuel : Nat) : ∀ d,
    sizeDef (ds.map unfixedDef) fuel (unfixedDef d) = sizeDef ds fuel d := by
  induction fuel with
  | zero => intro d; rfl
  | succ fuel ih =>
    intro d
    cases d with
    | seq n c ms => exact sumSizes_unfixed ih ds ms
    | _ => rfl

theorem sizeMember_unfixed (ds : List Def) (fuel : Nat) (m : Member) :
    sizeMember (ds.map unfixedDef) fuel (unfixedMember m) = sizeMember ds fuel m := by
  unfold sizeMember
  show (match resolveType (ds.map unfixedDef) m.type with
      | some d => sizeDef (ds.map unfixedDef) fuel d | none => unresolvedSizeBits m.type) = _
  rw [resolveType_unfixed]
  cases resolveType ds m.type with
  | none => rfl
  | some d => exact sizeDef_unfixed ds fuel d

theorem sizeMember_reordered {R : Comps → Comps → Prop} {ds ds' : List Def} (h : All2 (AlteredDef R) ds ds') (fuel : Nat) {m m' : Member}
    (hm : AlteredMember R m m') : sizeMember ds' fuel m' = sizeMember ds fuel m := by
  rw [← sizeMember_unfixed ds', ← sizeMember_unfixed ds, unfixedDefs_reordered h, unfixedMember_reordered hm]

theorem binMembers_reordered {R : Comps → Comps → Prop} {ds ds' : List Def} (h : All2 (AlteredDef R) ds ds') (fuel : Nat) {ms ms' : List Member}
    (hm : All2 (AlteredMember R) ms ms') : binMembers ds' fuel ms' = binMembers ds fuel ms := by
  induction hm with
  | nil => rfl
  | @cons m m' ms ms' hm _ ih =>
    rw [binMembers, binMembers, ih, sizeMember_reordered h fuel hm, hm.key, hm.type]
    have := hm.comps
    generalize m.comps = x at this
    generalize m'.comps = y at this
    cases this <;> rfl

theorem binDefs_reordered {R : Comps → Comps → Prop} [ClauseRel R] {ds ds' : List Def} (h : All2 (AlteredDef R) ds ds') (fuel : Nat) {l l' : List Def}
    (hl : All2 (AlteredDef R) l l') : binDefs ds' fuel l' = binDefs ds fuel l := by
  induction hl with
  | nil => rfl
  | @cons d d' l l' hd _ ih =>
    cases hd with
    | same =>
      cases d with
      | seq n c ms => simp only [binDefs, ih, binMembers_reordered h fuel (reorderedMembers_refl ms)]
      | _ => simp only [binDefs, ih]
    | seq hm => simp only [binDefs, ih, binMembers_reordered h fuel hm]

end Apg
