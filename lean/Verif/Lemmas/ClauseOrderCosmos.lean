import Verif.Lemmas.ClauseOrder
import Verif.Lemmas.UnfixCosmos

/-!
# generate-cosmos on modules whose clauses fix values in another order
-/

namespace Apg
open Spec

/-! ### Values -/

/-- The same value but for the order of an inner clause. -/
inductive AlikeSpecific : Specific → Specific → Prop
  | empty : AlikeSpecific .empty .empty
  | leaf (v : Leaf) : AlikeSpecific (.leaf v) (.leaf v)
  | node {c c' : Comps} (h : Reordered c c') : AlikeSpecific (.node c) (.node c')

theorem AlikeSpecific.refl (s : Specific) : AlikeSpecific s s := by
  cases s with
  | empty => exact .empty
  | leaf v => exact .leaf v
  | node c => exact .node (.refl c)

theorem AlikeSpecific.trans {a c d : Specific} (h : AlikeSpecific a c) (h' : AlikeSpecific c d) : AlikeSpecific a d := by
  cases h with
  | empty => exact h'
  | leaf v => exact h'
  | node h => cases h' with | node h' => exact .node (.trans h h')

/-- Lists of values with the same only value. -/
def AlikeValues (l l' : List Specific) : Prop :=
  l'.length = l.length ∧ ∀ v v', l = [v] → l' = [v'] → AlikeSpecific v v'

theorem AlikeValues.cons {v v' : Specific} {l l' : List Specific} (hv : AlikeSpecific v v') (h : l'.length = l.length) :
    AlikeValues (v :: l) (v' :: l') := by
  refine ⟨by simp [h], fun w w' e e' => ?_⟩
  cases e
  cases e'
  exact hv

/-- The value of an entry. -/
def specificOf : Leaf ⊕ Comps → Specific
  | .inl v => .leaf v
  | .inr c => .node c

theorem entry_values (key k : String) (x : Leaf ⊕ Comps) (r : Comps) :
    (entry k x r).values key = if k = key then specificOf x :: r.values key else r.values key := by
  cases x <;> rfl

theorem values_reordered {c c' : Comps} (h : Reordered c c') (key : String) : AlikeValues (c.values key) (c'.values key) := by
  induction h with
  | nil => exact ⟨rfl, fun _ _ h => nomatch h⟩
  | @keep k x r r' _ ih =>
    rw [entry_values, entry_values]
    split
    · exact .cons (.refl _) ih.1
    · exact ih
  | @inner k c c' r h _ =>
    simp only [Comps.values]
    split
    · exact .cons (.node h) rfl
    · exact ⟨rfl, fun v v' e e' => by rw [e] at e'; cases e'; exact .refl _⟩
  | @swap k x k' x' r =>
    simp only [entry_values]
    by_cases h1 : k = key
    · by_cases h2 : k' = key
      · simp only [if_pos h1, if_pos h2]
        exact ⟨rfl, fun v v' e => by cases e⟩
      · simp only [if_pos h1, if_neg h2]
        exact .cons (.refl _) rfl
    · by_cases h2 : k' = key
      · simp only [if_neg h1, if_pos h2]
        exact .cons (.refl _) rfl
      · simp only [if_neg h1, if_neg h2]
        exact ⟨rfl, fun v v' e e' => by rw [e] at e'; cases e'; exact .refl _⟩
  | @trans a c d _ _ ih ih' =>
    refine ⟨ih'.1.trans ih.1, fun v v' e e' => ?_⟩
    have hl : (c.values key).length = 1 := by rw [ih.1, e]; rfl
    obtain ⟨w, hw⟩ := List.length_eq_one_iff.1 hl
    exact (ih.2 v w e hw).trans (ih'.2 w v' hw e')

theorem specificValue_reordered {c c' : Comps} (h : Reordered c c') (key : String) :
    AlikeSpecific (specificValue c key) (specificValue c' key) := by
  obtain ⟨h1, h2⟩ := values_reordered h key
  unfold specificValue
  generalize c.values key = l at h1 h2
  generalize c'.values key = l' at h1 h2
  match l, l', h1 with
  | [], [], _ => exact .empty
  | [v], [v'], _ => exact h2 v v' rfl rfl
  | _ :: _ :: _, _ :: _ :: _, _ => exact .empty

theorem append_entry (k : String) (x : Leaf ⊕ Comps) (r d : Comps) : (entry k x r).append d = entry k x (r.append d) := by
  cases x <;> rfl

theorem append_reordered_right (a : Comps) {c c' : Comps} (h : Reordered c c') : Reordered (a.append c) (a.append c') := by
  induction a with
  | nil => exact h
  | leaf k v r ih => exact .keep (k := k) (x := .inl v) ih
  | node k d r _ ih => exact .keep (k := k) (x := .inr d) ih

theorem append_reordered_left {a a' : Comps} (h : Reordered a a') (c : Comps) : Reordered (a.append c) (a'.append c) := by
  induction h with
  | nil => exact .refl _
  | keep _ ih => rw [append_entry, append_entry]; exact .keep ih
  | inner h _ => exact .inner h
  | swap => simp only [append_entry]; exact .swap
  | trans _ _ ih ih' => exact .trans ih ih'

theorem append_reordered {a a' c c' : Comps} (h : Reordered a a') (h' : Reordered c c') : Reordered (a.append c) (a'.append c') :=
  .trans (append_reordered_left h c) (append_reordered_right a' h')

/-! ### Lists -/

/-- The same lists but for the order. -/
def AlikeStore (R : Comps → Comps → Prop) (st st' : Store) : Prop := ∀ n i, AlteredClause R (st n i) (st' n i)

theorem getD_reordered {o o' : Option Comps} (h : ReorderedClause o o') : Reordered (o.getD .nil) (o'.getD .nil) := by
  cases h with
  | none => exact .nil
  | some h => exact h

theorem innerComps_reordered {o o' : Option Comps} (h : ReorderedClause o o') {s s' : Specific} (hs : AlikeSpecific s s') :
    Reordered (innerComps o s) (innerComps o' s') := by
  cases hs with
  | empty => exact getD_reordered h
  | leaf v => exact getD_reordered h
  | node hc => exact append_reordered (getD_reordered h) hc

theorem extendStore_reordered {st st' : Store} (h : AlikeStore Reordered st st') (n : String) (i : Nat) {s s' : Specific}
    (hs : AlikeSpecific s s') : AlikeStore Reordered (extendStore st n i s) (extendStore st' n i s') := by
  cases hs with
  | empty => exact h
  | leaf v => exact h
  | node hc =>
    simp only [extendStore]
    have := h n i
    generalize st n i = o at this
    generalize st' n i = o' at this
    cases this with
    | none => exact h
    | some ho =>
      intro m j
      simp only [Store.set]
      split
      · exact .some (append_reordered ho hc)
      · exact h m j

theorem lastDef_reordered {R : Comps → Comps → Prop} {ds ds' : List Def} (h : All2 (AlteredDef R) ds ds') (n : String) :
    (lastDef ds n = none ∧ lastDef ds' n = none) ∨
    ∃ d d', lastDef ds n = some d ∧ lastDef ds' n = some d' ∧ AlteredDef R d d' := by
  induction h with
  | nil => exact .inl ⟨rfl, rfl⟩
  | @cons a c l l' h _ ih =>
    rw [lastDef, lastDef, h.name]
    rcases ih with ⟨h1, h2⟩ | ⟨m, m', h1, h2, h3⟩
    · rw [h1, h2]
      by_cases hn : a.name = n
      · simp only [if_pos hn]; exact .inr ⟨_, _, rfl, rfl, h⟩
      · refine .inl ⟨?_, ?_⟩ <;> exact if_neg hn
    · rw [h1, h2]; exact .inr ⟨_, _, rfl, rfl, h3⟩

theorem memberComps_reordered {R : Comps → Comps → Prop} {ms ms' : List Member} (h : All2 (AlteredMember R) ms ms') : ∀ i : Nat,
    AlteredClause R ((ms[i]?).bind (·.comps)) ((ms'[i]?).bind (·.comps)) := by
  induction h with
  | nil => intro i; exact .none
  | cons h _ ih =>
    intro i
    cases i with
    | zero => exact h.comps
    | succ i => exact ih i

theorem initialStore_reordered {R : Comps → Comps → Prop} [ClauseRel R] {ds ds' : List Def} (h : All2 (AlteredDef R) ds ds') : AlikeStore R (initialStore ds) (initialStore ds') := by
  intro n i
  unfold initialStore
  rcases lastDef_reordered h n with ⟨h1, h2⟩ | ⟨d, d', h1, h2, h3⟩
  · rw [h1, h2]; exact .none
  · rw [h1, h2]
    cases h3 with
    | same => exact .refl _
    | seq hm => exact memberComps_reordered hm i

/-! ### Definitions -/

theorem unfixedBundle_reordered {R : Comps → Comps → Prop} {b b' : Bundle} (h : AlteredBundle R b b') : unfixedBundle b' = unfixedBundle b := by
  unfold unfixedBundle
  rw [unfixedModules_reordered h.modules]
  congr 1
  have := h.mods
  generalize b.mods = l at this
  generalize b'.mods = l' at this
  induction this with
  | nil => rfl
  | cons h _ ih => rw [List.map_cons, List.map_cons, ih, unfixedBMod_reordered h]

/-- The same shape but for the order of clauses. -/
inductive AlikeShape (R : Comps → Comps → Prop) : Shape → Shape → Prop
  | item (c : Option CType) (lo hi : Option Num) (st : List Text) : AlikeShape R (.item c lo hi st) (.item c lo hi st)
  | inner {d d' : Def} (h : AlteredDef R d d') : AlikeShape R (.inner d) (.inner d')

section
variable {R : Comps → Comps → Prop} {b b' : Bundle} (hs : AlteredBundle R b b') (hn : (b.defs.map Def.name).Nodup) {bm bm' : BMod} (hbm : bm ∈ b.mods)
  (hbm' : bm' ∈ b'.mods) (hsb : AlteredB R bm bm')
include hs hn hbm hbm' hsb

theorem getDefinition_reordered (fuel : Nat) (n : String) :
    EndsAlike (AlteredDef R) (getDefinition b fuel n bm) (getDefinition b' fuel n bm') := by
  have hn' : (b'.defs.map Def.name).Nodup := by rw [names_reorderedDefs hs.defs]; exact hn
  have e1 := getDefinition_unfixed hn fuel n hbm
  have e2 := getDefinition_unfixed hn' fuel n hbm'
  rw [unfixedBundle_reordered hs, unfixedBMod_reordered hsb, e1] at e2
  cases h1 : getDefinition b fuel n bm with
  | error x =>
    cases h2 : getDefinition b' fuel n bm' with
    | error y => rw [h1, h2] at e2; cases e2; exact .error _
    | ok y => rw [h1, h2] at e2; cases e2
  | ok d =>
    cases h2 : getDefinition b' fuel n bm' with
    | error y => rw [h1, h2] at e2; cases e2
    | ok d' =>
      obtain ⟨q1, q2⟩ := getDefinition_sound hbm h1
      obtain ⟨p1, p2⟩ := getDefinition_sound hbm' h2
      have : All2 (AlteredDef R) [d] [d'] := all2_reordered_of_names hs.defs hn (by simp only [List.map_cons, List.map_nil, q2, p2])
        (fun x hx => by rw [List.mem_singleton.1 hx]; exact q1) fun x hx => by rw [List.mem_singleton.1 hx]; exact p1
      cases this with
      | cons h _ => exact .ok h

theorem shapeOf_reordered (fuel : Nat) (t : AType) : EndsAlike (AlikeShape R) (shapeOf b fuel bm t) (shapeOf b' fuel bm' t) := by
  unfold shapeOf
  simp only
  split
  · exact .ok (.item _ _ _ _)
  · split
    · exact .ok (.item _ _ _ _)
    · split
      · exact .ok (.item _ _ _ _)
      · refine (getDefinition_reordered hs hn hbm hbm' hsb fuel t.name).bind fun d d' _ _ hd => ?_
        cases hd with
        | same =>
          cases d with
          | simple => exact .ok (.item _ _ _ _)
          | enum => exact .ok (.item _ _ _ _)
          | seq => exact .ok (.inner (.same _))
          | choice => exact .ok (.inner (.same _))
        | seq h => exact .ok (.inner (.seq h))

end

section
variable {b b' : Bundle} (hs : ReorderedBundle b b') (hn : (b.defs.map Def.name).Nodup) {bm bm' : BMod} (hbm : bm ∈ b.mods)
  (hbm' : bm' ∈ b'.mods) (hsb : ReorderedB bm bm')
include hs hn hbm hbm' hsb

variable {p : Printer} (hp : ∀ c c', Reordered c c' → p.object c' = p.object c)
include hp

omit hs hn hbm hbm' hsb in
theorem specificText_reordered {m m' : Member} (hm : ReorderedMember m m') (bits : Int) {s s' : Specific}
    (h : AlikeSpecific s s') : specificText p m' bits s' = specificText p m bits s := by
  unfold specificText
  rw [hm.type, hm.key]
  cases h with
  | empty => rfl
  | leaf v => rfl
  | node h => simp only [hp _ _ h]

omit hs hn hbm hbm' hsb in
theorem makeEntry_reordered {m m' : Member} (hm : ReorderedMember m m') {s s' : Specific}
    (h : AlikeSpecific s s') (c : Option CType) (lo hi : Option Num) (states : List Text) :
    makeEntry p m' s' c lo hi states = makeEntry p m s c lo hi states := by
  unfold makeEntry
  simp only [specificText_reordered hp hm _ h, hm.type, hm.key, hm.comment]

/-- The same entries and alike lists. -/
def AlikeEntries (r r' : List Entry × Store) : Prop := r'.1 = r.1 ∧ AlikeStore Reordered r.2 r'.2

theorem entriesFrom_reordered (fuel : Nat) {rec rec' : Store → Def → Comps → Except Err (List Entry × Store)}
    (hr : ∀ st st' d d' c c', AlikeStore Reordered st st' → ReorderedDef d d' → Reordered c c' → EndsAlike AlikeEntries (rec st d c) (rec' st' d' c'))
    (seq : String) {wc wc' : Comps} (hw : Reordered wc wc') {ms ms' : List Member} (hm : All2 ReorderedMember ms ms') :
    ∀ st st' i, AlikeStore Reordered st st' → EndsAlike AlikeEntries (entriesFrom p b fuel bm rec seq wc st i ms)
      (entriesFrom p b' fuel bm' rec' seq wc' st' i ms') := by
  induction hm with
  | nil => exact fun st st' i h => .ok ⟨rfl, h⟩
  | @cons m m' l l' hm _ ih =>
    intro st st' i hst
    rw [entriesFrom, entriesFrom, hm.type]
    have hsp : AlikeSpecific (specificValue wc m.key) (specificValue wc' m'.key) := by
      rw [hm.key]; exact specificValue_reordered hw m.key
    have hst' := extendStore_reordered hst seq i hsp
    refine (shapeOf_reordered hs hn hbm hbm' hsb fuel m.type).bind fun sh sh' _ _ hsh => ?_
    refine EndsAlike.bind (R := AlikeEntries) ?_ fun r r' _ _ hr1 =>
      (ih r.2 r'.2 (i + 1) hr1.2).bind fun q q' _ _ hq => .ok ⟨by rw [hr1.1, hq.1], hq.2⟩
    cases hsh with
    | item c lo hi states =>
      simp only [makeEntry_reordered hp hm hsp]
      refine (EndsAlike.same rfl).bind fun e e' _ _ he => .ok ⟨by rw [he], hst'⟩
    | inner hd => exact hr _ _ _ _ _ _ hst' hd (innerComps_reordered (hst seq i) hsp)

theorem telemetry_reordered (fuel depth : Nat) : ∀ st st' d d' c c', AlikeStore Reordered st st' → ReorderedDef d d' → Reordered c c' →
    EndsAlike AlikeEntries (telemetry p b fuel bm depth st d c) (telemetry p b' fuel bm' depth st' d' c') := by
  induction depth with
  | zero => intros; exact .error _
  | succ depth ih =>
    intro st st' d d' c c' hst hd hc
    cases hd with
    | seq hm => exact entriesFrom_reordered hs hn hbm hbm' hsb hp fuel ih _ hc hm st st' 0 hst
    | same =>
      cases d with
      | seq n k ms => exact entriesFrom_reordered hs hn hbm hbm' hsb hp fuel ih _ hc (reorderedMembers_refl ms) st st' 0 hst
      | choice => exact .error _
      | enum => exact .error _
      | simple => exact .error _

theorem packets_reordered (fuel : Nat) (target : Text) (ns : List String) : ∀ st st', AlikeStore Reordered st st' →
    packets p b' fuel bm' target st' ns = packets p b fuel bm target st ns := by
  have key : ∀ st st', AlikeStore Reordered st st' → EndsAlike (fun x y => y = x) (packets p b fuel bm target st ns)
      (packets p b' fuel bm' target st' ns) := by
    induction ns with
    | nil => exact fun _ _ _ => .ok rfl
    | cons n ns ih =>
      intro st st' hst
      rw [packets, packets]
      rcases lastDef_reordered hsb.mod.defs n with ⟨h1, h2⟩ | ⟨d, d', h1, h2, h3⟩
      · rw [h1, h2]; exact .error _
      · rw [h1, h2]
        refine (telemetry_reordered hs hn hbm hbm' hsb hp fuel fuel st st' d d' .nil .nil hst h3 .nil).bind fun r r' _ _ hr =>
          (ih r.2 r'.2 hr.2).bind fun q q' _ _ hq => .ok ?_
        rw [hq, hr.1, h3.name]
        have : d'.comment = d.comment := by cases h3 <;> rfl
        rw [this]
  intro st st' hst
  have := key st st' hst
  generalize packets p b fuel bm target st ns = x at this
  generalize packets p b' fuel bm' target st' ns = y at this
  cases this with
  | error e => rfl
  | ok h => rw [h]

end

theorem getModule_reordered {R : Comps → Comps → Prop} {b b' : Bundle} (hs : All2 (AlteredB R) b.mods b'.mods) (n : String) :
    (b.getModule n = none ∧ b'.getModule n = none) ∨
    ∃ m m', b.getModule n = some m ∧ b'.getModule n = some m' ∧ AlteredB R m m' := by
  unfold Bundle.getModule
  generalize b.mods = l at hs
  generalize b'.mods = l' at hs
  induction hs with
  | nil => exact .inl ⟨rfl, rfl⟩
  | @cons a c l l' h _ ih =>
    rw [List.find?_cons, List.find?_cons, h.mod.name]
    by_cases hn : a.mod.name = n
    · rw [decide_eq_true hn]; exact .inr ⟨_, _, rfl, rfl, h⟩
    · rw [decide_eq_false hn]; exact ih

theorem generateCosmos_reordered (fuel : Nat) {p : Printer} (hp : ∀ c c', Reordered c c' → p.object c' = p.object c)
    {b b' : Bundle} (hs : ReorderedBundle b b') (hn : (b.defs.map Def.name).Nodup) (module : String) (messages : List String)
    (target out : Text) : generateCosmos fuel p b' module messages target out = generateCosmos fuel p b module messages target out := by
  have he : b'.mods = [] ↔ b.mods = [] := by
    rw [← List.length_eq_zero_iff, ← List.length_eq_zero_iff, hs.mods.length_eq]
  unfold generateCosmos
  simp only [he]
  rcases getModule_reordered hs.mods module with ⟨h1, h2⟩ | ⟨bm, bm', h1, h2, h3⟩
  · simp only [h1, h2]
  · simp only [h1, h2, packets_reordered hs hn (getModule_some h1).1 (getModule_some h2).1 h3 hp fuel target messages _ _
      (initialStore_reordered hs.defs), names_reorderedDefs h3.mod.defs]

theorem runCosmos_reordered {raw raw' : List Module} (hs : All2 ReorderedModule raw raw') (fuel : Nat) {p : Printer}
    (hp : ∀ c c', Reordered c c' → p.object c' = p.object c) (module : String) (messages : List String) (target out : Text) :
    runCosmos fuel p raw' module messages target out = runCosmos fuel p raw module messages target out := by
  have hb := buildFromTexts_reordered hs
  unfold runCosmos
  cases e : buildFromTexts raw with
  | error x =>
    cases e' : buildFromTexts raw' with
    | error y => rw [e, e'] at hb; cases hb; rfl
    | ok y => rw [e, e'] at hb; cases hb
  | ok b =>
    cases e' : buildFromTexts raw' with
    | error y => rw [e, e'] at hb; cases hb
    | ok b' =>
      rw [e, e'] at hb
      cases hb with
      | ok hb => exact generateCosmos_reordered fuel hp hb (accepted_nodup e) module messages target out

end Apg
