import Verif.Lemmas.NewValues
import Verif.Lemmas.ClauseOrderCosmos

/-!
# generate-cosmos on modules that fix the same members to other values
-/

namespace Apg
open Spec
variable {K : String → Prop}

/-- If both succeed, the results are in relation. -/
def IfBoth {α β : Type} (R : α → β → Prop) (x : Except Err α) (y : Except Err β) : Prop :=
  ∀ a b, x = .ok a → y = .ok b → R a b

theorem IfBoth.bind {α β γ δ : Type} {R : α → β → Prop} {S : γ → δ → Prop} {x : Except Err α} {y : Except Err β}
    {f : α → Except Err γ} {g : β → Except Err δ} (h : IfBoth R x y) (hfg : ∀ a b, R a b → IfBoth S (f a) (g b)) :
    IfBoth S (x >>= f) (y >>= g) := by
  intro c d hc hd
  obtain ⟨a, h1, h2⟩ := bind_ok.1 hc
  obtain ⟨b, h3, h4⟩ := bind_ok.1 hd
  exact hfg a b (h a b h1 h3) c d h2 h4

theorem IfBoth.ok {α β : Type} {R : α → β → Prop} {a : α} {b : β} (h : R a b) : IfBoth R (.ok a) (.ok b) := by
  intro x y hx hy
  cases hx; cases hy
  exact h

theorem IfBoth.left {α β : Type} {R : α → β → Prop} {e : Err} {y : Except Err β} : IfBoth R (.error e) y :=
  fun _ _ h => nomatch h

theorem EndsAlike.ifBoth {α β : Type} {R : α → β → Prop} {x : Except Err α} {y : Except Err β} (h : EndsAlike R x y) :
    IfBoth R x y := by
  cases h with
  | error => exact .left
  | ok h => exact .ok h

/-! ### Values -/

/-- Two versions of a value of a member. -/
inductive NewSpecific (K : String → Prop) (key : String) : Specific → Specific → Prop
  | empty : NewSpecific K key .empty .empty
  | leaf {v v' : Leaf} (h : ¬ K key → v' = v) : NewSpecific K key (.leaf v) (.leaf v')
  | node {c c' : Comps} (h : NewValues K c c') : NewSpecific K key (.node c) (.node c')

theorem values_newValues {c c' : Comps} (h : NewValues K c c') (key : String) :
    All2 (NewSpecific K key) (c.values key) (c'.values key) := by
  induction h with
  | nil => exact .nil
  | @leaf k v v' r r' hv _ ih =>
    simp only [Comps.values]
    split
    · rename_i hk; subst hk; exact .cons (.leaf hv) ih
    · exact ih
  | @node k c c' r r' hc _ _ ih =>
    simp only [Comps.values]
    split
    · exact .cons (.node hc) ih
    · exact ih

theorem specificValue_newValues {c c' : Comps} (h : NewValues K c c') (key : String) :
    NewSpecific K key (specificValue c key) (specificValue c' key) := by
  have := values_newValues h key
  unfold specificValue
  generalize c.values key = l at this
  generalize c'.values key = l' at this
  cases this with
  | nil => exact .empty
  | cons h1 h2 =>
    cases h2 with
    | nil => exact h1
    | cons => exact .empty

theorem append_newValues {a a' c c' : Comps} (h : NewValues K a a') (h' : NewValues K c c') :
    NewValues K (a.append c) (a'.append c') := by
  induction h with
  | nil => exact h'
  | leaf hv _ ih => exact .leaf hv ih
  | node hc _ _ ih => exact .node hc ih

theorem getD_newValues {o o' : Option Comps} (h : AlteredClause (NewValues K) o o') : NewValues K (o.getD .nil) (o'.getD .nil) := by
  cases h with
  | none => exact .nil
  | some h => exact h

theorem innerComps_newValues {o o' : Option Comps} (h : AlteredClause (NewValues K) o o') {k : String} {s s' : Specific}
    (hs : NewSpecific K k s s') : NewValues K (innerComps o s) (innerComps o' s') := by
  cases hs with
  | empty => exact getD_newValues h
  | leaf v => exact getD_newValues h
  | node hc => exact append_newValues (getD_newValues h) hc

theorem extendStore_newValues {st st' : Store} (h : AlikeStore (NewValues K) st st') (n : String) (i : Nat) {k : String}
    {s s' : Specific} (hs : NewSpecific K k s s') : AlikeStore (NewValues K) (extendStore st n i s) (extendStore st' n i s') := by
  cases hs with
  | empty => exact h
  | leaf v => exact h
  | node hc =>
    simp only [extendStore]
    have := h n i
    generalize st n i = o at this
    generalize st' n i = o' at this
    cases this with
    | none => exact h
    | some ho =>
      intro m j
      simp only [Store.set]
      split
      · exact .some (append_newValues ho hc)
      · exact h m j

/-! ### Entries -/

/-- Two versions of an entry. -/
def NewEntry (K : String → Prop) (e e' : Entry) : Prop :=
  e' = e ∨ ∃ k, K k ∧ e.name = k.toList ∧ e.isArray = false ∧ e' = { e with specific := e'.specific }

/-- Entries and lists of two versions. -/
def NewEntries (K : String → Prop) (r r' : List Entry × Store) : Prop := All2 (NewEntry K) r.1 r'.1 ∧ AlikeStore (NewValues K) r.2 r'.2

section
variable {b b' : Bundle} (hs : AlteredBundle (NewValues K) b b') (hn : (b.defs.map Def.name).Nodup) {bm bm' : BMod} (hbm : bm ∈ b.mods)
  (hbm' : bm' ∈ b'.mods) (hsb : AlteredB (NewValues K) bm bm') {p : Printer} (hp : ∀ c c', NewValues K c c' → p.object c' = p.object c)
include hp

theorem specificText_newValues {m m' : Member} (hm : AlteredMember (NewValues K) m m') (bits : Int) {s s' : Specific}
    (h : NewSpecific K m.key s s') (hk : ¬ K m.key ∨ ∃ t l, m.type = .arr t l) : specificText p m' bits s' = specificText p m bits s := by
  unfold specificText
  rw [hm.type, hm.key]
  rcases hk with hk | ⟨t, l, ht⟩
  · cases h with
    | empty => rfl
    | leaf v => rw [v hk]
    | node h => simp only [hp _ _ h]
  · rw [ht]

theorem makeEntry_newValues {m m' : Member} (hm : AlteredMember (NewValues K) m m') {s s' : Specific}
    (h : NewSpecific K m.key s s') (c : Option CType) (lo hi : Option Num) (states : List Text) :
    IfBoth (NewEntry K) (makeEntry p m s c lo hi states) (makeEntry p m' s' c lo hi states) := by
  cases c with
  | none => exact .left
  | some c =>
    simp only [makeEntry]
    refine IfBoth.bind (R := Eq) (fun a b h h' => Except.ok.inj (h.symm.trans h')) fun bits _ hb => ?_
    subst hb
    refine IfBoth.bind (R := Eq) (fun a b h h' => Except.ok.inj (h.symm.trans h')) fun range _ hb => ?_
    subst hb
    rw [hm.type, hm.comment, hm.key]
    by_cases hk : ¬ K m.key ∨ ∃ t l, m.type = .arr t l
    · rw [specificText_newValues hp hm bits h hk]
      refine IfBoth.bind (R := Eq) (fun a b h h' => Except.ok.inj (h.symm.trans h')) fun t _ hb => ?_
      subst hb
      exact .ok (.inl rfl)
    · refine IfBoth.bind (R := fun _ _ => True) (fun _ _ _ _ => trivial) fun t t' _ => .ok (.inr ?_)
      obtain ⟨h1, h2⟩ := not_or.1 hk
      refine ⟨m.key, Classical.not_not.1 h1, rfl, ?_, rfl⟩
      show (match m.type with | .arr .. => true | _ => false) = false
      cases ht : m.type with
      | arr t l => exact absurd ⟨t, l, ht⟩ h2
      | _ => rfl

include hs hn hbm hbm' hsb

theorem entriesFrom_newValues (fuel : Nat) {rec rec' : Store → Def → Comps → Except Err (List Entry × Store)}
    (hr : ∀ st st' d d' c c', AlikeStore (NewValues K) st st' → AlteredDef (NewValues K) d d' → NewValues K c c' →
      IfBoth (NewEntries K) (rec st d c) (rec' st' d' c'))
    (seq : String) {wc wc' : Comps} (hw : NewValues K wc wc') {ms ms' : List Member} (hm : All2 (AlteredMember (NewValues K)) ms ms') :
    ∀ st st' i, AlikeStore (NewValues K) st st' → IfBoth (NewEntries K) (entriesFrom p b fuel bm rec seq wc st i ms)
      (entriesFrom p b' fuel bm' rec' seq wc' st' i ms') := by
  induction hm with
  | nil => exact fun st st' i h => .ok ⟨.nil, h⟩
  | @cons m m' l l' hm _ ih =>
    intro st st' i hst
    rw [entriesFrom, entriesFrom, hm.type]
    have hsp : NewSpecific K m.key (specificValue wc m.key) (specificValue wc' m'.key) := by
      rw [hm.key]; exact specificValue_newValues hw m.key
    have hst' := extendStore_newValues hst seq i hsp
    refine (shapeOf_reordered hs hn hbm hbm' hsb fuel m.type).ifBoth.bind fun sh sh' hsh => ?_
    refine IfBoth.bind (R := NewEntries K) ?_ fun r r' hr1 =>
      (ih r.2 r'.2 (i + 1) hr1.2).bind fun q q' hq => .ok ⟨all2_append hr1.1 hq.1, hq.2⟩
    cases hsh with
    | item c lo hi states =>
      exact (makeEntry_newValues hp hm hsp c lo hi states).bind fun e e' he => .ok ⟨.cons he .nil, hst'⟩
    | inner hd => exact hr _ _ _ _ _ _ hst' hd (innerComps_newValues (hst seq i) hsp)

theorem telemetry_newValues (fuel depth : Nat) : ∀ st st' d d' c c', AlikeStore (NewValues K) st st' →
    AlteredDef (NewValues K) d d' → NewValues K c c' →
    IfBoth (NewEntries K) (telemetry p b fuel bm depth st d c) (telemetry p b' fuel bm' depth st' d' c') := by
  induction depth with
  | zero => intros; exact .left
  | succ depth ih =>
    intro st st' d d' c c' hst hd hc
    cases hd with
    | seq hm => exact entriesFrom_newValues hs hn hbm hbm' hsb hp fuel ih _ hc hm st st' 0 hst
    | same =>
      cases d with
      | seq n k ms => exact entriesFrom_newValues hs hn hbm hbm' hsb hp fuel ih _ hc (reorderedMembers_refl ms) st st' 0 hst
      | choice => exact .left
      | enum => exact .left
      | simple => exact .left

theorem packetsData_newValues (fuel : Nat) (ns : List String) : ∀ st st', AlikeStore (NewValues K) st st' →
    IfBoth (All2 fun x x' : PacketData => x'.name = x.name ∧ All2 (NewEntry K) x.entries x'.entries)
      (packetsData p b fuel bm st ns) (packetsData p b' fuel bm' st' ns) := by
  induction ns with
  | nil => exact fun _ _ _ => .ok .nil
  | cons n ns ih =>
    intro st st' hst
    rw [packetsData, packetsData]
    rcases lastDef_reordered hsb.mod.defs n with ⟨h1, h2⟩ | ⟨d, d', h1, h2, h3⟩
    · rw [h1, h2]; exact .left
    · rw [h1, h2]
      exact (telemetry_newValues hs hn hbm hbm' hsb hp fuel fuel st st' d d' .nil .nil hst h3 .nil).bind fun r r' hr =>
        (ih r.2 r'.2 hr.2).bind fun q q' hq => .ok (.cons ⟨by simp only [h3.name], hr.1⟩ hq)

end

theorem cosmosData_newValues {b b' : Bundle} (hs : AlteredBundle (NewValues K) b b') (hn : (b.defs.map Def.name).Nodup)
    {p : Printer} (hp : ∀ c c', NewValues K c c' → p.object c' = p.object c) {fuel : Nat} {module : String}
    {messages : List String} : IfBoth (All2 fun x x' : PacketData => x'.name = x.name ∧ All2 (NewEntry K) x.entries x'.entries)
      (cosmosData fuel p b module messages) (cosmosData fuel p b' module messages) := by
  unfold cosmosData
  rcases getModule_reordered hs.mods module with ⟨h1, h2⟩ | ⟨bm, bm', h1, h2, h3⟩
  · rw [h1, h2]; exact .ok .nil
  · rw [h1, h2]
    exact packetsData_newValues hs hn (getModule_some h1).1 (getModule_some h2).1 h3 hp fuel messages _ _
      (initialStore_reordered hs.defs)

end Apg
