import Verif.Spec.Append
import Verif.Lemmas.Widen
import Verif.Lemmas.LocalRun
import Verif.Lemmas.InPlaceRun

/-!
# Lemmas about members that are appended
-/

namespace Apg
open Spec

/-! ### Headers -/

/-- What is printed for a member. -/
def memberPrint (x : Member × (Mapped × CData)) : Text := (commentLines x.1 ++ [fieldLine x.1 x.2.1]).flatMap CLine.text

theorem sequence_fields {h : Handler} (hq : Quiet h) {ds simple : List Def} {mod : Module} {n : String}
    {c : Option Comment} {ms : List Member} (hn : isNameCapital n = true) {p : CData}
    (hp : convertSequence h ds simple mod n c ms = .ok p) :
    ∃ rs : List (Mapped × CData), All2 (fun m x => fieldType ds simple m.type = .ok x.1) ms rs ∧
      p.data = [structOf c n ((ms.zip rs).map memberPrint)] := by
  unfold convertSequence at hp
  simp only [bind_ok, Except.ok.injEq] at hp
  obtain ⟨r, hr, rfl⟩ := hp
  have hd := convertMembers_data hq _ _ _ hr
  obtain ⟨rs, h1, h2, _⟩ := convertMembers_ok hr
  refine ⟨rs, h1.imp fun _ _ h => h.1, ?_⟩
  simp only [hd, List.nil_append]
  unfold structOf structText
  rw [defComment_eq, cName_eq (Or.inr hn), h2, List.flatMap_assoc, List.flatMap_def (l := ms.zip rs)]
  simp only [List.append_assoc]
  rfl

theorem fields_of {ds simple : List Def} {ms : List Member} {rs : List (Mapped × CData)}
    (h : All2 (fun m x => fieldType ds simple m.type = .ok x.1) ms rs)
    (hms : ∀ m ∈ ms, GrammarMember m ∧ ∀ x, m.comment = some x → GrammarComment x) :
    All2 FieldFor ms ((ms.zip rs).map memberPrint) := by
  induction h with
  | nil => exact .nil
  | @cons m x ms rs hx _ ih =>
    obtain ⟨g1, g2⟩ := hms m (List.mem_cons_self ..)
    exact .cons ⟨_, _, member_text g1.1 g2 (fieldType_good g1.2.1 hx).1⟩ (ih fun m hm => hms m (List.mem_cons_of_mem _ hm))

theorem fields_same {ds ds' simple simple' : List Def} {ms : List Member} {rs rs' : List (Mapped × CData)}
    (hf : ∀ m ∈ ms, fieldType ds simple m.type = fieldType ds' simple' m.type)
    (h : All2 (fun m x => fieldType ds simple m.type = .ok x.1) ms rs)
    (h' : All2 (fun m x => fieldType ds' simple' m.type = .ok x.1) ms rs') :
    (ms.zip rs).map memberPrint = (ms.zip rs').map memberPrint := by
  induction h generalizing rs' with
  | nil => rfl
  | @cons m x ms rs hx _ ih =>
    cases h' with
    | @cons _ x' _ rs' hx' h' =>
      have he : x.1 = x'.1 := by
        rw [hf m (List.mem_cons_self ..), hx'] at hx
        exact (Except.ok.inj hx).symm
      simp only [List.zip_cons_cons, List.map_cons]
      rw [ih (fun m hm => hf m (List.mem_cons_of_mem _ hm)) h']
      simp only [memberPrint, he]

/-! ### Packets -/

theorem Spec.Lengthened.name {d d' : Def} (h : Lengthened d d') : d.name = d'.name := by cases h <;> rfl

theorem Spec.LengthenedDefs.of_name {ds ds' : List Def} (hn' : (ds'.map Def.name).Nodup) (hg : LengthenedDefs ds ds') {d d' : Def}
    (hd : d ∈ ds) (hd' : d' ∈ ds') (he : d.name = d'.name) : Lengthened d d' := by
  obtain ⟨x, hx, h⟩ := hg.there d hd
  have := mem_unique_of_nodup_map hn' hx hd' (h.name.symm.trans he)
  exact this ▸ h

theorem leaves_grown {ds ds' : List Def} (hn' : (ds'.map Def.name).Nodup)
    (hw : LengthenedDefs ds ds') {ms : List Member} {ls : List (List Member)} (h : Leaves ds ms ls) :
    ∀ {extra ls'}, (∀ m ∈ ms, ∃ d ∈ ds, m ∈ d.members) → Leaves ds' (ms ++ extra) ls' → ls.Sublist ls' := by
  induction h with
  | nil => intro _ ls' _ _; exact List.nil_sublist _
  | leaf hno _ ih =>
    intro extra ls' hin h'
    cases h' with
    | leaf _ h' => exact (ih (fun m hm => hin m (List.mem_cons_of_mem _ hm)) h').cons_cons _
    | seq hu hs' _ _ =>
      exfalso
      obtain ⟨c, hd'⟩ := hs'
      obtain ⟨d, hd, hmd⟩ := hin _ (List.mem_cons_self ..)
      rcases hw.other _ hd' with ⟨x, hx, hwx⟩ | hnot
      · cases hwx with
        | same => exact hno _ _ hu ⟨_, hx⟩
        | seq => exact hno _ _ hu ⟨_, hx⟩
      · exact hnot d hd _ hmd hu
  | seq hu hs _ _ ih1 ih2 =>
    intro extra ls' hin h'
    obtain ⟨c, hd⟩ := hs
    obtain ⟨d', hd', hwd⟩ := hw.there _ hd
    cases h' with
    | leaf hno _ =>
      exfalso
      cases hwd with
      | same => exact hno _ _ hu ⟨_, hd'⟩
      | seq => exact hno _ _ hu ⟨_, hd'⟩
    | seq hu' hs' hl1 hl2 =>
      obtain ⟨c2, hd2⟩ := hs'
      have hnm := (usesName_iff _ _).1 hu'
      rw [(usesName_iff _ _).1 hu] at hnm
      have hgr := hw.of_name hn' hd hd2 hnm
      have h2 := ih2 (fun m hm => hin m (List.mem_cons_of_mem _ hm)) hl2
      cases hgr with
      | same =>
        have h1 := ih1 (extra := []) (fun m hm => ⟨_, hd, hm⟩) (by rw [List.append_nil]; exact hl1)
        exact (h1.map _).append h2
      | seq => exact ((ih1 (fun m hm => ⟨_, hd, hm⟩) hl1).map _).append h2

/-- What is used means the same, with the same items of enumerations. -/
theorem shape_grown {ds ds' : List Def} (hs : Sized ds) (hs' : Sized ds') (hw : LengthenedDefs ds ds') {t : AType}
    (hg : GrammarType t) {c c' : Option CType} {lo hi lo' hi' : Option Num} {st st' : List Text}
    (h : ItemShape ds t c lo hi st) (h' : ItemShape ds' t c' lo' hi' st') : c = c' ∧ lo = lo' ∧ hi = hi' ∧ st = st' := by
  have hb : ∀ {ds : List Def}, Sized ds → ∀ {d : Def}, d ∈ ds → d.name = t.name → t.name ∉ basicNames :=
    fun hs _ hd he => shape_builtin hs hd he
  have hstr : ∀ {n len}, t = .str n len → t.name = "IA5String" ∨ t.name = "NumericString" := by
    intro n len h
    rw [h] at hg ⊢
    cases hg
    · exact .inl rfl
    · exact .inr rfl
  have hnb : t.name = "INTEGER" ∨ t.name = "REAL" → t.name ∈ basicNames := by
    rintro (h | h) <;> rw [h] <;> decide
  have hbb : t.name = "BOOLEAN" → t.name ∈ basicNames := by
    intro h; rw [h]; decide
  have hsb : t.name = "IA5String" ∨ t.name = "NumericString" → t.name ∈ basicNames := by
    rintro (h | h) <;> rw [h] <;> decide
  have hne : ¬ ((t.name = "INTEGER" ∨ t.name = "REAL") ∧ t.name = "BOOLEAN") := by
    rintro ⟨h | h, h'⟩ <;> rw [h] at h' <;> exact absurd h' (by decide)
  have hns : ¬ ((t.name = "INTEGER" ∨ t.name = "REAL") ∧ (t.name = "IA5String" ∨ t.name = "NumericString")) := by
    rintro ⟨h | h, h' | h'⟩ <;> rw [h] at h' <;> exact absurd h' (by decide)
  have hbs : ¬ (t.name = "BOOLEAN" ∧ (t.name = "IA5String" ∨ t.name = "NumericString")) := by
    rintro ⟨h, h' | h'⟩ <;> rw [h] at h' <;> exact absurd h' (by decide)
  cases h with
  | number k =>
    cases h' with
    | number => exact ⟨rfl, rfl, rfl, rfl⟩
    | bool k' => exact absurd ⟨k, k'⟩ hne
    | str k' => exact absurd ⟨k, hstr k'⟩ hns
    | simple k1 k2 => exact absurd (hnb k) (hb hs' k2 k1.symm)
    | enum k1 k2 => exact absurd (hnb k) (hb hs' k2 k1.symm)
  | bool k =>
    cases h' with
    | number k' => exact absurd ⟨k', k⟩ hne
    | bool => exact ⟨rfl, rfl, rfl, rfl⟩
    | str k' => exact absurd ⟨k, hstr k'⟩ hbs
    | simple k1 k2 => exact absurd (hbb k) (hb hs' k2 k1.symm)
    | enum k1 k2 => exact absurd (hbb k) (hb hs' k2 k1.symm)
  | str k =>
    cases h' with
    | number k' => exact absurd ⟨k', hstr k⟩ hns
    | bool k' => exact absurd ⟨k', hstr k⟩ hbs
    | str k' =>
      rw [k] at k'
      cases k'
      exact ⟨rfl, rfl, rfl, rfl⟩
    | simple k1 k2 => exact absurd (hsb (hstr k)) (hb hs' k2 k1.symm)
    | enum k1 k2 => exact absurd (hsb (hstr k)) (hb hs' k2 k1.symm)
  | simple k1 k2 =>
    cases h' with
    | number k' => exact absurd (hnb k') (hb hs k2 k1.symm)
    | bool k' => exact absurd (hbb k') (hb hs k2 k1.symm)
    | str k' => exact absurd (hsb (hstr k')) (hb hs k2 k1.symm)
    | simple l1 l2 =>
      cases hw.of_name hs'.nodup k2 l2 (k1.symm.trans l1)
      exact ⟨rfl, rfl, rfl, rfl⟩
    | enum l1 l2 => cases hw.of_name hs'.nodup k2 l2 (k1.symm.trans l1)
  | enum k1 k2 =>
    cases h' with
    | number k' => exact absurd (hnb k') (hb hs k2 k1.symm)
    | bool k' => exact absurd (hbb k') (hb hs k2 k1.symm)
    | str k' => exact absurd (hsb (hstr k')) (hb hs k2 k1.symm)
    | simple l1 l2 => cases hw.of_name hs'.nodup k2 l2 (k1.symm.trans l1)
    | enum l1 l2 =>
      cases hw.of_name hs'.nodup k2 l2 (k1.symm.trans l1)
      exact ⟨rfl, rfl, rfl, rfl⟩

theorem foundValue_unique {wc : Comps} {path : List Member} {s s' : Specific} (h : FoundValue wc path s)
    (h' : FoundValue wc path s') : s = s' := by
  cases s with
  | node c => exact absurd rfl (h.1 c)
  | leaf v => exact ((h'.2 v).2 ((h.2 v).1 rfl)).symm
  | empty =>
    cases s' with
    | node c => exact absurd rfl (h'.1 c)
    | leaf v => exact absurd ((h.2 v).2 ((h'.2 v).1 rfl)) Specific.noConfusion
    | empty => rfl

/-- The entries for a leaf that is there before and after. -/
theorem entry_grown {p : Printer} {ds ds' : List Def} (hs : Sized ds) (hs' : Sized ds') (hw : LengthenedDefs ds ds')
    {path : List Member} {e e' : Entry}
    (h : EntryFor p ds (fun path s => Clear ds path → FoundValue .nil path s) path e)
    (h' : EntryFor p ds' (fun path s => Clear ds' path → FoundValue .nil path s) path e') :
    SameItem (readItem p e) (readItem p e') ∧ (Clear ds path → Clear ds' path → readItem p e = readItem p e') := by
  obtain ⟨m, s, c, lo, hi, st, h1, h2, h3, h4, h5⟩ := h
  obtain ⟨m', s', c', lo', hi', st', h1', h2', h3', h4', h5'⟩ := h'
  rw [h1] at h1'
  cases h1'
  obtain ⟨rfl, rfl, rfl, rfl⟩ := shape_grown hs hs' hw (member_grammar hs.grammar h2).2.1 h3 h3'
  constructor
  · unfold makeEntry at h4 h4'
    cases c with
    | none => cases h4
    | some c =>
      simp only [bind_ok, Except.ok.injEq] at h4 h4'
      obtain ⟨x, k1, y, k2, z, k3, rfl⟩ := h4
      obtain ⟨x', k1', y', k2', z', k3', rfl⟩ := h4'
      rw [k1] at k1'
      cases k1'
      rw [k2] at k2'
      cases k2'
      exact ⟨rfl, rfl, rfl, rfl, rfl, rfl, rfl⟩
  · intro q q'
    cases foundValue_unique (h5 q) (h5' q')
    rw [h4] at h4'
    cases h4'
    rfl

theorem all2_sublist {α β} {R : α → β → Prop} {l l' : List α} {r' : List β} (hl : l.Sublist l') (h : All2 R l' r') :
    ∃ r, r.Sublist r' ∧ All2 R l r := by
  induction hl generalizing r' with
  | slnil => exact ⟨[], List.nil_sublist _, .nil⟩
  | cons a _ ih =>
    cases h with
    | cons h1 h2 =>
      obtain ⟨r, k1, k2⟩ := ih h2
      exact ⟨r, k1.cons _, k2⟩
  | cons_cons a _ ih =>
    cases h with
    | cons h1 h2 =>
      obtain ⟨r, k1, k2⟩ := ih h2
      exact ⟨_, k1.cons_cons _, .cons h1 k2⟩

theorem all2_of_maps {α β γ} {R : β → γ → Prop} {f : α → β} {g : α → γ} (l : List α) (h : ∀ a ∈ l, R (f a) (g a)) :
    All2 R (l.map f) (l.map g) := by
  induction l with
  | nil => exact .nil
  | cons a l ih => exact .cons (h a (List.mem_cons_self ..)) (ih fun x hx => h x (List.mem_cons_of_mem _ hx))

theorem reaches_trans {ds : List Def} {d e f : Def} (h : Reaches ds d e) (h' : Reaches ds e f) : Reaches ds d f := by
  induction h' with
  | refl => exact h
  | step _ h1 h2 h3 ih => exact .step ih h1 h2 h3

theorem leaves_append {ds : List Def} {ms extra : List Member} : ∀ {ls}, Leaves ds (ms ++ extra) ls →
    ∃ l1 l2, ls = l1 ++ l2 ∧ Leaves ds ms l1 ∧ Leaves ds extra l2 := by
  induction ms with
  | nil => exact fun h => ⟨[], _, rfl, .nil, h⟩
  | cons m ms ih =>
    intro ls h
    cases h with
    | leaf h1 h2 =>
      obtain ⟨l1, l2, rfl, k1, k2⟩ := ih h2
      exact ⟨_, l2, rfl, .leaf h1 k1, k2⟩
    | seq h1 h2 h3 h4 =>
      obtain ⟨l1, l2, rfl, k1, k2⟩ := ih h4
      exact ⟨_, l2, (List.append_assoc ..).symm, .seq h1 h2 h3 k1, k2⟩

theorem leaves_same {ds ds' : List Def} (hn' : (ds'.map Def.name).Nodup)
    (hw : LengthenedDefs ds ds') {ms : List Member} {ls : List (List Member)} (h : Leaves ds ms ls) :
    ∀ {ls'}, (∀ m ∈ ms, ∃ d ∈ ds, m ∈ d.members) → InnerSame ds ds' ms → Leaves ds' ms ls' → ls = ls' := by
  induction h with
  | nil => intro ls' _ _ h'; cases h'; rfl
  | leaf hno _ ih =>
    intro ls' hin hsame h'
    cases h' with
    | leaf _ h' =>
      rw [ih (fun m hm => hin m (List.mem_cons_of_mem _ hm)) (fun m hm => hsame m (List.mem_cons_of_mem _ hm)) h']
    | seq hu hs' _ _ =>
      exfalso
      obtain ⟨c, hd'⟩ := hs'
      obtain ⟨d, hd, hmd⟩ := hin _ (List.mem_cons_self ..)
      rcases hw.other _ hd' with ⟨x, hx, hwx⟩ | hnot
      · cases hwx with
        | same => exact hno _ _ hu ⟨_, hx⟩
        | seq => exact hno _ _ hu ⟨_, hx⟩
      · exact hnot d hd _ hmd hu
  | seq hu hs _ _ ih1 ih2 =>
    intro ls' hin hsame h'
    obtain ⟨c, hd⟩ := hs
    have hd' := hsame _ (List.mem_cons_self ..) _ hd hu _ .refl
    cases h' with
    | leaf hno _ => exact absurd ⟨_, hd'⟩ (hno _ _ hu)
    | seq hu' hs' hl1 hl2 =>
      obtain ⟨c2, hd2⟩ := hs'
      have hnm := (usesName_iff _ _).1 hu'
      rw [(usesName_iff _ _).1 hu] at hnm
      cases mem_unique_of_nodup_map hn' hd' hd2 hnm
      rw [ih2 (fun m hm => hin m (List.mem_cons_of_mem _ hm)) (fun m hm => hsame m (List.mem_cons_of_mem _ hm)) hl2,
        ih1 (fun m hm => ⟨_, hd, hm⟩) (fun m hm f hf hfu g hg => hsame _ (List.mem_cons_self ..) _ hd hu g
          (reaches_trans (.step .refl hm hf hfu) hg)) hl1]

/-- Three lists related by the first. -/
theorem all2_triple {α β γ} {R : α → β → Prop} {S : α → γ → Prop} {l : List α} {r : List β} {q : List γ} (h : All2 R l r)
    (h' : All2 S l q) : ∃ xs : List (α × β × γ), xs.map (·.1) = l ∧ xs.map (·.2.1) = r ∧ xs.map (·.2.2) = q ∧
      ∀ x ∈ xs, R x.1 x.2.1 ∧ S x.1 x.2.2 := by
  induction h generalizing q with
  | nil => cases h'; exact ⟨[], rfl, rfl, rfl, fun x hx => by cases hx⟩
  | cons h1 _ ih =>
    cases h' with
    | cons h1' h2' =>
      obtain ⟨xs, rfl, rfl, rfl, k⟩ := ih h2'
      refine ⟨(_, _, _) :: xs, rfl, rfl, rfl, fun x hx => ?_⟩
      rcases List.mem_cons.1 hx with rfl | hx
      · exact ⟨h1, h1'⟩
      · exact k x hx

theorem keeps_items {p : Printer} {ds ds' : List Def} (hs : Sized ds) (hs' : Sized ds') (hw : LengthenedDefs ds ds')
    {ms extra : List Member} {ls ls' : List (List Member)} {es es' : List Entry} (hin : ∀ m ∈ ms, ∃ d ∈ ds, m ∈ d.members)
    (h : Leaves ds ms ls) (h' : Leaves ds' (ms ++ extra) ls')
    (he : All2 (EntryFor p ds (fun path s => Clear ds path → FoundValue .nil path s)) ls es)
    (he' : All2 (EntryFor p ds' (fun path s => Clear ds' path → FoundValue .nil path s)) ls' es') :
    KeepsItems ds ds' ms (es.map (readItem p)) (es'.map (readItem p)) := by
  have key : ∃ l, l.Sublist es' ∧ (InnerSame ds ds' ms → l <+: es') ∧
      All2 (EntryFor p ds' (fun path s => Clear ds' path → FoundValue .nil path s)) ls l := by
    by_cases hsame : InnerSame ds ds' ms
    · obtain ⟨l1, l2, rfl, k1, _⟩ := leaves_append h'
      cases leaves_same hs'.nodup hw h hin hsame k1
      obtain ⟨r1, r2, rfl, q1, _⟩ := all2_append_left he'
      exact ⟨r1, List.sublist_append_left .., fun _ => List.prefix_append .., q1⟩
    · obtain ⟨l, k1, k2⟩ := all2_sublist (leaves_grown hs'.nodup hw h hin h') he'
      exact ⟨l, k1, fun h => absurd h hsame, k2⟩
  obtain ⟨l, k1, k2, k3⟩ := key
  obtain ⟨xs, rfl, rfl, rfl, k4⟩ := all2_triple he k3
  refine ⟨xs.map fun x => (x.1, readItem p x.2.1, readItem p x.2.2), ?_, ?_, ?_, ?_, ?_⟩
  · rw [List.map_map]; exact h
  · rw [List.map_map, List.map_map]; rfl
  · have := k1.map (readItem p)
    rw [List.map_map] at this ⊢
    exact this
  · intro q
    have := (k2 q).map (readItem p)
    rw [List.map_map] at this ⊢
    exact this
  · intro y hy
    obtain ⟨x, hx, rfl⟩ := List.mem_map.1 hy
    exact entry_grown hs hs' hw (k4 x hx).1 (k4 x hx).2

/-! ### Binary files -/

theorem lastVal_append {α : Type} (l r : List (String × α)) (n : String) :
    lastVal (l ++ r) n = (lastVal r n).or (lastVal l n) := by
  induction l with
  | nil => simp [lastVal]
  | cons x l ih =>
    obtain ⟨k, v⟩ := x
    simp only [List.cons_append, lastVal, ih]
    cases lastVal r n with
    | some a => rfl
    | none => rfl

theorem lastVal_none {α : Type} {l : List (String × α)} {n : String} (h : ∀ x ∈ l, x.1 ≠ n) : lastVal l n = none := by
  cases hl : lastVal l n with
  | none => rfl
  | some v => exact absurd rfl (h _ (lastVal_mem hl))

theorem lastDef_absent {ds : List Def} {n : String} (h : ∀ d ∈ ds, d.name ≠ n) : lastDef ds n = none := by
  cases hl : lastDef ds n with
  | none => rfl
  | some d => exact absurd (lastDef_some hl).2 (h d (lastDef_some hl).1)

/-- The sizes of members that are packed. -/
theorem size_grown {ds ds' : List Def} (hs : Sized ds) (hs' : Sized ds') (hw : LengthenedDefs ds ds')
    (hstd : ∀ n c ms, Def.seq n c ms ∈ ds → n ∉ standardNames) {d : Def} (hd : d ∈ ds) {m : Member} (hm : m ∈ d.members)
    {ct : CType} (hc : m.type.cType = some ct) {fuel fuel' : Nat} {v v' : Int} (h : sizeMember ds fuel m = .ok v)
    (h' : sizeMember ds' fuel' m = .ok v') : v = v' := by
  unfold sizeMember at h h'
  cases ht : m.type with
  | str n len => rw [ht] at h h'; simp only [resolveType] at h h'; rw [h] at h'; exact Except.ok.inj h'
  | arr e len => rw [ht] at h h'; simp only [resolveType] at h h'; rw [h] at h'; exact Except.ok.inj h'
  | plain n lo hi =>
    rw [ht] at h h' hc
    simp only [resolveType] at h h'
    cases hl : lastDef ds n with
    | none =>
      have hno : lastDef ds' n = none := by
        refine lastDef_absent fun x hx hxn => ?_
        rcases hw.other x hx with ⟨y, hy, hyx⟩ | hnot
        · have := lastDef_of_mem hs.nodup hy
          rw [hyx.name, hxn, hl] at this
          cases this
        · exact hnot d hd m hm (by rw [ht, hxn]; exact .plain)
      rw [hl] at h
      rw [hno] at h'
      simp only at h h'
      rw [h] at h'
      exact Except.ok.inj h'
    | some x =>
      obtain ⟨hx, rfl⟩ := lastDef_some hl
      obtain ⟨x', hx', hxx⟩ := hw.there x hx
      have hl' := lastDef_of_mem hs'.nodup hx'
      rw [← hxx.name] at hl'
      rw [hl] at h
      rw [hl'] at h'
      simp only at h h'
      cases fuel with
      | zero => cases h
      | succ fuel =>
        cases fuel' with
        | zero => cases h'
        | succ fuel' =>
          cases x with
          | seq n c ms =>
            have := alias_ctype (hstd n c ms hx) (hs.grammar _ hx).1 lo hi
            simp only [Def.name] at hc
            rw [this] at hc
            cases hc
          | choice n c ms => cases h
          | enum n c its =>
            cases hxx
            simp only [sizeDef] at h h'
            rw [h] at h'
            exact Except.ok.inj h'
          | simple n c t =>
            cases hxx
            simp only [sizeDef] at h h'
            rw [h] at h'
            exact Except.ok.inj h'

/-- The specifications agree in what matters for packing. -/
def SameSpec (s s' : BinSpec) : Prop := s.ctype = s'.ctype ∧ s.typeName = s'.typeName ∧ (s.ctype ≠ none → s.bits = s'.bits)

theorem leafBytes_same {s s' : BinSpec} (h : SameSpec s s') (e : Option Endian) (v : Leaf) :
    leafBytes e s v = leafBytes e s' v := by
  unfold leafBytes
  rw [← h.1]
  cases hc : s.ctype with
  | none => rfl
  | some c =>
    simp only
    rw [h.2.2 (by rw [hc]; exact Option.some_ne_none c)]

theorem compBytes_same {defs defs' : List (String × List (String × BinSpec))}
    (h : ∀ n s s', lastVal defs n = some s → lastVal defs' n = some s' → ∀ k sp, lastVal s k = some sp →
      ∃ sp', lastVal s' k = some sp' ∧ SameSpec sp sp') (e : Option Endian)
    (c : Comps) : ∀ tn r r', compBytes defs e tn c = .ok r → compBytes defs' e tn c = .ok r' → r = r' := by
  have hb : ∀ tn k s s', binLookup defs tn k = .ok s → binLookup defs' tn k = .ok s' → SameSpec s s' := by
    intro tn k s s' h1 h2
    unfold binLookup at h1 h2
    split at h1
    · cases h1
    rename_i x hx
    split at h2
    · cases h2
    rename_i x' hx'
    split at h1
    · cases h1
    rename_i y hy
    obtain ⟨y', k1, k2⟩ := h _ _ _ hx hx' _ _ hy
    rw [k1] at h2
    cases h1
    cases h2
    exact k2
  induction c with
  | nil => intro tn r r' h1 h2; cases h1; cases h2; rfl
  | leaf k v rest ih =>
    intro tn r r' h1 h2
    simp only [compBytes, bind_ok] at h1 h2
    obtain ⟨s, p1, x, p2, y, p3, p4⟩ := h1
    obtain ⟨s', q1, x', q2, y', q3, q4⟩ := h2
    rw [← leafBytes_same (hb _ _ _ _ p1 q1), p2] at q2
    cases q2
    cases ih _ _ _ p3 q3
    rw [p4] at q4
    cases q4
    rfl
  | node k c rest ih1 ih2 =>
    intro tn r r' h1 h2
    simp only [compBytes, bind_ok] at h1 h2
    obtain ⟨s, p1, x, p2, y, p3, p4⟩ := h1
    obtain ⟨s', q1, x', q2, y', q3, q4⟩ := h2
    rw [← (hb _ _ _ _ p1 q1).2.1] at q2
    cases ih1 _ _ _ p2 q2
    cases ih2 _ _ _ p3 q3
    rw [p4] at q4
    cases q4
    rfl

theorem binMembers_append {ds : List Def} {fuel : Nat} {extra : List Member} : ∀ {ms : List Member} {r},
    binMembers ds fuel (ms ++ extra) = .ok r →
    ∃ r1 r2, r = r1 ++ r2 ∧ binMembers ds fuel ms = .ok r1 ∧ binMembers ds fuel extra = .ok r2 := by
  intro ms
  induction ms with
  | nil => exact fun h => ⟨[], _, rfl, rfl, h⟩
  | cons m ms ih =>
    intro r h
    simp only [List.cons_append, binMembers] at h ⊢
    cases hc : m.comps with
    | some c => rw [hc] at h; exact ih h
    | none =>
      rw [hc] at h
      simp only [bind_ok] at h ⊢
      obtain ⟨s, h1, r0, h2, h3⟩ := h
      cases h3
      obtain ⟨r1, r2, rfl, k1, k2⟩ := ih h2
      exact ⟨_, r2, rfl, ⟨s, h1, r1, k1, rfl⟩, k2⟩

theorem binMembers_same {ds ds' : List Def} (hs : Sized ds) (hs' : Sized ds') (hw : LengthenedDefs ds ds')
    (hstd : ∀ n c ms, Def.seq n c ms ∈ ds → n ∉ standardNames) {d : Def} (hd : d ∈ ds) {fuel fuel' : Nat} :
    ∀ {ms : List Member} {r r'}, (∀ m ∈ ms, m ∈ d.members) → binMembers ds fuel ms = .ok r →
      binMembers ds' fuel' ms = .ok r' → All2 (fun x x' => x'.1 = x.1 ∧ SameSpec x.2 x'.2) r r' := by
  intro ms
  induction ms with
  | nil => intro r r' _ h h'; cases h; cases h'; exact .nil
  | cons m ms ih =>
    intro r r' hin h h'
    simp only [binMembers] at h h'
    cases hc : m.comps with
    | some c => rw [hc] at h h'; exact ih (fun m hm => hin m (List.mem_cons_of_mem _ hm)) h h'
    | none =>
      rw [hc] at h h'
      simp only [bind_ok] at h h'
      obtain ⟨s, h1, r0, h2, h3⟩ := h
      obtain ⟨s', h1', r0', h2', h3'⟩ := h'
      cases h3
      cases h3'
      refine .cons ⟨rfl, rfl, rfl, fun hne => ?_⟩ (ih (fun m hm => hin m (List.mem_cons_of_mem _ hm)) h2 h2')
      obtain ⟨ct, hct⟩ := Option.ne_none_iff_exists'.1 hne
      exact size_grown hs hs' hw hstd hd (hin m (List.mem_cons_self ..)) hct h1 h1'

theorem clauseBytes_grown {b b' : Bundle} (hs : Sized b.defs) (hs' : Sized b'.defs) (hw : LengthenedDefs b.defs b'.defs)
    (hstd : ∀ n c ms, Def.seq n c ms ∈ b.defs → n ∉ standardNames) (hf : FreshKeys b.defs b'.defs) {bm bm' : BMod}
    (hbm : bm ∈ b.mods) (hbm' : bm' ∈ b'.mods) {fuel fuel' : Nat} {e : Option Endian} {x : Member × Comps}
    {bss bss' : List (List UInt8)} (h : ClauseBytes b.defs fuel e bm.mod x bss)
    (h' : ClauseBytes b'.defs fuel' e bm'.mod x bss') : bss = bss' := by
  obtain ⟨defs, p1, p2⟩ := h
  obtain ⟨defs', q1, q2⟩ := h'
  refine compBytes_same ?_ e _ _ _ _ p2 q2
  intro n s s' hn hn' k sp hk
  obtain ⟨c, ms, r1, r2⟩ := binDefs_seq p1 (lastVal_mem hn)
  obtain ⟨c', ms', r3, r4⟩ := binDefs_seq q1 (lastVal_mem hn')
  have hd := mods_defs hbm _ r1
  have hd' := mods_defs hbm' _ r3
  have key : ∃ extra, ms' = ms ++ extra := by
    have := hw.of_name hs'.nodup hd hd' rfl
    cases this with
    | same => exact ⟨[], (List.append_nil _).symm⟩
    | seq => exact ⟨_, rfl⟩
  obtain ⟨extra, rfl⟩ := key
  obtain ⟨s1, s2, rfl, u1, u2⟩ := binMembers_append r4
  have hall := binMembers_same hs hs' hw hstd hd (fun _ h => h) r2 u1
  rcases lastVal_alike (fun _ _ h => h.1) hall k with ⟨h1, _⟩ | ⟨v, v', h1, h2, h3⟩
  · rw [hk] at h1; cases h1
  rw [hk] at h1
  cases h1
  refine ⟨v', ?_, h3.2⟩
  obtain ⟨m, hm, _, hmk, _⟩ := binMembers_mem r2 (lastVal_mem hk)
  rw [lastVal_append, lastVal_none, h2]
  · rfl
  · intro y hy
    obtain ⟨m', hm', _, hmk', _⟩ := binMembers_mem u2 hy
    rw [hmk']
    have := hf n c c' ms extra hd hd' m hm m' hm'
    rw [← hmk] at this
    exact this

end Apg
