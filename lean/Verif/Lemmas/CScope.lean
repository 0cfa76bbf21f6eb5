import Verif.Spec.CScope
import Verif.Lemmas.CHeader

/-!
# Lemmas about scopes
-/

namespace Apg
open Spec

/-- The names of type definitions, enumerators and variables of a definition. -/
def defNames : Def → List Text
  | .seq n _ _ => [ident n]
  | .enum n _ its => ident n :: its.map fun i => ident i.key
  | .choice n _ _ => [lowerFirst (ident n)]
  | .simple .. => []

theorem declOf_names {T : TypeMap} {d : Def} {x : CDecl} (h : DeclOf T d x) : x.names = defNames d := by
  cases d with
  | seq n c ms => obtain ⟨fs, rfl, _⟩ := h; rfl
  | enum n c its =>
    cases h
    simp [CDecl.names, defNames]
  | choice n c ms => cases h; rfl
  | simple => cases h

theorem declOf_tags {T : TypeMap} {d : Def} {x : CDecl} (h : DeclOf T d x) :
    ∀ t ∈ x.tags, t = ident d.name := by
  cases d with
  | seq n c ms => obtain ⟨fs, rfl, _⟩ := h; simp [CDecl.tags]
  | enum n c its => cases h; simp [CDecl.tags]
  | choice n c ms => cases h; simp [CDecl.tags, Def.name]
  | simple => cases h

theorem declOf_fields {T : TypeMap} {d : Def} {x : CDecl} (h : DeclOf T d x) :
    x.fields.map (·.name) = d.members.map fun k => ident k.key := by
  cases d with
  | seq n c ms =>
    obtain ⟨fs, rfl, hf⟩ := h
    simp only [CDecl.fields, Def.members]
    induction hf with
    | nil => rfl
    | cons k _ ih => simp only [List.map_cons, k.1, ih]
  | enum n c its => cases h; rfl
  | choice n c ms => cases h; simp [CDecl.fields, Def.members]
  | simple => cases h

theorem declOf_not_object {T : TypeMap} {d : Def} {x : CDecl} (h : DeclOf T d x) (t n : Text) :
    x ≠ .object t n := by
  cases d with
  | seq n c ms => obtain ⟨fs, rfl, _⟩ := h; simp
  | enum n c its => cases h; simp
  | choice n c ms => cases h; simp
  | simple => cases h

theorem All2.pairwise {α β} {P : α → β → Prop} {Q : α → α → Prop} {R : β → β → Prop} {l : List α} {l' : List β}
    (h : All2 P l l') (hQ : l.Pairwise Q) (hi : ∀ a ∈ l, ∀ b ∈ l, ∀ x y, P a x → P b y → Q a b → R x y) : l'.Pairwise R := by
  induction h with
  | nil => exact .nil
  | @cons a x l l' hax hl ih =>
    obtain ⟨h1, h2⟩ := List.pairwise_cons.1 hQ
    refine List.pairwise_cons.2 ⟨?_, ih h2 fun a ha b hb => hi a (by simp [ha]) b (by simp [hb])⟩
    intro y hy
    obtain ⟨b, hb, hby⟩ := all2_mem_right hl hy
    exact hi a (by simp) b (by simp [hb]) x y hax hby (h1 b hb)

theorem pairwise_ne {α} {R : α → α → Prop} (hs : ∀ a b, R a b → R b a) {l : List α} (h : l.Pairwise R) {a b : α}
    (ha : a ∈ l) (hb : b ∈ l) (hne : a ≠ b) : R a b := by
  induction l with
  | nil => cases ha
  | cons x l ih =>
    obtain ⟨h1, h2⟩ := List.pairwise_cons.1 h
    rcases List.mem_cons.1 ha with rfl | ha'
    · rcases List.mem_cons.1 hb with rfl | hb'
      · exact absurd rfl hne
      · exact h1 b hb'
    · rcases List.mem_cons.1 hb with rfl | hb'
      · exact hs _ _ (h1 a ha')
      · exact ih h2 ha' hb'

theorem Spec.Apart.symm {a b : List Text} (h : Apart a b) : Apart b a := fun x hx hx' => h x hx' hx

theorem Spec.Coexist.symm {d d' : CDecl} (h : Coexist d d') : Coexist d' d := by
  refine ⟨h.1.symm, ?_⟩
  rcases h.2 with h | ⟨t, n, rfl, rfl⟩
  · exact .inl h.symm
  · exact .inr ⟨t, n, rfl, rfl⟩

theorem noClash_perm {l l' : List CDecl} (h : l.Perm l') : NoClash l ↔ NoClash l' := by
  unfold NoClash
  rw [h.pairwise_iff fun h => h.symm]
  exact and_congr_right fun _ => ⟨fun k d hd => k d (h.mem_iff.2 hd), fun k d hd => k d (h.mem_iff.1 hd)⟩

theorem distinctIdents_perm {cmd : Command} {l l' : List Def} (h : l.Perm l') :
    DistinctIdents cmd l ↔ DistinctIdents cmd l' := by
  unfold DistinctIdents
  have hf := h.flatMap_right enumerators
  rw [hf.nodup_iff]
  simp only [h.mem_iff, hf.mem_iff]

/-! ### Letters -/

theorem ident_capital_head {s : String} (h : isNameCapital s = true) :
    ∃ c r, ident s = c :: r ∧ reUpper c = true := by
  obtain ⟨c, r, h1, h2, _⟩ := ident_capital_chars h
  exact ⟨c, r, h1, h2⟩

theorem ident_lower_head {s : String} (h : isNameLower s = true) :
    ∃ c r, ident s = c :: r ∧ reLower c = true := by
  unfold isNameLower at h
  split at h
  · rename_i c cs hs
    simp only [Bool.and_eq_true] at h
    refine ⟨c, cs.map fun c => if c = '-' then '_' else c, ?_, h.1⟩
    unfold ident
    rw [hs, List.map_cons, if_neg]
    rintro rfl
    exact absurd h.1 (by decide)
  · cases h

theorem upper_lower {c : Char} (h : reUpper c = true) : reLower c = false := by
  simp only [reUpper, reLower, Bool.and_eq_true, decide_eq_true_eq, Bool.and_eq_false_iff, decide_eq_false_iff_not] at *
  left
  intro h'
  exact absurd (Char.le_trans h' h.2) (by decide)

theorem toLower_upper {c : Char} (h : reUpper c = true) : reLower c.toLower = true := by
  have hall : ∀ n < 128, reUpper (Char.ofNat n) = true → reLower (Char.ofNat n).toLower = true := by decide +kernel
  have hc : c.toNat < 128 := by
    simp only [reUpper, Bool.and_eq_true, decide_eq_true_eq] at h
    have : c.toNat ≤ 'Z'.toNat := h.2
    have h90 : 'Z'.toNat = 90 := by decide
    omega
  have := hall c.toNat hc
  rw [Char.ofNat_toNat] at this
  exact this h

theorem lowerFirst_head {s : String} (h : isNameCapital s = true) :
    ∃ c r, lowerFirst (ident s) = c :: r ∧ reLower c = true := by
  obtain ⟨c, r, h1, h2⟩ := ident_capital_head h
  exact ⟨c.toLower, r, by rw [h1]; rfl, toLower_upper h2⟩

theorem head_differ {a b : Text} (ha : ∃ c r, a = c :: r ∧ reUpper c = true) (hb : ∃ c r, b = c :: r ∧ reLower c = true) :
    a ≠ b := by
  rintro rfl
  obtain ⟨c, r, rfl, h1⟩ := ha
  obtain ⟨c', r', h, h2⟩ := hb
  cases h
  rw [upper_lower h1] at h2
  cases h2

theorem lowerFirst_ident {s : String} (h : isNameCapital s = true) :
    lowerFirst (ident s) = (lowerFirst s.toList).map fun c => if c = '-' then '_' else c := by
  unfold isNameCapital at h
  split at h
  · rename_i c cs hs
    simp only [Bool.and_eq_true] at h
    have h1 : c ≠ '-' := by rintro rfl; exact absurd h.1 (by decide)
    have h2 : c.toLower ≠ '-' := by
      intro h3
      have := toLower_upper h.1
      rw [h3] at this
      exact absurd this (by decide)
    simp only [ident, hs, List.map_cons, lowerFirst, if_neg h1, if_neg h2]
  · cases h

theorem item_object {k s : String} (hk : isNameLower k = true) (hs : isNameCapital s = true) :
    ident k = lowerFirst (ident s) ↔ k.toList = lowerFirst s.toList := by
  rw [lowerFirst_ident hs]
  constructor
  · intro h
    refine map_dash_inj (underscore_not_mem (Or.inl hk)) ?_ h
    have hu := underscore_not_mem (Or.inr hs)
    cases hl : s.toList with
    | nil => simp [lowerFirst]
    | cons c r =>
      rw [hl] at hu
      simp only [lowerFirst, List.mem_cons, not_or] at hu ⊢
      refine ⟨?_, hu.2⟩
      intro h3
      have hc : reUpper c = true := by
        unfold isNameCapital at hs
        rw [hl] at hs
        simp only [Bool.and_eq_true] at hs
        exact hs.1
      have := toLower_upper hc
      rw [← h3] at this
      exact absurd this (by decide)
  · intro h
    unfold ident
    rw [h]

/-! ### Definitions -/

theorem grammarDef_name {d : Def} (h : GrammarDef d) : isNameCapital d.name = true := by
  cases d <;> exact h.1

theorem enumerators_lower {d : Def} (h : GrammarDef d) : ∀ k ∈ enumerators d, isNameLower k = true := by
  cases d with
  | enum n c its =>
    intro k hk
    obtain ⟨i, hi, rfl⟩ := List.mem_map.1 hk
    exact h.2.2 i hi
  | _ => simp [enumerators]

/-- The definition is a CHOICE. -/
def IsChoice : Def → Prop
  | .choice .. => True
  | _ => False

theorem mem_defNames {d : Def} {x : Text} (h : x ∈ defNames d) :
    (x = ident d.name ∧ ¬ IsChoice d) ∨ (∃ k ∈ enumerators d, x = ident k) ∨ (IsChoice d ∧ x = lowerFirst (ident d.name)) := by
  cases d with
  | seq n c ms =>
    simp only [defNames, List.mem_singleton] at h
    exact .inl ⟨h, fun h => h⟩
  | enum n c its =>
    simp only [defNames, List.mem_cons, List.mem_map] at h
    rcases h with h | ⟨i, hi, rfl⟩
    · exact .inl ⟨h, fun h => h⟩
    · exact .inr (.inl ⟨i.key, List.mem_map.2 ⟨i, hi, rfl⟩, rfl⟩)
  | choice n c ms =>
    simp only [defNames, List.mem_singleton] at h
    exact .inr (.inr ⟨trivial, h⟩)
  | simple => cases h

theorem enumerator_mem {d : Def} {k : String} (h : k ∈ enumerators d) : ident k ∈ defNames d := by
  cases d with
  | enum n c its =>
    obtain ⟨i, hi, rfl⟩ := List.mem_map.1 h
    simp only [defNames, List.mem_cons, List.mem_map]
    exact .inr ⟨i, hi, rfl⟩
  | _ => cases h

theorem choice_mem {d : Def} (h : IsChoice d) : lowerFirst (ident d.name) ∈ defNames d := by
  cases d with
  | choice n c ms => simp [defNames, Def.name]
  | _ => cases h

/-- Which names of two definitions differ. -/
theorem apart_iff {d d' : Def} (hg : GrammarDef d) (hg' : GrammarDef d') (hne : d.name ≠ d'.name) :
    Apart (defNames d) (defNames d') ↔ (∀ k ∈ enumerators d, ∀ k' ∈ enumerators d', k ≠ k') ∧
      (IsChoice d → ∀ k ∈ enumerators d', k.toList ≠ lowerFirst d.name.toList) ∧
      (IsChoice d' → ∀ k ∈ enumerators d, k.toList ≠ lowerFirst d'.name.toList) := by
  have hn := grammarDef_name hg
  have hn' := grammarDef_name hg'
  constructor
  · intro h
    refine ⟨?_, ?_, ?_⟩
    · rintro k hk _ hk' rfl
      exact h _ (enumerator_mem hk) (enumerator_mem hk')
    · intro hc k hk he
      refine h _ (choice_mem hc) ?_
      rw [← (item_object (enumerators_lower hg' k hk) hn).2 he]
      exact enumerator_mem hk
    · intro hc k hk he
      refine h _ (enumerator_mem hk) ?_
      rw [(item_object (enumerators_lower hg k hk) hn').2 he]
      exact choice_mem hc
  · rintro ⟨h1, h2, h3⟩ x hx hx'
    rcases mem_defNames hx with ⟨rfl, hc⟩ | ⟨k, hk, rfl⟩ | ⟨hc, rfl⟩
    · rcases mem_defNames hx' with ⟨h, _⟩ | ⟨k, hk, h⟩ | ⟨_, h⟩
      · exact hne (ident_inj (.inr hn) (.inr hn') h)
      · exact head_differ (ident_capital_head hn) (ident_lower_head (enumerators_lower hg' k hk)) h
      · exact head_differ (ident_capital_head hn) (lowerFirst_head hn') h
    · rcases mem_defNames hx' with ⟨h, _⟩ | ⟨k', hk', h⟩ | ⟨hc', h⟩
      · exact head_differ (ident_capital_head hn') (ident_lower_head (enumerators_lower hg k hk)) h.symm
      · exact h1 k hk k' hk' (ident_inj (.inl (enumerators_lower hg k hk)) (.inl (enumerators_lower hg' k' hk')) h)
      · exact h3 hc' k hk ((item_object (enumerators_lower hg k hk) hn').1 h)
    · rcases mem_defNames hx' with ⟨h, _⟩ | ⟨k, hk, h⟩ | ⟨_, h⟩
      · exact head_differ (ident_capital_head hn') (lowerFirst_head hn) h.symm
      · exact h2 hc k hk ((item_object (enumerators_lower hg' k hk) hn).1 h.symm)
      · exact hne (lowerize_ident_inj hn hn' h)

theorem nodup_map_inj_iff {α β} {f : α → β} {l : List α} (h : ∀ a ∈ l, ∀ b ∈ l, f a = f b → a = b) :
    (l.map f).Nodup ↔ l.Nodup := by
  induction l with
  | nil => simp
  | cons x l ih =>
    rw [List.map_cons, List.nodup_cons, List.nodup_cons, ih fun a ha b hb => h a (by simp [ha]) b (by simp [hb])]
    refine and_congr_left fun _ => not_congr ⟨?_, fun hm => List.mem_map.2 ⟨x, hm, rfl⟩⟩
    intro hm
    obtain ⟨y, hy, he⟩ := List.mem_map.1 hm
    rwa [← h y (by simp [hy]) x (by simp) he]

theorem defNames_nodup {d : Def} (hg : GrammarDef d) : (defNames d).Nodup ↔ (enumerators d).Nodup := by
  cases d with
  | enum n c its =>
    simp only [defNames, enumerators]
    rw [List.nodup_cons, ← nodup_map_inj_iff (f := ident) (l := its.map (·.key)), List.map_map]
    · refine ⟨fun h => h.2, fun h => ⟨?_, h⟩⟩
      intro hm
      obtain ⟨i, hi, he⟩ := List.mem_map.1 hm
      exact head_differ (ident_capital_head hg.1) (ident_lower_head (hg.2.2 i hi)) he.symm
    · intro a ha b hb he
      obtain ⟨i, hi, rfl⟩ := List.mem_map.1 ha
      obtain ⟨j, hj, rfl⟩ := List.mem_map.1 hb
      exact ident_inj (.inl (hg.2.2 i hi)) (.inl (hg.2.2 j hj)) he
  | _ => simp [defNames, enumerators]

theorem memberNames_nodup {d : Def} (hg : GrammarDef d) :
    (d.members.map fun k => ident k.key).Nodup ↔ DistinctKeys d := by
  unfold DistinctKeys
  have hk : ∀ k ∈ d.members, isNameLower k.key = true := by
    cases d with
    | seq n c ms => exact fun k hk => (hg.2.2 k hk).1
    | choice n c ms => exact fun k hk => (hg.2.2 k hk).1
    | _ => intro k hk; cases hk
  rw [← nodup_map_inj_iff (f := ident) (l := d.members.map (·.key)), List.map_map]
  · rfl
  · intro a ha b hb he
    obtain ⟨i, hi, rfl⟩ := List.mem_map.1 ha
    obtain ⟨j, hj, rfl⟩ := List.mem_map.1 hb
    exact ident_inj (.inl (hk i hi)) (.inl (hk j hj)) he

/-! ### Declarations of definitions -/

/-- The declaration comes from the definition. -/
def Declared (d : Def) (x : CDecl) : Prop := ∃ T, DeclOf T d x

theorem declared_coexist {d d' : Def} {x y : CDecl} (hx : Declared d x) (hy : Declared d' y) (hg : GrammarDef d)
    (hg' : GrammarDef d') (hne : d.name ≠ d'.name) : Coexist x y ↔ Apart (defNames d) (defNames d') := by
  obtain ⟨T, hx⟩ := hx
  obtain ⟨T', hy⟩ := hy
  unfold Coexist
  rw [declOf_names hx, declOf_names hy]
  constructor
  · rintro ⟨_, h | ⟨t, n, h, _⟩⟩
    · exact h
    · exact absurd h (declOf_not_object hx t n)
  · intro h
    refine ⟨?_, .inl h⟩
    intro t ht ht'
    have h1 := declOf_tags hx t ht
    have h2 := declOf_tags hy t ht'
    exact hne (ident_inj (.inr (grammarDef_name hg)) (.inr (grammarDef_name hg')) (h1.symm.trans h2))

/-- What two definitions need so that their names differ. -/
def Differ (d d' : Def) : Prop :=
  (∀ k ∈ enumerators d, ∀ k' ∈ enumerators d', k ≠ k') ∧
  (IsChoice d → ∀ k ∈ enumerators d', k.toList ≠ lowerFirst d.name.toList) ∧
  (IsChoice d' → ∀ k ∈ enumerators d, k.toList ≠ lowerFirst d'.name.toList)

theorem Differ.symm {d d' : Def} (h : Differ d d') : Differ d' d :=
  ⟨fun k hk k' hk' e => h.1 k' hk' k hk e.symm, h.2.2, h.2.1⟩

theorem pairwise_and {α} {R S : α → α → Prop} {l : List α} (h1 : l.Pairwise R) (h2 : l.Pairwise S) :
    l.Pairwise fun a b => R a b ∧ S a b := by
  induction l with
  | nil => exact .nil
  | cons x l ih =>
    rw [List.pairwise_cons] at *
    exact ⟨fun a ha => ⟨h1.1 a ha, h2.1 a ha⟩, ih h1.2 h2.2⟩

theorem decls_pairwise {L : List Def} {D : List CDecl} (hD : All2 Declared L D) (hg : ∀ d ∈ L, GrammarDef d)
    (hn : (L.map Def.name).Nodup) : D.Pairwise Coexist ↔ L.Pairwise Differ := by
  have hne : L.Pairwise fun a b => a.name ≠ b.name := List.pairwise_map.1 hn
  constructor
  · intro h
    have hD' : All2 (fun d x => Declared d x ∧ GrammarDef d) L D := hD.imp_mem fun d hd x hx => ⟨hx, hg d hd⟩
    have : L.Pairwise fun a b => a.name ≠ b.name → Differ a b := by
      refine hD'.flip.pairwise h ?_
      intro x _ y _ d d' hx hy hc hdd
      exact (apart_iff hx.2 hy.2 hdd).1 ((declared_coexist hx.1 hy.1 hx.2 hy.2 hdd).1 hc)
    exact (pairwise_and hne this).imp fun h => h.2 h.1
  · intro h
    refine hD.pairwise (pairwise_and hne h) ?_
    intro d hd d' hd' x y hx hy hq
    exact (declared_coexist hx hy (hg d hd) (hg d' hd') hq.1).2 ((apart_iff (hg d hd) (hg d' hd') hq.1).2 hq.2)

theorem flatMap_filter {α β} {f : α → List β} {p : α → Bool} (h : ∀ a, p a = false → f a = []) (l : List α) :
    (l.filter p).flatMap f = l.flatMap f := by
  induction l with
  | nil => rfl
  | cons x l ih =>
    cases hp : p x with
    | true => rw [List.filter_cons_of_pos hp, List.flatMap_cons, List.flatMap_cons, ih]
    | false => rw [List.filter_cons_of_neg (by simp [hp]), List.flatMap_cons, ih, h x hp, List.nil_append]

theorem isSimple_simple {d : Def} (h : (!d.isSimple) = false) : ∃ n c t, d = .simple n c t := by
  cases d with
  | simple n c t => exact ⟨n, c, t, rfl⟩
  | _ => simp [Def.isSimple] at h

theorem objectsOf_form {cmd : Command} {L : List Def} {x : CDecl} (h : x ∈ objectsOf cmd L) :
    ∃ d ∈ L, ¬ IsChoice d ∧ HasObject cmd d ∧ x = .object (ident d.name) (lowerFirst (ident d.name)) := by
  cases cmd with
  | c p =>
    simp only [objectsOf, List.mem_map, List.mem_flatMap] at h
    obtain ⟨y, ⟨d, hd, hy⟩, rfl⟩ := h
    cases d with
    | seq n c ms =>
      simp only [clausesOf, List.mem_filterMap, Option.map_eq_some_iff] at hy
      obtain ⟨k, hk, cs, hcs, rfl⟩ := hy
      exact ⟨_, hd, fun h => h, ⟨k, hk, by simp [hcs]⟩, rfl⟩
    | _ => cases hy
  | _ => cases h

theorem objectsOf_mem {cmd : Command} {L : List Def} {d : Def} (hd : d ∈ L) (hc : ¬ IsChoice d) (h : HasObject cmd d) :
    CDecl.object (ident d.name) (lowerFirst (ident d.name)) ∈ objectsOf cmd L := by
  cases cmd with
  | c p =>
    cases d with
    | seq n c ms =>
      obtain ⟨k, hk, hcs⟩ := h
      obtain ⟨cs, hcs⟩ := Option.ne_none_iff_exists'.1 hcs
      simp only [objectsOf, List.mem_map, List.mem_flatMap]
      refine ⟨(n, k.key, cs), ⟨_, hd, ?_⟩, rfl⟩
      simp only [clausesOf, List.mem_filterMap, Option.map_eq_some_iff]
      exact ⟨k, hk, cs, hcs, rfl⟩
    | choice => exact absurd trivial hc
    | _ => cases h
  | _ =>
    cases d with
    | choice => exact absurd trivial hc
    | _ => cases h

theorem name_inj {L : List Def} (hn : (L.map Def.name).Nodup) {d d' : Def} (hd : d ∈ L) (hd' : d' ∈ L)
    (h : d ≠ d') : d.name ≠ d'.name :=
  pairwise_ne (fun _ _ h => Ne.symm h) (List.pairwise_map.1 hn) hd hd' h

/-- When the declarations of a list of definitions clash. -/
theorem noClash_iff {cmd : Command} {L : List Def} {D : List CDecl} (hg : ∀ d ∈ L, GrammarDef d)
    (hn : (L.map Def.name).Nodup) (hD : All2 Declared (L.filter fun d => !d.isSimple) D) :
    NoClash (D ++ objectsOf cmd L) ↔ DistinctIdents cmd L := by
  have hsub : ∀ d ∈ L.filter (fun d => !d.isSimple), d ∈ L := fun d hd => (List.mem_filter.1 hd).1
  have hn' : ((L.filter fun d => !d.isSimple).map Def.name).Nodup :=
    List.Nodup.sublist (List.filter_sublist.map _) hn
  have hpair := decls_pairwise hD (fun d hd => hg d (hsub d hd)) hn'
  have henum : (L.filter fun d => !d.isSimple).flatMap enumerators = L.flatMap enumerators :=
    flatMap_filter (fun d hd => by obtain ⟨n, c, t, rfl⟩ := isSimple_simple hd; rfl) L
  have hmem : ∀ d ∈ L, (∃ n c t, d = .simple n c t) ∨ d ∈ L.filter fun d => !d.isSimple := by
    intro d hd
    cases hs : !d.isSimple with
    | true => exact .inr (List.mem_filter.2 ⟨hd, hs⟩)
    | false => exact .inl (isSimple_simple hs)
  unfold NoClash
  rw [List.pairwise_append, hpair]
  constructor
  · rintro ⟨⟨h1, h2, h3⟩, h4⟩
    refine ⟨?_, ?_, ?_⟩
    · intro d hd
      rcases hmem d hd with ⟨n, c, t, rfl⟩ | hd'
      · exact List.nodup_nil
      · obtain ⟨x, hx, T, hdx⟩ := all2_mem_left hD hd'
        rw [← memberNames_nodup (hg d hd), ← declOf_fields hdx]
        exact (h4 x (by simp [hx])).2
    · rw [← henum]
      refine List.pairwise_flatMap.2 ⟨?_, h1.imp fun h => h.1⟩
      intro d hd
      obtain ⟨x, hx, T, hdx⟩ := all2_mem_left hD hd
      rw [← List.Nodup, ← defNames_nodup (hg d (hsub d hd)), ← declOf_names hdx]
      exact (h4 x (by simp [hx])).1
    · intro d hd ho k hk
      rw [← henum, List.mem_flatMap] at hk
      obtain ⟨e, he, hk⟩ := hk
      by_cases hc : IsChoice d
      · have hd' : d ∈ L.filter fun d => !d.isSimple := by
          rcases hmem d hd with ⟨n, c, t, rfl⟩ | hd'
          · cases hc
          · exact hd'
        have hne : d ≠ e := by
          rintro rfl
          cases d with
          | choice => cases hk
          | _ => cases hc
        exact (pairwise_ne (fun _ _ h => h.symm) h1 hd' he hne).2.1 hc k hk
      · obtain ⟨x, hx, T, hex⟩ := all2_mem_left hD he
        intro heq
        rcases (h3 x hx _ (objectsOf_mem hd hc ho)).2 with ha | ⟨t, n, ha, _⟩
        · refine ha (ident k) ?_ ?_
          · rw [declOf_names hex]
            exact enumerator_mem hk
          · rw [(item_object (enumerators_lower (hg e (hsub e he)) k hk) (grammarDef_name (hg d hd))).2 heq]
            simp [CDecl.names]
        · exact declOf_not_object hex t n ha
  · rintro ⟨h1, h2, h3⟩
    rw [← henum] at h2 h3
    obtain ⟨h2a, h2b⟩ := List.pairwise_flatMap.1 h2
    refine ⟨⟨?_, ?_, ?_⟩, ?_⟩
    · have hall : ∀ d ∈ L.filter (fun d => !d.isSimple), ∀ e ∈ L.filter (fun d => !d.isSimple), IsChoice d →
          ∀ k ∈ enumerators e, k.toList ≠ lowerFirst d.name.toList := by
        intro d hd e he hc k hk
        refine h3 d (hsub d hd) ?_ k (List.mem_flatMap.2 ⟨e, he, hk⟩)
        cases d with
        | choice => cases cmd <;> trivial
        | _ => cases hc
      exact List.Pairwise.imp_of_mem (fun {d e} hd he h => ⟨h, hall d hd e he, hall e he d hd⟩) h2b
    · refine List.pairwise_of_forall_mem_list ?_
      intro x hx y hy
      obtain ⟨d, hd, _, _, rfl⟩ := objectsOf_form hx
      obtain ⟨e, he, _, _, rfl⟩ := objectsOf_form hy
      refine ⟨(by intro t ht; cases ht), ?_⟩
      by_cases hde : lowerFirst (ident d.name) = lowerFirst (ident e.name)
      · have := lowerize_ident_inj (grammarDef_name (hg d hd)) (grammarDef_name (hg e he)) hde
        rw [this]
        exact .inr ⟨_, _, rfl, rfl⟩
      · left
        intro t ht ht'
        simp only [CDecl.names, List.mem_singleton] at ht ht'
        exact hde (ht.symm.trans ht')
    · intro x hx y hy
      obtain ⟨d, hd, T, hdx⟩ := all2_mem_right hD hx
      obtain ⟨e, he, hec, heo, rfl⟩ := objectsOf_form hy
      refine ⟨(by intro t _ ht; cases ht), .inl ?_⟩
      rw [declOf_names hdx]
      intro t ht ht'
      simp only [CDecl.names, List.mem_singleton] at ht'
      subst ht'
      have hen := grammarDef_name (hg e he)
      have hdn := grammarDef_name (hg d (hsub d hd))
      rcases mem_defNames ht with ⟨h, _⟩ | ⟨k, hk, h⟩ | ⟨hc, h⟩
      · exact head_differ (ident_capital_head hdn) (lowerFirst_head hen) h.symm
      · exact h3 e he heo k (List.mem_flatMap.2 ⟨d, hd, hk⟩)
          ((item_object (enumerators_lower (hg d (hsub d hd)) k hk) hen).1 h.symm)
      · have := lowerize_ident_inj hen hdn h
        have hne : e ≠ d := by rintro rfl; exact hec hc
        exact name_inj hn he (hsub d hd) hne this
    · intro x hx
      rcases List.mem_append.1 hx with hx | hx
      · obtain ⟨d, hd, T, hdx⟩ := all2_mem_right hD hx
        rw [declOf_names hdx, declOf_fields hdx, defNames_nodup (hg d (hsub d hd)), memberNames_nodup (hg d (hsub d hd))]
        exact ⟨h2a d hd, h1 d (hsub d hd)⟩
      · obtain ⟨e, _, _, _, rfl⟩ := objectsOf_form hx
        simp [CDecl.names, CDecl.fields]

end Apg
