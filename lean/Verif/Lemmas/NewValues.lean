import Verif.Lemmas.ClauseValues
import Verif.Lemmas.CInit
import Verif.Lemmas.LocalRun
import Verif.Spec.NewValues

/-!
# Modules that fix the same members to other values
-/

namespace Apg
open Spec
variable {K : String → Prop}

theorem Spec.NewValues.refl : ∀ c : Comps, NewValues K c c
  | .nil => .nil
  | .leaf _ _ r => .leaf (fun _ => rfl) (NewValues.refl r)
  | .node _ c r => .node (NewValues.refl c) (NewValues.refl r)

theorem Spec.NewValues.symm {c c' : Comps} (h : NewValues K c c') : NewValues K c' c := by
  induction h with
  | nil => exact .nil
  | leaf h _ ih => exact .leaf (fun hk => (h hk).symm) ih
  | node _ _ ih ih' => exact .node ih ih'

theorem go_newValues (ds : List Def) {c c' : Comps} (h : NewValues K c c') : ∀ ms,
    checkWithComponent.go ds ms c = checkWithComponent.go ds ms c' := by
  induction h with
  | nil => intro; rfl
  | leaf _ _ ih => intro ms; simp only [checkWithComponent.go, ih]
  | node _ _ ih ih' => intro ms; simp only [checkWithComponent.go, ih, ih']

instance : ClauseRel (NewValues K) := by
  refine ⟨.refl, .symm, fun ds n c c' h => ?_⟩
  unfold checkWithComponent
  split
  · exact go_newValues ds h _
  · rfl

/-- Two versions of modules of two bundles. -/
theorem newValues_bmod {b b' : Bundle} (h : AlteredBundle (NewValues K) b b') (hn : (b.modules.map (·.name)).Nodup) {m m' : Module}
    (hm : m ∈ b.modules) (hm' : m' ∈ b'.modules) (he : m'.name = m.name) : AlteredModule (NewValues K) m m' := by
  obtain ⟨x, hx, hr⟩ := all2_mem_left h.modules hm
  have hn' : (b'.modules.map (·.name)).Nodup := by rw [names_reordered h.modules]; exact hn
  have : x = m' := mem_unique_of_nodup_map hn' hx hm' (by rw [hr.name, he])
  exact this ▸ hr

theorem newValues_built {raw raw' : List Module} (hs : All2 (AlteredModule (NewValues K)) raw raw') {cfg : List String} {b b' : Bundle}
    (h : buildFromConfig raw cfg = .ok b) (h' : buildFromConfig raw' cfg = .ok b') : AlteredBundle (NewValues K) b b' := by
  have := buildFromConfig_reordered hs cfg
  rw [h, h'] at this
  cases this with
  | ok h => exact h

theorem newValues_sorted {m m' : Module} (h : AlteredModule (NewValues K) m m') (hn : (m.defs.map Def.name).Nodup) {fuel : Nat}
    {s s' : List Def} (e : sortDefs fuel m = some s) (e' : sortDefs fuel m' = some s') : All2 (AlteredDef (NewValues K)) s s' := by
  rcases sortDefs_reordered h hn fuel with ⟨h1, _⟩ | ⟨x, x', h1, h2, h3⟩
  · rw [e] at h1; cases h1
  · rw [e] at h1
    rw [e'] at h2
    cases h1; cases h2
    exact h3

/-- The members of two versions of a definition. -/
theorem Spec.AlteredDef.members {R : Comps → Comps → Prop} [ClauseRel R] {d d' : Def} (h : AlteredDef R d d') :
    (∃ n c ms ms', d = .seq n c ms ∧ d' = .seq n c ms' ∧ All2 (AlteredMember R) ms ms') ∨ (d' = d ∧ ∀ n c ms, d ≠ .seq n c ms) := by
  cases h with
  | seq h => exact .inl ⟨_, _, _, _, rfl, rfl, h⟩
  | same =>
    cases d with
    | seq n c ms => exact .inl ⟨n, c, ms, ms, rfl, rfl, reorderedMembers_refl ms⟩
    | _ => exact .inr ⟨rfl, fun _ _ _ h => by cases h⟩

theorem clausesOf_newValues {d d' : Def} (h : AlteredDef (NewValues K) d d') : All2 (NewClause K) (clausesOf d) (clausesOf d') := by
  rcases h.members with ⟨n, c, ms, ms', rfl, rfl, hm⟩ | ⟨rfl, hd⟩
  · clear h
    simp only [clausesOf]
    induction hm with
    | nil => exact .nil
    | @cons m m' l l' hm _ ih =>
      have := hm.comps
      rw [List.filterMap_cons, List.filterMap_cons, hm.key]
      generalize m.comps = x at this
      generalize m'.comps = y at this
      cases this with
      | none => exact ih
      | some h => exact .cons ⟨rfl, rfl, h⟩ ih
  · cases d' with
    | seq n c ms => exact absurd rfl (hd n c ms)
    | _ => exact .nil

theorem fixedOf_newValues (n : String) {c c' : Comps} (h : NewValues K c c') :
    All2 (NewFixed K) ((fixedOf c).map (Prod.mk n)) ((fixedOf c').map (Prod.mk n)) := by
  induction h with
  | nil => exact .nil
  | leaf h _ ih => exact .cons (.value h) ih
  | @node k c c' r r' hc _ ih ih' =>
    simp only [fixedOf, List.map_append]
    refine all2_append ?_ ih'
    by_cases hk : k = "primary"
    · rw [if_pos hk, if_pos hk]; exact .cons (.header hc) .nil
    · rw [if_neg hk, if_neg hk]; exact ih

theorem fixedOfDef_newValues {d d' : Def} (h : AlteredDef (NewValues K) d d') : All2 (NewFixed K) (fixedOfDef d) (fixedOfDef d') := by
  rcases h.members with ⟨n, c, ms, ms', rfl, rfl, hm⟩ | ⟨rfl, hd⟩
  · clear h
    simp only [fixedOfDef]
    induction hm with
    | nil => exact .nil
    | @cons m m' l l' hm _ ih =>
      rw [List.flatMap_cons, List.flatMap_cons]
      refine all2_append ?_ ih
      have := hm.comps
      unfold fixedOfMember
      generalize m.comps = x at this
      generalize m'.comps = y at this
      cases this with
      | none => exact .nil
      | some h => exact fixedOf_newValues n h
  · cases d' with
    | seq n c ms => exact absurd rfl (hd n c ms)
    | _ => exact .nil

theorem flatMap_alike {α β : Type} {R : α → α → Prop} {S : β → β → Prop} {f : α → List β}
    (hf : ∀ a a', R a a' → All2 S (f a) (f a')) {l l' : List α} (h : All2 R l l') : All2 S (l.flatMap f) (l'.flatMap f) := by
  induction h with
  | nil => exact .nil
  | cons h _ ih => rw [List.flatMap_cons, List.flatMap_cons]; exact all2_append (hf _ _ h) ih

/-- Lists in relation and what is written for them. -/
theorem rows_of {α β : Type} {S : α → α → Prop} (f : α → β) {l l' : List α} (h : All2 S l l') :
    ∃ rows : List (Change α β), rows.map (·.old) = l ∧ rows.map (·.new) = l' ∧ rows.map (·.oldOut) = l.map f ∧
      rows.map (·.newOut) = l'.map f ∧ ∀ r ∈ rows, r.old ∈ l ∧ r.new ∈ l' ∧ S r.old r.new ∧ r.oldOut = f r.old ∧ r.newOut = f r.new := by
  induction h with
  | nil => exact ⟨[], rfl, rfl, rfl, rfl, fun r hr => by cases hr⟩
  | @cons a a' l l' h _ ih =>
    obtain ⟨rows, h1, h2, h3, h4, h5⟩ := ih
    refine ⟨⟨a, a', f a, f a'⟩ :: rows, by simp [h1], by simp [h2], by simp [h3], by simp [h4], ?_⟩
    intro r hr
    rcases List.mem_cons.1 hr with rfl | hr
    · exact ⟨List.Mem.head _, List.Mem.head _, h, rfl, rfl⟩
    · have := h5 r hr
      exact ⟨List.Mem.tail _ this.1, List.Mem.tail _ this.2.1, this.2.2⟩

/-! ### Macros -/

/-- The line written for a fixed value. -/
def lineOf (p : Printer) (x : String × Fixed) : Text :=
  match x.2 with
  | .value k v => Define.text ⟨upper (cName x.1 ++ '_' :: cName k), '(' :: cfsValue p v ++ [')'], true⟩ ++ ['\n']
  | .header c =>
    match msgId c with
    | .ok id => Define.text ⟨upper (cName x.1) ++ "_MID".toList, "(0x".toList ++ hexText 4 id ++ [')'], false⟩ ++ ['\n']
    | .error _ => []

theorem cfsDefines_exact (p : Printer) (n : String) (c : Comps) : ∀ ds, cfsDefines p (cName n) c = .ok ds →
    ds.map (fun d => d.text ++ ['\n']) = ((fixedOf c).map (Prod.mk n)).map (lineOf p) := by
  induction c with
  | nil => intro ds h; cases h; rfl
  | leaf k v r ih =>
    intro ds h
    simp only [cfsDefines, bind_ok, Except.ok.injEq] at h
    obtain ⟨rs, h1, rfl⟩ := h
    simp only [fixedOf, List.map_cons, ih rs h1]
    rfl
  | node k c r ih1 ih2 =>
    intro ds h
    simp only [cfsDefines, bind_ok, Except.ok.injEq] at h
    obtain ⟨a, h1, rs, h2, rfl⟩ := h
    rw [fixedOf, List.map_append, List.map_append, List.map_append, ih2 rs h2]
    congr 1
    by_cases hk : k = "primary"
    · rw [if_pos hk] at h1 ⊢
      simp only [bind_ok, Except.ok.injEq] at h1
      obtain ⟨id, hid, rfl⟩ := h1
      simp only [List.map_cons, List.map_nil, lineOf, hid]
    · rw [if_neg hk] at h1 ⊢
      exact ih1 a h1

theorem defPart_exact {p : Printer} {out : Text} {b : Bundle} {ds simple : List Def} {mod : Module} {d : Def} {q : CData}
    (h : defPart (cfsBackend p out b) ds simple mod d = .ok q) :
    q.defines.map (· ++ ['\n']) = (fixedOfDef d).map (lineOf p) := by
  cases d with
  | simple n c t =>
    simp only [defPart, bind_ok, Except.ok.injEq] at h
    obtain ⟨_, _, rfl⟩ := h
    rfl
  | enum n c its =>
    simp only [defPart, convertEnum, Except.ok.injEq] at h
    subst h
    rfl
  | choice n c ms =>
    simp only [defPart, convertChoice, Except.ok.injEq] at h
    subst h
    rfl
  | seq n c ms =>
    simp only [defPart, convertSequence, bind_ok, Except.ok.injEq] at h
    obtain ⟨r, hr, rfl⟩ := h
    obtain ⟨rs, h1, h0, h3⟩ := convertMembers_ok hr
    simp only [h3.defines, List.nil_append, fixedOfDef, List.flatMap_map, List.map_flatMap]
    clear h0 h3 hr
    induction h1 with
    | nil => rfl
    | @cons m x ms rs hx _ ih =>
      rw [List.flatMap_cons, List.flatMap_cons, ih]
      congr 1
      have h2 := hx.2
      unfold memberPart at h2
      unfold fixedOfMember
      cases hc : m.comps with
      | none =>
        rw [hc] at h2
        simp only [Except.ok.injEq] at h2
        rw [← h2]
        rfl
      | some cs =>
        rw [hc] at h2
        simp only [cfsBackend, cfsHandler, hc, bind_ok, Except.ok.injEq] at h2
        obtain ⟨dl, h4, h5⟩ := h2
        rw [← h5]
        simp only [List.map_map]
        have := cfsDefines_exact p n cs dl h4
        simp only [List.map_map] at this
        exact this

theorem module_lines {fuel : Nat} {p : Printer} {out : Text} {b : Bundle} {ds : List Def} {bm : BMod} {cd : CData}
    (h : moduleData fuel (cfsBackend p out b) ds bm = .ok cd) : ∃ defs : List Def, sortDefs fuel bm.mod = some defs ∧
      cd.defines.map (· ++ ['\n']) = (defs.flatMap fixedOfDef).map (lineOf p) := by
  obtain ⟨sorted, hs, hp, ps, h1, cd1, hj, h0, rfl⟩ := moduleData_ok h
  refine ⟨sorted, hs, ?_⟩
  simp only [hj.defines, List.nil_append, List.map_flatMap]
  clear h hj hs hp h0
  induction h1 with
  | nil => rfl
  | cons hx _ ih => rw [List.flatMap_cons, List.flatMap_cons, ih, defPart_exact hx]

/-! ### Bytes -/

theorem leafBytes_length {e : Option Endian} {s : BinSpec} {v v' : Leaf} {bs bs' : List UInt8} (h : leafBytes e s v = .ok bs)
    (h' : leafBytes e s v' = .ok bs') : bs'.length = bs.length := by
  have key : ∀ {v bs}, leafBytes e s v = .ok bs → ∃ n, bitToBytes s.bits = .ok n ∧ (bs.length : Int) = n := by
    intro v bs h
    unfold leafBytes at h
    split at h
    · cases h
    · simp only [bind_ok] at h
      obtain ⟨n, hn, h⟩ := h
      split at h
      · cases h
      · cases e with
        | none => cases h
        | some en => exact ⟨n, hn, pack_length h⟩
  obtain ⟨n, h1, h2⟩ := key h
  obtain ⟨n', h3, h4⟩ := key h'
  rw [h1] at h3
  cases h3
  omega

/-- Values of a clause with their bytes. -/
theorem compBytes_rows (defs : List (String × List (String × BinSpec))) (e : Option Endian) {c c' : Comps} (h : NewValues K c c') :
    ∀ tn bs bs', compBytes defs e tn c = .ok bs → compBytes defs e tn c' = .ok bs' →
    ∃ rows : List (Change (String × Leaf) (List UInt8)), rows.map (·.old) = valuesOf c ∧ rows.map (·.new) = valuesOf c' ∧
      rows.map (·.oldOut) = bs ∧ rows.map (·.newOut) = bs' ∧ ∀ r ∈ rows, r.new.1 = r.old.1 ∧ (¬ K r.old.1 → r.new = r.old) ∧ r.newOut.length = r.oldOut.length ∧
        (r.old = r.new → r.oldOut = r.newOut) := by
  induction h with
  | nil => intro tn bs bs' h h'; cases h; cases h'; exact ⟨[], rfl, rfl, rfl, rfl, fun r hr => by cases hr⟩
  | @leaf k v v' r r' hv _ ih =>
    intro tn bs bs' h h'
    simp only [compBytes, bind_ok, Except.ok.injEq] at h h'
    obtain ⟨s, h1, x, h2, y, h3, rfl⟩ := h
    obtain ⟨s', h1', x', h2', y', h3', rfl⟩ := h'
    rw [h1] at h1'
    cases h1'
    obtain ⟨rows, k1, k2, k3, k4, k5⟩ := ih tn y y' h3 h3'
    refine ⟨⟨(k, v), (k, v'), x, x'⟩ :: rows, by simp [valuesOf, k1], by simp [valuesOf, k2], by simp [k3], by simp [k4], ?_⟩
    intro r hr
    rcases List.mem_cons.1 hr with rfl | hr
    · refine ⟨rfl, fun hk => by show (k, v') = (k, v); rw [hv hk], leafBytes_length h2 h2', fun h => ?_⟩
      have : v = v' := (Prod.mk.inj h).2
      subst this
      rw [h2] at h2'
      exact Except.ok.inj h2'
    · exact k5 r hr
  | @node k c c' r r' _ _ ih ih' =>
    intro tn bs bs' h h'
    simp only [compBytes, bind_ok, Except.ok.injEq] at h h'
    obtain ⟨s, h1, x, h2, y, h3, rfl⟩ := h
    obtain ⟨s', h1', x', h2', y', h3', rfl⟩ := h'
    rw [h1] at h1'
    cases h1'
    obtain ⟨rows, k1, k2, k3, k4, k5⟩ := ih _ x x' h2 h2'
    obtain ⟨rows', q1, q2, q3, q4, q5⟩ := ih' tn y y' h3 h3'
    refine ⟨rows ++ rows', by simp [valuesOf, k1, q1], by simp [valuesOf, k2, q2], by simp [k3, q3], by simp [k4, q4], ?_⟩
    intro r hr
    rcases List.mem_append.1 hr with hr | hr
    · exact k5 r hr
    · exact q5 r hr

/-- The clauses of two versions of a definition. -/
theorem fixedMembers_newValues {d d' : Def} (h : AlteredDef (NewValues K) d d') :
    All2 (fun x x' : Member × Comps => AlteredMember (NewValues K) x.1 x'.1 ∧ NewValues K x.2 x'.2) (fixedMembers d) (fixedMembers d') := by
  rcases h.members with ⟨n, c, ms, ms', rfl, rfl, hm⟩ | ⟨rfl, hd⟩
  · clear h
    simp only [fixedMembers]
    induction hm with
    | nil => exact .nil
    | @cons m m' l l' hm _ ih =>
      have hc := hm.comps
      rw [List.filterMap_cons, List.filterMap_cons]
      generalize m.comps = x at hc
      generalize m'.comps = y at hc
      cases hc with
      | none => exact ih
      | some h => exact .cons ⟨hm, h⟩ ih
  · cases d' with
    | seq n c ms => exact absurd rfl (hd n c ms)
    | _ => exact .nil

theorem all2_getLast {α β : Type} {R : α → β → Prop} {l : List α} {l' : List β} (h : All2 R l l') :
    (l.getLast? = none ∧ l'.getLast? = none) ∨ ∃ a b, l.getLast? = some a ∧ l'.getLast? = some b ∧ R a b := by
  induction h with
  | nil => exact .inl ⟨rfl, rfl⟩
  | @cons d d' l l' hd _ ih =>
    rw [List.getLast?_cons, List.getLast?_cons]
    rcases ih with ⟨q1, q2⟩ | ⟨x, x', q1, q2, q3⟩
    · rw [q1, q2]; exact .inr ⟨_, _, rfl, rfl, hd⟩
    · rw [q1, q2]; exact .inr ⟨_, _, rfl, rfl, q3⟩

theorem flatMap_owner {α β γ : Type} {f : α → List β} {g : β → γ} : ∀ {l : List α}, ((l.flatMap f).map g).Nodup →
    ∀ {a b : α}, a ∈ l → b ∈ l → ∀ {x : β}, x ∈ f a → x ∈ f b → a = b
  | [], _, _, _, h, _, _, _, _ => by cases h
  | c :: l, hn, a, b, ha, hb, x, hxa, hxb => by
    rw [List.flatMap_cons, List.map_append, List.nodup_append] at hn
    obtain ⟨_, h2, h3⟩ := hn
    have key : ∀ {y}, y ∈ l → x ∈ f y → x ∈ f c → False := fun hy hxy hxc =>
      h3 _ (List.mem_map_of_mem hxc) _ (List.mem_map_of_mem (List.mem_flatMap.2 ⟨_, hy, hxy⟩)) rfl
    rcases List.mem_cons.1 ha with ea | ha'
    · rcases List.mem_cons.1 hb with eb | hb'
      · rw [ea, eb]
      · exact (key hb' hxb (ea ▸ hxa)).elim
    · rcases List.mem_cons.1 hb with eb | hb'
      · exact (key ha' hxa (eb ▸ hxb)).elim
      · exact flatMap_owner h2 ha' hb' hxa hxb

end Apg
