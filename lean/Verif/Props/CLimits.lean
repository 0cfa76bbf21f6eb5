import Verif.Spec.CLimits
import Verif.Props.CChoice

/-!
# C63: array lengths and bit-field widths
-/

namespace Apg
open Spec

theorem least_pos {S : Int → Prop} {w : Nat} (h1 : ∀ v, S v → FitsUnsigned w v)
    (h2 : ∀ w' : Nat, (∀ v, S v → FitsUnsigned w' v) → w ≤ w') : (0 : Int) < w ↔ ∃ v, S v ∧ v ≠ 0 := by
  constructor
  · intro h
    refine Classical.byContradiction fun hn => ?_
    have : w ≤ 0 := h2 0 fun v hv => by
      have : v = 0 := Classical.byContradiction fun h0 => hn ⟨v, hv, h0⟩
      subst this
      exact ⟨by omega, by omega⟩
    omega
  · rintro ⟨v, hv, h0⟩
    obtain ⟨k1, k2⟩ := h1 v hv
    cases w with
    | zero =>
      have : (2 : Int) ^ 0 = 1 := rfl
      omega
    | succ w => omega

theorem suffix_width {w : Nat} {sfx : Text} {o : Option Int} (h : BitSuffix w sfx)
    (hw : (sfx = [] ∧ o = none) ∨ ∃ d i, sfx = " : ".toList ++ d ∧ readInt d = some i ∧ o = some i) : o = some (w : Int) := by
  obtain ⟨ds, rfl, hd⟩ := h
  rcases hw with ⟨h, _⟩ | ⟨d, i, h1, h2, h3⟩
  · have : (" : ".toList ++ ds).length = 0 := by rw [h]; rfl
    rw [List.length_append] at this
    have : " : ".toList.length = 3 := rfl
    omega
  · rw [List.append_cancel_left h1, h2] at hd
    cases hd
    exact h3

theorem no_width {o : Option Int}
    (hw : (([] : Text) = [] ∧ o = none) ∨ ∃ d i, [] = " : ".toList ++ d ∧ readInt d = some i ∧ o = some i) : o = none := by
  rcases hw with ⟨_, h⟩ | ⟨d, i, h, _⟩
  · exact h
  · have : (" : ".toList ++ d).length = 0 := by rw [← h]; rfl
    rw [List.length_append] at this
    have : " : ".toList.length = 3 := rfl
    omega

/-- The width of an unsigned field. -/
theorem unsigned_limits {D : List CDecl} {w : Nat} {ct sfx : Text} {f : CField} (h : UnsignedField w ct sfx)
    (ht : f.type = [ct])
    (hw : (sfx = [] ∧ f.width = none) ∨ ∃ d i, sfx = " : ".toList ++ d ∧ readInt d = some i ∧ f.width = some i) :
    (∀ x ∈ f.width, 0 < x ∧ HasBits D f.type x) ↔ (0 : Int) < w := by
  obtain ⟨n, h1, h2, _, ⟨⟨ct', h3⟩, rfl⟩ | ⟨_, h3⟩⟩ := h
  · rw [no_width hw]
    refine ⟨fun _ => ?_, fun _ x hx => by cases hx⟩
    cases h3 <;> decide
  · rw [suffix_width h3 hw]
    constructor
    · intro h
      exact (h _ rfl).1
    · intro h x hx
      cases hx
      exact ⟨h, .inl ⟨n, ct, h1, ht, by omega⟩⟩

theorem width_limits {ds : List Def} {D : List CDecl} (hcap : ∀ d ∈ ds, isNameCapital d.name = true)
    (hnd : (ds.map Def.name).Nodup)
    (hD : ∀ n c its, Def.enum n c its ∈ ds → CDecl.enum (ident n) (its.map fun i => (ident i.key, i.pos)) ∈ D)
    {t : AType} {ct sfx : Text} (h : FieldType ds t ct sfx) {f : CField} (hf : f.type = [ct])
    (hw : (sfx = [] ∧ f.width = none) ∨ ∃ d i, sfx = " : ".toList ++ d ∧ readInt d = some i ∧ f.width = some i) :
    (∀ w ∈ f.width, 0 < w ∧ HasBits D f.type w) ↔ NeedsBits ds t := by
  have uniq : ∀ {d d' : Def}, d ∈ ds → d' ∈ ds → d.name = d'.name → d = d' := fun h1 h2 h3 =>
    mem_unique_of_nodup_map hnd h1 h2 h3
  have builtin : ∀ {d : Def}, d ∈ ds → d.name ≠ "BOOLEAN" := by
    intro d hd h
    have := hcap d hd
    rw [h] at this
    exact absurd this (by decide +kernel)
  have trivialW : sfx = [] → NeedsBits ds t → ((∀ w ∈ f.width, 0 < w ∧ HasBits D f.type w) ↔ NeedsBits ds t) := by
    rintro rfl hn
    rw [no_width hw]
    exact ⟨fun _ => hn, fun _ w hw => by cases hw⟩
  have named : ∀ {n : String} {d : Def}, d ∈ ds → d.name = n → (∀ c its, d ≠ .enum n c its) →
      (∀ c (b e : Int), d = .simple n c (intType b e) → (∀ ct, ¬ Posix n ct) → 0 ≤ b → ∃ v, InRange b e v ∧ v ≠ 0) →
      NeedsBits ds (.plain n none none) := by
    intro n d hd hn h1 h2
    refine ⟨(by intro b e h; cases h), ?_⟩
    intro n' hn'
    cases hn'
    refine ⟨fun c its he => absurd (uniq hd he hn) (h1 c its), fun c b e hs hp hb => h2 c b e (uniq hd hs hn) hp hb⟩
  cases h with
  | scalar hs =>
    cases hs with
    | @uint b e w _ _ hb hl hu =>
      rw [unsigned_limits hu hf hw, least_pos hl.1 hl.2]
      constructor
      · intro hv
        refine ⟨?_, by intro n hn; cases hn⟩
        intro b' e' he _
        cases he
        exact hv
      · intro hn
        exact hn.1 _ _ rfl hb
    | @sint b e hb =>
      refine trivialW rfl ⟨?_, by intro n hn; cases hn⟩
      intro b' e' he _
      cases he
      omega
    | single => exact trivialW rfl ⟨(by intro b' e' he; simp [realType, intType] at he), by intro n hn; cases hn⟩
    | double => exact trivialW rfl ⟨(by intro b' e' he; simp [realType, intType] at he), by intro n hn; cases hn⟩
  | bool hb =>
    rw [suffix_width hb hw]
    refine ⟨fun _ => ⟨(by intro b' e' he; simp [intType] at he), ?_⟩, ?_⟩
    · intro n hn
      cases hn
      exact ⟨fun c its he => absurd rfl (builtin he), fun c b e he => absurd rfl (builtin he)⟩
    · rintro _ x hx
      cases hx
      exact ⟨by decide, .inl ⟨8, _, .w8, hf, by decide⟩⟩
  | chars => exact trivialW rfl ⟨(by intro b' e' he; cases he), by intro n hn; cases hn⟩
  | named hn =>
    cases hn with
    | posix hm hp => exact trivialW rfl (named hm rfl (by simp) fun c b e h hno => absurd hp (hno _))
    | struct hm => exact trivialW rfl (named hm rfl (by simp) (by simp))
    | union hm => exact trivialW rfl (named hm rfl (by simp) (by simp))
    | alias hm hp hs =>
      cases hs with
      | @uint b e w _ _ hb hl hu =>
        rw [unsigned_limits hu hf hw, least_pos hl.1 hl.2]
        constructor
        · intro hv
          refine named hm rfl (by simp) ?_
          intro c' b' e' he _ _
          cases he
          exact hv
        · intro hn
          exact (hn.2 _ rfl).2 _ _ _ hm hp hb
      | @sint b e hb =>
        refine trivialW rfl (named hm rfl (by simp) ?_)
        intro c' b' e' he _ h0
        cases he
        omega
      | single => exact trivialW rfl (named hm rfl (by simp) (by intro c' b' e' he; simp [realType, intType] at he))
      | double => exact trivialW rfl (named hm rfl (by simp) (by intro c' b' e' he; simp [realType, intType] at he))
    | aliasBool hm => exact trivialW rfl (named hm rfl (by simp) (by simp [intType]))
    | aliasFloat hm => exact trivialW rfl (named hm rfl (by simp) (by simp [intType]))
    | aliasDouble hm => exact trivialW rfl (named hm rfl (by simp) (by simp [intType]))
  | @enum n c its w _ he hl hb =>
    rw [suffix_width hb hw]
    have hp := least_pos (S := fun v => ∃ it ∈ its, it.pos = v) (w := w) (by rintro v ⟨it, hi, rfl⟩; exact hl.1 it hi)
      (fun w' h => hl.2 w' fun it hi => h _ ⟨it, hi, rfl⟩)
    constructor
    · intro h
      obtain ⟨v, ⟨it, hi, rfl⟩, h0⟩ := hp.1 (h _ rfl).1
      refine ⟨(by intro b' e' he; cases he), ?_⟩
      intro n' hn'
      cases hn'
      refine ⟨?_, fun c' b e hs => absurd (uniq he hs rfl) (by simp)⟩
      intro c' its' he'
      cases uniq he he' rfl
      exact ⟨it, hi, h0⟩
    · intro h x hx
      cases hx
      obtain ⟨it, hi, h0⟩ := (h.2 _ rfl).1 _ _ he
      refine ⟨hp.2 ⟨_, ⟨it, hi, rfl⟩, h0⟩, .inr ⟨_, _, hD _ _ _ he, hf, ?_⟩⟩
      intro k hk
      have := hl.2 k fun it hi => hk _ (List.mem_map.2 ⟨it, hi, rfl⟩)
      omega
  | array => exact trivialW rfl ⟨(by intro b' e' he; cases he), by intro n hn; cases hn⟩
  | arrayEnum => exact trivialW rfl ⟨(by intro b' e' he; cases he), by intro n hn; cases hn⟩

/-- Full statement of C63: array lengths and bit-field widths are within the limits of C. -/
def C63_full : Prop :=
  ∀ (cmd : Command) fuel raw cfg out b fs, Input raw cfg b → (cmd.run fuel raw cfg out).result = .ok () →
    Regular b.defs → (∀ m ∈ b.modules, Tame m) → ∃ dss,
      HeaderDecls cmd ((cmd.run fuel raw cfg out).apply fs) out b.modules dss ∧
      ∀ x ∈ dss.flatten, ∀ f ∈ x.fields, WithinLimits dss.flatten f

/-- **C63, partial.** All array lengths and bit-field widths in the headers of a run are within the limits of C
exactly if the members of sequences have positive lengths and types that need at least one bit. Missing: members
for which this is not so, and modules that are not tame or regular. -/
theorem C63_limits_iff_partial (cmd : Command) (fuel : Nat) (raw : List Module) (cfg : List String) (out : Text)
    (b : Bundle) (fs : Files) (hin : Input raw cfg b) (hr : (cmd.run fuel raw cfg out).result = .ok ())
    (hreg : Regular b.defs) (ht : ∀ m ∈ b.modules, Tame m) :
    ∃ dss, HeaderDecls cmd ((cmd.run fuel raw cfg out).apply fs) out b.modules dss ∧
      ((∀ x ∈ dss.flatten, ∀ f ∈ x.fields, WithinLimits dss.flatten f) ↔
        ∀ n c ms, Def.seq n c ms ∈ b.defs → ∀ k ∈ ms, (∀ l ∈ (dims k.type).take 1, 0 < l) ∧ NeedsBits b.defs k.type) := by
  have hbt := buildFromTexts_of_config hin.accepted
  have hcap := accepted_capital hin.grammar hbt
  obtain ⟨dss, sorted, D, h1, h2, h3, h4⟩ := headers_together (ms := b.modules) fun m hm =>
    C60_reads_partial cmd fuel raw cfg out b fs hin hr hreg m hm (ht m hm)
  have hp : sorted.Perm b.defs := by
    rw [← defsOf_eq]
    exact h2
  have hmem : ∀ d ∈ b.defs, d.isSimple = false → ∃ x ∈ dss.flatten, ∃ std, DeclOf (Typed b.defs std) d x := by
    intro d hd hs
    obtain ⟨x, hx, hdx⟩ := all2_mem_left h3 (List.mem_filter.2 ⟨hp.mem_iff.2 hd, by simp [hs]⟩)
    exact ⟨x, h4.mem_iff.2 (List.mem_append_left _ hx), hdx⟩
  have hD : ∀ n c its, Def.enum n c its ∈ b.defs →
      CDecl.enum (ident n) (its.map fun i => (ident i.key, i.pos)) ∈ dss.flatten := by
    intro n c its hd
    obtain ⟨x, hx, std, hdx⟩ := hmem _ hd rfl
    cases hdx
    exact hx
  have field : ∀ {std : Bool} {k : Member} {f : CField}, FieldOf (Typed b.defs std) k f →
      (WithinLimits dss.flatten f ↔ (∀ l ∈ (dims k.type).take 1, 0 < l) ∧ NeedsBits b.defs k.type) := by
    rintro std k f ⟨_, k2, ct, sfx, k3, k4, k5⟩
    unfold WithinLimits
    rw [k2, width_limits hcap (accepted_nodup hbt) hD k3.1 k4 k5]
  refine ⟨dss, h1, ?_, ?_⟩
  · intro h n c ms hd k hk
    obtain ⟨x, hx, std, fs', rfl, hf⟩ := hmem _ hd rfl
    obtain ⟨f, hf1, hf2⟩ := all2_mem_left hf hk
    exact (field hf2).1 (h _ hx f hf1)
  · intro h x hx f hfx
    rcases List.mem_append.1 (h4.mem_iff.1 hx) with hx | hx
    · obtain ⟨d, hd, std, hdx⟩ := all2_mem_right h3 hx
      have hd' := hp.mem_iff.1 (List.mem_filter.1 hd).1
      cases d with
      | seq n c ms =>
        obtain ⟨fs', rfl, hf⟩ := hdx
        obtain ⟨k, hk, hkf⟩ := all2_mem_right hf hfx
        exact (field hkf).2 (h n c ms hd' k hk)
      | choice n c ms =>
        cases hdx
        obtain ⟨k, _, rfl⟩ := List.mem_map.1 hfx
        exact ⟨(by intro l hl; cases hl), by intro w hw; cases hw⟩
      | enum n c its => cases hdx; cases hfx
      | simple => cases hdx
    · obtain ⟨e, _, _, _, rfl⟩ := objectsOf_form hx
      cases hfx

/-! ### What goes wrong -/

/-- An enumeration with one item. -/
def exOne : Module :=
  { name := "m"
    defs := [.enum "One" none [⟨"off", 0, none⟩], .seq "Rec" none [⟨"x", .plain "One" none none, none, none⟩]] }

/-- A string of length zero. -/
def exEmpty : Module :=
  { name := "m", defs := [.seq "Rec" none [⟨"x", .str "IA5String" 0, none, none⟩]] }

theorem exOne_tame : Tame exOne := by
  refine ⟨(by intro c hc; cases hc), (by intro c hc; cases hc), ?_⟩
  intro d hd
  simp only [exOne, List.mem_cons, List.not_mem_nil, or_false] at hd
  rcases hd with rfl | rfl <;> refine ⟨(by intro x hx; cases hx), ?_⟩ <;> unfold NoBackslash NotReserved <;> decide +kernel

theorem exEmpty_tame : Tame exEmpty := by
  refine ⟨(by intro c hc; cases hc), (by intro c hc; cases hc), ?_⟩
  intro d hd
  simp only [exEmpty, List.mem_cons, List.not_mem_nil, or_false] at hd
  subst hd
  refine ⟨(by intro x hx; cases hx), ?_⟩
  unfold NoBackslash NotReserved
  decide +kernel

/-- A member whose type is an enumeration with one item becomes a bit-field of width zero. -/
theorem C63_full_false : ¬ C63_full := by
  intro hf
  have hi : Input [exOne] ["m"] (okBundle (buildFromConfig [exOne] ["m"])) :=
    input_of (by decide +kernel) (by decide +kernel) (by decide +kernel)
  have hreg : Regular (okBundle (buildFromConfig [exOne] ["m"])).defs :=
    regular_of (by decide +kernel) (by decide +kernel) (by decide +kernel)
  have ht : ∀ m ∈ (okBundle (buildFromConfig [exOne] ["m"])).modules, Tame m :=
    single_tame (by decide +kernel) exOne_tame
  obtain ⟨dss, h1, h2⟩ := hf (.cfs exPrinter) 20 [exOne] ["m"] exOut _ (fun _ => none) hi (by decide +kernel) hreg ht
  obtain ⟨dss', h3, h4⟩ := C63_limits_iff_partial (.cfs exPrinter) 20 [exOne] ["m"] exOut _ (fun _ => none) hi
    (by decide +kernel) hreg ht
  rw [headerDecls_unique h1 h3] at h2
  have e : (okBundle (buildFromConfig [exOne] ["m"])).defs = exOne.defs := by decide +kernel
  rw [e] at h4
  have hd : Def.enum "One" none [⟨"off", 0, none⟩] ∈ exOne.defs := by decide +kernel
  obtain ⟨i, hi, h0⟩ := ((h4.1 h2 "Rec" none _ (List.mem_cons_of_mem _ (List.mem_cons_self ..)) _
    (List.mem_cons_self ..)).2.2 _ rfl).1 _ _ hd
  rw [List.mem_singleton] at hi
  subst hi
  exact h0 rfl

/-- A string of length zero becomes an array of length zero. -/
theorem C63_full_false_empty : ¬ C63_full := by
  intro hf
  have hi : Input [exEmpty] ["m"] (okBundle (buildFromConfig [exEmpty] ["m"])) :=
    input_of (by decide +kernel) (by decide +kernel) (by decide +kernel)
  have hreg : Regular (okBundle (buildFromConfig [exEmpty] ["m"])).defs :=
    regular_of (by decide +kernel) (by decide +kernel) (by decide +kernel)
  have ht : ∀ m ∈ (okBundle (buildFromConfig [exEmpty] ["m"])).modules, Tame m :=
    single_tame (by decide +kernel) exEmpty_tame
  obtain ⟨dss, h1, h2⟩ := hf (.cfs exPrinter) 20 [exEmpty] ["m"] exOut _ (fun _ => none) hi (by decide +kernel) hreg ht
  obtain ⟨dss', h3, h4⟩ := C63_limits_iff_partial (.cfs exPrinter) 20 [exEmpty] ["m"] exOut _ (fun _ => none) hi
    (by decide +kernel) hreg ht
  rw [headerDecls_unique h1 h3] at h2
  have e : (okBundle (buildFromConfig [exEmpty] ["m"])).defs = exEmpty.defs := by decide +kernel
  rw [e] at h4
  have := (h4.1 h2 "Rec" none _ (List.mem_cons_self ..) _ (List.mem_cons_self ..)).1 0 (by decide)
  omega

/-! ### Example -/

/-- The fields of `exTame` are within the limits. -/
example : ∃ dss, HeaderDecls (.cfs exPrinter) (((Command.cfs exPrinter).run 20 [exTame] ["m"] exOut).apply fun _ => none)
    exOut (okBundle (buildFromConfig [exTame] ["m"])).modules dss ∧
    ∀ x ∈ dss.flatten, ∀ f ∈ x.fields, WithinLimits dss.flatten f := by
  obtain ⟨dss, h1, h2⟩ := C63_limits_iff_partial (.cfs exPrinter) 20 [exTame] ["m"] exOut _ (fun _ => none)
    (input_of (by decide +kernel) (by decide +kernel) (by decide +kernel)) (by decide +kernel)
    (regular_of (by decide +kernel) (by decide +kernel) (by decide +kernel)) (single_tame (by decide +kernel) exTame_tame)
  have e : (okBundle (buildFromConfig [exTame] ["m"])).defs = exTame.defs := by decide +kernel
  refine ⟨dss, h1, h2.2 ?_⟩
  rw [e]
  intro n c ms hd k hk
  simp only [exTame, List.mem_cons, List.not_mem_nil, or_false, reduceCtorEq, false_or, Def.seq.injEq] at hd
  obtain ⟨rfl, rfl, rfl⟩ := hd
  simp only [List.mem_cons, List.not_mem_nil, or_false] at hk
  rcases hk with rfl | rfl | rfl
  · refine ⟨by decide, (by intro b e h; simp [intType] at h), ?_⟩
    intro n hn
    cases hn
    refine ⟨?_, ?_⟩
    · intro c its h
      simp only [exTame, List.mem_cons, List.not_mem_nil, or_false, reduceCtorEq, Def.enum.injEq] at h
      obtain ⟨_, rfl, rfl⟩ := h
      decide
    · intro c b e h
      simp [exTame] at h
  · refine ⟨by decide, ?_, by intro n hn; cases hn⟩
    intro b e h _
    cases h
    exact ⟨9, ⟨by decide, by decide⟩, by decide⟩
  · exact ⟨by decide, (by intro b e h; cases h), by intro n hn; cases hn⟩

end Apg
