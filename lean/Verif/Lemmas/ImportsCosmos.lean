import Verif.Lemmas.Imports
import Verif.Lemmas.BareCosmos

/-!
# generate-cosmos on modules that import the same in another way
-/

namespace Apg

open Spec

theorem collectDefs_from {b : Bundle} {rec : BMod → Except Err (List Def)} {ms : List Module} :
    ∀ {r : List Def}, collectDefs rec b ms = .ok r → ∀ d ∈ r,
      ∃ m ∈ ms, ∃ bm a, lastBMod b.mods m.name = some bm ∧ rec bm = .ok a ∧ d ∈ a := by
  induction ms with
  | nil => intro r h d hd; cases h; cases hd
  | cons m ms ih =>
    intro r h d hd
    simp only [collectDefs, bind_ok, Except.ok.injEq] at h
    obtain ⟨a, h1, r', h2, rfl⟩ := h
    rcases List.mem_append.1 hd with hd | hd
    · cases hl : lastBMod b.mods m.name with
      | none => rw [hl] at h1; cases h1; cases hd
      | some bm =>
        rw [hl] at h1
        exact ⟨m, List.Mem.head _, bm, a, hl, h1, hd⟩
    · obtain ⟨m', q, rest⟩ := ih h2 d hd
      exact ⟨m', List.Mem.tail _ q, rest⟩

theorem dedup_single {l : List Def} {d : Def} (h : ∀ x ∈ l, x = d) (hd : d ∈ l) : dedup l = [d] := by
  induction l with
  | nil => cases hd
  | cons x l ih =>
    obtain rfl : x = d := h x (List.Mem.head _)
    have e : dedup (x :: l) = if (dedup l).contains x then dedup l else x :: dedup l := rfl
    rw [e]
    by_cases hl : x ∈ l
    · rw [ih (fun y hy => h y (List.Mem.tail _ hy)) hl]
      simp
    · have : l = [] := by
        cases l with
        | nil => rfl
        | cons y l => exact absurd (h y (by simp) ▸ List.Mem.head _) hl
      subst this
      rfl

theorem dedup_same {l l' : List Def} (hm : ∀ d, d ∈ l' ↔ d ∈ l) (hu : ∀ x ∈ l, ∀ y ∈ l, x = y) : dedup l' = dedup l := by
  cases l with
  | nil =>
    cases l' with
    | nil => rfl
    | cons y l' => cases (hm y).1 (List.Mem.head _)
  | cons d l =>
    rw [dedup_single (fun x hx => hu x hx d (List.Mem.head _)) (List.Mem.head _),
      dedup_single (fun x hx => hu x ((hm x).1 hx) d (List.Mem.head _)) ((hm d).2 (List.Mem.head _))]

theorem lastBMod_reimported {bs bs' : List BMod} (hs : All2 ReimportedB bs bs') (n : String) :
    (lastBMod bs n = none ∧ lastBMod bs' n = none) ∨
    ∃ m m', lastBMod bs n = some m ∧ lastBMod bs' n = some m' ∧ ReimportedB m m' := by
  induction hs with
  | nil => exact .inl ⟨rfl, rfl⟩
  | @cons a c l l' h _ ih =>
    rw [lastBMod, lastBMod, h.mod.name]
    rcases ih with ⟨h1, h2⟩ | ⟨m, m', h1, h2, h3⟩
    · rw [h1, h2]
      by_cases hn : a.mod.name = n
      · simp only [if_pos hn]; exact .inr ⟨_, _, rfl, rfl, h⟩
      · refine .inl ⟨?_, ?_⟩ <;> exact if_neg hn
    · rw [h1, h2]; exact .inr ⟨_, _, rfl, rfl, h3⟩

theorem getModule_reimported {b b' : Bundle} (hs : All2 ReimportedB b.mods b'.mods) (n : String) :
    (b.getModule n = none ∧ b'.getModule n = none) ∨
    ∃ m m', b.getModule n = some m ∧ b'.getModule n = some m' ∧ ReimportedB m m' := by
  unfold Bundle.getModule
  generalize b.mods = l at hs
  generalize b'.mods = l' at hs
  induction hs with
  | nil => exact .inl ⟨rfl, rfl⟩
  | @cons a c l l' h _ ih =>
    rw [List.find?_cons, List.find?_cons, h.mod.name]
    by_cases hn : a.mod.name = n
    · rw [decide_eq_true hn]; exact .inr ⟨_, _, rfl, rfl, h⟩
    · rw [decide_eq_false hn]; exact ih

section
variable {b b' : Bundle} (hs : ReimportedBundle b b') (hn : (b.defs.map Def.name).Nodup)
include hs hn

theorem defsRecurs_reimported (n : String) (fuel : Nat) : ∀ bm ∈ b.mods, ∀ bm', ReimportedB bm bm' →
    defsRecurs b' n fuel bm' = defsRecurs b n fuel bm := by
  induction fuel with
  | zero => intros; rfl
  | succ fuel ih =>
    intro bm hbm bm' hsb
    rw [defsRecurs, defsRecurs]
    have hl : ∀ {m m' : Module} {x : BMod}, Reimported m m' → lastBMod b.mods m.name = some x →
        ∃ x', lastBMod b'.mods m'.name = some x' ∧ defsRecurs b' n fuel x' = defsRecurs b n fuel x := by
      intro m m' x hm hx
      rw [hm.name]
      rcases lastBMod_reimported hs.mods m.name with ⟨h1, _⟩ | ⟨y, y', h1, h2, h3⟩
      · rw [h1] at hx; cases hx
      · rw [h1] at hx
        obtain rfl := Option.some.inj hx
        exact ⟨y', h2, ih y (lastBMod_some h1).1 y' h3⟩
    have hr : ∀ {m m' : Module} {x' : BMod}, Reimported m m' → lastBMod b'.mods m'.name = some x' →
        ∃ x, lastBMod b.mods m.name = some x ∧ defsRecurs b' n fuel x' = defsRecurs b n fuel x := by
      intro m m' x hm hx
      rw [hm.name] at hx
      rcases lastBMod_reimported hs.mods m.name with ⟨_, h1⟩ | ⟨y, y', h1, h2, h3⟩
      · rw [h1] at hx; cases hx
      · rw [h2] at hx
        obtain rfl := Option.some.inj hx
        exact ⟨y, h1, ih y (lastBMod_some h1).1 y' h3⟩
    cases e : collectDefs (defsRecurs b n fuel) b bm.imported with
    | error x =>
      obtain ⟨m, hm, y, hy, hx⟩ := collectDefs_error e
      obtain ⟨m', hm', hmm⟩ := hsb.left m hm
      obtain ⟨y', hy', heq⟩ := hl hmm hy
      cases e' : collectDefs (defsRecurs b' n fuel) b' bm'.imported with
      | ok r' =>
        obtain ⟨a, ha, _⟩ := collectDefs_mem e' hm' hy'
        rw [heq, hx] at ha
        cases ha
      | error x' =>
        obtain ⟨m2, _, y2, _, hx2⟩ := collectDefs_error e'
        rw [defsRecurs_error fuel _ _ hx, defsRecurs_error fuel _ _ hx2]
        rfl
    | ok r =>
      cases e' : collectDefs (defsRecurs b' n fuel) b' bm'.imported with
      | error x' =>
        obtain ⟨m', hm', y', hy', hx⟩ := collectDefs_error e'
        obtain ⟨m, hm, hmm⟩ := hsb.right m' hm'
        obtain ⟨y, hy, heq⟩ := hr hmm hy'
        obtain ⟨a, ha, _⟩ := collectDefs_mem e hm hy
        rw [heq, ha] at hx
        cases hx
      | ok r' =>
        have hmem : ∀ d, d ∈ r' ↔ d ∈ r := by
          intro d
          constructor
          · intro hd
            obtain ⟨m', hm', y', a, hy', ha, hda⟩ := collectDefs_from e' d hd
            obtain ⟨m, hm, hmm⟩ := hsb.right m' hm'
            obtain ⟨y, hy, heq⟩ := hr hmm hy'
            obtain ⟨a', ha', hsub⟩ := collectDefs_mem e hm hy
            rw [heq, ha'] at ha
            cases ha
            exact hsub d hda
          · intro hd
            obtain ⟨m, hm, y, a, hy, ha, hda⟩ := collectDefs_from e d hd
            obtain ⟨m', hm', hmm⟩ := hsb.left m hm
            obtain ⟨y', hy', heq⟩ := hl hmm hy
            obtain ⟨a', ha', hsub⟩ := collectDefs_mem e' hm' hy'
            rw [heq, ha] at ha'
            cases ha'
            exact hsub d hda
        have hsub : ∀ d ∈ bm.mod.defs ++ r, d ∈ b.defs := by
          intro d hd
          rcases List.mem_append.1 hd with hd | hd
          · exact List.mem_flatMap.2 ⟨bm.mod, List.mem_map.2 ⟨bm, hbm, rfl⟩, hd⟩
          · exact collectDefs_sub (fun x hx ds h d hd => (defsRecurs_sound fuel x hx ds h d hd).1) _ _ e d hd
        show Except.ok _ = Except.ok _
        congr 1
        refine dedup_same (fun d => ?_) fun x hx y hy => ?_
        · rw [List.mem_filter, List.mem_filter, List.mem_append, List.mem_append, hmem, hsb.mod.defs]
        · rw [List.mem_filter] at hx hy
          exact mem_unique_of_nodup_map hn (hsub x hx.1) (hsub y hy.1)
            ((of_decide_eq_true hx.2).trans (of_decide_eq_true hy.2).symm)

variable {bm bm' : BMod} (hbm : bm ∈ b.mods) (hsb : ReimportedB bm bm')
include hbm hsb

theorem shapeOf_reimported (fuel : Nat) (t : AType) : shapeOf b' fuel bm' t = shapeOf b fuel bm t := by
  have : ∀ n, getDefinition b' fuel n bm' = getDefinition b fuel n bm := by
    intro n; simp only [getDefinition, defsRecurs_reimported hs hn n fuel bm hbm bm' hsb]
  simp only [shapeOf, this]

theorem entriesFrom_reimported (p : Printer) (fuel : Nat)
    (rec : Store → Def → Comps → Except Err (List Entry × Store)) (seq : String) (wc : Comps) (ms : List Member) :
    ∀ st i, entriesFrom p b' fuel bm' rec seq wc st i ms = entriesFrom p b fuel bm rec seq wc st i ms := by
  induction ms with
  | nil => intros; rfl
  | cons m ms ih => intro st i; simp only [entriesFrom, ih, shapeOf_reimported hs hn hbm hsb]

theorem telemetry_reimported (p : Printer) (fuel : Nat) (depth : Nat) :
    telemetry p b' fuel bm' depth = telemetry p b fuel bm depth := by
  induction depth with
  | zero => rfl
  | succ depth ih =>
    funext st d wc
    cases d with
    | seq n c ms => simp only [telemetry, ih, entriesFrom_reimported hs hn hbm hsb]
    | _ => rfl

theorem packets_reimported (p : Printer) (fuel : Nat) (target : Text) (ns : List String) :
    ∀ st, packets p b' fuel bm' target st ns = packets p b fuel bm target st ns := by
  induction ns with
  | nil => intro; rfl
  | cons n ns ih => intro st; simp only [packets, ih, telemetry_reimported hs hn hbm hsb, hsb.mod.defs]

end

theorem generateCosmos_reimported (fuel : Nat) (p : Printer) {b b' : Bundle} (hs : ReimportedBundle b b')
    (hn : (b.defs.map Def.name).Nodup) (module : String) (messages : List String) (target out : Text) :
    generateCosmos fuel p b' module messages target out = generateCosmos fuel p b module messages target out := by
  have he : b'.mods = [] ↔ b.mods = [] := by
    rw [← List.length_eq_zero_iff, ← List.length_eq_zero_iff, hs.mods.length_eq]
  unfold generateCosmos
  simp only [he]
  rcases getModule_reimported hs.mods module with ⟨h1, h2⟩ | ⟨bm, bm', h1, h2, h3⟩
  · simp only [h1, h2]
  · simp only [h1, h2, packets_reimported hs hn (getModule_some h1).1 h3, hs.defs, h3.mod.defs]

theorem runCosmos_reimported {raw raw' : List Module} (hs : All2 Reimported raw raw') (fuel : Nat) (p : Printer)
    (module : String) (messages : List String) (target out : Text) :
    runCosmos fuel p raw' module messages target out = runCosmos fuel p raw module messages target out := by
  have hb := buildFromTexts_reimported hs
  unfold runCosmos
  cases e : buildFromTexts raw with
  | error x =>
    cases e' : buildFromTexts raw' with
    | error y => rw [e, e'] at hb; cases hb; rfl
    | ok y => rw [e, e'] at hb; cases hb
  | ok b =>
    cases e' : buildFromTexts raw' with
    | error y => rw [e, e'] at hb; cases hb
    | ok b' =>
      rw [e, e'] at hb
      cases hb with
      | ok hb => exact generateCosmos_reimported fuel p hb (accepted_nodup e) module messages target out

end Apg
