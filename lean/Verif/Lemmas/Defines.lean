import Verif.Spec.Defines
import Verif.Lemmas.Files
import Verif.Lemmas.Upper
import Verif.Lemmas.Text

namespace Apg
open Spec

theorem cfsValue_text (p : Printer) (v : Leaf) : ValueText p v (cfsValue p v) := by
  cases v with
  | int i => exact readInt_intText i
  | bool b => cases b <;> rfl
  | flt x =>
    cases x with
    | int i => exact readInt_intText i
    | flt q => rfl
    | inf b => rfl

theorem digitChar_isSome (d : Nat) : (digitVal (digitChar d)).isSome := by
  unfold digitChar
  split <;> decide

theorem hexText_chars (w : Nat) (i : Int) : ∀ c ∈ hexText w i, c = '-' ∨ (digitVal c).isSome := by
  have hp : ∀ w n, ∀ c ∈ padZero w (digits 16 n), (digitVal c).isSome := by
    intro w n c hc
    simp only [padZero, List.mem_append, List.mem_replicate] at hc
    rcases hc with hc | hc
    · rw [hc.2]; decide
    · obtain ⟨d, rfl⟩ := digits_all_digit _ _ c hc
      exact digitChar_isSome d
  intro c hc
  unfold hexText at hc
  split at hc
  · simp only [List.mem_cons] at hc
    rcases hc with hc | hc
    · exact Or.inl hc
    · exact Or.inr (hp _ _ c hc)
  · exact Or.inr (hp _ _ c hc)

theorem valueLine_eq (a b t : Text) :
    a ++ b ++ ' ' :: ('(' :: t ++ [')']) ++ ['\n'] ++ ['\n'] =
      a ++ b ++ " (".toList ++ t ++ ')' :: ['\n', '\n'] := by
  have : " (".toList = [' ', '('] := rfl
  rw [this]
  simp only [List.append_assoc, List.cons_append, List.nil_append]

theorem headerLine_eq (a b x t : Text) :
    a ++ b ++ ' ' :: ('(' :: x ++ t ++ [')']) ++ [] ++ ['\n'] =
      a ++ b ++ " (".toList ++ (x ++ t) ++ ')' :: ['\n'] := by
  have : " (".toList = [' ', '('] := rfl
  rw [this]
  simp only [List.append_assoc, List.cons_append, List.nil_append]

/-- The defines of a clause are those of its fixed values. -/
theorem cfsDefines_lines {p : Printer} {n : String} (hn : isNameCapital n = true) :
    ∀ (c : Comps), GrammarComps c → ∀ ds, cfsDefines p (cName n) c = .ok ds →
      All2 (DefineLine p) ((fixedOf c).map (Prod.mk n)) (ds.map (fun d => d.text ++ ['\n'])) := by
  intro c
  induction c with
  | nil =>
    intro _ ds h
    simp only [cfsDefines, Except.ok.injEq] at h
    subst h
    exact .nil
  | leaf k v r ih =>
    intro hg ds h
    simp only [GrammarComps] at hg
    simp only [cfsDefines, bind_ok, Except.ok.injEq] at h
    obtain ⟨rs, h1, rfl⟩ := h
    simp only [fixedOf, List.map_cons]
    refine All2.cons ?_ (ih hg.2 rs h1)
    refine ⟨cfsValue p v, ['\n', '\n'], ?_, cfsValue_text p v, Or.inr rfl⟩
    rw [cName_eq (Or.inr hn), cName_eq (Or.inl hg.1)]
    have hu : upper (ident n ++ '_' :: ident k) = macroName n (.value k v) := by
      unfold upper
      rw [List.map_append, List.map_cons]
      rfl
    unfold Define.text
    rw [hu, if_pos rfl]
    generalize "#define ".toList = a
    generalize macroName n (.value k v) = b
    rw [valueLine_eq]
  | node k c r ih1 ih2 =>
    intro hg ds h
    simp only [GrammarComps] at hg
    simp only [cfsDefines, bind_ok, Except.ok.injEq] at h
    obtain ⟨a, h1, rs, h2, rfl⟩ := h
    rw [fixedOf, List.map_append, List.map_append]
    refine All2.append ?_ (ih2 hg.2.2 rs h2)
    by_cases hk : k = "primary"
    · rw [if_pos hk] at h1 ⊢
      simp only [bind_ok, Except.ok.injEq] at h1
      obtain ⟨id, hid, rfl⟩ := h1
      simp only [List.map_cons, List.map_nil]
      refine All2.cons ?_ All2.nil
      refine ⟨"0x".toList ++ hexText 4 id, ['\n'], ?_, ⟨id, _, hid, rfl, ?_, ?_⟩, Or.inl rfl⟩
      · rw [cName_eq (Or.inr hn)]
        have hu : upper (ident n) ++ "_MID".toList = macroName n (.header c) := rfl
        unfold Define.text
        rw [hu, if_neg (by simp)]
        have h0 : "(0x".toList = '(' :: "0x".toList := by decide
        generalize "#define ".toList = a
        generalize macroName n (.header c) = b
        simp only [h0]
        generalize "0x".toList = x
        rw [headerLine_eq]
      · rintro m rfl
        simp only [hexText]
        rw [if_neg (by omega)]
        simpa using readNat_padZero (by omega : 2 ≤ 16) (by omega : 16 ≤ 16) 4 m
      · exact hexText_chars 4 id
    · rw [if_neg hk] at h1 ⊢
      exact ih1 hg.2.1.2 a h1

theorem flatMap_all2 {α β γ δ} {R : α → β → Prop} {S : γ → δ → Prop} {l : List α} {l' : List β}
    (h : All2 R l l') {f : α → List γ} {g : β → List δ} (hfg : ∀ a ∈ l, ∀ b, R a b → All2 S (f a) (g b)) :
    All2 S (l.flatMap f) (l'.flatMap g) := by
  induction h with
  | nil => exact .nil
  | cons h1 _ ih =>
    simp only [List.flatMap_cons]
    exact (hfg _ (by simp) _ h1).append (ih (fun a ha => hfg a (by simp [ha])))

/-- The defines contributed by one definition. -/
theorem cfs_defPart_defines {p : Printer} {out : Text} {b : Bundle} {ds simple : List Def}
    {mod : Module} {d : Def} (hg : GrammarDef d) {q : CData}
    (h : defPart (cfsBackend p out b) ds simple mod d = .ok q) :
    All2 (DefineLine p) (fixedOfDef d) (q.defines.map (· ++ ['\n'])) := by
  cases d with
  | simple n c t =>
    simp only [defPart, bind_ok, Except.ok.injEq] at h
    obtain ⟨_, _, rfl⟩ := h
    exact .nil
  | enum n c its =>
    simp only [defPart, convertEnum, Except.ok.injEq] at h
    subst h
    exact .nil
  | choice n c ms =>
    simp only [defPart, convertChoice, Except.ok.injEq] at h
    subst h
    exact .nil
  | seq n c ms =>
    simp only [defPart, convertSequence, bind_ok, Except.ok.injEq] at h
    obtain ⟨r, hr, rfl⟩ := h
    obtain ⟨rs, h1, _, h3⟩ := convertMembers_ok hr
    simp only [h3.defines, List.nil_append, fixedOfDef, List.flatMap_map, List.map_flatMap]
    refine flatMap_all2 h1 ?_
    intro m hm x hx
    have h2 := hx.2
    unfold memberPart at h2
    unfold fixedOfMember
    cases hc : m.comps with
    | none =>
      rw [hc] at h2
      simp only [Except.ok.injEq] at h2
      rw [← h2]
      exact .nil
    | some cs =>
      rw [hc] at h2
      simp only [cfsBackend, cfsHandler, hc, bind_ok, Except.ok.injEq] at h2
      obtain ⟨dl, h4, h5⟩ := h2
      rw [← h5]
      have := cfsDefines_lines hg.1 cs ((hg.2.2 m hm).2.2 cs hc).2 dl h4
      rw [List.map_map]
      exact this

theorem cfs_module_defines {fuel : Nat} {p : Printer} {out : Text} {b : Bundle} {ds : List Def}
    {bm : BMod} {cd : CData} (hg : ∀ d ∈ bm.mod.defs, GrammarDef d)
    (h : moduleData fuel (cfsBackend p out b) ds bm = .ok cd) :
    ∃ defs : List Def, sortDefs fuel bm.mod = some defs ∧ defs.Perm bm.mod.defs ∧
      All2 (DefineLine p) (defs.flatMap fixedOfDef) (cd.defines.map (· ++ ['\n'])) := by
  obtain ⟨sorted, hs, hp, ps, h1, cd1, hj, _, rfl⟩ := moduleData_ok h
  refine ⟨sorted, hs, hp, ?_⟩
  simp only [hj.defines, List.nil_append, List.map_flatMap]
  exact flatMap_all2 h1 (fun d hd q hq => cfs_defPart_defines (hg d (hp.mem_iff.1 hd)) hq)

theorem all2_defines_nil {p : Printer} {l : List (String × Fixed)} {ls : List Text}
    (h : All2 (DefineLine p) l ls) : ls = [] ↔ l = [] := by
  cases h <;> simp

end Apg
