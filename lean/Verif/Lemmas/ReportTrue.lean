import Verif.Lemmas.Report
import Verif.Lemmas.Enum

/-!
# Error messages are true
-/

namespace Apg
open Spec

/-- It is one of the messages that are always true, and is true. -/
def Sure (raw : List Module) (cfg : List String) : Message → Prop
  | .indexTwice _ => False
  | .usedType .. => False
  | m => Claims raw cfg m

/-- What is shown of the messages before the modules are put together. -/
def Honest1 (raw : List Module) (cfg : List String) (m : Message) : Prop :=
  Sure raw cfg m ∨ (∃ p, m = .indexTwice p) ∧ Misleads raw m

/-- What is shown of every message. -/
def Honest (raw : List Module) (cfg : List String) (m : Message) : Prop := Sure raw cfg m ∨ Misleads raw m

theorem Sure.claims {raw : List Module} {cfg : List String} {m : Message} (h : Sure raw cfg m) : Claims raw cfg m := by
  cases m <;> first | exact h | exact h.elim

theorem Honest1.honest {raw : List Module} {cfg : List String} {m : Message} (h : Honest1 raw cfg m) : Honest raw cfg m :=
  h.imp id fun h => h.2

theorem Honest.or {raw : List Module} {cfg : List String} {m : Message} (h : Honest raw cfg m) :
    Claims raw cfg m ∨ Misleads raw m := h.imp Sure.claims id

/-! ### Types -/

theorem classify_half (n : String) (a : Num) (s : Bool) : ∃ c, classify n (some a) none s = .ok c := by
  unfold classify
  dsimp only
  split
  · split
    · exact ⟨_, rfl⟩
    · split
      · exact ⟨_, rfl⟩
      · split
        · exact ⟨_, rfl⟩
        · split <;> exact ⟨_, rfl⟩
  · split
    · exact ⟨_, rfl⟩
    · split <;> exact ⟨_, rfl⟩

theorem asn1TypeR_error {t : AType} {e : Message} (h : asn1TypeR t = .error e) :
    ∃ n a b, t = .plain n (some a) (some b) ∧ ((e = .inverted a b ∧ ¬ NumLE a b) ∨
      n = "REAL" ∧ e = .notDouble (some a) (some b) ∧ ¬ (NumLE (.flt (-largestFloat)) a ∧ NumLE b (.flt largestFloat))) := by
  have hnone : t.lo = none → False := by
    intro hl
    obtain ⟨c, hc⟩ := asn1Type_unbounded t hl
    rw [(asn1Type_erases t).2 e h] at hc
    cases hc
  cases t with
  | str n len => exact (hnone rfl).elim
  | arr x len => exact (hnone rfl).elim
  | plain n lo hi =>
    cases lo with
    | none => exact (hnone rfl).elim
    | some a =>
      cases hi with
      | none =>
        obtain ⟨c, hc⟩ := classify_half n a false
        simp only [asn1TypeR, AType.lo, AType.hi, AType.name, classifyR, hc] at h
        cases h
      | some b =>
        refine ⟨n, a, b, rfl, ?_⟩
        simp only [asn1TypeR, AType.lo, AType.hi, AType.name] at h
        split at h
        · rename_i hl
          cases h
          exact .inl ⟨rfl, (Num.lt_iff_not_le _ _).1 hl⟩
        · unfold classifyR at h
          split at h
          · cases h
          · rename_i x hx
            cases h
            have : n = "REAL" ∧ ¬ (Num.le (.flt doubleMin) a && Num.le b (.flt doubleMax)) = true := by
              unfold classify at hx
              split at hx
              · repeat' split at hx
                all_goals cases hx
              · dsimp only at hx
                split at hx
                · split at hx <;> cases hx
                · split at hx
                  · rename_i hr
                    split at hx
                    · cases hx
                    · split at hx
                      · cases hx
                      · rename_i hd
                        exact ⟨hr, hd⟩
                  · repeat' split at hx
                    all_goals cases hx
            refine .inr ⟨this.1, rfl, ?_⟩
            have h2 := this.2
            rw [Bool.and_eq_true, Num.le_iff, Num.le_iff, doubleMin_largest, doubleMax_largest] at h2
            exact h2

theorem checkTypeObjR_error {t : AType} {e : Message} (h : checkTypeObjR t = .error e) :
    ∃ n a b, Within (.plain n (some a) (some b)) t ∧ ((e = .inverted a b ∧ ¬ NumLE a b) ∨
      n = "REAL" ∧ e = .notDouble (some a) (some b) ∧ ¬ (NumLE (.flt (-largestFloat)) a ∧ NumLE b (.flt largestFloat))) := by
  have leaf : ∀ t, (asn1TypeR t >>= fun _ => pure ()) = .error e →
      ∃ n a b, Within (.plain n (some a) (some b)) t ∧ ((e = .inverted a b ∧ ¬ NumLE a b) ∨
      n = "REAL" ∧ e = .notDouble (some a) (some b) ∧ ¬ (NumLE (.flt (-largestFloat)) a ∧ NumLE b (.flt largestFloat))) := by
    intro t ht
    rcases bindR_error.1 ht with h1 | ⟨_, _, h1⟩
    · obtain ⟨n, a, b, rfl, h2⟩ := asn1TypeR_error h1
      exact ⟨n, a, b, .here, h2⟩
    · exact (pureR_error h1).elim
  induction t with
  | plain => exact leaf _ h
  | str => exact leaf _ h
  | arr x len ih =>
    rcases bindR_error.1 h with h1 | ⟨_, _, h1⟩
    · obtain ⟨n, a, b, h2, h3⟩ := ih h1
      exact ⟨n, a, b, .elem h2, h3⟩
    · exact leaf _ h1

theorem type_honest {raw : List Module} {cfg : List String} {u : AType} (hu : TypeUsed raw u) {e : Message}
    (h : checkTypeObjR u = .error e) : Sure raw cfg e := by
  obtain ⟨n, a, b, h1, ⟨rfl, h2⟩ | ⟨rfl, rfl, h2⟩⟩ := checkTypeObjR_error h
  · exact ⟨u, hu, n, h1, h2⟩
  · exact ⟨a, b, u, rfl, rfl, hu, h1, h2⟩

/-! ### Comments -/

theorem checkCommentR_error {k : Option String} {c : Comment} {e : Message} (h : checkCommentR k c = .error e) :
    (∃ x s, k = some x ∧ e = .comment x s c.text ∧ s ∈ [['['], [']'], ['-', '-']] ∧ s <:+: c.text.toList) ∨
    k = none ∧ e = .noKey ∧ ¬ CleanComment c := by
  have hc : ¬ CleanComment c := by
    rw [← checkComment_ok (k := k.isSome), (checkComment_erases k c).2 e h]
    simp
  unfold checkCommentR at h
  split at h
  · cases h
  · split at h
    · cases h
    · rename_i s hs
      cases k with
      | none => cases h; exact .inr ⟨rfl, rfl, hc⟩
      | some x =>
        cases h
        have h1 := List.mem_of_find?_eq_some hs
        have h2 := List.find?_some hs
        refine .inl ⟨x, s, rfl, rfl, h1, (containsText_iff ?_ _).1 h2⟩
        rintro rfl
        revert h1
        decide

theorem keyComment_honest {raw : List Module} {cfg : List String} {k : String} {c : Option Comment}
    (hc : ∀ x, c = some x → KeyComment raw k x) {e : Message} (h : checkCommentOptR (some k) c = .error e) :
    Sure raw cfg e := by
  cases c with
  | none => cases h
  | some c =>
    obtain ⟨x, s, h1, rfl, h2, h3⟩ | ⟨h1, _⟩ := checkCommentR_error (k := some k) (c := c) h
    · cases h1
      exact ⟨c, hc c rfl, rfl, h2, h3⟩
    · cases h1

theorem topComment_honest {raw : List Module} {cfg : List String} {c : Option Comment}
    (hc : ∀ x, c = some x → TopComment raw x) {e : Message} (h : checkCommentOptR none c = .error e) :
    Sure raw cfg e := by
  cases c with
  | none => cases h
  | some c =>
    obtain ⟨x, s, h1, _⟩ | ⟨_, rfl, h1⟩ := checkCommentR_error (k := none) (c := c) h
    · cases h1
    · exact ⟨c, hc c rfl, h1⟩

/-! ### Enumerations -/

/-- A filled slot was filled by an item whose position stands for it. -/
theorem fillSlotsR_error {its : List EnumItem} : ∀ {slots : List (Option EnumItem)} {done : List EnumItem} {e : Message},
    (∀ (i : Nat) x, slots[i]? = some (some x) → x ∈ done ∧ pyIndex slots.length x.pos = some i) →
    fillSlotsR slots its = .error e →
    (e = .indexOut ∧ ∃ i ∈ its, i.pos < 0 ∨ (slots.length : Int) ≤ i.pos) ∨
    ∃ (l₁ l₂ : List EnumItem) (i j : EnumItem), its = l₁ ++ j :: l₂ ∧ i ∈ done ++ l₁ ∧ e = .indexTwice j.pos ∧
      ∃ q : Nat, q < slots.length ∧ StandsFor slots.length i.pos q ∧ StandsFor slots.length j.pos q := by
  induction its with
  | nil => intro _ _ _ _ h; cases h
  | cons it its ih =>
    intro slots done e hs h
    unfold fillSlotsR at h
    split at h
    · rename_i hp
      cases h
      refine .inl ⟨rfl, it, by simp, ?_⟩
      unfold pyIndex at hp
      split at hp
      · cases hp
      · omega
    · rename_i i hi
      split at h
      · rename_i hn
        have := ih (slots := slots.set i (some it)) (done := done ++ [it]) (e := e) (by
          intro j x hx
          rw [List.length_set]
          by_cases hji : i = j
          · subst hji
            rw [List.getElem?_set_self (pyIndex_some hi).1] at hx
            cases hx
            exact ⟨by simp, hi⟩
          · rw [List.getElem?_set_ne hji] at hx
            obtain ⟨h1, h2⟩ := hs j x hx
            exact ⟨by simp [h1], h2⟩) h
        rw [List.length_set] at this
        rcases this with ⟨h1, k, hk, h2⟩ | ⟨l₁, l₂, a, b, rfl, h1, h2, h3⟩
        · exact .inl ⟨h1, k, by simp [hk], h2⟩
        · exact .inr ⟨it :: l₁, l₂, a, b, rfl, by simpa using h1, h2, h3⟩
      · rename_i hn
        cases h
        obtain ⟨hlt, hpos⟩ := pyIndex_some hi
        rcases hx : slots[i]? with _ | _ | x
        · rw [List.getElem?_eq_none_iff] at hx; omega
        · exact (hn hx).elim
        · obtain ⟨h1, h2⟩ := hs i x hx
          obtain ⟨_, hpx⟩ := pyIndex_some h2
          exact .inr ⟨[], its, x, it, rfl, by simp [h1], rfl, i, hlt, hpx, hpos⟩

theorem checkEnumeratedR_error {its : List EnumItem} {e : Message} (h : checkEnumeratedR its = .error e) :
    (e = .indices ∧ ¬ WellNumbered its) ∨ (e = .indexOut ∧ ∃ i ∈ its, i.pos < 0 ∨ (its.length : Int) ≤ i.pos) ∨
    ∃ (l₁ l₂ : List EnumItem) (i j : EnumItem), its = l₁ ++ j :: l₂ ∧ i ∈ l₁ ∧ e = .indexTwice j.pos ∧
      ∃ q : Nat, q < its.length ∧ StandsFor its.length i.pos q ∧ StandsFor its.length j.pos q := by
  unfold checkEnumeratedR at h
  dsimp only at h
  split at h
  · cases h
  · split at h
    · rename_i hs
      cases h
      exact .inl ⟨rfl, fun hw => hs (perm_sum_int hw)⟩
    · right
      have := fillSlotsR_error (done := []) (by
        intro i x hx
        rw [List.getElem?_replicate] at hx
        split at hx <;> cases hx) h
      rw [List.length_replicate] at this
      simpa using this

/-! ### Members and definitions -/

theorem null_used {t : AType} (h : t.name = "NULL") : UsesName t "NULL" := (usesName_iff _ _).2 h

theorem processMembersR_honest {raw : List Module} {cfg : List String} {m : Module} (hm : m ∈ raw) {d : Def} (hd : d ∈ m.defs)
    {ks : List Member} (hk : ∀ k ∈ ks, k ∈ d.members) {e : Message} (h : processMembersR ks = .error e) :
    Sure raw cfg e := by
  induction ks with
  | nil => cases h
  | cons k ks ih =>
    rcases bindR_error.1 h with h | ⟨_, _, h⟩
    · have hu : TypeUsed raw k.type := ⟨m, hm, d, hd, .inl ⟨k, hk k (by simp), rfl⟩⟩
      rcases bindR_error.1 h with h | ⟨_, _, h⟩
      · exact type_honest hu h
      · rcases bindR_error.1 h with h | ⟨_, _, h⟩
        · exact keyComment_honest (fun x hx => ⟨m, hm, d, hd, .inl ⟨k, hk k (by simp), rfl, hx⟩⟩) h
        · unfold nullCheckMemberR at h
          split at h
          · rename_i hn
            cases h
            exact ⟨k.type, hu, null_used hn⟩
          · cases h
    · exact ih (fun k hk' => hk k (by simp [hk'])) h

theorem processEnumCommentsR_honest {raw : List Module} {cfg : List String} {m : Module} (hm : m ∈ raw) {n : String}
    {c : Option Comment} {its : List EnumItem} (hd : Def.enum n c its ∈ m.defs) {l : List EnumItem} (hl : ∀ i ∈ l, i ∈ its)
    {e : Message} (h : processEnumCommentsR l = .error e) : Sure raw cfg e := by
  induction l with
  | nil => cases h
  | cons i l ih =>
    rcases bindR_error.1 h with h | ⟨_, _, h⟩
    · exact keyComment_honest (fun x hx => ⟨m, hm, _, hd, .inr ⟨n, c, its, rfl, i, hl i (by simp), rfl, hx⟩⟩) h
    · exact ih (fun k hk' => hl k (by simp [hk'])) h

theorem checkPosixR_honest {raw : List Module} {cfg : List String} {m : Module} (hm : m ∈ raw) {n : String}
    {c : Option Comment} {t : AType} (hd : Def.simple n c t ∈ m.defs) {e : Message} (h : checkPosixR n t = .error e) :
    Sure raw cfg e := by
  unfold checkPosixR at h
  split at h
  · cases h
  · rename_i b x hp
    have hs := standardRange_iff.2 hp
    split at h
    · rename_i lo hi h1 h2
      split at h
      · cases h
      · rename_i hne
        cases h
        refine ⟨⟨m, hm, c, t, hd, h1, h2⟩, b, x, hs, ?_⟩
        rintro ⟨⟨a, ha, a1, a2⟩, a', ha', b1, b2⟩
        cases ha
        cases ha'
        apply hne
        rw [Bool.and_eq_true, Num.eq_iff, Num.eq_iff]
        exact ⟨⟨a2, a1⟩, b2, b1⟩
    · rename_i hne
      cases h
      refine ⟨⟨m, hm, c, t, hd, rfl, rfl⟩, b, x, hs, ?_⟩
      rintro ⟨⟨a, ha, _⟩, a', ha', _⟩
      exact hne a a' ha ha'

theorem processDefR_honest {raw : List Module} {cfg : List String} {m : Module} (hm : m ∈ raw) {d : Def} (hd : d ∈ m.defs)
    {e : Message} (h : processDefR d = .error e) : Honest1 raw cfg e := by
  have htop : ∀ {c : Option Comment}, d.comment = c → ∀ x, c = some x → TopComment raw x :=
    fun hc x hx => ⟨m, hm, .inr (.inr ⟨d, hd, hc.trans hx⟩)⟩
  cases d with
  | seq n c ms =>
    rcases bindR_error.1 h with h | ⟨_, _, h⟩
    · exact .inl (topComment_honest (htop rfl) h)
    · rcases bindR_error.1 h with h | ⟨_, _, h⟩
      · exact .inl (processMembersR_honest hm hd (fun _ hk => hk) h)
      · exact (pureR_error h).elim
  | choice n c ms =>
    rcases bindR_error.1 h with h | ⟨_, _, h⟩
    · exact .inl (topComment_honest (htop rfl) h)
    · rcases bindR_error.1 h with h | ⟨_, _, h⟩
      · exact .inl (processMembersR_honest hm hd (fun _ hk => hk) h)
      · exact (pureR_error h).elim
  | enum n c its =>
    rcases bindR_error.1 h with h | ⟨_, _, h⟩
    · exact .inl (topComment_honest (htop rfl) h)
    · rcases bindR_error.1 h with h | ⟨_, _, h⟩
      · exact .inl (processEnumCommentsR_honest hm hd (fun _ hi => hi) h)
      · rcases bindR_error.1 h with h | ⟨_, _, h⟩
        · rcases checkEnumeratedR_error h with ⟨rfl, h1⟩ | ⟨rfl, h1⟩ | ⟨l₁, l₂, i, j, h1, h2, rfl, h3⟩
          · exact .inl ⟨m, hm, n, c, its, hd, h1⟩
          · exact .inl ⟨m, hm, n, c, its, hd, h1⟩
          · exact .inr ⟨⟨_, rfl⟩, m, hm, n, c, its, hd, l₁, l₂, i, j, h2, h1, rfl, h3⟩
        · exact (pureR_error h).elim
  | simple n c t =>
    have hu : TypeUsed raw t := ⟨m, hm, _, hd, .inr ⟨n, c, rfl⟩⟩
    rcases bindR_error.1 h with h | ⟨_, _, h⟩
    · exact .inl (type_honest hu h)
    · rcases bindR_error.1 h with h | ⟨_, _, h⟩
      · exact .inl (topComment_honest (htop rfl) h)
      · rcases bindR_error.1 h with h | ⟨_, _, h⟩
        · unfold nullCheckSimpleR at h
          split at h
          · rename_i hn
            cases h
            exact .inl ⟨t, hu, null_used hn⟩
          · exact .inl (checkPosixR_honest hm hd h)
        · exact (pureR_error h).elim

theorem processDefsR_honest {raw : List Module} {cfg : List String} {m : Module} (hm : m ∈ raw) {ds : List Def}
    (hd : ∀ d ∈ ds, d ∈ m.defs) {e : Message} (h : processDefsR ds = .error e) : Honest1 raw cfg e := by
  induction ds with
  | nil => cases h
  | cons d ds ih =>
    rcases bindR_error.1 h with h | ⟨_, _, h⟩
    · exact processDefR_honest hm (hd d (by simp)) h
    · rcases bindR_error.1 h with h | ⟨_, _, h⟩
      · exact ih (fun d hd' => hd d (by simp [hd'])) h
      · exact (pureR_error h).elim

/-! ### Modules -/

theorem same_known {m m' : Module} (h : SameModule m m') (n : String) :
    (knownTypes m').contains n = true ↔ Known m n := by
  unfold knownTypes Known
  rw [sameDefs_names h.2.2, h.2.1, List.contains_iff_mem, List.mem_append, List.mem_append, builtIn_iff]
  simp only [List.mem_flatMap, List.mem_map, or_assoc]
  constructor
  · rintro (h | h | h)
    · exact .inl h
    · exact .inr (.inr h)
    · exact .inr (.inl h)
  · rintro (h | h | h)
    · exact .inl h
    · exact .inr (.inr h)
    · exact .inr (.inl h)

theorem checkUsedTypesR_honest {raw : List Module} {cfg : List String} {m m' : Module} (hm : m ∈ raw) (hs : SameModule m m')
    {e : Message} (h : checkUsedTypesR m' = .error e) : Sure raw cfg e := by
  unfold checkUsedTypesR at h
  split at h
  · cases h
  · rename_i k hk
    cases h
    obtain ⟨d', hd', hk'⟩ := List.mem_flatMap.1 (List.mem_of_find?_eq_some hk)
    obtain ⟨d, hd, hdd⟩ := all2_mem_right hs.2.2 hd'
    refine ⟨m, hm, hs.1.symm, ⟨d, hd, k, hdd.2.1 ▸ hk', (usesName_iff _ _).2 rfl⟩, fun hn => ?_⟩
    have h1 := List.find?_some hk
    rw [(same_known hs _).2 hn] at h1
    cases h1

theorem processModuleR_honest {raw : List Module} {cfg : List String} {m : Module} (hm : m ∈ raw) {e : Message}
    (h : processModuleR m = .error e) : Honest1 raw cfg e := by
  rcases bindR_error.1 h with h | ⟨_, _, h⟩
  · exact .inl (topComment_honest (fun x hx => ⟨m, hm, .inl hx⟩) h)
  · rcases bindR_error.1 h with h | ⟨_, _, h⟩
    · exact .inl (topComment_honest (fun x hx => ⟨m, hm, .inr (.inl hx)⟩) h)
    · rcases bindR_error.1 h with h | ⟨ds, hds, h⟩
      · exact processDefsR_honest hm (fun _ hd => hd) h
      · rcases bindR_error.1 h with h | ⟨_, _, h⟩
        · have hs : SameModule m { m with defs := ds } :=
            ⟨rfl, rfl, processDefs_same ((processDefs_erases _).1 _ hds)⟩
          exact .inl (checkUsedTypesR_honest hm hs h)
        · exact (pureR_error h).elim

theorem processModulesR_honest {raw : List Module} {cfg : List String} {l : List Module} (hl : ∀ m ∈ l, m ∈ raw) {e : Message}
    (h : processModulesR l = .error e) : Honest1 raw cfg e := by
  induction l with
  | nil => cases h
  | cons m l ih =>
    rcases bindR_error.1 h with h | ⟨_, _, h⟩
    · exact processModuleR_honest (hl m (by simp)) h
    · rcases bindR_error.1 h with h | ⟨_, _, h⟩
      · exact ih (fun d hd' => hl d (by simp [hd'])) h
      · exact (pureR_error h).elim

/-! ### Names of modules, and imports -/

theorem unique_honest {raw ms : List Module} {cfg : List String} (hs : All2 SameModule raw ms) {e : Message}
    (h : validateUniqueModuleNamesR ms cfg = .error e) : Sure raw cfg e := by
  have hn : ms.map (·.name) = raw.map (·.name) := all2_map_eq hs _ _ fun _ _ h => h.1
  unfold validateUniqueModuleNamesR at h
  split at h
  · rename_i hd
    cases h
    exact ⟨hd, fun n => mem_duplicates⟩
  · split at h
    · rename_i hd
      cases h
      rw [hn] at hd ⊢
      exact ⟨hd, fun n => mem_duplicates⟩
    · cases h

theorem resolveDepsR_honest {raw ms : List Module} {cfg : List String} (hs : All2 SameModule raw ms) {l : List Module}
    (hl : ∀ m ∈ l, m ∈ ms) {e : Message} (h : resolveDepsR ms l = .error e) : Sure raw cfg e := by
  have hn : ms.map (·.name) = raw.map (·.name) := all2_map_eq hs _ _ fun _ _ h => h.1
  induction l with
  | nil => cases h
  | cons m l ih =>
    have ih := ih fun d hd' => hl d (by simp [hd'])
    unfold resolveDepsR at h
    split at h
    · rcases bindR_error.1 h with h | ⟨_, _, h⟩
      · exact ih h
      · exact (pureR_error h).elim
    · dsimp only at h
      split at h
      · rename_i hne
        cases h
        obtain ⟨r, hr, hrm⟩ := all2_mem_right hs (hl m (by simp))
        refine ⟨r, hr, hrm.1.symm, hne, fun x => ?_⟩
        rw [List.mem_eraseDups, List.mem_filter, List.mem_map, hrm.2.1, hn]
        refine and_congr Iff.rfl ?_
        rw [Bool.not_eq_true', ← Bool.not_eq_true, List.contains_iff_mem, List.mem_map]
        exact ⟨fun h r hr he => h ⟨r, hr, he⟩, fun h ⟨r, hr, he⟩ => h r hr he⟩
      · rcases bindR_error.1 h with h | ⟨_, _, h⟩
        · exact ih h
        · exact (pureR_error h).elim

theorem resolveDeps_imported {all l : List Module} {bs : List BMod} (h : resolveDeps all l = .ok bs) :
    ∀ b ∈ bs, b.mod ∈ l ∧ ∀ im ∈ b.imported, im ∈ all := by
  induction l generalizing bs with
  | nil => cases h; simp
  | cons m l ih =>
    unfold resolveDeps at h
    split at h
    · obtain ⟨tl, h1, h2⟩ := bind_ok.1 h
      obtain rfl := pure_ok.1 h2
      intro b hb
      rcases List.mem_cons.1 hb with rfl | hb
      · exact ⟨by simp, by simp⟩
      · exact ⟨List.mem_cons_of_mem _ (ih h1 b hb).1, (ih h1 b hb).2⟩
    · split at h
      · cases h
      · obtain ⟨tl, h1, h2⟩ := bind_ok.1 h
        obtain rfl := pure_ok.1 h2
        intro b hb
        rcases List.mem_cons.1 hb with rfl | hb
        · refine ⟨by simp, fun im him => ?_⟩
          obtain ⟨i, _, hi⟩ := List.mem_filterMap.1 him
          exact (lastNamed_some hi).1
        · exact ⟨List.mem_cons_of_mem _ (ih h1 b hb).1, (ih h1 b hb).2⟩

theorem allImports_honest {raw ms : List Module} {cfg : List String} (hs : All2 SameModule raw ms) {b : Bundle}
    (hb : build ms = .ok b) {e : Message} (h : checkAllImportsR b.mods = .error e) : Sure raw cfg e := by
  rcases checkAllImportsR_cases b.mods with ⟨h1, _⟩ | ⟨bm, h1, im, h2, h3, _, h5⟩
  · rw [h1] at h; cases h
  · rw [h5] at h
    cases h
    obtain ⟨k1, k2⟩ := resolveDeps_imported (build_ok.1 hb).1 bm h1
    obtain ⟨r, hr, hrm⟩ := all2_mem_right hs k1
    obtain ⟨s, hsr, hsm⟩ := all2_mem_right hs (k2 im h2)
    refine ⟨r, hr, hrm.1.symm, s, hsr, hsm.1.symm, by rw [ne_eq, eraseDups_nil]; exact h3, fun x => ?_⟩
    unfold undefinedFrom ImportedFrom
    rw [List.mem_eraseDups, List.mem_filter, hrm.2.1, sameDefs_names hsm.2.2, hsm.1]
    simp only [List.mem_flatMap, List.mem_filter, decide_eq_true_eq, Bool.not_eq_true']
    rw [← Bool.not_eq_true, List.contains_iff_mem, List.mem_map]
    constructor
    · rintro ⟨⟨i, ⟨h1, h2⟩, h3⟩, h4⟩
      exact ⟨⟨i, h1, h2, h3⟩, fun d hd he => h4 ⟨d, hd, he⟩⟩
    · rintro ⟨⟨i, h1, h2, h3⟩, h4⟩
      exact ⟨⟨i, ⟨h1, h2⟩, h3⟩, fun ⟨d, hd, he⟩ => h4 d hd he⟩

/-! ### Clauses -/

theorem ClauseIn_trans {ds : List Def} {t : String} {c : Comps} {t' : String} {c' : Comps} {t'' : String} {c'' : Comps}
    (h : ClauseIn ds t c t' c') (h' : ClauseIn ds t' c' t'' c'') : ClauseIn ds t c t'' c'' := by
  induction h with
  | here => exact h'
  | inner h1 h2 h3 h4 _ ih => exact .inner h1 h2 h3 h4 (ih h')

/-- What the two messages about clauses tell, for a clause `c` on the type `t`. -/
def ClauseBad (ds : List Def) (d t : String) (c : Comps) (e : Message) : Prop :=
  (∃ t' c' ms k, ClauseIn ds t c t' c' ∧ e = .key k d ∧ HasKey k c' ∧ IsSequence ds t' ms ∧ ∀ x ∈ ms, x.key ≠ k) ∨
  ∃ t' c', ClauseIn ds t c t' c' ∧ e = .usedType t' d ∧ ¬ BuiltIn t' ∧ (seqsNamed ds t').length ≠ 1

theorem memberTypeName_none {ms : List Member} {k : String} (h : memberTypeName ms k = none) : ∀ x ∈ ms, x.key ≠ k := by
  unfold memberTypeName at h
  rw [Option.map_eq_none_iff, List.find?_eq_none] at h
  intro x hx
  simpa using h x hx

/-- `c'` is the end of the clause `c`. -/
theorem withGoR_error {ds : List Def} {d : String} (cs : Comps) : ∀ {t : String} {ms : List Member} {c : Comps},
    IsSequence ds t ms → (∀ k, HasKey k cs → HasKey k c) → (∀ k i, HasInner k i cs → HasInner k i c) → ∀ {e : Message},
    checkWithComponentR.go ds d ms cs = .error e → ClauseBad ds d t c e := by
  induction cs with
  | nil => intro t ms c _ _ _ e h; cases h
  | leaf k v rest ih =>
    intro t ms c hs hk hi e h
    unfold checkWithComponentR.go at h
    split at h
    · exact ih hs (fun k h => hk k (.afterLeaf h)) (fun k i h => hi k i (.afterLeaf h)) h
    · rename_i hn
      cases h
      refine .inl ⟨t, c, ms, k, .here, rfl, hk k .leaf, hs, fun x hx he => hn ?_⟩
      rw [List.any_eq_true]
      exact ⟨x, hx, by simpa using he⟩
  | node k inner rest ih1 ih2 =>
    intro t ms c hs hk hi e h
    unfold checkWithComponentR.go at h
    split at h
    · rename_i hn
      cases h
      exact .inl ⟨t, c, ms, k, .here, rfl, hk k .node, hs, memberTypeName_none hn⟩
    · rename_i tn htn
      obtain ⟨m, ⟨pre, post, rfl, _⟩, rfl, rfl⟩ := memberTypeName_some htn
      have hstep : ClauseIn ds t c m.type.name inner :=
        .inner hs (by simp) (hi _ _ .node) ((usesName_iff _ _).2 rfl) .here
      have hother : (if predefined.contains m.type.name then (.ok () : Except Message Unit)
          else .error (.usedType m.type.name d)) = .error e → (seqsNamed ds m.type.name).length ≠ 1 → ClauseBad ds d t c e := by
        intro h hl
        split at h
        · cases h
        · rename_i hp
          cases h
          refine .inr ⟨_, inner, hstep, rfl, ?_, hl⟩
          rw [builtIn_iff, ← List.contains_iff_mem]
          exact hp
      rcases bindR_error.1 h with h | ⟨_, _, h⟩
      · split at h
        · rename_i ms' hm
          rcases ih1 (c := inner) (seqsNamed_single hm) (fun _ h => h) (fun _ _ h => h) h with
            ⟨t', c', ms, k, g1, g2⟩ | ⟨t', c', g1, g2⟩
          · exact .inl ⟨t', c', ms, k, ClauseIn_trans hstep g1, g2⟩
          · exact .inr ⟨t', c', ClauseIn_trans hstep g1, g2⟩
        · rename_i hm
          refine hother h fun hl => ?_
          obtain ⟨x, hx⟩ := List.length_eq_one_iff.1 hl
          exact hm x hx
      · exact ih2 hs (fun k h => hk k (.afterNode h)) (fun k i h => hi k i (.afterNode h)) h

theorem withR_error {ds : List Def} {d t : String} {cs : Comps} {e : Message}
    (h : checkWithComponentR ds d t cs = .error e) : ClauseBad ds d t cs e := by
  unfold checkWithComponentR at h
  split at h
  · rename_i ms hm
    exact withGoR_error cs (seqsNamed_single hm) (fun _ h => h) (fun _ _ h => h) h
  · rename_i hm
    split at h
    · cases h
    · rename_i hp
      cases h
      refine .inr ⟨t, cs, .here, rfl, ?_, fun hl => ?_⟩
      · rw [builtIn_iff, ← List.contains_iff_mem]
        exact hp
      · obtain ⟨x, hx⟩ := List.length_eq_one_iff.1 hl
        exact hm x hx

theorem seqsNamed_length (ds : List Def) (t : String) :
    (seqsNamed ds t).length = (ds.filter fun x => x.isSeq && x.name = t).length := by
  induction ds with
  | nil => rfl
  | cons d ds ih =>
    unfold seqsNamed at ih ⊢
    cases d with
    | seq n c ms =>
      by_cases h : n = t
      · simp [Def.isSeq, Def.name, h, ih]
      · simp [Def.isSeq, Def.name, h, ih]
    | _ => simp [Def.isSeq, ih]

theorem clauseBad_honest {raw : List Module} {cfg : List String} {d : String} {ms : List Member}
    (hd : IsSequence (defsOf raw) d ms) {m : Member} (hm : m ∈ ms) {cs : Comps} (hc : m.comps = some cs) {e : Message}
    (h : ClauseBad (defsOf raw) d m.type.name cs e) : Honest raw cfg e := by
  rcases h with ⟨t', c', ks, k, h1, rfl, h2, h3, h4⟩ | ⟨t', c', h1, rfl, h2, h3⟩
  · exact .inl ⟨t', c', ks, ⟨ms, hd, m, hm, cs, _, hc, (usesName_iff _ _).2 rfl, h1⟩, h2, h3, h4⟩
  · exact .inr ⟨⟨c', ms, hd, m, hm, cs, _, hc, (usesName_iff _ _).2 rfl, h1⟩, h2, seqsNamed_length _ _ ▸ h3⟩

theorem componentsInnerR_honest {raw : List Module} {cfg : List String} {d : String} {ms : List Member}
    (hd : IsSequence (defsOf raw) d ms) {l : List Member} (hl : ∀ m ∈ l, m ∈ ms) {e : Message}
    (h : checkComponentsR.inner (defsOf raw) d l = .error e) : Honest raw cfg e := by
  induction l with
  | nil => cases h
  | cons m l ih =>
    unfold checkComponentsR.inner at h
    rcases bindR_error.1 h with h | ⟨_, _, h⟩
    · split at h
      · cases h
      · rename_i cs hc
        exact clauseBad_honest hd (hl m (by simp)) hc (withR_error h)
    · exact ih (fun m hm => hl m (by simp [hm])) h

theorem componentsOuterR_honest {raw : List Module} {cfg : List String} {l : List Def} (hl : ∀ d ∈ l, d ∈ defsOf raw)
    {e : Message} (h : checkComponentsR.outer (defsOf raw) l = .error e) : Honest raw cfg e := by
  induction l with
  | nil => cases h
  | cons d l ih =>
    have ih := ih fun m hm => hl m (by simp [hm])
    cases d with
    | seq n c ms =>
      rcases bindR_error.1 h with h | ⟨_, _, h⟩
      · exact componentsInnerR_honest ⟨c, hl _ (by simp)⟩ (fun _ hm => hm) h
      · exact ih h
    | _ => exact ih h

/-! The checks look at the definitions after processing; the SEQUENCEs are the same ones. -/

theorem same_seqsNamed {ds ds' : List Def} (h : All2 SameDef ds ds') (n : String) : seqsNamed ds' n = seqsNamed ds n := by
  induction h with
  | nil => rfl
  | @cons d d' l l' h1 _ ih =>
    unfold seqsNamed at ih ⊢
    rw [List.filterMap_cons, List.filterMap_cons, ih]
    cases d with
    | seq n c ms =>
      rw [(h1.2.2 n c ms).2 rfl]
    | _ =>
      cases d' with
      | seq n c ms =>
        have := (h1.2.2 n c ms).1 rfl
        cases this
      | _ => rfl

theorem withGoR_congr {ds ds' : List Def} (h : ∀ n, seqsNamed ds' n = seqsNamed ds n) (d : String) (cs : Comps)
    (ms : List Member) : checkWithComponentR.go ds' d ms cs = checkWithComponentR.go ds d ms cs := by
  induction cs generalizing ms with
  | nil => rfl
  | leaf k v rest ih =>
    unfold checkWithComponentR.go
    rw [ih]
  | node k inner rest ih1 ih2 =>
    unfold checkWithComponentR.go
    simp only [h, ih1, ih2]

theorem innerR_congr {ds ds' : List Def} (h : ∀ n, seqsNamed ds' n = seqsNamed ds n) (d : String) (l : List Member) :
    checkComponentsR.inner ds' d l = checkComponentsR.inner ds d l := by
  induction l with
  | nil => rfl
  | cons m l ih =>
    unfold checkComponentsR.inner checkWithComponentR
    simp only [h, ih, withGoR_congr h]

theorem outerR_same {ds ds' : List Def} (h : ∀ n, seqsNamed ds' n = seqsNamed ds n) {l l' : List Def} (hl : All2 SameDef l l') :
    checkComponentsR.outer ds' l' = checkComponentsR.outer ds l := by
  induction hl with
  | nil => rfl
  | @cons d d' l l' h1 _ ih =>
    cases d with
    | seq n c ms =>
      obtain rfl := (h1.2.2 n c ms).2 rfl
      show (_ >>= fun _ => _) = (_ >>= fun _ => _)
      rw [ih, innerR_congr h]
    | _ =>
      cases d' with
      | seq n c ms =>
        have := (h1.2.2 n c ms).1 rfl
        cases this
      | _ => exact ih

theorem components_honest {raw ms : List Module} {cfg : List String} (hs : All2 SameModule raw ms) {e : Message}
    (h : checkComponentsR (allDefs ms) = .error e) : Honest raw cfg e := by
  have hd := sameModules_defs hs
  have heq : checkComponentsR.outer (defsOf ms) (defsOf ms) = checkComponentsR.outer (defsOf raw) (defsOf raw) :=
    outerR_same (same_seqsNamed hd) hd
  have h' : checkComponentsR.outer (defsOf ms) (defsOf ms) = .error e := h
  rw [heq] at h'
  exact componentsOuterR_honest (fun _ hd => hd) h'

/-! ### Names of types -/

theorem duplicatesR_error {l : List (String × Def)} : ∀ {already : List (String × String)} {e : Message},
    checkDuplicatesR already l = .error e →
    ∃ l₁ l₂ a b d, l = l₁ ++ (b, d) :: l₂ ∧ e = .typeTwice d.name a b ∧
      ((d.name, a) ∈ already ∨ ∃ d', (a, d') ∈ l₁ ∧ d'.name = d.name) := by
  induction l with
  | nil => intro _ _ h; cases h
  | cons x l ih =>
    intro already e h
    obtain ⟨m, d⟩ := x
    unfold checkDuplicatesR at h
    split at h
    · rename_i m' hm
      cases h
      obtain ⟨l₁, l₂, hl, _⟩ := List.lookup_eq_some_iff.1 hm
      exact ⟨[], l, m', m, d, rfl, rfl, .inl (by rw [hl]; simp)⟩
    · obtain ⟨l₁, l₂, a, b, d', rfl, rfl, h1⟩ := ih h
      refine ⟨(m, d) :: l₁, l₂, a, b, d', rfl, rfl, ?_⟩
      rcases h1 with h1 | ⟨d'', h2, h3⟩
      · rcases List.mem_cons.1 h1 with h1 | h1
        · obtain ⟨he, rfl⟩ := Prod.mk.inj h1
          exact .inr ⟨d, by simp, he.symm⟩
        · exact .inl h1
      · exact .inr ⟨d'', by simp [h2], h3⟩

theorem placed_same {raw ms : List Module} (hs : All2 SameModule raw ms) :
    (placedDefs ms).map (fun x => (x.1, x.2.name)) = (placedDefs raw).map (fun x => (x.1, x.2.name)) := by
  unfold placedDefs
  induction hs with
  | nil => rfl
  | @cons m m' l l' h _ ih =>
    have e : ∀ m : Module, (m.defs.map fun d => (m.name, d)).map (fun x => (x.1, x.2.name)) =
        (m.defs.map Def.name).map fun n => (m.name, n) := by
      intro m
      rw [List.map_map, List.map_map]
      rfl
    rw [List.flatMap_cons, List.flatMap_cons, List.map_append, List.map_append, ih, e, e, h.1, sameDefs_names h.2.2]

theorem duplicates_honest {raw ms : List Module} {cfg : List String} (hs : All2 SameModule raw ms) {e : Message}
    (h : checkDuplicatesR [] (placedDefs ms) = .error e) : Sure raw cfg e := by
  obtain ⟨l₁, l₃, a, b, d, hl, rfl, h1 | ⟨d', hd', hn⟩⟩ := duplicatesR_error h
  · cases h1
  · obtain ⟨k₁, k₂, rfl⟩ := List.append_of_mem hd'
    have hp := placed_same hs
    rw [hl, List.map_append, List.map_append, List.map_cons, List.map_cons] at hp
    obtain ⟨p, r, hr, hp1, hr1⟩ := List.map_eq_append_iff.1 hp.symm
    obtain ⟨p₁, p₂, rfl, _, hp2⟩ := List.map_eq_append_iff.1 hp1
    obtain ⟨x, p₃, rfl, hx, _⟩ := List.map_eq_cons_iff.1 hp2
    obtain ⟨y, r₃, rfl, hy, _⟩ := List.map_eq_cons_iff.1 hr1
    obtain ⟨x1, x2⟩ := x
    obtain ⟨y1, y2⟩ := y
    obtain ⟨rfl, hx2⟩ := Prod.mk.inj hx
    obtain ⟨rfl, hy2⟩ := Prod.mk.inj hy
    exact ⟨p₁, p₃, r₃, x2, y2, hr, hx2.trans hn, hy2⟩

/-! ### Everything -/

theorem validateR_honest {raw ms : List Module} {cfg : List String} (hs : All2 SameModule raw ms) {b : Bundle}
    (hb : build ms = .ok b) {e : Message} (h : validateBundleR b = .error e) : Honest raw cfg e := by
  have hm := build_modules hb
  rcases bindR_error.1 h with h | ⟨_, _, h⟩
  · exact .inl (allImports_honest hs hb h)
  · rcases bindR_error.1 h with h | ⟨_, _, h⟩
    · unfold Bundle.defs at h
      rw [hm] at h
      exact components_honest hs h
    · rw [hm] at h
      exact .inl (duplicates_honest hs h)

theorem missing_honest {raw ms : List Module} {cfg : List String} (hs : All2 SameModule raw ms) {b : Bundle}
    (hb : build ms = .ok b) {e : Message} (h : checkMissingModulesR cfg b = .error e) : Sure raw cfg e := by
  have hn : ms.map (·.name) = raw.map (·.name) := all2_map_eq hs _ _ fun _ _ h => h.1
  have key : ∀ {l l' : List String} {n : String},
      n ∈ (l.filter fun n => !l'.contains n).eraseDups ↔ n ∈ l ∧ n ∉ l' := by
    intro l l' n
    rw [List.mem_eraseDups, List.mem_filter, Bool.not_eq_true', ← Bool.not_eq_true, List.contains_iff_mem]
  unfold checkMissingModulesR at h
  rw [build_modules hb, hn] at h
  dsimp only at h
  split at h
  · rename_i hne
    cases h
    exact ⟨hne, fun n => key⟩
  · split at h
    · rename_i hne
      cases h
      exact ⟨hne, fun n => key⟩
    · cases h

theorem texts_honest {raw : List Module} {cfg : List String} {e : Message} (h : buildFromTextsR raw = .error e) :
    Honest raw cfg e := by
  rcases bindR_error.1 h with h | ⟨ms, hms, h⟩
  · exact (processModulesR_honest (fun _ hm => hm) h).honest
  · have hs := processModules_same ((processModules_erases raw).1 _ hms)
    rcases bindR_error.1 h with h | ⟨b, hb, h⟩
    · rcases bindR_error.1 h with h | ⟨_, _, h⟩
      · exact .inl (resolveDepsR_honest hs (fun _ hm => hm) h)
      · exact (pureR_error h).elim
    · rcases bindR_error.1 h with h | ⟨_, _, h⟩
      · exact validateR_honest hs ((build_erases ms).1 _ hb) h
      · exact (pureR_error h).elim

theorem config_honest {raw : List Module} {cfg : List String} {e : Message} (h : buildFromConfigR raw cfg = .error e) :
    Honest raw cfg e := by
  rcases bindR_error.1 h with h | ⟨ms, hms, h⟩
  · exact (processModulesR_honest (fun _ hm => hm) h).honest
  · have hs := processModules_same ((processModules_erases raw).1 _ hms)
    rcases bindR_error.1 h with h | ⟨_, _, h⟩
    · exact .inl (unique_honest hs h)
    · rcases bindR_error.1 h with h | ⟨b, hb, h⟩
      · rcases bindR_error.1 h with h | ⟨_, _, h⟩
        · exact .inl (resolveDepsR_honest hs (fun _ hm => hm) h)
        · exact (pureR_error h).elim
      · have hb := (build_erases ms).1 _ hb
        rcases bindR_error.1 h with h | ⟨_, _, h⟩
        · exact validateR_honest hs hb h
        · rcases bindR_error.1 h with h | ⟨_, _, h⟩
          · exact .inl (missing_honest hs hb h)
          · exact (pureR_error h).elim

/-! ### A clause on a type that is not defined is refused before -/

theorem clauseIn_used {ds : List Def} {t : String} {c : Comps} {t' : String} {c' : Comps} (h : ClauseIn ds t c t' c')
    (hu : ∃ d ∈ ds, ∃ k ∈ d.members, UsesName k.type t) : ∃ d ∈ ds, ∃ k ∈ d.members, UsesName k.type t' := by
  induction h with
  | here => exact hu
  | inner h1 h2 _ h4 _ ih =>
    obtain ⟨_, h1⟩ := h1
    exact ih ⟨_, h1, _, h2, h4⟩

theorem clauseOf_used {ds : List Def} {d t : String} {c : Comps} (h : ClauseOf ds d t c) :
    ∃ x ∈ ds, ∃ k ∈ x.members, UsesName k.type t := by
  obtain ⟨ms, ⟨c, h1⟩, k, hk, cs, n, _, hu, hi⟩ := h
  exact clauseIn_used hi ⟨_, h1, k, hk, hu⟩

theorem used_defined {raw ms : List Module} (hn : (raw.map (·.name)).Nodup) (hp : processModules raw = .ok ms) {b : Bundle}
    (hb : build ms = .ok b) (hi : ∀ bm ∈ b.mods, importsDefined bm = true) {t : String} (ht : ¬ BuiltIn t)
    (hu : ∃ d ∈ defsOf raw, ∃ k ∈ d.members, UsesName k.type t) : ∃ x ∈ defsOf raw, x.name = t := by
  have hs := processModules_same hp
  have hnames : ms.map (·.name) = raw.map (·.name) := all2_map_eq hs _ _ fun _ _ h => h.1
  obtain ⟨d, hd, k, hk, hu⟩ := hu
  obtain ⟨m, hm, hd⟩ := List.mem_flatMap.1 hd
  obtain ⟨m', hm', hpm⟩ := all2_mem_left (processModules_ok.1 hp) hm
  obtain ⟨_, _, ds, h1, rfl, h2⟩ := processModule_ok.1 hpm
  have hsame : SameModule m { m with defs := ds } := ⟨rfl, rfl, processDefs_same h1⟩
  obtain ⟨d', hd', hdd⟩ := all2_mem_left hsame.2.2 hd
  have hk' := (checkUsedTypes_ok _).1 h2 d' hd' k (hdd.2.1 ▸ hk)
  rw [(usesName_iff _ _).1 hu] at hk'
  rcases (same_known hsame t).1 (List.contains_iff_mem.2 hk') with h | ⟨x, hx, he⟩ | ⟨i, hi', hti⟩
  · exact (ht h).elim
  · exact ⟨x, List.mem_flatMap.2 ⟨m, hm, hx⟩, he⟩
  · have hr := (build_ok.1 hb).1
    obtain ⟨k1, k2⟩ := (resolveDeps_nodup (hnames ▸ hn)).1 hr
    have hsome := k1 _ hm' i hi'
    obtain ⟨y, hy⟩ := Option.isSome_iff_exists.1 hsome
    obtain ⟨hy1, hy2⟩ := lastNamed_some hy
    have hbm := hi ⟨{ m with defs := ds }, m.imports.filterMap (fun i => lastNamed ms i.module)⟩
      (by rw [k2]; exact List.mem_map.2 ⟨_, hm', rfl⟩)
    unfold importsDefined at hbm
    have := List.all_eq_true.1 (List.all_eq_true.1 (List.all_eq_true.1 hbm y (List.mem_filterMap.2 ⟨i, hi', hy⟩)) i
      (List.mem_filter.2 ⟨hi', by simpa using hy2.symm⟩)) t hti
    rw [List.contains_iff_mem] at this
    obtain ⟨z, hz, hzn⟩ := List.mem_map.1 this
    obtain ⟨y', hy', hyy⟩ := all2_mem_right hs hy1
    obtain ⟨z', hz', hzz⟩ := all2_mem_right hyy.2.2 hz
    exact ⟨z', List.mem_flatMap.2 ⟨y', hy', hz'⟩, hzz.1 ▸ hzn⟩

end Apg
