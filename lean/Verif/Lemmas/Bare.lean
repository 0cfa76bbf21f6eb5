import Verif.Spec.Comments
import Verif.Lemmas.Program
import Verif.Lemmas.Comments

/-!
# Validation of modules without comments
-/

namespace Apg

open Parse Spec

theorem checkCommentOpt_ok {k : Bool} {c : Option Comment} :
    checkCommentOpt k c = .ok () ↔ ∀ x ∈ c, CleanComment x := by
  cases c with
  | none => simp [checkCommentOpt]
  | some c => rw [checkCommentOpt, checkComment_ok]; simp

theorem processEnumComments_ok (its : List EnumItem) :
    processEnumComments its = .ok () ↔ ∀ it ∈ its, checkCommentOpt true it.comment = .ok () := by
  induction its with
  | nil => simp [processEnumComments]
  | cons m ms ih => simp [processEnumComments, bind_unit_ok, ih]

/-! ### Enumerations -/

theorem renumberFrom_bare (k : Nat) (its : List EnumItem) :
    renumberFrom k (its.map bareItem) = (renumberFrom k its).map bareItem := by
  induction its generalizing k with
  | nil => rfl
  | cons it its ih => simp only [List.map_cons, renumberFrom, ih]; rfl

theorem fillSlots_bare (its : List EnumItem) : ∀ (slots r : List (Option EnumItem)),
    fillSlots slots its = .ok r →
    fillSlots (slots.map (Option.map bareItem)) (its.map bareItem) = .ok (r.map (Option.map bareItem)) := by
  induction its with
  | nil => intro slots r h; simp [fillSlots] at h; subst h; rfl
  | cons it its ih =>
    intro slots r h
    rw [fillSlots] at h
    rw [List.map_cons, fillSlots]
    show (match pyIndex (slots.map (Option.map bareItem)).length it.pos with | none => _ | some i => _) = _
    rw [List.length_map]
    split at h
    · cases h
    · rename_i i hi
      rw [hi]
      simp only [List.getElem?_map]
      split at h
      · rename_i hs
        rw [hs]
        have := ih _ _ h
        rw [List.map_set] at this
        exact this
      · cases h

theorem checkEnumerated_bare {its : List EnumItem} {slots : List (Option EnumItem)}
    (h : checkEnumerated its = .ok slots) :
    checkEnumerated (its.map bareItem) = .ok (slots.map (Option.map bareItem)) := by
  have e : (its.map bareItem).map (·.pos) = its.map (·.pos) := by
    rw [List.map_map]; rfl
  unfold checkEnumerated at h ⊢
  simp only [e, List.length_map] at h ⊢
  split
  · rename_i hz
    rw [if_pos hz] at h; cases h
    rw [renumberFrom_bare]; simp [List.map_map, Function.comp_def]
  · rename_i hz
    rw [if_neg hz] at h
    split
    · rename_i hn; rw [if_pos hn] at h; cases h
    · rename_i hn
      rw [if_neg hn] at h
      have := fillSlots_bare _ _ _ h
      rwa [List.map_replicate] at this

theorem filterMap_bare (slots : List (Option EnumItem)) :
    (slots.map (Option.map bareItem)).filterMap id = (slots.filterMap id).map bareItem := by
  induction slots with
  | nil => rfl
  | cons s slots ih => cases s <;> simp [ih]

/-! ### Definitions and modules -/

theorem processMember_bare {m : Member} (h : processMember m = .ok ()) :
    processMember (bareMember m) = .ok () := by
  rw [processMember_ok] at h ⊢
  exact ⟨h.1, rfl, h.2.2⟩

theorem processMembers_bare {ms : List Member} (h : processMembers ms = .ok ()) :
    processMembers (ms.map bareMember) = .ok () := by
  rw [processMembers_ok] at h ⊢
  intro m hm
  obtain ⟨m', hm', rfl⟩ := List.mem_map.1 hm
  exact processMember_bare (h m' hm')

theorem processDef_bare {d d' : Def} (h : processDef d = .ok d') :
    processDef (bareDef d) = .ok (bareDef d') := by
  cases d with
  | seq n c ms =>
    simp only [processDef, bind_unit_ok, pure_ok] at h
    obtain ⟨_, h2, rfl⟩ := h
    simp only [bareDef, processDef, bind_unit_ok, pure_ok]
    exact ⟨rfl, processMembers_bare h2, trivial⟩
  | choice n c ms =>
    simp only [processDef, bind_unit_ok, pure_ok] at h
    obtain ⟨_, h2, rfl⟩ := h
    simp only [bareDef, processDef, bind_unit_ok, pure_ok]
    exact ⟨rfl, processMembers_bare h2, trivial⟩
  | enum n c its =>
    simp only [processDef, bind_ok, exists_unit, pure_ok] at h
    obtain ⟨_, _, slots, h3, rfl⟩ := h
    simp only [bareDef, processDef, bind_ok, exists_unit, pure_ok]
    refine ⟨rfl, ?_, _, checkEnumerated_bare h3, by rw [filterMap_bare]⟩
    rw [processEnumComments_ok]
    intro it hit
    obtain ⟨it', _, rfl⟩ := List.mem_map.1 hit
    rfl
  | simple n c t =>
    simp only [processDef, bind_ok, exists_unit, pure_ok] at h
    obtain ⟨h1, _, h3, rfl⟩ := h
    simp only [bareDef, processDef, bind_ok, exists_unit, pure_ok]
    exact ⟨h1, rfl, h3, trivial⟩

theorem bareDef_name (d : Def) : (bareDef d).name = d.name := by cases d <;> rfl

theorem bareDef_members (d : Def) : (bareDef d).members = d.members.map bareMember := by
  cases d <;> rfl

theorem processDefs_bare {ds ds' : List Def} (h : All2 (fun d d' => processDef d = .ok d') ds ds') :
    All2 (fun d d' => processDef d = .ok d') (ds.map bareDef) (ds'.map bareDef) := by
  induction h with
  | nil => exact .nil
  | cons h _ ih => exact .cons (processDef_bare h) ih

theorem processModule_bare {m m' : Module} (h : processModule m = .ok m') :
    processModule (bare m) = .ok (bare m') := by
  obtain ⟨_, _, ds, h3, rfl, h4⟩ := processModule_ok.1 h
  refine processModule_ok.2 ⟨rfl, rfl, ds.map bareDef, ?_, rfl, ?_⟩
  · exact processDefs_ok.2 (processDefs_bare (processDefs_ok.1 h3))
  · rw [checkUsedTypes_ok] at h4 ⊢
    intro d hd k hk
    obtain ⟨d', hd', rfl⟩ := List.mem_map.1 hd
    rw [bareDef_members] at hk
    obtain ⟨k', hk', rfl⟩ := List.mem_map.1 hk
    have := h4 d' hd' k' hk'
    have e : knownTypes (bare { m with defs := ds }) = knownTypes { m with defs := ds } := by
      simp only [knownTypes, bare, List.map_map]
      congr 1
      exact List.map_congr_left fun d _ => bareDef_name d
    rw [e]; exact this

/-! ### Accepted comments -/

theorem processDef_clean {d d' : Def} (h : processDef d = .ok d') :
    ∀ c ∈ commentsOf d, CleanComment c := by
  cases d with
  | seq n c ms =>
    simp only [processDef, bind_unit_ok, pure_ok] at h
    obtain ⟨h1, h2, rfl⟩ := h
    rw [processMembers_ok] at h2
    rw [checkCommentOpt_ok] at h1
    intro x hx
    rcases List.mem_append.1 hx with hx | hx
    · exact h1 x (by simpa using hx)
    · obtain ⟨m, hm, hc⟩ := List.mem_filterMap.1 hx
      exact checkCommentOpt_ok.1 ((processMember_ok m).1 (h2 m hm)).2.1 x hc
  | choice n c ms =>
    simp only [processDef, bind_unit_ok, pure_ok] at h
    obtain ⟨h1, h2, rfl⟩ := h
    rw [processMembers_ok] at h2
    rw [checkCommentOpt_ok] at h1
    intro x hx
    rcases List.mem_append.1 hx with hx | hx
    · exact h1 x (by simpa using hx)
    · obtain ⟨m, hm, hc⟩ := List.mem_filterMap.1 hx
      exact checkCommentOpt_ok.1 ((processMember_ok m).1 (h2 m hm)).2.1 x hc
  | enum n c its =>
    simp only [processDef, bind_ok, exists_unit, pure_ok] at h
    obtain ⟨h1, h2, _⟩ := h
    rw [processEnumComments_ok] at h2
    rw [checkCommentOpt_ok] at h1
    intro x hx
    rcases List.mem_append.1 hx with hx | hx
    · exact h1 x (by simpa using hx)
    · obtain ⟨m, hm, hc⟩ := List.mem_filterMap.1 hx
      exact checkCommentOpt_ok.1 (h2 m hm) x hc
  | simple n c t =>
    simp only [processDef, bind_ok, exists_unit, pure_ok] at h
    obtain ⟨_, h1, _⟩ := h
    rw [checkCommentOpt_ok] at h1
    intro x hx
    exact h1 x (by simpa [commentsOf] using hx)

theorem processModule_clean {m m' : Module} (h : processModule m = .ok m') :
    (∀ c ∈ m.comment.toList ++ m.commentImport.toList, CleanComment c) ∧
    ∀ d ∈ m.defs, ∀ c ∈ commentsOf d, CleanComment c := by
  obtain ⟨h1, h2, ds, h3, _⟩ := processModule_ok.1 h
  rw [checkCommentOpt_ok] at h1 h2
  refine ⟨fun c hc => ?_, fun d hd => ?_⟩
  · rcases List.mem_append.1 hc with hc | hc
    · exact h1 c (by simpa using hc)
    · exact h2 c (by simpa using hc)
  · obtain ⟨d', _, hd'⟩ := all2_mem_left (processDefs_ok.1 h3) hd
    exact processDef_clean hd'

end Apg
