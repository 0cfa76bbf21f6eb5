import Verif.Spec.CFields
import Verif.Lemmas.SizeSpec
import Verif.Lemmas.Names
import Verif.Model.CMap

namespace Apg
open Spec

theorem mem_commentsOf {d : Def} {c : Comment} : c ∈ commentsOf d ↔
    d.comment = some c ∨ (∃ m ∈ d.members, m.comment = some c) ∨
      ∃ n x its, d = .enum n x its ∧ ∃ it ∈ its, it.comment = some c := by
  cases d with
  | enum n x its =>
    simp only [commentsOf, Def.comment, Def.members, List.mem_append, Option.mem_toList,
      List.mem_filterMap, List.not_mem_nil, false_and, exists_false, false_or, Def.enum.injEq]
    constructor
    · rintro (h | h)
      · exact Or.inl h
      · exact Or.inr ⟨_, _, _, ⟨rfl, rfl, rfl⟩, h⟩
    · rintro (h | ⟨_, _, _, ⟨rfl, rfl, rfl⟩, h⟩)
      · exact Or.inl h
      · exact Or.inr h
  | _ => simp [commentsOf, Def.comment, Def.members]

theorem checkEnumerated_comments {its : List EnumItem} {slots : List (Option EnumItem)}
    (h : checkEnumerated its = .ok slots) {it : EnumItem} (hi : it ∈ slots.filterMap id) :
    ∃ it' ∈ its, it'.key = it.key ∧ it'.comment = it.comment := by
  unfold checkEnumerated at h
  simp only at h
  split at h
  · cases h
    have hr : it ∈ renumberFrom 0 its := by simpa using hi
    have hm : (it.key, it.comment) ∈ (renumberFrom 0 its).map (fun it => (it.key, it.comment)) :=
      List.mem_map.2 ⟨it, hr, rfl⟩
    rw [renumberFrom_keys] at hm
    obtain ⟨it', h1, h2⟩ := List.mem_map.1 hm
    simp only [Prod.mk.injEq] at h2
    exact ⟨it', h1, h2.1, h2.2⟩
  · split at h
    · cases h
    · obtain ⟨_, h2, _⟩ := fillSlots_ok _ _ _ h
      have := h2.mem_iff.1 hi
      have hn : (List.replicate its.length (none : Option EnumItem)).filterMap id = [] := by
        simp
      rw [hn, List.nil_append] at this
      exact ⟨it, this, rfl, rfl⟩

theorem processDef_comments {d d' : Def} (h : processDef d = .ok d') {c : Comment}
    (hc : c ∈ commentsOf d') : c ∈ commentsOf d := by
  obtain ⟨_, p2, p3, _, p5, p6, p7, p8⟩ := processDef_ok h
  rw [mem_commentsOf] at hc ⊢
  rw [p3, p2] at hc
  rcases hc with hc | hc | ⟨n, x, its, rfl, it, hit, hc⟩
  · exact Or.inl hc
  · exact Or.inr (Or.inl hc)
  · right; right
    cases d with
    | seq n c ms => have := p6 n c ms rfl; cases this
    | choice n c ms => have := p7 n c ms rfl; cases this
    | simple n c t => have := (p5 n c t rfl).1; cases this
    | enum n c its' =>
      obtain ⟨slots, h1, h2⟩ := p8 n c its' rfl
      cases h2
      obtain ⟨it', h3, _, h4⟩ := checkEnumerated_comments h1 hit
      exact ⟨_, _, _, rfl, it', h3, by rw [h4, hc]⟩

/-- The comments of an accepted bundle come from the source. -/
theorem accepted_comments {raw : List Module} {b : Bundle} (hg : ∀ m ∈ raw, GrammarComments m)
    (h : buildFromTexts raw = .ok b) : ∀ m ∈ b.modules, GrammarComments m := by
  obtain ⟨ms, h1, h2, h3⟩ := buildFromTexts_ok.1 h
  rw [build_modules h2]
  intro m hm
  obtain ⟨m0, hm0, hmm⟩ := all2_mem_right (processModules_ok.1 h1) hm
  obtain ⟨_, _, ds, k1, rfl, _⟩ := processModule_ok.1 hmm
  refine ⟨(hg m0 hm0).1, ?_⟩
  intro d hd c hc
  obtain ⟨d0, hd0, hdd⟩ := all2_mem_right (processDefs_ok.1 k1) hd
  exact (hg m0 hm0).2 d0 hd0 c (processDef_comments hdd hc)

/-! ### Characters of comments -/

theorem rstrip_append {a b : Text} (h : ∃ r c, a = r ++ [c] ∧ c ≠ ' ') : rstrip (a ++ b) = a ++ rstrip b := by
  obtain ⟨r, c, rfl, hc⟩ := h
  unfold rstrip
  rw [List.reverse_append, List.dropWhile_append]
  split
  · rename_i he
    have : b.reverse.dropWhile (fun x => decide (x = ' ')) = [] := by simpa using he
    rw [this]
    simp [hc]
  · simp

theorem rstrip_mem {t : Text} {c : Char} (h : c ∈ rstrip t) : c ∈ t := by
  unfold rstrip at h
  have := (List.dropWhile_sublist (fun x => decide (x = ' '))).subset (List.mem_reverse.1 h)
  exact List.mem_reverse.1 this

theorem comment_newline {c : Comment} (h : GrammarComment c) : '\n' ∉ c.text.toList := by
  intro hm
  have := h.1 _ hm
  revert this
  decide +kernel

theorem commentText_newline {c : Comment} (h : GrammarComment c) : '\n' ∉ commentText c := by
  unfold commentText
  intro hm
  rcases List.mem_append.1 hm with hm | hm
  · split at hm
    · cases hm
    · rw [List.cons_append] at hm
      rcases List.mem_cons.1 hm with hm | hm
      · revert hm; decide
      · rcases List.mem_append.1 hm with hm | hm
        · have := h.2 _ hm
          revert this; decide +kernel
        · revert hm; decide
  · have := h.1 _ hm
    revert this; decide +kernel

theorem lineComment_eq (t : Text) : lineComment t = "//".toList ++ rstrip (' ' :: t) := by
  have : lineComment t = rstrip ("//".toList ++ ' ' :: t) := rfl
  rw [this, rstrip_append (a := "//".toList) ⟨['/'], '/', rfl, by decide⟩]

theorem commentText_eq (c : Comment) : commentText c = noteBody c := by
  unfold commentText noteBody
  by_cases h : c.unit = ""
  · rw [if_pos h, if_pos (by rw [h]; rfl)]
  · rw [if_neg h, if_neg (fun he => h (String.toList_injective (by rw [he]; rfl)))]

theorem lineComment_note {c : Comment} (h : GrammarComment c) :
    ∃ body, lineComment (commentText c) = "//".toList ++ body ∧ '\n' ∉ body ∧
      body = trimRight (' ' :: noteBody c) := by
  refine ⟨_, lineComment_eq _, ?_, by rw [commentText_eq]; rfl⟩
  intro hm
  have := rstrip_mem hm
  rcases List.mem_cons.1 this with hm | hm
  · revert hm; decide
  · exact commentText_newline h hm

theorem commentLine_note {c : Comment} (h : GrammarComment c) :
    ∃ body, (CLine.comment (commentText c)).text = "  ".toList ++ "//".toList ++ body ++ ['\n'] ∧
      '\n' ∉ body ∧ body = trimRight (' ' :: noteBody c) := by
  have e : "  // ".toList ++ commentText c = "  //".toList ++ (' ' :: commentText c) := rfl
  refine ⟨rstrip (' ' :: commentText c), ?_, ?_, by rw [commentText_eq]; rfl⟩
  · unfold CLine.text
    simp only [e]
    rw [rstrip_append (a := "  //".toList) ⟨"  /".toList, '/', rfl, by decide⟩]
    rfl
  · intro hm
    have := rstrip_mem hm
    rcases List.mem_cons.1 this with hm | hm
    · revert hm; decide
    · exact commentText_newline h hm

end Apg
