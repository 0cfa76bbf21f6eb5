import Verif.Props.CReader
import Verif.Lemmas.CScope

/-!
# C61: identifiers in the headers of a run
-/

namespace Apg
open Spec

theorem perm_appends {α} (a b c d : List α) : ((a ++ b) ++ (c ++ d)).Perm ((a ++ c) ++ (b ++ d)) := by
  simp only [List.append_assoc]
  refine List.Perm.append_left a ?_
  rw [← List.append_assoc, ← List.append_assoc]
  exact List.Perm.append_right d List.perm_append_comm

theorem objectsOf_append (cmd : Command) (l l' : List Def) :
    objectsOf cmd (l ++ l') = objectsOf cmd l ++ objectsOf cmd l' := by
  cases cmd <;> simp [objectsOf]

/-- The declarations of all headers together. -/
theorem headers_together {cmd : Command} {fs : Files} {out : Text} {T : Bool → TypeMap} {ms : List Module}
    (h : ∀ m ∈ ms, ∃ text, HasText fs (cmd.path out m.name) text ∧ HeaderSays cmd T m text) :
    ∃ (dss : List (List CDecl)) (sorted : List Def) (D : List CDecl), HeaderDecls cmd fs out ms dss ∧
      sorted.Perm (ms.flatMap (·.defs)) ∧ All2 (fun d x => ∃ std, DeclOf (T std) d x) (sorted.filter fun d => !d.isSimple) D ∧
      dss.flatten.Perm (D ++ objectsOf cmd sorted) := by
  induction ms with
  | nil => exact ⟨[], [], [], .nil, .refl _, .nil, by cases cmd <;> exact .refl _⟩
  | cons m ms ih =>
    obtain ⟨dss, sorted, D, h1, h2, h3, h4⟩ := ih fun m hm => h m (by simp [hm])
    obtain ⟨text, k1, sorted', std, decls, k2, k3, k4⟩ := h m (by simp)
    refine ⟨(decls ++ objectsOf cmd sorted') :: dss, sorted' ++ sorted, decls ++ D, .cons ⟨text, _, k1, readHeader_of k4⟩ h1,
      ?_, ?_, ?_⟩
    · rw [List.flatMap_cons]
      exact k2.append h2
    · rw [List.filter_append]
      exact (k3.imp fun d x hx => ⟨_, hx⟩).append h3
    · rw [List.flatten_cons, objectsOf_append]
      exact (h4.append_left _).trans (perm_appends ..)

/-- Full statement of C61: the headers of a run declare no identifier twice. -/
def C61_full : Prop :=
  ∀ (cmd : Command) fuel raw cfg out b fs, Input raw cfg b → (cmd.run fuel raw cfg out).result = .ok () →
    Regular b.defs → (∀ m ∈ b.modules, Tame m) → ∃ dss,
      HeaderDecls cmd ((cmd.run fuel raw cfg out).apply fs) out b.modules dss ∧ NoClash dss.flatten

/-- **C61, partial.** The headers of a run declare no identifier twice in one scope exactly if the members of each
definition have different keys, all enumerators of the input are different, and no enumerator is called like a
variable. Missing: modules that are not tame or not regular, for which the headers may not be C at all (C60). -/
theorem C61_no_clash_iff_partial (cmd : Command) (fuel : Nat) (raw : List Module) (cfg : List String) (out : Text)
    (b : Bundle) (fs : Files) (hin : Input raw cfg b) (hr : (cmd.run fuel raw cfg out).result = .ok ())
    (hreg : Regular b.defs) (ht : ∀ m ∈ b.modules, Tame m) :
    ∃ dss, HeaderDecls cmd ((cmd.run fuel raw cfg out).apply fs) out b.modules dss ∧
      (NoClash dss.flatten ↔ DistinctIdents cmd b.defs) := by
  have hbt := buildFromTexts_of_config hin.accepted
  have hgr := accepted_grammar hin.grammar hbt
  obtain ⟨dss, sorted, D, h1, h2, h3, h4⟩ := headers_together (ms := b.modules) fun m hm =>
    C60_reads_partial cmd fuel raw cfg out b fs hin hr hreg m hm (ht m hm)
  have hp : sorted.Perm b.defs := by
    rw [← defsOf_eq]
    exact h2
  refine ⟨dss, h1, ?_⟩
  rw [noClash_perm h4, noClash_iff (fun d hd => (hgr d (hp.mem_iff.1 hd)).1)
    ((hp.map Def.name).nodup_iff.2 (accepted_nodup hbt)) (h3.imp fun _ _ ⟨_, hx⟩ => ⟨_, hx⟩), distinctIdents_perm hp]

theorem headerDecls_unique {cmd : Command} {fs : Files} {out : Text} {ms : List Module} {dss dss' : List (List CDecl)}
    (h : HeaderDecls cmd fs out ms dss) (h' : HeaderDecls cmd fs out ms dss') : dss = dss' := by
  unfold HeaderDecls at h h'
  induction h generalizing dss' with
  | nil => cases h'; rfl
  | cons k _ ih =>
    cases h' with
    | cons k' h' =>
      obtain ⟨t, d, k1, k2⟩ := k
      obtain ⟨t', d', k1', k2'⟩ := k'
      have : t = t' := (fileText_eq k1).symm.trans (fileText_eq k1')
      subst this
      rw [k2] at k2'
      cases k2'
      rw [ih h']

/-! ### What goes wrong -/

/-- Two enumerations with the same items. -/
def exOnOff : Module :=
  { name := "m"
    defs := [.enum "Power" none [⟨"off", 0, none⟩, ⟨"on", 1, none⟩], .enum "Heater" none [⟨"off", 0, none⟩, ⟨"on", 1, none⟩]] }

theorem exOnOff_tame : Tame exOnOff := by
  refine ⟨(by intro c hc; cases hc), (by intro c hc; cases hc), ?_⟩
  intro d hd
  simp only [exOnOff, List.mem_cons, List.not_mem_nil, or_false] at hd
  rcases hd with rfl | rfl <;> refine ⟨(by intro x hx; cases hx), ?_⟩ <;> unfold NoBackslash NotReserved <;> decide +kernel

theorem single_tame {m : Module} {b : Bundle} (hb : b.modules = [m]) (h : Tame m) : ∀ m ∈ b.modules, Tame m := by
  rw [hb]
  simpa using h

/-- Two enumerations with an item of the same name are accepted, and their headers declare it twice. -/
theorem C61_full_false : ¬ C61_full := by
  intro hf
  have hi : Input [exOnOff] ["m"] (okBundle (buildFromConfig [exOnOff] ["m"])) :=
    input_of (by decide +kernel) (by decide +kernel) (by decide +kernel)
  have hreg : Regular (okBundle (buildFromConfig [exOnOff] ["m"])).defs :=
    regular_of (by decide +kernel) (by decide +kernel) (by decide +kernel)
  have ht : ∀ m ∈ (okBundle (buildFromConfig [exOnOff] ["m"])).modules, Tame m :=
    single_tame (by decide +kernel) exOnOff_tame
  obtain ⟨dss, h1, h2⟩ := hf (.cfs exPrinter) 20 [exOnOff] ["m"] exOut _ (fun _ => none) hi (by decide +kernel) hreg ht
  obtain ⟨dss', h3, h4⟩ := C61_no_clash_iff_partial (.cfs exPrinter) 20 [exOnOff] ["m"] exOut _ (fun _ => none) hi
    (by decide +kernel) hreg ht
  rw [headerDecls_unique h1 h3] at h2
  exact absurd (h4.1 h2).2.1 (by decide +kernel)

/-- Two members with the same key. -/
def exDouble : Module :=
  { name := "m"
    defs := [.seq "Pair" none [⟨"x", .plain "BOOLEAN" none none, none, none⟩, ⟨"x", .plain "BOOLEAN" none none, none, none⟩]] }

theorem exDouble_tame : Tame exDouble := by
  refine ⟨(by intro c hc; cases hc), (by intro c hc; cases hc), ?_⟩
  intro d hd
  simp only [exDouble, List.mem_cons, List.not_mem_nil, or_false] at hd
  rcases hd with rfl
  refine ⟨(by intro x hx; cases hx), ?_⟩
  unfold NoBackslash NotReserved
  decide +kernel

/-- Two members with the same key are accepted, and the struct has two fields of the same name. -/
theorem C61_full_false_members : ¬ C61_full := by
  intro hf
  have hi : Input [exDouble] ["m"] (okBundle (buildFromConfig [exDouble] ["m"])) :=
    input_of (by decide +kernel) (by decide +kernel) (by decide +kernel)
  have hreg : Regular (okBundle (buildFromConfig [exDouble] ["m"])).defs :=
    regular_of (by decide +kernel) (by decide +kernel) (by decide +kernel)
  have ht : ∀ m ∈ (okBundle (buildFromConfig [exDouble] ["m"])).modules, Tame m :=
    single_tame (by decide +kernel) exDouble_tame
  obtain ⟨dss, h1, h2⟩ := hf (.cfs exPrinter) 20 [exDouble] ["m"] exOut _ (fun _ => none) hi (by decide +kernel) hreg ht
  obtain ⟨dss', h3, h4⟩ := C61_no_clash_iff_partial (.cfs exPrinter) 20 [exDouble] ["m"] exOut _ (fun _ => none) hi
    (by decide +kernel) hreg ht
  rw [headerDecls_unique h1 h3] at h2
  have hm : exDouble.defs.head (by decide) ∈ (okBundle (buildFromConfig [exDouble] ["m"])).defs := by decide +kernel
  have := (h4.1 h2).1 _ hm
  unfold DistinctKeys at this
  exact absurd this (by decide +kernel)

/-! ### Example -/

/-- The declarations of `exTame` do not clash. -/
example : ∃ dss, HeaderDecls (.cfs exPrinter) (((Command.cfs exPrinter).run 20 [exTame] ["m"] exOut).apply fun _ => none)
    exOut (okBundle (buildFromConfig [exTame] ["m"])).modules dss ∧ NoClash dss.flatten := by
  obtain ⟨dss, h1, h2⟩ := C61_no_clash_iff_partial (.cfs exPrinter) 20 [exTame] ["m"] exOut _ (fun _ => none)
    (input_of (by decide +kernel) (by decide +kernel) (by decide +kernel)) (by decide +kernel)
    (regular_of (by decide +kernel) (by decide +kernel) (by decide +kernel)) (single_tame (by decide +kernel) exTame_tame)
  have e : (okBundle (buildFromConfig [exTame] ["m"])).defs = exTame.defs := by decide +kernel
  refine ⟨dss, h1, h2.2 ⟨?_, by decide +kernel, ?_⟩⟩
  · rw [e]
    unfold DistinctKeys
    decide +kernel
  · rw [e]
    have : ∀ d ∈ exTame.defs, ∀ k ∈ exTame.defs.flatMap enumerators, k.toList ≠ lowerFirst d.name.toList := by
      decide +kernel
    exact fun d hd _ => this d hd

end Apg
