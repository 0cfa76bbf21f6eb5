import Verif.Lemmas.Printer
import Verif.Lemmas.Files
import Verif.Lemmas.Upper
import Verif.Model.Cosmos
import Verif.Props.Bundle

/-!
# Properties C27, C28, C40 and C47: output files
-/

namespace Apg
open Spec

/-- Directory of the examples. -/
def exOut : Text := "gen".toList

/-- **C27, generate-cfs.** No file is written twice, whether the run ends well or not. -/
theorem C27_cfs (fuel : Nat) (p : Printer) (raw : List Module) (hg : ∀ m ∈ raw, GrammarModule m)
    (cfg : List String) (out : Text) :
    ((runCfs fuel p raw cfg out).writes.map (·.1)).Nodup := by
  rcases run_writes fuel (cfsBackend p out) raw cfg out with ⟨h, _⟩ | ⟨b, hb, done, cds, hi, h, _⟩
  · rw [runCfs, h]; simp
  · rw [runCfs, h]
    have hl : ∀ x ∈ done.zip cds, isNameLower x.1.mod.name = true := fun x hx =>
      accepted_names hg (buildFromTexts_of_config hb) _
        (List.mem_map.2 ⟨x.1, hi.sub _ (List.of_mem_zip hx).1, rfl⟩)
    refine nodup_flatMap_paths ?_ ((zip_nodup_names hi).imp_of_mem ?_)
    · intro x hx
      rw [printed_cfs _ _ _ _ _ (hl x hx)]
      simp only [List.map_cons, List.map_nil, List.nodup_cons, List.mem_singleton, List.not_mem_nil,
        not_false_eq_true, List.nodup_nil, and_true]
      intro he
      exact ends_ne (n := 3) (by decide) (by decide) (by decide) (inDir_inj he)
    · intro x y hx hy hne u hu v hv
      rw [printed_cfs _ _ _ _ _ (hl x hx)] at hu
      rw [printed_cfs _ _ _ _ _ (hl y hy)] at hv
      simp only [List.mem_cons, List.not_mem_nil, or_false] at hu hv
      rcases hu with rfl | rfl <;> rcases hv with rfl | rfl
      · exact inDir_ident_ne (Or.inl (hl x hx)) (Or.inl (hl y hy)) hne _
      · exact fun he => ends_ne (n := 3) (by decide) (by decide) (by decide) (inDir_inj he)
      · exact fun he => ends_ne (n := 3) (by decide) (by decide) (by decide) (inDir_inj he)
      · exact inDir_ident_ne (Or.inl (hl x hx)) (Or.inl (hl y hy)) hne _

/-- **C27, generate-c.** -/
theorem C27_c (fuel : Nat) (p : Printer) (raw : List Module) (hg : ∀ m ∈ raw, GrammarModule m)
    (cfg : List String) (out : Text) :
    ((runC fuel p raw cfg out).writes.map (·.1)).Nodup := by
  rcases run_writes fuel (cBackend p out) raw cfg out with ⟨h, _⟩ | ⟨b, hb, done, cds, hi, h, _⟩
  · rw [runC, h]; simp
  · rw [runC, h]
    have hl : ∀ x ∈ done.zip cds, isNameLower x.1.mod.name = true := fun x hx =>
      accepted_names hg (buildFromTexts_of_config hb) _
        (List.mem_map.2 ⟨x.1, hi.sub _ (List.of_mem_zip hx).1, rfl⟩)
    refine nodup_flatMap_paths ?_ ((zip_nodup_names hi).imp_of_mem ?_)
    · intro x hx
      rw [printed_c _ _ _ _ _ (hl x hx)]
      simp only [List.map_cons, List.map_nil, List.nodup_cons, List.mem_singleton, List.not_mem_nil,
        not_false_eq_true, List.nodup_nil, and_true]
      intro he
      exact ends_ne (n := 1) (by decide) (by decide) (by decide) (inDir_inj he)
    · intro x y hx hy hne u hu v hv
      rw [printed_c _ _ _ _ _ (hl x hx)] at hu
      rw [printed_c _ _ _ _ _ (hl y hy)] at hv
      simp only [List.mem_cons, List.not_mem_nil, or_false] at hu hv
      rcases hu with rfl | rfl <;> rcases hv with rfl | rfl
      · exact inDir_ident_ne (Or.inl (hl x hx)) (Or.inl (hl y hy)) hne _
      · exact fun he => ends_ne (n := 1) (by decide) (by decide) (by decide) (inDir_inj he)
      · exact fun he => ends_ne (n := 1) (by decide) (by decide) (by decide) (inDir_inj he)
      · exact inDir_ident_ne (Or.inl (hl x hx)) (Or.inl (hl y hy)) hne _

/-- **C27, generate-binary.** -/
theorem C27_binary (fuel : Nat) (e : Option Endian) (raw : List Module)
    (hg : ∀ m ∈ raw, GrammarModule m) (cfg : List String) (out : Text) :
    ((runBinary fuel e raw cfg out).writes.map (·.1)).Nodup := by
  rcases run_writes fuel (binBackend fuel e out) raw cfg out with ⟨h, _⟩ | ⟨b, hb, done, cds, hi, h, _⟩
  · rw [runBinary, h]; simp
  · rw [runBinary, h]
    have hbt := buildFromTexts_of_config hb
    have hl : ∀ x ∈ done.zip cds, isNameLower x.1.mod.name = true := fun x hx =>
      accepted_names hg hbt _ (List.mem_map.2 ⟨x.1, hi.sub _ (List.of_mem_zip hx).1, rfl⟩)
    have hcap : ∀ x ∈ done.zip cds, ∀ d ∈ x.1.mod.defs, isNameCapital d.name = true := by
      intro x hx d hd
      have hd' : d ∈ b.defs := by
        rw [← defsOf_eq]
        exact List.mem_flatMap.2 ⟨x.1.mod, List.mem_map.2 ⟨x.1, hi.sub _ (List.of_mem_zip hx).1, rfl⟩, hd⟩
      have := (accepted_grammar hg hbt d hd').1
      cases d <;> exact this.1
    have hkeys : ∀ x ∈ done.zip cds, (x.2.bins.map (·.1)).Nodup ∧
        ∀ k ∈ x.2.bins.map (·.1), ∃ n c ms, Def.seq n c ms ∈ x.1.mod.defs ∧ k = lowerize (ident n) := by
      intro x hx
      obtain ⟨h1, h2⟩ := moduleData_keys (binHandler_keys _ _ _) (hi.len.zip_mem hx)
      refine ⟨h1, fun k hk => ?_⟩
      obtain ⟨n, c, ms, h3, h4⟩ := h2 k hk
      exact ⟨n, c, ms, h3, by rw [h4, cName_eq (s := n) (Or.inr (hcap x hx _ h3))]⟩
    have hjoin : ∀ x ∈ done.zip cds, ∀ k ∈ x.2.bins.map (·.1),
        joinPath out (k ++ ".bin".toList) = inDir out (k ++ ".bin".toList) := by
      intro x hx k hk
      obtain ⟨n, c, ms, h3, rfl⟩ := (hkeys x hx).2 k hk
      exact joinPath_eq _ (lowerize_ident_head (hcap x hx _ h3) _)
    have hmem : ∀ x ∈ done.zip cds, ∀ u ∈ printed ((binBackend fuel e out b).print x.1.mod x.2),
        u.1 = inDir out (ident x.1.mod.name ++ ".h".toList) ∨
        ∃ k ∈ x.2.bins.map (·.1), u.1 = inDir out (k ++ ".bin".toList) := by
      intro x hx u hu
      rw [printed_bin _ _ _ _ _ _ (hl x hx)] at hu
      rcases List.mem_cons.1 hu with rfl | hu
      · exact Or.inl rfl
      · obtain ⟨y, hy, rfl⟩ := List.mem_map.1 hu
        have hk : y.1 ∈ x.2.bins.map (·.1) := List.mem_map.2 ⟨y, hy, rfl⟩
        exact Or.inr ⟨y.1, hk, hjoin x hx _ hk⟩
    have hdiff : ∀ a k : Text, inDir out (a ++ ".h".toList) ≠ inDir out (k ++ ".bin".toList) :=
      fun a k he => ends_ne (n := 1) (by decide) (by decide) (by decide) (inDir_inj he)
    refine nodup_flatMap_paths ?_
      (((zip_nodup_names hi).and (zip_disjoint_defs hi)).imp_of_mem ?_)
    · intro x hx
      rw [printed_bin _ _ _ _ _ _ (hl x hx), List.map_cons, List.nodup_cons]
      constructor
      · intro hin
        obtain ⟨y, hy, he⟩ := List.mem_map.1 hin
        obtain ⟨z, hz, rfl⟩ := List.mem_map.1 hy
        have hk : z.1 ∈ x.2.bins.map (·.1) := List.mem_map.2 ⟨z, hz, rfl⟩
        simp only [hjoin x hx _ hk] at he
        exact hdiff _ _ he.symm
      · have h1 := (hkeys x hx).1
        rw [List.map_map]
        unfold List.Nodup at h1 ⊢
        rw [List.pairwise_map] at h1 ⊢
        refine h1.imp_of_mem ?_
        intro y z hy hz hne he
        have hky : y.1 ∈ x.2.bins.map (·.1) := List.mem_map.2 ⟨y, hy, rfl⟩
        have hkz : z.1 ∈ x.2.bins.map (·.1) := List.mem_map.2 ⟨z, hz, rfl⟩
        simp only [Function.comp, hjoin x hx _ hky, hjoin x hx _ hkz] at he
        exact hne (List.append_cancel_right (inDir_inj he))
    · intro x y hx hy hne u hu v hv
      rcases hmem x hx u hu with h1 | ⟨k, hk, h1⟩ <;> rcases hmem y hy v hv with h2 | ⟨k', hk', h2⟩ <;>
        rw [h1, h2]
      · exact inDir_ident_ne (Or.inl (hl x hx)) (Or.inl (hl y hy)) hne.1 _
      · exact hdiff _ _
      · exact (hdiff _ _).symm
      · intro he
        have he := List.append_cancel_right (inDir_inj he)
        obtain ⟨n, c, ms, h3, rfl⟩ := (hkeys x hx).2 k hk
        obtain ⟨n', c', ms', h3', rfl⟩ := (hkeys y hy).2 k' hk'
        exact hne.2 _ h3 _ h3' (lowerize_ident_inj (hcap x hx _ h3) (hcap y hy _ h3') he)

/-- Two modules with a packet each. -/
def exPackets : List Module :=
  [{ name := "base", defs := [
      .simple "Uint8-t" none (.plain "INTEGER" (some (.int 0)) (some (.int 255))),
      .seq "Point" none [⟨"lat", .plain "Uint8-t" none none, none, none⟩],
      .seq "Home" none [⟨"at", .plain "Point" none none, none, some (.leaf "lat" (.int 7) .nil)⟩]] },
   { name := "geo", imports := [⟨["Uint8-t"], "base"⟩], defs := [
      .seq "Pair" none [⟨"x", .plain "Uint8-t" none none, none, none⟩],
      .seq "Away" none [⟨"to", .plain "Pair" none none, none, some (.leaf "x" (.int 9) .nil)⟩]] }]

theorem exPackets_grammar : ∀ m ∈ exPackets, GrammarModule m := by
  intro m hm
  simp only [exPackets, List.mem_cons, List.not_mem_nil, or_false] at hm
  rcases hm with rfl | rfl
  · refine ⟨by decide +kernel, by simp, ?_, by simp⟩
    intro d hd
    simp only [List.mem_cons, List.not_mem_nil, or_false] at hd
    rcases hd with rfl | rfl | rfl
    · exact ⟨by decide +kernel, .integerRange⟩
    · refine ⟨by decide +kernel, by simp, ?_⟩
      simp only [List.mem_singleton, forall_eq]
      exact ⟨by decide +kernel, .named (by decide +kernel), by simp⟩
    · refine ⟨by decide +kernel, by simp, ?_⟩
      simp only [List.mem_singleton, forall_eq]
      exact ⟨by decide +kernel, .named (by decide +kernel), by simp [GrammarComps] <;> decide +kernel⟩
  · refine ⟨by decide +kernel, by simp, ?_, ?_⟩
    · intro d hd
      simp only [List.mem_cons, List.not_mem_nil, or_false] at hd
      rcases hd with rfl | rfl
      · refine ⟨by decide +kernel, by simp, ?_⟩
        simp only [List.mem_singleton, forall_eq]
        exact ⟨by decide +kernel, .named (by decide +kernel), by simp⟩
      · refine ⟨by decide +kernel, by simp, ?_⟩
        simp only [List.mem_singleton, forall_eq]
        exact ⟨by decide +kernel, .named (by decide +kernel), by simp [GrammarComps] <;> decide +kernel⟩
    · simp only [List.mem_singleton, forall_eq]
      exact ⟨by decide +kernel, by simp, by decide +kernel⟩

example : (runBinary 20 (some .big) exPackets ["geo", "base"] exOut).result = .ok () ∧
    (runBinary 20 (some .big) exPackets ["geo", "base"] exOut).writes.map (fun w => String.ofList w.1) =
      ["gen/geo.h", "gen/away.bin", "gen/base.h", "gen/home.bin"] := by decide +kernel
example : (runCfs 20 exPrinter exPackets ["geo", "base"] exOut).writes.map (fun w => String.ofList w.1) =
      ["gen/geo_msg.h", "gen/geo_msgids.h", "gen/base_msg.h", "gen/base_msgids.h"] := by decide +kernel
example : (runC 20 exPrinter exPackets ["geo", "base"] exOut).writes.map (fun w => String.ofList w.1) =
      ["gen/geo.h", "gen/geo.c", "gen/base.h", "gen/base.c"] := by decide +kernel

/-! ### C28 -/

theorem guarded_unique {s s' t : Text} (h : Guarded s t) (h' : Guarded s' t) : s = s' := by
  obtain ⟨⟨_, h1⟩, b, rfl⟩ := h
  obtain ⟨⟨_, h1'⟩, b', h2⟩ := h'
  simp only [List.append_assoc] at h2
  have h3 := List.append_cancel_left h2
  have key : ∀ (s s' r r' : Text), (∀ c ∈ s, c ≠ '\n') → (∀ c ∈ s', c ≠ '\n') →
      s ++ '\n' :: r = s' ++ '\n' :: r' → s = s' := by
    intro s
    induction s with
    | nil =>
      intro s' r r' _ hs' he
      cases s' with
      | nil => rfl
      | cons c s' =>
        simp only [List.nil_append, List.cons_append, List.cons.injEq] at he
        exact absurd he.1.symm (hs' c (by simp))
    | cons c s ih =>
      intro s' r r' hs hs' he
      cases s' with
      | nil =>
        simp only [List.nil_append, List.cons_append, List.cons.injEq] at he
        exact absurd he.1 (hs c (by simp))
      | cons c' s' =>
        simp only [List.cons_append, List.cons.injEq] at he
        rw [he.1, ih s' r r' (fun c hc => hs c (by simp [hc])) (fun c hc => hs' c (by simp [hc])) he.2]
  exact key s s' _ _ (fun c hc => (h1 c hc).2) (fun c hc => (h1' c hc).2) h3

/-- The guards of a list of written files are correct: every header is wrapped in a guard,
and different headers have different symbols. -/
def GuardsOk (ws : List (Text × Content)) : Prop :=
  (∀ w ∈ ws, IsHeader w.1 → ∃ s t, w.2 = textContent t ∧ Guarded s t) ∧
  ∀ w ∈ ws, ∀ w' ∈ ws, IsHeader w.1 → IsHeader w'.1 → w.1 ≠ w'.1 → ∀ s t s' t',
    w.2 = textContent t → w'.2 = textContent t' → Guarded s t → Guarded s' t' → s ≠ s'

theorem textContent_inj {t t' : Text} (h : textContent t = textContent t') : t = t' := by
  unfold textContent at h
  exact List.map_inj_right (fun _ _ h => Sum.inl.inj h) |>.1 h

theorem headerText_guarded {n : String} (hn : isNameLower n = true) {x : Text} (hx : x ∈ suffixes)
    (ty : HeaderType) (cd : CData) :
    Guarded (guardSymbol (ident n ++ x)) (headerText ty (ident n ++ x) cd) := by
  refine ⟨guardSymbol_chars hn hx, ?_⟩
  have key : ∀ a b c d e f g h i : Text, a ++ b ++ c ++ d ++ e ++ f ++ g ++ h ++ i =
      a ++ (b ++ c ++ d ++ e ++ f ++ g ++ h) ++ i := by
    intros; simp only [List.append_assoc]
  have key2 : ∀ (g mid : Text), ∃ body, (("#ifndef ".toList ++ g ++ "\n#define ".toList ++ g ++ ['\n']) ++
      mid ++ ("#endif // ".toList ++ g ++ ['\n'])) = "#ifndef ".toList ++ g ++ "\n#define ".toList ++ g ++
      '\n' :: body ++ "#endif // ".toList ++ g ++ ['\n'] :=
    fun g mid => ⟨mid, by simp only [List.append_assoc, List.cons_append, List.nil_append]⟩
  unfold headerText
  rw [key]
  exact key2 _ _

theorem guardsOk_of {raw : List Module} (hg : ∀ m ∈ raw, GrammarModule m) {cfg : List String}
    {b : Bundle} (hb : buildFromConfig raw cfg = .ok b) {done : List BMod} {cds : List CData}
    {data : BMod → CData → Prop} (hi : RunInfo b done cds data)
    {f : BMod × CData → List (Text × Content)} {out : Text}
    (hf : ∀ x, isNameLower x.1.mod.name = true → ∀ w ∈ f x, IsHeader w.1 →
      ∃ sfx ∈ suffixes, ∃ ty, w = (inDir out (ident x.1.mod.name ++ sfx),
        textContent (headerText ty (ident x.1.mod.name ++ sfx) x.2))) :
    GuardsOk ((done.zip cds).flatMap f) := by
  have hl : ∀ x ∈ done.zip cds, isNameLower x.1.mod.name = true := fun x hx =>
    accepted_names hg (buildFromTexts_of_config hb) _
      (List.mem_map.2 ⟨x.1, hi.sub _ (List.of_mem_zip hx).1, rfl⟩)
  constructor
  · intro w hw hh
    obtain ⟨x, hx, hwx⟩ := List.mem_flatMap.1 hw
    obtain ⟨sfx, hs, ty, he⟩ := hf x (hl x hx) w hwx hh
    exact ⟨_, _, by rw [he], headerText_guarded (hl x hx) hs _ _⟩
  · intro w hw w' hw' hh hh' hne s t s' t' h1 h2 h3 h4 h5
    obtain ⟨x, hx, hwx⟩ := List.mem_flatMap.1 hw
    obtain ⟨y, hy, hwy⟩ := List.mem_flatMap.1 hw'
    obtain ⟨sfx, hs, ty, rfl⟩ := hf x (hl x hx) w hwx hh
    obtain ⟨sfx', hs', ty', rfl⟩ := hf y (hl y hy) w' hwy hh'
    have e1 := textContent_inj h1
    have e2 := textContent_inj h2
    subst e1 e2
    have k1 := guarded_unique h3 (headerText_guarded (hl x hx) hs _ _)
    have k2 := guarded_unique h4 (headerText_guarded (hl y hy) hs' _ _)
    rw [k1, k2] at h5
    exact hne (by simp only [guardSymbol_inj (hl x hx) (hl y hy) hs hs' h5])

theorem isHeader_not {out a x : Text} (hx : 1 ≤ x.length) (hne : x.reverse.take 1 ≠ ['h']) :
    ¬ IsHeader (inDir out (a ++ x)) := by
  rintro ⟨s, h⟩
  have : ∃ r, inDir out (a ++ x) = r ++ x := by
    unfold inDir
    split
    · exact ⟨out ++ a, by simp⟩
    · exact ⟨out ++ '/' :: a, by simp⟩
  obtain ⟨r, hr⟩ := this
  rw [hr] at h
  exact ends_ne (n := 1) hx (by decide) (by simpa using hne) h

/-- **C28, generate-cfs.** Every header is wrapped in an include guard, the three symbols
of a guard agree, and different headers have different symbols. -/
theorem C28_cfs (fuel : Nat) (p : Printer) (raw : List Module) (hg : ∀ m ∈ raw, GrammarModule m)
    (cfg : List String) (out : Text) : GuardsOk (runCfs fuel p raw cfg out).writes := by
  rcases run_writes fuel (cfsBackend p out) raw cfg out with ⟨h, _⟩ | ⟨b, hb, done, cds, hi, h, _⟩
  · rw [runCfs, h]; exact ⟨by simp, by simp⟩
  · rw [runCfs, h]
    refine guardsOk_of hg hb hi (out := out) ?_
    intro x hn w hw _
    rw [printed_cfs _ _ _ _ _ hn] at hw
    simp only [List.mem_cons, List.not_mem_nil, or_false] at hw
    rcases hw with rfl | rfl
    · exact ⟨_, by simp [suffixes], _, rfl⟩
    · exact ⟨_, by simp [suffixes], _, rfl⟩

/-- **C28, generate-c.** -/
theorem C28_c (fuel : Nat) (p : Printer) (raw : List Module) (hg : ∀ m ∈ raw, GrammarModule m)
    (cfg : List String) (out : Text) : GuardsOk (runC fuel p raw cfg out).writes := by
  rcases run_writes fuel (cBackend p out) raw cfg out with ⟨h, _⟩ | ⟨b, hb, done, cds, hi, h, _⟩
  · rw [runC, h]; exact ⟨by simp, by simp⟩
  · rw [runC, h]
    refine guardsOk_of hg hb hi (out := out) ?_
    intro x hn w hw hh
    rw [printed_c _ _ _ _ _ hn] at hw
    simp only [List.mem_cons, List.not_mem_nil, or_false] at hw
    rcases hw with rfl | rfl
    · exact ⟨_, by simp [suffixes], _, rfl⟩
    · exact absurd hh (isHeader_not (by decide) (by decide))

/-- **C28, generate-binary.** -/
theorem C28_binary (fuel : Nat) (e : Option Endian) (raw : List Module)
    (hg : ∀ m ∈ raw, GrammarModule m) (cfg : List String) (out : Text) :
    GuardsOk (runBinary fuel e raw cfg out).writes := by
  rcases run_writes fuel (binBackend fuel e out) raw cfg out with ⟨h, _⟩ | ⟨b, hb, done, cds, hi, h, _⟩
  · rw [runBinary, h]; exact ⟨by simp, by simp⟩
  · rw [runBinary, h]
    refine guardsOk_of hg hb hi (out := out) ?_
    intro x hn w hw hh
    rw [printed_bin _ _ _ _ _ _ hn] at hw
    rcases List.mem_cons.1 hw with rfl | hw
    · exact ⟨_, by simp [suffixes], _, rfl⟩
    · obtain ⟨y, _, rfl⟩ := List.mem_map.1 hw
      exfalso
      obtain ⟨s, hs⟩ := hh
      have : ∃ r, joinPath out (y.1 ++ ".bin".toList) = r ++ ".bin".toList := by
        unfold joinPath
        split
        · exact ⟨_, rfl⟩
        · split
          · exact ⟨out ++ y.1, by simp⟩
          · exact ⟨out ++ '/' :: y.1, by simp⟩
      obtain ⟨r, hr⟩ := this
      simp only [hr] at hs
      exact ends_ne (n := 1) (by decide) (by decide) (by decide) hs

example : ∃ w ∈ (runCfs 20 exPrinter exPackets ["geo", "base"] exOut).writes, IsHeader w.1 :=
  ⟨((runCfs 20 exPrinter exPackets ["geo", "base"] exOut).writes[1]'(by decide +kernel)),
    List.getElem_mem _, "gen/geo_msgids".toList, by decide +kernel⟩

/-! ### C40 -/

/-- Running `r` again changes nothing, and the files it writes do not depend on what was
there before. -/
def Repeatable (r : Run) : Prop :=
  (∀ fs : Files, r.apply (r.apply fs) = r.apply fs) ∧
  ∀ (fs fs' : Files) (q : Text), r.apply fs q = r.apply fs' q ∨ (r.apply fs q = fs q ∧ r.apply fs' q = fs' q)

theorem repeatable_of_noAppend {r : Run} (h : NoAppend r.ops) : Repeatable r := by
  have hget : ∀ (fs : Files) (q : Text), r.apply fs q =
      match r.writes.reverse.find? (fun w => w.1 = q) with
      | some w => some w.2
      | none => fs q := by
    intro fs q
    unfold Run.apply
    rw [apply_eq_writes h, writes_get]
    rfl
  constructor
  · intro fs
    funext q
    rw [hget (r.apply fs) q]
    have := hget fs q
    split
    · rename_i w hw
      rw [hw] at this
      exact this.symm
    · rfl
  · intro fs fs' q
    rw [hget fs q, hget fs' q]
    cases r.writes.reverse.find? (fun w => decide (w.1 = q)) with
    | none => exact Or.inr ⟨rfl, rfl⟩
    | some w => exact Or.inl rfl

/-- The full statement of C40. -/
def C40_full : Prop :=
  (∀ fuel p raw cfg out, Repeatable (runCfs fuel p raw cfg out)) ∧
  (∀ fuel p raw cfg out, Repeatable (runC fuel p raw cfg out)) ∧
  (∀ fuel e raw cfg out, Repeatable (runBinary fuel e raw cfg out)) ∧
  ∀ fuel p raw module messages target out,
    Repeatable (runCosmos fuel p raw module messages target out)

/-- It fails for generate-cosmos, which opens its file in mode `a`: the second run leaves
every packet in the file twice. -/
theorem C40_full_false : ¬ C40_full := by
  intro h
  have h1 := (h.2.2.2 20 exPrinter exPackets "base" ["Point"] "t".toList exOut).1 (fun _ => none)
  have h2 := congrFun h1 "gen/t.txt".toList
  revert h2
  decide +kernel

/-- **C40, partial.** generate-cfs, generate-c and generate-binary are repeatable. Missing:
generate-cosmos. -/
theorem C40_repeatable_partial (fuel : Nat) (p : Printer) (e : Option Endian) (raw : List Module)
    (cfg : List String) (out : Text) :
    Repeatable (runCfs fuel p raw cfg out) ∧ Repeatable (runC fuel p raw cfg out) ∧
    Repeatable (runBinary fuel e raw cfg out) :=
  ⟨repeatable_of_noAppend (cfs_noAppend _ _ _ _ _), repeatable_of_noAppend (c_noAppend _ _ _ _ _),
    repeatable_of_noAppend (binary_noAppend _ _ _ _ _)⟩

/-! ### C47 -/

/-- **C47.** If validation refuses the input, the run ends with that error, makes no
directory and leaves all files as they were. -/
theorem C47_rejected_no_output (fuel : Nat) (p : Printer) (e : Option Endian) (raw : List Module)
    (cfg : List String) (out : Text) (err : Err) (h : buildFromConfig raw cfg = .error err)
    (fs : Files) :
    ∀ r ∈ [runCfs fuel p raw cfg out, runC fuel p raw cfg out, runBinary fuel e raw cfg out],
      r.result = .error err ∧ r.ops = [] ∧ r.apply fs = fs := by
  intro r hr
  have : r = ⟨[], .error err⟩ := by
    simp only [List.mem_cons, List.not_mem_nil, or_false] at hr
    rcases hr with rfl | rfl | rfl <;> simp only [runCfs, runC, runBinary, runCommand, h]
  rw [this]
  exact ⟨rfl, rfl, rfl⟩

example : buildFromConfig exPackets ["base"] = .error .consistency := by decide +kernel

end Apg
