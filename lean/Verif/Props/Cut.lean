import Verif.Proof.Cut
import Verif.Props.Loader
/-!
Property theorem C127: a module file that was cut short. `kept` is what is there, `lost` what is missing:
`kept ++ lost` is the file `ModuleWriter` wrote.
-/
namespace Ab

open Spec

/-- **C127.** What is left of a written file loads exactly if whole sections are missing (or nothing is), and it
loads as the module without these sections. -/
theorem C127_loads_exactly (wm : WModule) (hwf : WellFormed wm) (hfit : Fits wm) (kept lost : List Byte)
    (h : kept ++ lost = writeModule wm) (lm : Module) : compile kept = .ok lm ↔ CutLoads wm lost lm :=
  compile_loads.trans (cut_loads hwf hfit h)

/-- **C127.** Loading what is left of a written file ends the process exactly if the loss begins inside the body of
a function. -/
theorem C127_aborts_exactly (wm : WModule) (hwf : WellFormed wm) (hfit : Fits wm) (kept lost : List Byte)
    (h : kept ++ lost = writeModule wm) : (∃ w, compile kept = .trap w) ↔ LostInBody wm lost :=
  compile_aborts.trans (cut_aborts hwf hfit h)

/-- **C127**, as far as it holds: a file cut anywhere else is refused with DecodeError. -/
theorem C127_refused_partial (wm : WModule) (hwf : WellFormed wm) (hfit : Fits wm) (kept lost : List Byte)
    (h : kept ++ lost = writeModule wm) (hb : ¬ LostInBody wm lost)
    (hs : lost ≠ []) (hs1 : lost ≠ appendCodeSection wm.codes)
    (hs2 : lost ≠ appendFuncSection wm.funcs ++ appendCodeSection wm.codes)
    (hs3 : lost ≠ appendTypeSection wm.types ++ (appendFuncSection wm.funcs ++ appendCodeSection wm.codes)) :
    ∃ msg, compile kept = .throw msg := by
  rcases C07_compile_total_and_safe kept with ⟨lm, e⟩ | e | e
  · rcases (C127_loads_exactly wm hwf hfit kept lost h lm).1 e with g | g | g | g
    · exact absurd g.1 hs3
    · exact absurd g.1 hs2
    · exact absurd g.1 hs1
    · exact absurd g.1 hs
  · exact e
  · exact absurd ((C127_aborts_exactly wm hwf hfit kept lost h).1 e) hb

/-- **C127.** A file that has lost something and still loads has no functions at all, so none with a body that is
partly missing; its types and declarations are those written or none. -/
theorem C127_no_partial_function (wm : WModule) (hwf : WellFormed wm) (hfit : Fits wm) (kept lost : List Byte)
    (h : kept ++ lost = writeModule wm) (hl : lost ≠ []) (lm : Module) (hc : compile kept = .ok lm) :
    lm.funcs = [] ∧ (lm.types = [] ∨ lm.types = wm.types) ∧ (lm.funcTypes = [] ∨ lm.funcTypes = wm.funcs) := by
  rcases (C127_loads_exactly wm hwf hfit kept lost h lm).1 hc with ⟨_, rfl⟩ | ⟨_, rfl⟩ | ⟨_, rfl⟩ | ⟨g, _⟩
  · exact ⟨rfl, .inl rfl, .inl rfl⟩
  · exact ⟨rfl, .inr rfl, .inl rfl⟩
  · exact ⟨rfl, .inr rfl, .inr rfl⟩
  · exact absurd g hl

/-- **C127.** For every file, however it came about: if both a file and the front part of it load, then the front
part has the first types, declarations and functions of the whole (with the same bodies at the same places), and
the rest of the file is sections that add the others. -/
theorem C127_front_is_prefix (kept lost : List Byte) (lm lm' : Module) (h : compile kept = .ok lm)
    (h' : compile (kept ++ lost) = .ok lm') :
    lm.types <+: lm'.types ∧ lm.funcTypes <+: lm'.funcTypes ∧ lm.funcs <+: lm'.funcs ∧
    Sections (kept ++ lost).length lm lost lm' [] := by
  obtain ⟨k, _, e⟩ := compile_extend lost h
  rw [e] at h'
  have hs := loop_fwd (by rw [List.length_append]; omega) h'
  rw [List.drop_left] at hs
  obtain ⟨g1, g2, g3⟩ := sections_grow hs
  exact ⟨g1, g2, g3, hs⟩

/-- The module of `loaderFile`, as the writer gets it. -/
def cutModule : WModule := ⟨[⟨[0x7e#8], [0x7f#8]⟩], [0#32], [⟨2#32, [0x0c#8, 0x00#8]⟩]⟩

theorem cutModule_ok : WellFormed cutModule ∧ Fits cutModule ∧ writeModule cutModule = loaderFile := by
  refine ⟨⟨rfl, ?_⟩, by decide +kernel, by decide +kernel⟩
  intro ti h
  rw [List.mem_singleton.1 h]
  decide

/-- The hypotheses of the theorems above at the file of `cutModule`, cut after the declarations, inside the body and
inside the type section. -/
example : loaderFile.take 20 ++ appendCodeSection cutModule.codes = writeModule cutModule ∧
    CutLoads cutModule (appendCodeSection cutModule.codes) ⟨[⟨[0x7e#8], [0x7f#8]⟩], [0#32], []⟩ :=
  ⟨by decide +kernel, .inr (.inr (.inl ⟨rfl, rfl⟩))⟩

example : loaderFile.take 26 ++ [0x00#8] = writeModule cutModule ∧ LostInBody cutModule [0x00#8] :=
  ⟨by decide +kernel, [], _, [], [0x0c#8], [0x00#8], rfl, rfl, by simp, rfl⟩

/-- Cut inside the register count of the entry, so that the whole body is missing: the count is gone too, and that is
refused. -/
example : ∃ msg, compile (loaderFile.take 24) = .throw msg := by
  obtain ⟨h1, h2, h3⟩ := cutModule_ok
  refine C127_refused_partial cutModule h1 h2 (loaderFile.take 24) (loaderFile.drop 24)
    (by rw [List.take_append_drop, h3]) ?_ (by decide +kernel) (by decide +kernel) (by decide +kernel) (by decide +kernel)
  rintro ⟨pre, c, post, q, r, e1, e2, _, e4⟩
  have hpre : pre = [] ∧ c = ⟨2#32, [0x0c#8, 0x00#8]⟩ ∧ post = [] := by
    cases pre with
    | nil => injection e1 with e1 e1'; exact ⟨rfl, e1.symm, e1'.symm⟩
    | cons x pre =>
      injection e1 with _ e1
      have := congrArg List.length e1
      simp at this
  obtain ⟨rfl, rfl, rfl⟩ := hpre
  have l2 := congrArg List.length e2
  have l4 := congrArg List.length e4
  have l5 : (loaderFile.drop 24).length = 3 := by decide +kernel
  rw [l5] at l4
  simp at l2 l4
  omega

example : ∃ lm lm', compile (loaderFile.take 16) = .ok lm ∧ compile (loaderFile.take 16 ++ loaderFile.drop 16) = .ok lm' ∧
    lm.types.length = 1 ∧ lm.funcTypes = [] ∧ lm'.funcs.length = 1 :=
  ⟨⟨[⟨[0x7e#8], [0x7f#8]⟩], [], []⟩, loaderModule, by decide +kernel, by decide +kernel, rfl, rfl, rfl⟩

/-- **C127**, negated as stated: a file that lost its end need not be refused with DecodeError. The file of a module
with one function, cut in front of its code section, loads as a module that declares the function and has no code for
it; cut one byte before its end, it ends the process. -/
theorem C127_refused_negation : ∃ wm, WellFormed wm ∧ Fits wm ∧
    (∃ kept lost lm, kept ++ lost = writeModule wm ∧ lost ≠ [] ∧ compile kept = .ok lm ∧
      lm.funcTypes.length = 1 ∧ lm.funcs = []) ∧
    (∃ kept lost w, kept ++ lost = writeModule wm ∧ lost.length = 1 ∧ compile kept = .trap w) := by
  obtain ⟨h1, h2, h3⟩ := cutModule_ok
  refine ⟨cutModule, h1, h2, ⟨loaderFile.take 20, loaderFile.drop 20, ⟨[⟨[0x7e#8], [0x7f#8]⟩], [0#32], []⟩,
    by rw [List.take_append_drop, h3], by decide +kernel, by decide +kernel, rfl, rfl⟩, ?_⟩
  obtain ⟨w, hw⟩ := (C127_aborts_exactly cutModule h1 h2 (loaderFile.take 26) [0x00#8]
    (by rw [h3]; decide +kernel)).2 ⟨[], _, [], [0x0c#8], [0x00#8], rfl, rfl, by simp, rfl⟩
  exact ⟨loaderFile.take 26, [0x00#8], w, by rw [h3]; decide +kernel, rfl, hw⟩

end Ab
