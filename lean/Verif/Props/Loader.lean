import Verif.Proof.Loader
import Verif.Props.Module
/-!
Property theorem C84: the language of the loader. `Spec/Loader.lean` describes the language by relations
between what is left of the file before and after each item.
-/
namespace Ab

open Spec

/-- **C84.** A module comes out exactly for the files of the language, and it is the module the file
describes. -/
theorem C84_loads_exactly (bs : List Byte) (lm : Module) : compile bs = .ok lm ↔ Loads bs lm :=
  compile_loads

/-- The small file with one type `(i64) -> (i32)`, one function of it and a two byte body. -/
def loaderFile : List Byte :=
  header ++ [0x01#8, 0x06#8, 0x01#8, 0x60#8, 0x01#8, 0x7e#8, 0x01#8, 0x7f#8] ++ [0x03#8, 0x02#8, 0x01#8, 0x00#8]
    ++ [0x0a#8, 0x05#8, 0x01#8, 0x03#8, 0x02#8, 0x0c#8, 0x00#8]

/-- The module it describes. -/
def loaderModule : Module :=
  ⟨[⟨[0x7e#8], [0x7f#8]⟩], [0#32],
   [{ typeIdx := 0, typesLen := 1, type := ⟨[0x7e#8], [0x7f#8]⟩, body := 25, varNregs := 2#32,
      argNregs := 2#32, retNregs := 1#32, nregs := 4#32 }]⟩

example : Loads loaderFile loaderModule :=
  (C84_loads_exactly _ _).1 (by decide +kernel)

/-- A file that is not: the type section says it has one byte more. -/
example : ∀ lm, ¬ Loads (header ++ [0x01#8, 0x05#8, 0x01#8, 0x60#8, 0x00#8, 0x00#8, 0x00#8]) lm := by
  intro lm h
  have h2 := (C84_loads_exactly _ _).2 h
  have h3 : (compile (header ++ [0x01#8, 0x05#8, 0x01#8, 0x60#8, 0x00#8, 0x00#8, 0x00#8])).isOk = false := by
    decide +kernel
  rw [h2] at h3
  cases h3

/-- **C84.** The process ends exactly for a header and sections followed by something deadly: a section of
another known kind, or a code entry that is too long for the file or belongs to a function without a type. -/
theorem C84_aborts_exactly (bs : List Byte) : (∃ w, compile bs = .trap w) ↔ Aborts bs :=
  compile_aborts

example : Aborts (header ++ [0x02#8, 0x00#8]) :=
  (C84_aborts_exactly _).1 ⟨_, (by decide +kernel : _ = Outcome.trap "AB_ASSERT_UNREACHABLE: unhandled section")⟩

/-- **C84.** Every other file is refused with an exception. -/
theorem C84_refuses_exactly (bs : List Byte) :
    (∃ m, compile bs = .throw m) ↔ (¬ ∃ lm, Loads bs lm) ∧ ¬ Aborts bs := by
  constructor
  · rintro ⟨m, h⟩
    constructor
    · rintro ⟨lm, hl⟩
      rw [(C84_loads_exactly bs lm).2 hl] at h; cases h
    · intro ha
      obtain ⟨w, hw⟩ := (C84_aborts_exactly bs).2 ha
      rw [hw] at h; cases h
  · rintro ⟨h1, h2⟩
    rcases C07_compile_total_and_safe bs with ⟨lm, h⟩ | h | ⟨w, h⟩
    · exact absurd ⟨lm, (C84_loads_exactly bs lm).1 h⟩ h1
    · exact h
    · exact absurd ((C84_aborts_exactly bs).1 ⟨w, h⟩) h2

example : (¬ ∃ lm, Loads [0x61#8] lm) ∧ ¬ Aborts [0x61#8] :=
  (C84_refuses_exactly _).1 ⟨_, (by decide +kernel : _ = Outcome.throw "Read past end of buffer")⟩

/-- **C84.** A file describes at most one module, and none if it is deadly. -/
theorem C84_language_unambiguous (bs : List Byte) (lm lm' : Module) (h : Loads bs lm) :
    (Loads bs lm' → lm' = lm) ∧ ¬ Aborts bs := by
  have h1 := (C84_loads_exactly bs lm).2 h
  constructor
  · intro h'
    have h2 := (C84_loads_exactly bs lm').2 h'
    rw [h1] at h2
    injection h2 with h2
    exact h2.symm
  · intro ha
    obtain ⟨w, hw⟩ := (C84_aborts_exactly bs).2 ha
    rw [h1] at hw; cases hw

example : Loads loaderFile loaderModule ∧ ¬ Aborts loaderFile :=
  have h : Loads loaderFile loaderModule := (C84_loads_exactly _ _).1 (by decide +kernel)
  ⟨h, (C84_language_unambiguous _ _ loaderModule h).2⟩

/-- **C84.** Loading looks at nothing behind the entry it reads: what counts as a module is closed under
adding further sections. -/
theorem C84_sections_compose (bs more : List Byte) (lm lm' : Module) (h : Loads bs lm)
    (hmore : Sections (bs ++ more).length lm more lm' []) :
    Loads (bs ++ more) lm' := by
  have h1 := (C84_loads_exactly bs lm).2 h
  obtain ⟨k, hk, h2⟩ := compile_extend more h1
  obtain ⟨p, f', g1, g2, g3, g4⟩ := loop_bwd hmore (pos := bs.length) (f := k + 1)
    (by rw [List.length_append]; omega) List.drop_left (by rw [List.length_append]; omega)
  refine (C84_loads_exactly _ _).1 ?_
  rw [h2, g4]
  have : p = (bs ++ more).length := by
    have := congrArg List.length g1
    rw [List.length_drop] at this
    simp only [List.length_nil] at this
    omega
  cases f' with
  | zero => omega
  | succ f' => exact compileLoop_end this

example : Sections (loaderFile ++ [0x03#8, 0x01#8, 0x00#8]).length loaderModule [0x03#8, 0x01#8, 0x00#8] loaderModule [] :=
  Sections.cons
    (SectionItem.decls (ds := []) ⟨1, [0x00#8], [], ⟨[0x01#8], by simp [IsLeb, Continues], by decide, rfl, by decide⟩,
      ⟨[0x00#8], by simp [IsLeb, Continues], by decide, rfl, by decide⟩, Many.nil _, rfl⟩)
    (Sections.nil _ _)

/-- **C84**, for comparison: a file the language has but a reader would not expect. A code section may
repeat (its functions are then present twice) and its size field may say anything. -/
theorem C84_code_size_is_free (total : Nat) (m m' : Module) (a b rest : List Byte) (size size' : Nat)
    (enc enc' : List Byte) (h : SectionItem total m (0x0a#8 :: a) m' rest) (ha : a = enc ++ b)
    (he : Num (enc ++ b) size b) (he' : Num (enc' ++ b) size' b) :
    SectionItem total m (0x0a#8 :: (enc' ++ b)) m' rest := by
  subst ha
  cases h with
  | code h1 h2 h3 h4 =>
    have : ∀ {inp v v' r r'}, Num inp v r → Num inp v' r' → r = r' := by
      intro inp v v' r r' hn hn'
      obtain ⟨w, p, e, _, d, _⟩ := num_bwd (bs := inp) (pos := 0) (by omega) (by rw [List.drop_zero]; exact hn)
      obtain ⟨w', p', e', _, d', _⟩ := num_bwd (bs := inp) (pos := 0) (by omega) (by rw [List.drop_zero]; exact hn')
      rw [e] at e'
      injection e' with e'
      injection e' with _ e'
      rw [d, d', e']
    have hb := this h1 he
    subst hb
    exact SectionItem.code he' h2 h3 h4

/-- An empty code section (of a module without functions) that claims to be five bytes long. -/
example : SectionItem 11 ⟨[], [], []⟩ [0x0a#8, 0x05#8, 0x00#8] ⟨[], [], []⟩ [] ∧
    Num ([0x05#8] ++ [0x00#8]) 5 [0x00#8] ∧ Num ([0x01#8] ++ [0x00#8]) 1 [0x00#8] :=
  have h5 : Num [0x05#8, 0x00#8] 5 [0x00#8] := ⟨[0x05#8], by simp [IsLeb, Continues], by decide, rfl, by decide⟩
  have h0 : Num [0x00#8] 0 [] := ⟨[0x00#8], by simp [IsLeb, Continues], by decide, rfl, by decide⟩
  ⟨SectionItem.code (fs := []) h5 h0 (Bodies.nil _ _) rfl, h5,
   ⟨[0x01#8], by simp [IsLeb, Continues], by decide, rfl, by decide⟩⟩

end Ab
